import Verif.Spec.Preference
import Verif.Proof.Expressions
import Verif.Proof.Ends

/-!
# Preference of expressions and of the trees they build
-/

namespace Mregex
open Ast Spec

/-! ### Renumbering -/

mutual
theorem accepts_index (f : Flags) (x : Byte) : ∀ (o : Nat) (a : Ast), accepts f (index o a) x = accepts f a x
  | o, .seq l => by
    match l with
    | [] => rfl
    | [a] => simpa [index, indexSeq, accepts, acceptsOnly] using accepts_index f x o a
    | a :: b :: l => rfl
  | o, .alt l => by simp only [index, accepts, acceptsAny_index f x o l]
  | o, .set l => by simp only [index, accepts, acceptsAny_index f x o l]
  | o, .rep m lo hi a => by
    have := accepts_index f x o a
    rw [index]
    match lo, hi with
    | 1, .fin 1 => simpa only [accepts] using this
    | 0, _ | _ + 2, _ => rfl
    | 1, .inf | 1, .fin 0 | 1, .fin (_ + 2) => rfl
  | o, .neg a => by simp only [index, accepts, accepts_index f x o a]
  | _, .cap _ _ _ | _, .look _ _ | _, .empty | _, .lit _ | _, .range _ _ | _, .wildcard | _, .bol | _, .boi | _, .eol | _, .eoi
  | _, .wordB | _, .backref _ | _, .namedBackref _ => rfl
theorem acceptsAny_index (f : Flags) (x : Byte) : ∀ (o : Nat) (l : List Ast), acceptsAny f (indexSame o l) x = acceptsAny f l x
  | _, [] => rfl
  | o, a :: l => by simp only [indexSame, acceptsAny, accepts_index f x o a, acceptsAny_index f x o l]
end

theorem accepts_index' (f : Flags) (o : Nat) (a : Ast) : accepts f (index o a) = accepts f a := funext fun x => accepts_index f x o a

mutual
theorem ends_index (f : Flags) (s : List Byte) : ∀ (o : Nat) (a : Ast), ends f s (index o a) = ends f s a
  | o, .cap _ _ a => by funext fwd inv p; simp only [index, ends, ends_index f s _ a]
  | o, .seq l => by funext fwd inv p; simp only [index, ends, endsAll_index f s _ l]
  | o, .alt l => by funext fwd inv p; simp only [index, ends, endsAny_index f s _ l]
  | o, .set l => by
    funext fwd inv p
    have := accepts_index' f o (.set l)
    simp only [index] at this
    simp only [index, ends, this]
  | o, .neg a => by
    funext fwd inv p
    have := accepts_index' f o (.neg a)
    simp only [index] at this
    simp only [index, ends, ends_index f s _ a, assertion_index, this]
  | o, .rep _ _ _ a => by funext fwd inv p; simp only [index, ends, ends_index f s _ a]
  | o, .look d a => by funext fwd inv p; simp only [index, ends, ends_index f s _ a]
  | _, .empty | _, .lit _ | _, .range _ _ | _, .wildcard | _, .bol | _, .boi | _, .eol | _, .eoi
  | _, .wordB | _, .backref _ | _, .namedBackref _ => rfl
theorem endsAll_index (f : Flags) (s : List Byte) : ∀ (o : Nat) (l : List Ast), endsAll f s (indexSeq o l) = endsAll f s l
  | _, [] => rfl
  | o, a :: l => by funext fwd inv p; simp only [indexSeq, endsAll, ends_index f s _ a, endsAll_index f s _ l]
theorem endsAny_index (f : Flags) (s : List Byte) : ∀ (o : Nat) (l : List Ast), endsAny f s (indexSame o l) = endsAny f s l
  | _, [] => rfl
  | o, a :: l => by funext fwd inv p; simp only [indexSame, endsAny, ends_index f s _ a, endsAny_index f s _ l]
end

/-! ### One character -/

theorem charOf_congr {P : Byte → Prop} {g : Byte → Bool} (h : ∀ x, g x = true ↔ P x) (s : List Byte) (fwd : Bool) (p : Nat) :
    oneChar s fwd g p = charOf s fwd P p := by
  unfold charOf
  congr 1
  funext x
  rw [Bool.eq_iff_iff, h]
  exact (@decide_eq_true_iff _ (Classical.propDecidable _)).symm

theorem accepts_one (f : Flags) {a : Ast} (hw : wf a = true) (ht : triv a = true) (x : Byte) : accepts f a x = true ↔ Matches f [x] a 0 1 := by
  rw [matches_triv hw ht]
  simp [CharAt]

/-! ### Lists -/

theorem endsAll_single (f : Flags) (s : List Byte) (a : Ast) (fwd inv : Bool) : endsAll f s [a] fwd inv = ends f s a fwd inv := by
  funext p
  have e : endsAll f s [] fwd inv = fun p => [p] := by funext p; simp [endsAll]
  cases inv <;> simp [endsAll, e]

theorem ends_pack (f : Flags) (s : List Byte) (as : List Ast) (fwd inv : Bool) : ends f s (Xpr.pack as) fwd inv = endsAll f s as fwd inv := by
  match as with
  | [] => funext p; simp [Xpr.pack, ends]
  | [a] => rw [endsAll_single]; rfl
  | a :: b :: l => funext p; simp [Xpr.pack, ends]

theorem endsAll_seqParts (f : Flags) (s : List Byte) (a : Ast) (fwd inv : Bool) : endsAll f s (seqParts a) fwd inv = ends f s a fwd inv := by
  cases a with
  | seq l => funext p; simp [seqParts, ends]
  | _ => exact endsAll_single ..

theorem endsAll_flat (f : Flags) (s : List Byte) (as : List Ast) (fwd inv : Bool) (p : Nat) :
    endsAll f s (as.flatMap seqParts) fwd inv p = endsAll f s as fwd inv p := by
  induction as generalizing p with
  | nil => rfl
  | cons a as ih =>
    have ih' : endsAll f s (as.flatMap seqParts) fwd inv = endsAll f s as fwd inv := funext ih
    rw [List.flatMap_cons, endsAll_append, endsAll_seqParts, ih']
    rfl

theorem ends_concat {as : List Ast} {a : Ast} (h : Xpr.concat as = some a) (f : Flags) (s : List Byte) (fwd inv : Bool) (p : Nat) :
    ends f s a fwd inv p = endsAll f s as fwd inv p := by
  match as, h with
  | [], h => simp [Xpr.concat, Xpr.flatWrap] at h
  | [b], h =>
    simp only [Xpr.concat, Xpr.flatWrap, Option.some.injEq] at h
    subst h; rw [endsAll_single]
  | b :: b' :: l, h =>
    rw [concat_eq] at h
    cases h
    exact endsAll_flat f s _ _ _ _

theorem endsAny_flat' (f : Flags) (s : List Byte) (as : List Ast) (fwd inv : Bool) (p : Nat) :
    as.flatMap (fun a => ends f s a fwd inv p) = endsAny f s as fwd inv p := by
  induction as with
  | nil => rfl
  | cons a as ih => rw [List.flatMap_cons, ih]; rfl

theorem ends_either {as : List Ast} {a : Ast} (h : Xpr.either as = some a) (f : Flags) (s : List Byte) (fwd inv : Bool) (p : Nat) :
    ends f s a fwd inv p = endsAny f s as fwd inv p := by
  match as, h with
  | [], h => simp [Xpr.either, Xpr.flatWrap] at h
  | [b], h =>
    simp only [Xpr.either, Xpr.flatWrap, Option.some.injEq] at h
    subst h; simp [endsAny]
  | b :: b' :: l, h =>
    rw [either_eq] at h
    cases h
    rw [ends, endsAny_flat, endsAny_flat']

theorem wf_parts {as : List Ast} {f : Ast → List Ast} (hf : ∀ a, (∀ b ∈ f a, wf b = true) → f a ≠ [] → wf a = true)
    (hne : ∀ a ∈ as, f a ≠ []) (h : wfAll (as.flatMap f) = true) : wfAll as = true := by
  rw [wfAll_eq, List.all_eq_true] at h ⊢
  exact fun a ha => hf a (fun b hb => h b (List.mem_flatMap.2 ⟨a, ha, hb⟩)) (hne a ha)

theorem wf_seqParts (a : Ast) (h : ∀ b ∈ seqParts a, wf b = true) (hne : seqParts a ≠ []) : wf a = true := by
  cases a with
  | seq l => simpa [wf, wfAll_eq, seqParts] using And.intro hne h
  | _ => exact h _ (by simp [seqParts])

theorem wf_altParts (a : Ast) (h : ∀ b ∈ altParts a, wf b = true) (hne : altParts a ≠ []) : wf a = true := by
  cases a with
  | alt l => simpa [wf, wfAll_eq, altParts] using And.intro hne h
  | _ => exact h _ (by simp [altParts])

theorem wf_concat {as : List Ast} {a : Ast} (h : Xpr.concat as = some a) (hne : ∀ a ∈ as, seqParts a ≠ []) (hw : wf a = true) : wfAll as = true := by
  match as, h with
  | [], _ => rfl
  | [b], h =>
    simp only [Xpr.concat, Xpr.flatWrap, Option.some.injEq] at h
    subst h; simpa [wfAll] using hw
  | b :: b' :: l, h =>
    rw [concat_eq] at h
    cases h
    simp only [wf, Bool.and_eq_true] at hw
    exact wf_parts wf_seqParts hne hw.2

theorem wf_either {as : List Ast} {a : Ast} (h : Xpr.either as = some a) (hne : ∀ a ∈ as, altParts a ≠ []) (hw : wf a = true) : wfAll as = true := by
  match as, h with
  | [], _ => rfl
  | [b], h =>
    simp only [Xpr.either, Xpr.flatWrap, Option.some.injEq] at h
    subst h; simpa [wfAll] using hw
  | b :: b' :: l, h =>
    rw [either_eq] at h
    cases h
    simp only [wf, Bool.and_eq_true] at hw
    exact wf_parts wf_altParts hne hw.2

theorem wf_pack {as : List Ast} (hw : wf (Xpr.pack as) = true) : wfAll as = true := by
  match as with
  | [] => rfl
  | [a] => simpa [Xpr.pack, wfAll] using hw
  | a :: b :: l =>
    simp only [Xpr.pack, wf, Bool.and_eq_true] at hw
    exact hw.2

theorem wf_rep {m : Mode} {lo : Nat} {hi : Bound} {a : Ast} (hw : wf (.rep m lo hi a) = true) : wf a = true := by
  cases hi with
  | inf => exact hw
  | fin h => simp only [wf, Bool.and_eq_true] at hw; exact hw.2

/-! ### Quantifiers -/

theorem extra_none (n : Nat) (m : Mode) (u : Bool) (g : Nat → List Nat) : extra n m u g (some 0) = fun p => [p] := by
  funext p
  cases m <;> cases u <;> rfl

theorem quantified_fin (n : Nat) (m : Mode) (u : Bool) (a b : Nat) (g : Nat → List Nat) (p : Nat) :
    quantified n m u a (.fin b) g p = (times m a g p).flatMap (extra n m u g (some (b - a))) := by
  cases m <;> simp [quantified, times]

theorem quantified_inf (n : Nat) (m : Mode) (u : Bool) (a : Nat) (g : Nat → List Nat) (p : Nat) :
    quantified n m u a .inf g p = (times m a g p).flatMap (extra n m u g none) := by
  cases m <;> simp [quantified, times]

theorem times_zero (m : Mode) (g : Nat → List Nat) (p : Nat) : times m 0 g p = [p] := by
  simp [times, Spec.exactly]

theorem exactly_one (g : Nat → List Nat) (p : Nat) : Spec.exactly g 1 p = g p := by
  simp [Spec.exactly]

theorem orNot_eq (n : Nat) (m : Mode) (u : Bool) (g : Nat → List Nat) (p : Nat) : extra n m u g (some 1) p = orNot m u g p := by
  cases m <;> cases u <;> simp [extra, orNot, greedyUpTo, lazyUpTo, possessiveUpTo]
  all_goals cases g p <;> simp

theorem extra_singleton {α : Type} (p : Nat) (g : Nat → List α) : [p].flatMap g = g p := by simp

/-! ### Expressions -/

theorem term_prefs (f : Flags) (s : List Byte) (t : Xpr.Terminal) (fwd inv : Bool) (p : Nat) : ends f s t.node fwd inv p = termPrefs f s t fwd p := by
  have key : ∀ {a : Ast}, wf a = true → triv a = true → a = t.node →
      oneChar s fwd (accepts f a) p = charOf s fwd (fun x => TermMeans f [x] t 0 1) p := by
    intro a hw ht he
    refine charOf_congr (fun x => ?_) s fwd p
    rw [accepts_one f hw ht, he, term_means]
  cases t with
  | nothing => exact key (a := Ast.nothing) rfl rfl rfl
  | whitespace => exact key (a := Ast.whitespace) (by decide) rfl rfl
  | wildcard => exact key (a := .wildcard) rfl rfl rfl
  | lower => exact key (a := Ast.lower) rfl rfl rfl
  | upper => exact key (a := Ast.upper) rfl rfl rfl
  | digit => exact key (a := Ast.digit) rfl rfl rfl
  | word => exact key (a := Ast.word) (by decide) rfl rfl
  | linebreak => exact key (a := Ast.linebreak) (by decide) rfl rfl
  | _ => rfl

theorem str_prefs (f : Flags) (s : List Byte) (w : List Byte) (fwd inv : Bool) : endsAll f s (w.map .lit) fwd inv = strPrefs f s fwd inv w := by
  have hc : ∀ c, ends f s (.lit c) fwd inv = charOf s fwd (CharEq f.icase c) := by
    intro c
    funext p
    exact charOf_congr (accepts_lit_iff f c) s fwd p
  induction w with
  | nil => rfl
  | cons c w ih =>
    funext p
    rw [List.map_cons, endsAll, ih, hc]
    rfl

theorem treeOf_eq {p : List Byte} {x : Ast} (h : Pattern p x) : Pattern p (treeOf p) := by
  have he : ∃ x, Pattern p x := ⟨x, h⟩
  rw [treeOf, dif_pos he]
  exact Classical.choose_spec he

open Classical in
theorem neg_prefs {e : Xpr.Expr} {a : Ast} (hf : EvalFacts e (Xpr.toRegex a)) (hw : wf (.neg a) = true) (f : Flags) (s : List Byte) (fwd inv : Bool) (p : Nat)
    (ih : ends f s a fwd inv p = prefs f s e fwd inv p) :
    ends f s (.neg a) fwd inv p = if Tests e then test (prefs f s e fwd inv p).isEmpty p else charOf s fwd (fun x => ¬ Means f [x] e 0 1) p := by
  simp only [wf, Bool.and_eq_true, Bool.or_eq_true, ← assertion_eq] at hw
  have ht := hf.tests
  simp only [Xpr.toRegex] at ht
  rw [ends]
  by_cases h : assertion a = true
  · rw [if_pos h, if_pos (ht.1 h), ih]
  · rw [if_neg h, if_neg (mt ht.2 h)]
    refine charOf_congr (fun x => ?_) s fwd p
    have h1 := accepts_one f hw.2 (hw.1.resolve_right h) x
    have hm := hf.means f [x]
    simp only [Xpr.toRegex] at hm
    rw [hm] at h1
    rw [← h1]
    simp [accepts]

mutual
theorem eval_prefs (f : Flags) (s : List Byte) : ∀ (e : Xpr.Expr) (R : Regex), Xpr.eval e = some R → wf R.ast = true → ends f s R.ast = prefs f s e
  | .term t, R, h, _ => by
    simp only [Xpr.eval, Option.some.injEq] at h
    subst h
    funext fwd inv p
    simp only [prefs]
    exact term_prefs f s t fwd inv p
  | .chr c, R, h, _ => by
    simp only [Xpr.eval, Option.some.injEq] at h
    subst h
    funext fwd inv p
    simp only [prefs]
    exact charOf_congr (accepts_lit_iff f c) s fwd p
  | .str w, R, h, _ => by
    simp only [Xpr.eval] at h
    split at h
    · cases h
    · cases h
      funext fwd inv p
      simp only [prefs, ← str_prefs]
      rfl
  | .range a b, R, h, _ => by
    simp only [Xpr.eval, Option.some.injEq] at h
    subst h
    funext fwd inv p
    simp only [prefs]
    refine charOf_congr (fun x => ?_) s fwd p
    rw [accepts_one f (a := .range a b) rfl rfl]
    simp [Matches, CharAt]
  | .group k, R, h, _ => by
    simp only [Xpr.eval, Option.some.injEq] at h
    subst h
    funext fwd inv p
    simp only [prefs]
    rfl
  | .groupNamed n, R, h, _ => by
    simp only [Xpr.eval, Option.some.injEq] at h
    subst h
    funext fwd inv p
    simp only [prefs]
    rfl
  | .regex w, R, h, _ => by
    simp only [Xpr.eval] at h
    split at h
    · next a hp =>
      cases h
      obtain ⟨x, hx, rfl⟩ := (parse_iff w a).1 hp
      have h1 := parse_of_pattern (treeOf_eq hx)
      rw [hp] at h1
      injection h1 with h1
      funext fwd inv p
      simp only [prefs]
      show ends f s (indexCaptures x) fwd inv p = _
      rw [h1, indexCaptures, ends_index]
    · cases h
  | .concat l, R, h, hw => by
    simp only [Xpr.eval, Option.bind_eq_some_iff, Option.map_eq_some_iff] at h
    obtain ⟨as, has, a, ha, rfl⟩ := h
    have ih := operand_prefs f s l as has (wf_concat ha (operand_facts l as has).seq hw)
    funext fwd inv p
    simp only [prefs, Xpr.toRegex]
    rw [ends_concat ha, ih.1]
  | .either l, R, h, hw => by
    simp only [Xpr.eval, Option.bind_eq_some_iff, Option.map_eq_some_iff] at h
    obtain ⟨as, has, a, ha, rfl⟩ := h
    have ih := operand_prefs f s l as has (wf_either ha (operand_facts l as has).alt hw)
    funext fwd inv p
    simp only [prefs, Xpr.toRegex]
    rw [ends_either ha, ih.2]
  | .atomic l, R, h, hw => by
    simp only [Xpr.eval, Option.bind_eq_some_iff] at h
    obtain ⟨as, has, h⟩ := h
    obtain ⟨hne, rfl⟩ := packed_some h
    have ih := operand_prefs f s l as has (wf_pack (wf_rep hw))
    funext fwd inv p
    show ends f s (.rep .possessive 1 (.fin 1) (Xpr.pack as)) fwd inv p = _
    simp only [prefs, ends, quantified_fin, ends_pack, ih.1, Nat.sub_self, extra_none, times, exactly_one, if_true]
    simp
  | .capture id name l, R, h, hw => by
    simp only [Xpr.eval, Option.bind_eq_some_iff] at h
    obtain ⟨as, has, h⟩ := h
    obtain ⟨hne, rfl⟩ := packed_some h
    have ih := operand_prefs f s l as has (wf_pack hw)
    funext fwd inv p
    show ends f s (.cap id name (Xpr.pack as)) fwd inv p = _
    simp only [prefs, ends, ends_pack, ih.1]
  | .between a b m l, R, h, hw => by
    simp only [Xpr.eval, Option.bind_eq_some_iff] at h
    obtain ⟨as, has, h⟩ := h
    obtain ⟨hne, rfl⟩ := packed_some h
    have ih := operand_prefs f s l as has (wf_pack (wf_rep hw))
    funext fwd inv p
    show ends f s (.rep m a (.fin b) (Xpr.pack as)) fwd inv p = _
    simp only [prefs, ends, quantified_fin, ends_pack, ih.1]
  | .exactly n m l, R, h, hw => by
    simp only [Xpr.eval, Option.bind_eq_some_iff] at h
    obtain ⟨as, has, h⟩ := h
    obtain ⟨hne, rfl⟩ := packed_some h
    have ih := operand_prefs f s l as has (wf_pack (wf_rep hw))
    funext fwd inv p
    show ends f s (.rep m n (.fin n) (Xpr.pack as)) fwd inv p = _
    simp only [prefs, ends, quantified_fin, ends_pack, ih.1, Nat.sub_self, extra_none]
    simp
  | .maybe m l, R, h, hw => by
    simp only [Xpr.eval, Option.bind_eq_some_iff] at h
    obtain ⟨as, has, h⟩ := h
    obtain ⟨hne, rfl⟩ := packed_some h
    have ih := operand_prefs f s l as has (wf_pack (wf_rep hw))
    funext fwd inv p
    show ends f s (.rep m 0 (.fin 1) (Xpr.pack as)) fwd inv p = _
    simp only [prefs, ends, quantified_fin, ends_pack, ih.1, times_zero, extra_singleton, Nat.sub_zero, orNot_eq]
  | .atLeast n m l, R, h, hw => by
    simp only [Xpr.eval, Option.bind_eq_some_iff] at h
    obtain ⟨as, has, h⟩ := h
    obtain ⟨hne, rfl⟩ := packed_some h
    have ih := operand_prefs f s l as has (wf_pack (wf_rep hw))
    funext fwd inv p
    show ends f s (.rep m n .inf (Xpr.pack as)) fwd inv p = _
    simp only [prefs, ends, quantified_inf, ends_pack, ih.1]
  | .zeroOrMore m l, R, h, hw => by
    simp only [Xpr.eval, Option.bind_eq_some_iff] at h
    obtain ⟨as, has, h⟩ := h
    obtain ⟨hne, rfl⟩ := packed_some h
    have ih := operand_prefs f s l as has (wf_pack (wf_rep hw))
    funext fwd inv p
    show ends f s (.rep m 0 .inf (Xpr.pack as)) fwd inv p = _
    simp only [prefs, ends, quantified_inf, ends_pack, ih.1, times_zero, extra_singleton]
  | .oneOrMore m l, R, h, hw => by
    simp only [Xpr.eval, Option.bind_eq_some_iff] at h
    obtain ⟨as, has, h⟩ := h
    obtain ⟨hne, rfl⟩ := packed_some h
    have ih := operand_prefs f s l as has (wf_pack (wf_rep hw))
    funext fwd inv p
    show ends f s (.rep m 1 .inf (Xpr.pack as)) fwd inv p = _
    simp only [prefs, ends, quantified_inf, ends_pack, ih.1]
  | .ahead l, R, h, hw => by
    simp only [Xpr.eval, Option.bind_eq_some_iff] at h
    obtain ⟨as, has, h⟩ := h
    obtain ⟨hne, rfl⟩ := packed_some h
    have ih := operand_prefs f s l as has (wf_pack hw)
    funext fwd inv p
    show ends f s (.look .ahead (Xpr.pack as)) fwd inv p = _
    cases inv <;> simp [prefs, ends, ends_pack, ih.1]
  | .behind l, R, h, hw => by
    simp only [Xpr.eval, Option.bind_eq_some_iff] at h
    obtain ⟨as, has, h⟩ := h
    obtain ⟨hne, rfl⟩ := packed_some h
    have ih := operand_prefs f s l as has (wf_pack hw)
    funext fwd inv p
    show ends f s (.look .behind (Xpr.pack as)) fwd inv p = _
    cases inv <;> simp [prefs, ends, ends_pack, ih.1]
  | .negate e, R, h, hw => by
    simp only [Xpr.eval, Option.map_eq_some_iff, Option.bind_eq_some_iff] at h
    obtain ⟨a, ⟨R', hR', ha⟩, rfl⟩ := h
    have hf := eval_facts e R' hR'
    obtain rfl := node_some ha
    have hw' : wf (.neg a) = true := hw
    have ih := eval_prefs f s e _ hR' (by simp only [wf, Bool.and_eq_true] at hw'; exact hw'.2)
    funext fwd inv p
    simp only [prefs]
    exact neg_prefs hf hw f s fwd inv p (by rw [← ih]; rfl)
  | .not e, R, h, hw => by
    simp only [Xpr.eval, Option.map_eq_some_iff, Option.bind_eq_some_iff] at h
    obtain ⟨a, ⟨R', hR', ha⟩, rfl⟩ := h
    have hf := eval_facts e R' hR'
    obtain rfl := node_some ha
    have hw' : wf (.neg a) = true := hw
    have ih := eval_prefs f s e _ hR' (by simp only [wf, Bool.and_eq_true] at hw'; exact hw'.2)
    funext fwd inv p
    simp only [prefs]
    exact neg_prefs hf hw f s fwd inv p (by rw [← ih]; rfl)
  | .star e, R, h, hw => by
    simp only [Xpr.eval, Option.map_eq_some_iff, Option.bind_eq_some_iff] at h
    obtain ⟨a, ⟨R', hR', ha⟩, rfl⟩ := h
    obtain rfl := node_some ha
    have ih := eval_prefs f s e _ hR' (wf_rep hw)
    simp only [Xpr.toRegex] at ih
    funext fwd inv p
    show ends f s (.rep .greedy 0 .inf a) fwd inv p = _
    simp only [prefs, ends, quantified_inf, ih, times_zero, extra_singleton]
  | .plus e, R, h, hw => by
    simp only [Xpr.eval, Option.map_eq_some_iff, Option.bind_eq_some_iff] at h
    obtain ⟨a, ⟨R', hR', ha⟩, rfl⟩ := h
    obtain rfl := node_some ha
    have ih := eval_prefs f s e _ hR' (wf_rep hw)
    simp only [Xpr.toRegex] at ih
    funext fwd inv p
    show ends f s (.rep .greedy 1 .inf a) fwd inv p = _
    simp only [prefs, ends, quantified_inf, ih, times, exactly_one]
    rfl
  | .shiftRight e e', R, h, hw => by
    simp only [Xpr.eval, Option.map_eq_some_iff, Option.bind_eq_some_iff] at h
    obtain ⟨a, ⟨R₁, hR₁, ha⟩, b, ⟨R₂, hR₂, hb⟩, c, hc, rfl⟩ := h
    have h1 := eval_facts e R₁ hR₁
    have h2 := eval_facts e' R₂ hR₂
    obtain rfl := node_some ha
    obtain rfl := node_some hb
    have hw' := wf_concat (as := [a, b]) hc (by
      simp only [List.forall_mem_cons, List.not_mem_nil, false_implies, implies_true, and_true]; exact ⟨h1.seq, h2.seq⟩) hw
    simp only [wfAll, Bool.and_eq_true] at hw'
    have ih1 := eval_prefs f s e _ hR₁ hw'.1
    have ih2 := eval_prefs f s e' _ hR₂ hw'.2.1
    simp only [Xpr.toRegex] at ih1 ih2
    funext fwd inv p
    simp only [prefs, Xpr.toRegex]
    rw [ends_concat hc, endsAll, endsAll_single, ih1, ih2]
  | .bitOr e e', R, h, hw => by
    simp only [Xpr.eval, Option.map_eq_some_iff, Option.bind_eq_some_iff] at h
    obtain ⟨a, ⟨R₁, hR₁, ha⟩, b, ⟨R₂, hR₂, hb⟩, c, hc, rfl⟩ := h
    have h1 := eval_facts e R₁ hR₁
    have h2 := eval_facts e' R₂ hR₂
    obtain rfl := node_some ha
    obtain rfl := node_some hb
    have hw' := wf_either (as := [a, b]) hc (by
      simp only [List.forall_mem_cons, List.not_mem_nil, false_implies, implies_true, and_true]; exact ⟨h1.alt, h2.alt⟩) hw
    simp only [wfAll, Bool.and_eq_true] at hw'
    have ih1 := eval_prefs f s e _ hR₁ hw'.1
    have ih2 := eval_prefs f s e' _ hR₂ hw'.2.1
    simp only [Xpr.toRegex] at ih1 ih2
    funext fwd inv p
    simp only [prefs, Xpr.toRegex]
    rw [ends_either hc, endsAny, endsAny, endsAny, ih1, ih2, List.append_nil]
  | .addFlags fl e, R, h, hw => by
    simp only [Xpr.eval, Option.map_eq_some_iff] at h
    obtain ⟨R', hR', rfl⟩ := h
    have ih := eval_prefs f s e R' hR' hw
    funext fwd inv p
    simp only [prefs, ih]
  | .clearFlags e, R, h, hw => by
    simp only [Xpr.eval, Option.map_eq_some_iff] at h
    obtain ⟨R', hR', rfl⟩ := h
    have ih := eval_prefs f s e R' hR' hw
    funext fwd inv p
    simp only [prefs, Xpr.toRegex, ih]
theorem operand_prefs (f : Flags) (s : List Byte) : ∀ (l : List Xpr.Expr) (as : List Ast), Xpr.operands l = some as → wfAll as = true →
    endsAll f s as = prefsInOrder f s l ∧ endsAny f s as = prefsAnyOf f s l
  | [], as, h, _ => by
    simp only [Xpr.operands, Option.some.injEq] at h
    subst h
    exact ⟨by funext fwd inv p; simp [endsAll, prefsInOrder], by funext fwd inv p; simp [endsAny, prefsAnyOf]⟩
  | e :: l, as, h, hw => by
    simp only [Xpr.operands, Option.map_eq_some_iff, Option.bind_eq_some_iff] at h
    obtain ⟨a, ⟨R, hR, ha⟩, as', has, rfl⟩ := h
    obtain rfl := node_some ha
    simp only [wfAll, Bool.and_eq_true] at hw
    have h1 := eval_prefs f s e _ hR hw.1
    have h2 := operand_prefs f s l as' has hw.2
    simp only [Xpr.toRegex] at h1
    exact ⟨by funext fwd inv p; simp only [endsAll, prefsInOrder, h1, h2.1], by funext fwd inv p; simp only [endsAny, prefsAnyOf, h1, h2.2]⟩
end

end Mregex
