import Verif.Spec.Expressions
import Verif.Proof.Sound
import Verif.Proof.SetSem
import Verif.Proof.Printing
import Verif.Proof.Numbering
import Verif.Props.Compose

/-!
# Expressions and the trees they build
-/

namespace Mregex
open Ast Spec

/-! ### Renumbering does not change the meaning -/

theorem assertion_seq_iff {l : List Ast} : assertion (.seq l) = true ↔ ∃ a, l = [a] ∧ assertion a = true := by
  match l with
  | [] => simp [assertion]
  | [a] => simp [assertion]
  | a :: b :: l => simp [assertion]

theorem assertion_alt_iff {l : List Ast} : assertion (.alt l) = true ↔ ∃ a, l = [a] ∧ assertion a = true := by
  match l with
  | [] => simp [assertion]
  | [a] => simp [assertion]
  | a :: b :: l => simp [assertion]

theorem assertion_rep_iff {m : Mode} {lo : Nat} {hi : Bound} {a : Ast} :
    assertion (.rep m lo hi a) = true ↔ m ≠ .possessive ∧ lo = 1 ∧ hi = .fin 1 ∧ assertion a = true := by
  match m, lo, hi with
  | .possessive, _, _ => simp [assertion]
  | .greedy, 1, .fin 1 | .lazy, 1, .fin 1 => simp [assertion]
  | .greedy, 0, _ | .lazy, 0, _ | .greedy, _ + 2, _ | .lazy, _ + 2, _ => simp [assertion]
  | .greedy, 1, .inf | .lazy, 1, .inf | .greedy, 1, .fin 0 | .lazy, 1, .fin 0 | .greedy, 1, .fin (_ + 2) | .lazy, 1, .fin (_ + 2) => simp [assertion]

mutual
theorem assertion_index : ∀ (o : Nat) (a : Ast), assertion (index o a) = assertion a
  | o, .seq l => by
    match l with
    | [] => rfl
    | [a] => simpa [index, indexSeq, assertion] using assertion_index o a
    | a :: b :: l => rfl
  | o, .alt l => by
    match l with
    | [] => rfl
    | [a] => simpa [index, indexSame, assertion] using assertion_index o a
    | a :: b :: l => rfl
  | o, .rep m lo hi a => by
    have := assertion_index o a
    rw [Bool.eq_iff_iff, index, assertion_rep_iff, assertion_rep_iff, this]
  | o, .neg a => by simpa [index, assertion] using assertion_index o a
  | _, .cap _ _ _ | _, .set _ | _, .look _ _ | _, .empty | _, .lit _ | _, .range _ _ | _, .wildcard | _, .bol | _, .boi | _, .eol | _, .eoi
  | _, .wordB | _, .backref _ | _, .namedBackref _ => rfl
end

mutual
theorem matches_index (f : Flags) (s : List Byte) : ∀ (o : Nat) (a : Ast), Matches f s (index o a) = Matches f s a
  | o, .cap _ _ a => by simp only [index, Matches, matches_index f s _ a]
  | o, .seq l => by simp only [index, Matches, matchesAll_index f s _ l]
  | o, .alt l => by simp only [index, Matches, matchesAny_index f s _ l]
  | o, .set l => by simp only [index, Matches, matchesAny_index f s _ l]
  | o, .neg a => by simp only [index, Matches, matches_index f s _ a, assertion_index]
  | o, .rep _ _ _ a => by simp only [index, Matches, matches_index f s _ a]
  | o, .look .ahead a => by simp only [index, Matches, matches_index f s _ a]
  | o, .look .behind a => by simp only [index, Matches, matches_index f s _ a]
  | _, .empty | _, .lit _ | _, .range _ _ | _, .wildcard | _, .bol | _, .boi | _, .eol | _, .eoi
  | _, .wordB | _, .backref _ | _, .namedBackref _ => rfl
theorem matchesAll_index (f : Flags) (s : List Byte) : ∀ (o : Nat) (l : List Ast), MatchesAll f s (indexSeq o l) = MatchesAll f s l
  | _, [] => rfl
  | o, a :: l => by simp only [indexSeq, MatchesAll, matches_index f s _ a, matchesAll_index f s _ l]
theorem matchesAny_index (f : Flags) (s : List Byte) : ∀ (o : Nat) (l : List Ast), MatchesAny f s (indexSame o l) = MatchesAny f s l
  | _, [] => rfl
  | o, a :: l => by simp only [indexSame, MatchesAny, matches_index f s _ a, matchesAny_index f s _ l]
end

/-! ### What is built -/

/-- What is known about an expression and its type. -/
structure EvalFacts (e : Xpr.Expr) (R : Regex) : Prop where
  flags : R.flags = flagsOf e
  seq : seqParts R.ast ≠ []
  alt : altParts R.ast ≠ []
  tests : assertion R.ast = true ↔ Tests e
  means : ∀ f s, Matches f s R.ast = Means f s e
  names : nameSpec R.ast = groupsOf e

structure OperandFacts (l : List Xpr.Expr) (as : List Ast) : Prop where
  len : as.length = l.length
  seq : ∀ a ∈ as, seqParts a ≠ []
  alt : ∀ a ∈ as, altParts a ≠ []
  tests : ∀ e a, l = [e] → as = [a] → (assertion a = true ↔ Tests e)
  all : ∀ f s, MatchesAll f s as = InOrder f s l
  any : ∀ f s, MatchesAny f s as = AnyOf f s l
  names : nameSpecAll as = groupsOfAll l

theorem matchesAll_pack (f : Flags) (s : List Byte) {as : List Ast} : Matches f s (Xpr.pack as) = MatchesAll f s as := by
  match as with
  | [] => rfl
  | [a] => funext i j; simp [Xpr.pack, MatchesAll]
  | a :: b :: l => rfl

theorem nameSpec_pack {as : List Ast} : nameSpec (Xpr.pack as) = nameSpecAll as := by
  match as with
  | [] => rfl
  | [a] => simp [Xpr.pack, nameSpecAll]
  | a :: b :: l => rfl

theorem assertion_pack {as : List Ast} : assertion (Xpr.pack as) = true ↔ ∃ a, as = [a] ∧ assertion a = true := by
  match as with
  | [] => simp [Xpr.pack, assertion]
  | [a] => simp [Xpr.pack]
  | a :: b :: l => simp [Xpr.pack, assertion]

theorem OperandFacts.single {l : List Xpr.Expr} {as : List Ast} (h : OperandFacts l as) :
    (∃ a, as = [a] ∧ assertion a = true) ↔ ∃ e, l = [e] ∧ Tests e := by
  have hl := h.len
  constructor
  · rintro ⟨a, rfl, ha⟩
    match l, hl with
    | [e], _ => exact ⟨e, rfl, (h.tests e a rfl rfl).1 ha⟩
  · rintro ⟨e, rfl, he⟩
    match as, hl with
    | [a], _ => exact ⟨a, rfl, (h.tests e a rfl rfl).2 he⟩

theorem flatMap_two {f : Ast → List Ast} {a b : Ast} {l : List Ast} (h : ∀ x ∈ a :: b :: l, f x ≠ []) :
    2 ≤ ((a :: b :: l).flatMap f).length := by
  have h1 := List.length_pos_iff.2 (h a (by simp))
  have h2 := List.length_pos_iff.2 (h b (by simp))
  simp only [List.flatMap_cons, List.length_append]
  omega

theorem evalFacts_concat {l : List Xpr.Expr} {as : List Ast} (h : OperandFacts l as) {a : Ast} (ha : Xpr.concat as = some a) {e : Xpr.Expr}
    (hf : flagsOf e = []) (ht : Tests e ↔ ∃ x, l = [x] ∧ Tests x) (hm : ∀ f s, Means f s e = InOrder f s l) (hn : groupsOf e = groupsOfAll l) :
    EvalFacts e ⟨a, []⟩ := by
  refine ⟨hf.symm, ?_, ?_, ?_, fun f s => ?_, ?_⟩
  · match as, ha, h with
    | [], ha, _ => simp [Xpr.concat, Xpr.flatWrap] at ha
    | [b], ha, h =>
      simp only [Xpr.concat, Xpr.flatWrap, Option.some.injEq] at ha
      subst ha; exact h.seq b (by simp)
    | b :: b' :: as, ha, h =>
      rw [concat_eq] at ha
      cases ha
      have := flatMap_two (fun x hx => h.seq x hx)
      simp only [seqParts]
      intro he; rw [he] at this; simp at this
  · match as, ha, h with
    | [], ha, _ => simp [Xpr.concat, Xpr.flatWrap] at ha
    | [b], ha, h =>
      simp only [Xpr.concat, Xpr.flatWrap, Option.some.injEq] at ha
      subst ha; exact h.alt b (by simp)
    | b :: b' :: as, ha, h =>
      rw [concat_eq] at ha
      cases ha
      simp [altParts]
  · rw [ht, ← h.single]
    match as, ha, h with
    | [], ha, _ => simp [Xpr.concat, Xpr.flatWrap] at ha
    | [b], ha, h =>
      simp only [Xpr.concat, Xpr.flatWrap, Option.some.injEq] at ha
      subst ha; simp
    | b :: b' :: as, ha, h =>
      rw [concat_eq] at ha
      cases ha
      rw [assertion_seq_iff]
      have := flatMap_two (fun x hx => h.seq x hx)
      constructor
      · rintro ⟨x, he, _⟩; rw [he] at this; simp at this
      · rintro ⟨x, he, _⟩; simp at he
  · rw [hm, ← h.all]; funext i j; exact propext (C46_concat_language ha f s i j)
  · rw [hn, ← h.names]
    match as, ha with
    | [], ha => simp [Xpr.concat, Xpr.flatWrap] at ha
    | [b], ha =>
      simp only [Xpr.concat, Xpr.flatWrap, Option.some.injEq] at ha
      subst ha; simp [nameSpecAll]
    | b :: b' :: as, ha =>
      rw [concat_eq] at ha
      cases ha
      show nameSpecAll _ = _
      generalize b :: b' :: as = l
      induction l with
      | nil => rfl
      | cons x l ih =>
        rw [List.flatMap_cons, nameSpecAll_append, ih]
        cases x <;> simp [seqParts, nameSpecAll, nameSpec]

theorem evalFacts_either {l : List Xpr.Expr} {as : List Ast} (h : OperandFacts l as) {a : Ast} (ha : Xpr.either as = some a) {e : Xpr.Expr}
    (hf : flagsOf e = []) (ht : Tests e ↔ ∃ x, l = [x] ∧ Tests x) (hm : ∀ f s, Means f s e = AnyOf f s l) (hn : groupsOf e = groupsOfAll l) :
    EvalFacts e ⟨a, []⟩ := by
  refine ⟨hf.symm, ?_, ?_, ?_, fun f s => ?_, ?_⟩
  · match as, ha, h with
    | [], ha, _ => simp [Xpr.either, Xpr.flatWrap] at ha
    | [b], ha, h =>
      simp only [Xpr.either, Xpr.flatWrap, Option.some.injEq] at ha
      subst ha; exact h.seq b (by simp)
    | b :: b' :: as, ha, h =>
      rw [either_eq] at ha
      cases ha
      simp [seqParts]
  · match as, ha, h with
    | [], ha, _ => simp [Xpr.either, Xpr.flatWrap] at ha
    | [b], ha, h =>
      simp only [Xpr.either, Xpr.flatWrap, Option.some.injEq] at ha
      subst ha; exact h.alt b (by simp)
    | b :: b' :: as, ha, h =>
      rw [either_eq] at ha
      cases ha
      have := flatMap_two (fun x hx => h.alt x hx)
      simp only [altParts]
      intro he; rw [he] at this; simp at this
  · rw [ht, ← h.single]
    match as, ha, h with
    | [], ha, _ => simp [Xpr.either, Xpr.flatWrap] at ha
    | [b], ha, h =>
      simp only [Xpr.either, Xpr.flatWrap, Option.some.injEq] at ha
      subst ha; simp
    | b :: b' :: as, ha, h =>
      rw [either_eq] at ha
      cases ha
      rw [assertion_alt_iff]
      have := flatMap_two (fun x hx => h.alt x hx)
      constructor
      · rintro ⟨x, he, _⟩; rw [he] at this; simp at this
      · rintro ⟨x, he, _⟩; simp at he
  · rw [hm, ← h.any]; funext i j
    exact propext ((C46_either_language ha f s i j).trans matchesAny_iff.symm)
  · rw [hn, ← h.names]; exact either_nameSpec ha

/-- Nodes that are neither sequences nor alternations. -/
theorem evalFacts_node {e : Xpr.Expr} {a : Ast} (h1 : seqParts a = [a]) (h2 : altParts a = [a]) (hf : flagsOf e = [])
    (ht : assertion a = true ↔ Tests e) (hm : ∀ f s, Matches f s a = Means f s e) (hn : nameSpec a = groupsOf e) : EvalFacts e (Xpr.toRegex a) :=
  ⟨hf.symm, by simp only [Xpr.toRegex, h1]; simp, by simp only [Xpr.toRegex, h2]; simp, ht, hm, hn⟩

theorem iter_zero_one {R : Nat → Nat → Prop} {i j : Nat} : (∃ k, 0 ≤ k ∧ k ≤ 1 ∧ Iter R k i j) ↔ i = j ∨ R i j := by
  constructor
  · rintro ⟨k, _, hk, h⟩
    match k, hk, h with
    | 0, _, h => exact .inl h
    | 1, _, h => obtain ⟨t, h1, h2⟩ := h; cases h2; exact .inr h1
  · rintro (h | h)
    · exact ⟨0, by omega, by omega, h⟩
    · exact ⟨1, by omega, by omega, j, h, rfl⟩

theorem packed_some {g : List Ast → Ast} {as : List Ast} {R : Regex} (h : Xpr.packed g as = some R) : as ≠ [] ∧ R = Xpr.toRegex (g as) := by
  unfold Xpr.packed at h
  split at h
  · cases h
  · cases h; exact ⟨by assumption, rfl⟩

theorem node_some {R : Regex} {a : Ast} (h : Xpr.node R = some a) : R = Xpr.toRegex a := by
  unfold Xpr.node at h
  split at h
  · next hf => cases h; cases R; simp only [Xpr.toRegex] at hf ⊢; rw [hf]
  · cases h

theorem term_means (f : Flags) (s : List Byte) (t : Xpr.Terminal) : Matches f s t.node = TermMeans f s t := by
  have hcls : ∀ {e : Byte} {a : Ast} {P : Byte → Prop}, (e, a) ∈ classes → ClassEsc e P → wf a = true →
      Matches f s a = Spec.One s P := by
    intro e a P h1 h2 h3
    funext i j
    have := matches_triv (f := f) (s := s) h3 (class_facts h1).1 (i := i) (j := j)
    rw [eq_iff_iff, this, Spec.One]
    simp only [CharAt, ← matchOne_eq_accepts, matchOne_class h1 h2]
  cases t with
  | digit => exact hcls (e := ch 'd') (by simp [classes, Xpr.Terminal.node]) .d rfl
  | word => exact hcls (e := ch 'w') (by simp [classes, Xpr.Terminal.node]) .w (by decide)
  | whitespace => exact hcls (e := ch 's') (by simp [classes, Xpr.Terminal.node]) .s (by decide)
  | linebreak => exact hcls (e := ch 'R') (by simp [classes, Xpr.Terminal.node]) .R (by decide)
  | nothing => funext i j; simp [Xpr.Terminal.node, Ast.nothing, Matches, MatchesAny, TermMeans]
  | _ => rfl

mutual
theorem eval_facts : ∀ (e : Xpr.Expr) (R : Regex), Xpr.eval e = some R → EvalFacts e R
  | .term t, R, h => by
    simp only [Xpr.eval, Option.some.injEq] at h
    subst h
    refine evalFacts_node ?_ ?_ rfl ?_ (fun f s => term_means f s t) ?_
    · cases t <;> rfl
    · cases t <;> rfl
    · cases t with
      | beginLine => exact ⟨fun _ => .beginLine, fun _ => rfl⟩
      | endLine => exact ⟨fun _ => .endLine, fun _ => rfl⟩
      | beginInput => exact ⟨fun _ => .beginInput, fun _ => rfl⟩
      | endInput => exact ⟨fun _ => .endInput, fun _ => rfl⟩
      | wordBoundary => exact ⟨fun _ => .wordBoundary, fun _ => rfl⟩
      | _ => exact ⟨(fun h => by cases h), (fun h => by cases h)⟩
    · cases t <;> rfl
  | .chr c, R, h => by
    simp only [Xpr.eval, Option.some.injEq] at h
    subst h
    exact evalFacts_node rfl rfl rfl ⟨(fun h => by cases h), (fun h => by cases h)⟩ (fun f s => rfl) rfl
  | .str w, R, h => by
    simp only [Xpr.eval] at h
    split at h
    · cases h
    · next hw =>
      cases h
      refine ⟨rfl, by simpa [Xpr.toRegex, Xpr.str, seqParts] using hw, by simp [Xpr.toRegex, Xpr.str, altParts], ⟨fun h => ?_, fun h => by cases h⟩,
        fun f s => ?_, ?_⟩
      · obtain ⟨a, ha, h'⟩ := assertion_seq_iff.1 h
        match w, ha with
        | [x], ha => cases ha; cases h'
      · funext i j
        exact propext (matchesAll_lits f s w i j)
      · show nameSpecAll (w.map .lit) = []
        clear hw
        induction w with
        | nil => rfl
        | cons x w ih => simpa [nameSpecAll, nameSpec] using ih
  | .range a b, R, h => by
    simp only [Xpr.eval, Option.some.injEq] at h
    subst h
    exact evalFacts_node rfl rfl rfl ⟨(fun h => by cases h), (fun h => by cases h)⟩ (fun f s => rfl) rfl
  | .group k, R, h => by
    simp only [Xpr.eval, Option.some.injEq] at h
    subst h
    exact evalFacts_node rfl rfl rfl ⟨(fun h => by cases h), (fun h => by cases h)⟩ (fun f s => rfl) rfl
  | .groupNamed n, R, h => by
    simp only [Xpr.eval, Option.some.injEq] at h
    subst h
    exact evalFacts_node rfl rfl rfl ⟨(fun h => by cases h), (fun h => by cases h)⟩ (fun f s => rfl) rfl
  | .regex p, R, h => by
    simp only [Xpr.eval] at h
    split at h
    · next a hp =>
      cases h
      obtain ⟨x, hx, rfl⟩ := (parse_iff p a).1 hp
      have hn := normal_index (normal_pattern hx) 1
      have hun : ∀ y, Pattern p y → indexCaptures y = indexCaptures x := by
        intro y hy
        have h1 := parse_of_pattern hy
        rw [hp] at h1
        injection h1 with h1
        exact h1.symm
      refine ⟨rfl, ?_, ?_, ⟨fun h => .regex hx (by rwa [Xpr.toRegex, indexCaptures, assertion_index] at h), fun h => ?_⟩, fun f s => ?_, ?_⟩
      · show seqParts (index 1 x) ≠ []
        cases hx' : index 1 x with
        | seq l => rw [hx'] at hn; cases hn with | seq h _ _ => simp only [seqParts]; intro e; rw [e] at h; simp at h
        | _ => simp [seqParts]
      · show altParts (index 1 x) ≠ []
        cases hx' : index 1 x with
        | alt l => rw [hx'] at hn; cases hn with | alt h _ _ => simp [altParts]
        | _ => simp [altParts]
      · cases h with
        | regex hy ha =>
          have := hun _ hy
          show assertion (indexCaptures x) = true
          rw [← this, indexCaptures, assertion_index]
          exact ha
      · funext i j
        show Matches f s (index 1 x) i j = ∃ y, Pattern p y ∧ Matches f s y i j
        rw [eq_iff_iff]
        constructor
        · intro h; exact ⟨x, hx, by rwa [matches_index] at h⟩
        · rintro ⟨y, hy, h⟩
          have := hun _ hy
          simp only [indexCaptures] at this
          rw [← this, matches_index]
          exact h
      · show nameSpec (indexCaptures x) = openedGroups p
        rw [openedGroups_pattern hx]; exact nameSpec_index 1 x
    · cases h
  | .concat l, R, h => by
    simp only [Xpr.eval, Option.bind_eq_some_iff, Option.map_eq_some_iff] at h
    obtain ⟨as, has, a, ha, rfl⟩ := h
    refine evalFacts_concat (operand_facts l as has) ha rfl ?_ (fun f s => rfl) rfl
    exact ⟨(fun h => by cases h with | concat h => exact ⟨_, rfl, h⟩), by rintro ⟨x, rfl, h⟩; exact .concat h⟩
  | .either l, R, h => by
    simp only [Xpr.eval, Option.bind_eq_some_iff, Option.map_eq_some_iff] at h
    obtain ⟨as, has, a, ha, rfl⟩ := h
    refine evalFacts_either (operand_facts l as has) ha rfl ?_ (fun f s => rfl) rfl
    exact ⟨(fun h => by cases h with | either h => exact ⟨_, rfl, h⟩), by rintro ⟨x, rfl, h⟩; exact .either h⟩
  | .atomic l, R, h => by
    simp only [Xpr.eval, Option.bind_eq_some_iff] at h
    obtain ⟨as, has, h⟩ := h
    obtain ⟨hne, rfl⟩ := packed_some h
    have hf := operand_facts l as has
    refine evalFacts_node rfl rfl rfl ⟨(fun h => by cases h), (fun h => by cases h)⟩ (fun f s => ?_) ?_
    · show Matches f s (Ast.atomic (Xpr.pack as)) = InOrder f s l
      funext i j
      simp only [Ast.atomic, Matches, matchesAll_pack, hf.all, AtMost, eq_iff_iff]
      constructor
      · rintro ⟨k, h1, h2, h3⟩
        obtain rfl : k = 1 := by omega
        obtain ⟨t, h4, rfl⟩ := h3
        exact h4
      · exact fun h => ⟨1, by omega, by omega, j, h, rfl⟩
    · show nameSpec (Xpr.pack as) = groupsOfAll l
      rw [nameSpec_pack, hf.names]
  | .capture id name l, R, h => by
    simp only [Xpr.eval, Option.bind_eq_some_iff] at h
    obtain ⟨as, has, h⟩ := h
    obtain ⟨hne, rfl⟩ := packed_some h
    have hf := operand_facts l as has
    refine evalFacts_node rfl rfl rfl ⟨(fun h => by cases h), (fun h => by cases h)⟩ (fun f s => ?_) ?_
    · show Matches f s (Xpr.pack as) = InOrder f s l
      rw [matchesAll_pack, hf.all]
    · show name :: nameSpec (Xpr.pack as) = name :: groupsOfAll l
      rw [nameSpec_pack, hf.names]
  | .between a b m l, R, h => by
    simp only [Xpr.eval, Option.bind_eq_some_iff] at h
    obtain ⟨as, has, h⟩ := h
    obtain ⟨hne, rfl⟩ := packed_some h
    have hf := operand_facts l as has
    refine evalFacts_node rfl rfl rfl ?_ (fun f s => ?_) ?_
    · show assertion (.rep m a (.fin b) (Xpr.pack as)) = true ↔ _
      rw [assertion_rep_iff, assertion_pack, hf.single]
      constructor
      · rintro ⟨h1, rfl, h2, e, rfl, h3⟩; cases h2; exact .between h1 h3
      · intro h; cases h with | between h1 h2 => exact ⟨h1, rfl, rfl, _, rfl, h2⟩
    · show Matches f s (.rep m a (.fin b) (Xpr.pack as)) = _
      simp only [Matches, Means, matchesAll_pack, hf.all, AtMost]
    · show nameSpec (Xpr.pack as) = groupsOfAll l
      rw [nameSpec_pack, hf.names]
  | .exactly n m l, R, h => by
    simp only [Xpr.eval, Option.bind_eq_some_iff] at h
    obtain ⟨as, has, h⟩ := h
    obtain ⟨hne, rfl⟩ := packed_some h
    have hf := operand_facts l as has
    refine evalFacts_node rfl rfl rfl ?_ (fun f s => ?_) ?_
    · show assertion (.rep m n (.fin n) (Xpr.pack as)) = true ↔ _
      rw [assertion_rep_iff, assertion_pack, hf.single]
      constructor
      · rintro ⟨h1, rfl, h2, e, rfl, h3⟩; cases h2; exact .exactly h1 h3
      · intro h; cases h with | exactly h1 h2 => exact ⟨h1, rfl, rfl, _, rfl, h2⟩
    · show Matches f s (.rep m n (.fin n) (Xpr.pack as)) = _
      funext i j
      simp only [Matches, Means, matchesAll_pack, hf.all, AtMost, eq_iff_iff]
      constructor
      · rintro ⟨k, h1, h2, h3⟩
        obtain rfl : k = n := by omega
        exact h3
      · exact fun h => ⟨n, by omega, by omega, h⟩
    · show nameSpec (Xpr.pack as) = groupsOfAll l
      rw [nameSpec_pack, hf.names]
  | .maybe m l, R, h => by
    simp only [Xpr.eval, Option.bind_eq_some_iff] at h
    obtain ⟨as, has, h⟩ := h
    obtain ⟨hne, rfl⟩ := packed_some h
    have hf := operand_facts l as has
    refine evalFacts_node rfl rfl rfl ⟨fun h => ?_, fun h => by cases h⟩ (fun f s => ?_) ?_
    · have := (assertion_rep_iff (lo := 0) (hi := .fin 1) (a := Xpr.pack as)).1 h
      omega
    · show Matches f s (.rep m 0 (.fin 1) (Xpr.pack as)) = _
      funext i j
      simp only [Matches, Means, matchesAll_pack, hf.all, AtMost, eq_iff_iff, iter_zero_one]
    · show nameSpec (Xpr.pack as) = groupsOfAll l
      rw [nameSpec_pack, hf.names]
  | .atLeast n m l, R, h => by
    simp only [Xpr.eval, Option.bind_eq_some_iff] at h
    obtain ⟨as, has, h⟩ := h
    obtain ⟨hne, rfl⟩ := packed_some h
    have hf := operand_facts l as has
    refine evalFacts_node rfl rfl rfl ⟨fun h => ?_, fun h => by cases h⟩ (fun f s => ?_) ?_
    · have := (assertion_rep_iff (lo := n) (hi := .inf) (a := Xpr.pack as)).1 h
      cases this.2.2.1
    · show Matches f s (.rep m n .inf (Xpr.pack as)) = _
      simp only [Matches, Means, matchesAll_pack, hf.all, AtMost, true_and]
    · show nameSpec (Xpr.pack as) = groupsOfAll l
      rw [nameSpec_pack, hf.names]
  | .zeroOrMore m l, R, h => by
    simp only [Xpr.eval, Option.bind_eq_some_iff] at h
    obtain ⟨as, has, h⟩ := h
    obtain ⟨hne, rfl⟩ := packed_some h
    have hf := operand_facts l as has
    refine evalFacts_node rfl rfl rfl ⟨fun h => ?_, fun h => by cases h⟩ (fun f s => ?_) ?_
    · have := (assertion_rep_iff (lo := 0) (hi := .inf) (a := Xpr.pack as)).1 h
      cases this.2.2.1
    · show Matches f s (.rep m 0 .inf (Xpr.pack as)) = _
      simp only [Matches, Means, matchesAll_pack, hf.all, AtMost, true_and, Nat.zero_le]
    · show nameSpec (Xpr.pack as) = groupsOfAll l
      rw [nameSpec_pack, hf.names]
  | .oneOrMore m l, R, h => by
    simp only [Xpr.eval, Option.bind_eq_some_iff] at h
    obtain ⟨as, has, h⟩ := h
    obtain ⟨hne, rfl⟩ := packed_some h
    have hf := operand_facts l as has
    refine evalFacts_node rfl rfl rfl ⟨fun h => ?_, fun h => by cases h⟩ (fun f s => ?_) ?_
    · have := (assertion_rep_iff (lo := 1) (hi := .inf) (a := Xpr.pack as)).1 h
      cases this.2.2.1
    · show Matches f s (.rep m 1 .inf (Xpr.pack as)) = _
      simp only [Matches, Means, matchesAll_pack, hf.all, AtMost, true_and]
      rfl
    · show nameSpec (Xpr.pack as) = groupsOfAll l
      rw [nameSpec_pack, hf.names]
  | .ahead l, R, h => by
    simp only [Xpr.eval, Option.bind_eq_some_iff] at h
    obtain ⟨as, has, h⟩ := h
    obtain ⟨hne, rfl⟩ := packed_some h
    have hf := operand_facts l as has
    refine evalFacts_node rfl rfl rfl ⟨fun h => .ahead l, fun h => rfl⟩ (fun f s => ?_) ?_
    · show Matches f s (.look .ahead (Xpr.pack as)) = _
      simp only [Matches, Means, matchesAll_pack, hf.all]
    · show nameSpec (Xpr.pack as) = groupsOfAll l
      rw [nameSpec_pack, hf.names]
  | .behind l, R, h => by
    simp only [Xpr.eval, Option.bind_eq_some_iff] at h
    obtain ⟨as, has, h⟩ := h
    obtain ⟨hne, rfl⟩ := packed_some h
    have hf := operand_facts l as has
    refine evalFacts_node rfl rfl rfl ⟨fun h => .behind l, fun h => rfl⟩ (fun f s => ?_) ?_
    · show Matches f s (.look .behind (Xpr.pack as)) = _
      simp only [Matches, Means, matchesAll_pack, hf.all]
    · show nameSpec (Xpr.pack as) = groupsOfAll l
      rw [nameSpec_pack, hf.names]
  | .negate e, R, h => by
    simp only [Xpr.eval, Option.map_eq_some_iff, Option.bind_eq_some_iff] at h
    obtain ⟨a, ⟨R', hR', ha⟩, rfl⟩ := h
    have hf := eval_facts e R' hR'
    obtain rfl := node_some ha
    refine evalFacts_node rfl rfl rfl ?_ (fun f s => ?_) hf.names
    · show assertion a = true ↔ _
      exact hf.tests.trans ⟨.negate, fun h => by cases h; assumption⟩
    · funext i j
      have ht := hf.tests
      have hm := hf.means f s
      simp only [Xpr.toRegex] at ht hm
      show Matches f s (.neg a) i j = _
      simp only [Matches, Means, eq_iff_iff, hm]
      by_cases h : assertion a = true
      · simp [h, ht.1 h]
      · simp [h, mt ht.2 h]
  | .not e, R, h => by
    simp only [Xpr.eval, Option.map_eq_some_iff, Option.bind_eq_some_iff] at h
    obtain ⟨a, ⟨R', hR', ha⟩, rfl⟩ := h
    have hf := eval_facts e R' hR'
    obtain rfl := node_some ha
    refine evalFacts_node rfl rfl rfl ?_ (fun f s => ?_) hf.names
    · show assertion a = true ↔ _
      exact hf.tests.trans ⟨.not, fun h => by cases h; assumption⟩
    · funext i j
      have ht := hf.tests
      have hm := hf.means f s
      simp only [Xpr.toRegex] at ht hm
      show Matches f s (.neg a) i j = _
      simp only [Matches, Means, eq_iff_iff, hm]
      by_cases h : assertion a = true
      · simp [h, ht.1 h]
      · simp [h, mt ht.2 h]
  | .star e, R, h => by
    simp only [Xpr.eval, Option.map_eq_some_iff, Option.bind_eq_some_iff] at h
    obtain ⟨a, ⟨R', hR', ha⟩, rfl⟩ := h
    have hf := eval_facts e R' hR'
    obtain rfl := node_some ha
    refine evalFacts_node rfl rfl rfl ⟨fun h => ?_, fun h => by cases h⟩ (fun f s => ?_) hf.names
    · have := (assertion_rep_iff (lo := 0) (hi := .inf) (a := a)).1 h
      cases this.2.2.1
    · show Matches f s (.rep .greedy 0 .inf a) = _
      have hm := hf.means f s
      simp only [Xpr.toRegex] at hm
      simp only [Matches, Means, hm, AtMost, true_and, Nat.zero_le]
  | .plus e, R, h => by
    simp only [Xpr.eval, Option.map_eq_some_iff, Option.bind_eq_some_iff] at h
    obtain ⟨a, ⟨R', hR', ha⟩, rfl⟩ := h
    have hf := eval_facts e R' hR'
    obtain rfl := node_some ha
    refine evalFacts_node rfl rfl rfl ⟨fun h => ?_, fun h => by cases h⟩ (fun f s => ?_) hf.names
    · have := (assertion_rep_iff (lo := 1) (hi := .inf) (a := a)).1 h
      cases this.2.2.1
    · show Matches f s (.rep .greedy 1 .inf a) = _
      have hm := hf.means f s
      simp only [Xpr.toRegex] at hm
      simp only [Matches, Means, hm, AtMost, true_and]
      rfl
  | .shiftRight e e', R, h => by
    simp only [Xpr.eval, Option.map_eq_some_iff, Option.bind_eq_some_iff] at h
    obtain ⟨a, ⟨R₁, hR₁, ha⟩, b, ⟨R₂, hR₂, hb⟩, c, hc, rfl⟩ := h
    have h1 := eval_facts e R₁ hR₁
    have h2 := eval_facts e' R₂ hR₂
    obtain rfl := node_some ha
    obtain rfl := node_some hb
    have hf : OperandFacts [e, e'] [a, b] := by
      refine ⟨rfl, ?_, ?_, (fun _ _ h => by cases h), fun f s => ?_, fun f s => ?_, ?_⟩
      · simp only [List.forall_mem_cons, List.not_mem_nil, false_implies, implies_true, and_true]; exact ⟨h1.seq, h2.seq⟩
      · simp only [List.forall_mem_cons, List.not_mem_nil, false_implies, implies_true, and_true]; exact ⟨h1.alt, h2.alt⟩
      · simp only [MatchesAll, InOrder, ← h1.means, ← h2.means]; rfl
      · simp only [MatchesAny, AnyOf, ← h1.means, ← h2.means]; rfl
      · simp only [nameSpecAll, groupsOfAll, ← h1.names, ← h2.names]; rfl
    refine evalFacts_concat hf hc rfl ⟨(fun h => by cases h), ?_⟩ (fun f s => ?_) ?_
    · rintro ⟨x, hx, _⟩; cases hx
    · funext i j; simp [Means, InOrder]
    · simp [groupsOf, groupsOfAll]
  | .bitOr e e', R, h => by
    simp only [Xpr.eval, Option.map_eq_some_iff, Option.bind_eq_some_iff] at h
    obtain ⟨a, ⟨R₁, hR₁, ha⟩, b, ⟨R₂, hR₂, hb⟩, c, hc, rfl⟩ := h
    have h1 := eval_facts e R₁ hR₁
    have h2 := eval_facts e' R₂ hR₂
    obtain rfl := node_some ha
    obtain rfl := node_some hb
    have hf : OperandFacts [e, e'] [a, b] := by
      refine ⟨rfl, ?_, ?_, (fun _ _ h => by cases h), fun f s => ?_, fun f s => ?_, ?_⟩
      · simp only [List.forall_mem_cons, List.not_mem_nil, false_implies, implies_true, and_true]; exact ⟨h1.seq, h2.seq⟩
      · simp only [List.forall_mem_cons, List.not_mem_nil, false_implies, implies_true, and_true]; exact ⟨h1.alt, h2.alt⟩
      · simp only [MatchesAll, InOrder, ← h1.means, ← h2.means]; rfl
      · simp only [MatchesAny, AnyOf, ← h1.means, ← h2.means]; rfl
      · simp only [nameSpecAll, groupsOfAll, ← h1.names, ← h2.names]; rfl
    refine evalFacts_either hf hc rfl ⟨(fun h => by cases h), ?_⟩ (fun f s => ?_) ?_
    · rintro ⟨x, hx, _⟩; cases hx
    · funext i j; simp [Means, AnyOf]
    · simp [groupsOf, groupsOfAll]
  | .addFlags fl e, R, h => by
    simp only [Xpr.eval, Option.map_eq_some_iff] at h
    obtain ⟨R', hR', rfl⟩ := h
    have hf := eval_facts e R' hR'
    exact ⟨by simp only [flagsOf, hf.flags], hf.seq, hf.alt, hf.tests.trans ⟨.addFlags, fun h => by cases h; assumption⟩, hf.means, hf.names⟩
  | .clearFlags e, R, h => by
    simp only [Xpr.eval, Option.map_eq_some_iff] at h
    obtain ⟨R', hR', rfl⟩ := h
    have hf := eval_facts e R' hR'
    exact ⟨rfl, hf.seq, hf.alt, hf.tests.trans ⟨.clearFlags, fun h => by cases h; assumption⟩, hf.means, hf.names⟩
theorem operand_facts : ∀ (l : List Xpr.Expr) (as : List Ast), Xpr.operands l = some as → OperandFacts l as
  | [], as, h => by
    simp only [Xpr.operands, Option.some.injEq] at h
    subst h
    exact ⟨rfl, (fun _ h => by cases h), (fun _ h => by cases h), (fun _ _ h => by cases h), fun _ _ => rfl, fun _ _ => rfl, rfl⟩
  | e :: l, as, h => by
    simp only [Xpr.operands, Option.map_eq_some_iff, Option.bind_eq_some_iff] at h
    obtain ⟨a, ⟨R, hR, ha⟩, as', has, rfl⟩ := h
    have h1 := eval_facts e R hR
    have h2 := operand_facts l as' has
    obtain rfl := node_some ha
    refine ⟨by simp [h2.len], ?_, ?_, ?_, fun f s => ?_, fun f s => ?_, ?_⟩
    · simp only [List.forall_mem_cons]; exact ⟨h1.seq, h2.seq⟩
    · simp only [List.forall_mem_cons]; exact ⟨h1.alt, h2.alt⟩
    · rintro e' a' h h'
      cases h; cases h'
      exact h1.tests
    · simp only [MatchesAll, InOrder, ← h1.means, ← h2.all]; rfl
    · simp only [MatchesAny, AnyOf, ← h1.means, ← h2.any]; rfl
    · simp only [nameSpecAll, groupsOfAll, ← h1.names, ← h2.names]; rfl
end

/-! ### What compiles -/

theorem node_isSome {R : Regex} : (Xpr.node R).isSome ↔ R.flags = [] := by
  unfold Xpr.node; split <;> simp_all

theorem operand_iff {e : Xpr.Expr} (h : (Xpr.eval e).isSome ↔ WellFormed e) : ((Xpr.eval e).bind Xpr.node).isSome ↔ WellFormed e ∧ flagsOf e = [] := by
  cases he : Xpr.eval e with
  | none => rw [he] at h; simp at h ⊢; exact fun h' => absurd h' h
  | some R =>
    rw [he] at h
    simp only [Option.isSome_some, true_iff] at h
    simp only [Option.bind_some, node_isSome, (eval_facts e R he).flags, h, true_and]

theorem flatWrap_isSome (g : Ast → Ast → Ast) : ∀ as : List Ast, (Xpr.flatWrap g as).isSome ↔ as ≠ []
  | [] => by simp [Xpr.flatWrap]
  | [a] => by simp [Xpr.flatWrap]
  | a :: b :: l => by rw [Xpr.flatWrap, flatWrap_isSome g (g a b :: l)]; simp
termination_by as => as.length

theorem packed_isSome (g : List Ast → Ast) (as : List Ast) : (Xpr.packed g as).isSome ↔ as ≠ [] := by
  unfold Xpr.packed; split <;> simp_all

theorem bind_operands {l : List Xpr.Expr} (h : (Xpr.operands l).isSome ↔ WellFormedAll l) {k : List Ast → Option Regex}
    (hk : ∀ as, (k as).isSome ↔ as ≠ []) : ((Xpr.operands l).bind k).isSome ↔ l ≠ [] ∧ WellFormedAll l := by
  cases ho : Xpr.operands l with
  | none => rw [ho] at h; simp at h ⊢; exact fun _ => h
  | some as =>
    rw [ho] at h
    simp only [Option.isSome_some, true_iff] at h
    have hl := (operand_facts l as ho).len
    simp only [Option.bind_some, hk, h, and_true, ne_eq, ← List.length_eq_zero_iff, hl]

theorem map_isSome {α β : Type} (o : Option α) (g : α → β) : (o.map g).isSome ↔ o.isSome := by cases o <;> simp

theorem bind_isSome_two {e e' : Xpr.Expr} (h : (Xpr.eval e).isSome ↔ WellFormed e) (h' : (Xpr.eval e').isSome ↔ WellFormed e')
    {k : Ast → Ast → Option Regex} (hk : ∀ a b, (k a b).isSome) :
    (((Xpr.eval e).bind Xpr.node).bind fun a => ((Xpr.eval e').bind Xpr.node).bind fun b => k a b).isSome ↔
      (WellFormed e ∧ flagsOf e = []) ∧ WellFormed e' ∧ flagsOf e' = [] := by
  rw [← operand_iff h, ← operand_iff h']
  cases (Xpr.eval e).bind Xpr.node with
  | none => simp
  | some a =>
    cases (Xpr.eval e').bind Xpr.node with
    | none => simp
    | some b => simpa using hk a b

mutual
theorem eval_isSome : ∀ e : Xpr.Expr, (Xpr.eval e).isSome ↔ WellFormed e
  | .term _ | .chr _ | .range _ _ | .group _ | .groupNamed _ => by simp [Xpr.eval, WellFormed]
  | .str w => by by_cases h : w = [] <;> simp [Xpr.eval, WellFormed, h]
  | .regex p => by
    simp only [Xpr.eval, WellFormed]
    constructor
    · intro h
      split at h
      · next a hp => obtain ⟨x, hx, _⟩ := (parse_iff p a).1 hp; exact ⟨x, hx⟩
      · cases h
    · rintro ⟨x, hx⟩
      rw [parse_of_pattern hx]
      rfl
  | .concat l => by
    simp only [Xpr.eval, WellFormed]
    exact bind_operands (operands_isSome l) (fun as => (map_isSome _ _).trans (flatWrap_isSome _ as))
  | .either l => by
    simp only [Xpr.eval, WellFormed]
    exact bind_operands (operands_isSome l) (fun as => (map_isSome _ _).trans (flatWrap_isSome _ as))
  | .atomic l | .capture _ _ l | .between _ _ _ l | .atLeast _ _ l | .exactly _ _ l | .zeroOrMore _ l | .oneOrMore _ l | .maybe _ l | .ahead l
  | .behind l => by
    simp only [Xpr.eval, WellFormed]
    exact bind_operands (operands_isSome l) (packed_isSome _)
  | .negate e | .not e | .star e | .plus e => by
    simp only [Xpr.eval, WellFormed]
    exact (map_isSome _ _).trans (operand_iff (eval_isSome e))
  | .shiftRight e e' => by
    simp only [Xpr.eval, WellFormed]
    exact bind_isSome_two (eval_isSome e) (eval_isSome e') (fun a b => (map_isSome _ _).2 ((flatWrap_isSome _ _).2 (by simp)))
  | .bitOr e e' => by
    simp only [Xpr.eval, WellFormed]
    exact bind_isSome_two (eval_isSome e) (eval_isSome e') (fun a b => (map_isSome _ _).2 ((flatWrap_isSome _ _).2 (by simp)))
  | .addFlags _ e | .clearFlags e => by
    simp only [Xpr.eval, WellFormed]
    exact (map_isSome _ _).trans (eval_isSome e)
theorem operands_isSome : ∀ l : List Xpr.Expr, (Xpr.operands l).isSome ↔ WellFormedAll l
  | [] => by simp [Xpr.operands, WellFormedAll]
  | e :: l => by
    simp only [Xpr.operands, WellFormedAll]
    rw [← operand_iff (eval_isSome e), ← operands_isSome l]
    cases (Xpr.eval e).bind Xpr.node with
    | none => simp
    | some a => simp
end

end Mregex
