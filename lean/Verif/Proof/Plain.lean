import Verif.Proof.Branches
import Verif.Proof.Expressions
import Verif.Spec.Plain

/-!
# Flattening
-/

namespace Mregex
open Ast Spec

/-- Parentheses are removed. -/
inductive Pl : Ast → Ast → Prop
  | refl (a : Ast) : Pl a a
  | trans {a b c : Ast} : Pl a b → Pl b c → Pl a c
  | seq {a b : Ast} (pre post : List Ast) : Pl a b → Pl (.seq (pre ++ a :: post)) (.seq (pre ++ b :: post))
  | alt {a b : Ast} (pre post : List Ast) : Pl a b → Pl (.alt (pre ++ a :: post)) (.alt (pre ++ b :: post))
  | cap {a b : Ast} (id : Nat) (name : GroupName) : Pl a b → Pl (.cap id name a) (.cap id name b)
  | rep {a b : Ast} (m : Mode) (lo : Nat) (hi : Bound) : Pl a b → Pl (.rep m lo hi a) (.rep m lo hi b)
  | look {a b : Ast} (d : LookDir) : Pl a b → Pl (.look d a) (.look d b)
  | neg {a b : Ast} : Pl a b → Pl (.neg a) (.neg b)
  | nested (pre l post : List Ast) : l ≠ [] → Pl (.seq (pre ++ .seq l :: post)) (.seq (pre ++ l ++ post))
  | one (a : Ast) : Pl (.seq [a]) a
  | branch (a : Ast) : Pl (.alt [a]) a
  | dissolve (pre l post : List Ast) : l ≠ [] → Pl (.alt (pre ++ .alt l :: post)) (.alt (pre ++ l ++ post))

theorem len_splice (n m k : Nat) (hm : 0 < m) : (n + (k + 1) == 1 && m == 1) = (n + m + k == 1) := by
  by_cases h : n + m + k = 1
  · have h1 : n + (k + 1) = 1 := by omega
    have h2 : m = 1 := by omega
    rw [h, h1, h2]; rfl
  · have : ¬ (n + (k + 1) = 1 ∧ m = 1) := by omega
    rw [beq_eq_false_iff_ne.2 h]
    simp only [Bool.and_eq_false_iff, beq_eq_false_iff_ne]
    omega

theorem splice_flag (g : Ast → Bool) (pre l post : List Ast) (x : Ast) (hl : l ≠ []) (hx : g x = (l.length == 1 && l.all g)) :
    ((pre ++ x :: post).length == 1 && (pre ++ x :: post).all g) = ((pre ++ l ++ post).length == 1 && (pre ++ l ++ post).all g) := by
  simp only [List.length_append, List.length_cons, List.all_append, List.all_cons, hx]
  rw [← len_splice pre.length l.length post.length (List.length_pos_iff.2 hl)]
  cases (pre.length + (post.length + 1) == 1) <;> cases (l.length == 1) <;> cases pre.all g <;> cases l.all g <;> rfl

theorem matchSingle_splice (f : Flags) (pre l post : List Ast) (a : Ast) (hl : l ≠ []) (y : Byte) (ha : matchOne f a y = matchSingle f l y) :
    matchSingle f (pre ++ a :: post) y = matchSingle f (pre ++ l ++ post) y := by
  match pre, post, l, hl, ha with
  | [], [], _, _, ha => simpa [matchSingle] using ha
  | [], _ :: _, _ :: _, _, _ => cases ‹List Ast› <;> simp [matchSingle]
  | [_], _, [_], _, _ => simp [matchSingle]
  | [_], _, _ :: _ :: _, _, _ => simp [matchSingle]
  | _ :: _ :: _, _, _, _, _ => simp [matchSingle]

theorem matchSingle_mid (f : Flags) (pre post : List Ast) {a b : Ast} (y : Byte) (h : matchOne f a y = matchOne f b y) :
    matchSingle f (pre ++ a :: post) y = matchSingle f (pre ++ b :: post) y := by
  match pre, post with
  | [], [] => simpa [matchSingle] using h
  | [], _ :: _ => rfl
  | [_], _ => rfl
  | _ :: _ :: _, _ => rfl

structure PlFacts (a b : Ast) : Prop where
  zlm : zlm a = zlm b
  triv : triv a = triv b
  asrt : isAssertion a = isAssertion b
  one : ∀ f x, matchOne f a x = matchOne f b x
  refs : noBackref a = noBackref b
  names : nameSpec a = nameSpec b
  ok : ∀ (E : Env) r, (Ok E r a ↔ Ok E r b) ∧ (Ok E r (invert a) ↔ Ok E r (invert b))

theorem Pl.facts {a b : Ast} (h : Pl a b) : PlFacts a b := by
  induction h with
  | refl a => exact ⟨rfl, rfl, rfl, fun _ _ => rfl, rfl, rfl, fun _ _ => ⟨Iff.rfl, Iff.rfl⟩⟩
  | trans _ _ ih ih' =>
    exact ⟨ih.zlm.trans ih'.zlm, ih.triv.trans ih'.triv, ih.asrt.trans ih'.asrt, fun f x => (ih.one f x).trans (ih'.one f x),
      ih.refs.trans ih'.refs, ih.names.trans ih'.names, fun E r => ⟨(ih.ok E r).1.trans (ih'.ok E r).1, (ih.ok E r).2.trans (ih'.ok E r).2⟩⟩
  | seq pre post _ ih =>
    refine ⟨?_, ?_, ?_, fun f x => ?_, ?_, ?_, fun E r => ⟨?_, ?_⟩⟩
    · simp only [Ast.zlm, zlmAll_eq, List.all_append, List.all_cons, ih.zlm]
    · simp only [Ast.triv, trivSingle_eq, List.all_append, List.all_cons, ih.triv, List.length_append, List.length_cons]
    · simp only [isAssertion_seq, List.all_append, List.all_cons, ih.asrt, List.length_append, List.length_cons]
    · exact matchSingle_mid f pre post x (ih.one f x)
    · simp only [noBackref, noBackrefAll_eq, List.all_append, List.all_cons, ih.refs]
    · simp only [nameSpec, nameSpecAll_app, nameSpecAll, ih.names]
    · rw [ok_seq, ok_seq, all_mid, all_mid, (ih.ok E r).1]; simp
    · simp only [invert, invertAll_eq, List.map_append, List.map_cons, List.reverse_append, List.reverse_cons, List.append_assoc,
        List.cons_append, List.nil_append]
      rw [ok_seq, ok_seq, all_mid, all_mid, (ih.ok E r).2]; simp
  | alt pre post _ ih =>
    refine ⟨?_, ?_, ?_, fun f x => ?_, ?_, ?_, fun E r => ⟨?_, ?_⟩⟩
    · simp only [Ast.zlm, zlmAny_eq, List.any_append, List.any_cons, ih.zlm]
    · simp only [Ast.triv, trivAlt_eq, List.all_append, List.all_cons, ih.triv]; cases pre <;> rfl
    · simp only [isAssertion_alt, List.all_append, List.all_cons, ih.asrt, List.length_append, List.length_cons]
    · simp only [matchOne, matchAny_eq, List.any_append, List.any_cons, ih.one]
    · simp only [noBackref, noBackrefAll_eq, List.all_append, List.all_cons, ih.refs]
    · simp only [nameSpec, nameSpecAll_app, nameSpecAll, ih.names]
    · rw [ok_alt, ok_alt, all_mid, all_mid, (ih.ok E r).1]; simp
    · simp only [invert, invertAll_eq, List.map_append, List.map_cons]
      rw [ok_alt, ok_alt, all_mid, all_mid, (ih.ok E r).2]; simp
  | cap id name _ ih =>
    have : ∀ E r a, Ok E r (.cap id name a) ↔ E.names[id]? = some name ∧ r ≤ 1 ∧ Ok E r a :=
      fun E r a => ⟨fun | .cap h h' h'' => ⟨h, h', h''⟩, fun ⟨h, h', h''⟩ => .cap h h' h''⟩
    refine ⟨ih.zlm, rfl, rfl, fun _ _ => rfl, ih.refs, by simp only [nameSpec, ih.names], fun E r => ⟨?_, ?_⟩⟩
    · rw [this, this, (ih.ok E r).1]
    · simp only [invert]; rw [this, this, (ih.ok E r).2]
  | rep m lo hi _ ih =>
    refine ⟨by simp only [Ast.zlm, ih.zlm], by simp only [Ast.triv, ih.triv], by simp only [isAssertion, ih.asrt],
      fun f x => by simp only [matchOne, ih.one], ih.refs, ih.names, fun E r => ⟨?_, ?_⟩⟩
    · rw [ok_rep, ok_rep, (ih.ok E r).1]
    · simp only [invert]; rw [ok_rep, ok_rep, (ih.ok E r).2]
  | look d _ ih =>
    refine ⟨rfl, rfl, rfl, fun _ _ => rfl, ih.refs, ih.names, fun E r => ?_⟩
    have : ∀ a, Ok E r (.look .ahead a) ↔ Ok E r a := fun a => ⟨fun | .ahead h => h, .ahead⟩
    have h1 : ∀ {a b : Ast}, (Ok E r a ↔ Ok E r b) → (Ok E r (.look .ahead a) ↔ Ok E r (.look .ahead b)) :=
      fun h => by rw [this, this, h]
    have h2 : ∀ {a b : Ast}, (Ok E (r + 1) (invert a) ↔ Ok E (r + 1) (invert b)) →
        (Ok E r (.look .behind a) ↔ Ok E r (.look .behind b)) := fun h => by rw [twin_ok_behind', twin_ok_behind', h]
    cases d with
    | ahead => exact ⟨h1 (ih.ok E r).1, h2 (ih.ok E (r + 1)).2⟩
    | behind => exact ⟨h2 (ih.ok E (r + 1)).2, h1 (ih.ok E r).1⟩
  | neg _ ih =>
    refine ⟨by simp only [Ast.zlm, ih.asrt], by simp only [Ast.triv, ih.asrt], by simp only [isAssertion, ih.asrt],
      fun f x => by simp only [matchOne, ih.one], ih.refs, ih.names, fun E r => ⟨?_, ?_⟩⟩
    · rw [ok_neg, ok_neg, (ih.ok E r).1, ih.triv, ih.asrt]
    · simp only [invert]
      rw [ok_neg, ok_neg, (ih.ok E r).2, triv_invert, triv_invert, isAssertion_invert, isAssertion_invert, ih.triv, ih.asrt]
  | nested pre l post hl =>
    have key : ∀ (E : Env) r (pre l post : List Ast), l ≠ [] →
        (Ok E r (.seq (pre ++ .seq l :: post)) ↔ Ok E r (.seq (pre ++ l ++ post))) := by
      intro E r pre l post hl
      rw [ok_seq, ok_seq, all_mid, ok_seq]
      simp only [List.forall_mem_append, and_assoc]
      simp [hl]
    refine ⟨?_, ?_, ?_, fun f x => ?_, ?_, ?_, fun E r => ⟨key E r pre l post hl, ?_⟩⟩
    · simp [Ast.zlm, zlmAll_eq]
    · simp only [Ast.triv, trivSingle_eq]
      exact splice_flag Ast.triv pre l post _ hl (by simp only [Ast.triv, trivSingle_eq])
    · simp only [isAssertion_seq]
      exact splice_flag Ast.isAssertion pre l post _ hl (isAssertion_seq l)
    · exact matchSingle_splice f pre l post _ hl x rfl
    · simp [noBackref, noBackrefAll_eq]
    · simp [nameSpec, nameSpecAll_app, nameSpecAll]
    · have := key E r (post.map invert).reverse (l.map invert).reverse (pre.map invert).reverse (by simpa using hl)
      simpa only [invert, invertAll_eq, List.map_append, List.map_cons, List.reverse_append, List.reverse_cons, List.append_assoc,
        List.cons_append, List.nil_append] using this
  | one a =>
    refine ⟨by simp [Ast.zlm, zlmAll_eq], by simp [Ast.triv, trivSingle_eq], by simp [isAssertion_seq], fun f x => rfl,
      by simp [noBackref, noBackrefAll_eq], by simp [nameSpec, nameSpecAll], fun E r => ⟨by rw [ok_seq]; simp, ?_⟩⟩
    simp only [invert, invertAll_eq, List.map_cons, List.map_nil, List.reverse_singleton]
    rw [ok_seq]; simp
  | branch a =>
    refine ⟨by simp [Ast.zlm, zlmAny_eq], by simp [Ast.triv, trivAlt_eq], by simp [isAssertion_alt], fun f x => by simp [matchOne, matchAny],
      by simp [noBackref, noBackrefAll_eq], by simp [nameSpec, nameSpecAll], fun E r => ⟨by rw [ok_alt]; simp, ?_⟩⟩
    simp only [invert, invertAll_eq, List.map_cons, List.map_nil]
    rw [ok_alt]; simp
  | dissolve pre l post hl =>
    have key : ∀ (E : Env) r (pre l post : List Ast), l ≠ [] →
        (Ok E r (.alt (pre ++ .alt l :: post)) ↔ Ok E r (.alt (pre ++ l ++ post))) := by
      intro E r pre l post hl
      rw [ok_alt, ok_alt, all_mid, ok_alt]
      simp only [List.forall_mem_append, and_assoc]
      simp [hl]
    have hl' : l.isEmpty = false := by simpa using hl
    refine ⟨?_, ?_, ?_, fun f x => ?_, ?_, ?_, fun E r => ⟨key E r pre l post hl, ?_⟩⟩
    · simp [Ast.zlm, zlmAny_eq]
    · simp only [Ast.triv, trivAlt_eq, List.all_append, List.all_cons, hl']
      cases pre <;> cases l <;> simp_all [Bool.and_assoc]
    · simp only [isAssertion_alt]
      exact splice_flag Ast.isAssertion pre l post _ hl (isAssertion_alt l)
    · simp [matchOne, matchAny_eq]
    · simp [noBackref, noBackrefAll_eq]
    · simp [nameSpec, nameSpecAll_app, nameSpecAll]
    · have := key E r (pre.map invert) (l.map invert) (post.map invert) (by simpa using hl)
      simpa only [invert, invertAll_eq, List.map_append, List.map_cons] using this

/-! ### Chains of steps -/

/-- Chains of steps in which tests stay tests. -/
inductive LSteps (f : Flags) : Bool → Ast → Ast → Prop
  | variant {inv : Bool} {a b : Ast} : isAssertion a = isAssertion b → noBackref a = noBackref b → Variant f inv a b → LSteps f inv a b
  | rebranch {inv : Bool} {a b : Ast} : isAssertion a = isAssertion b → noBackref a = noBackref b → Rebranch a b → LSteps f inv a b
  | trans {inv : Bool} {a b c : Ast} : LSteps f inv a b → LSteps f inv b c → LSteps f inv a c

theorem LSteps.asrt {f : Flags} {inv : Bool} {a b : Ast} (h : LSteps f inv a b) : isAssertion a = isAssertion b ∧ noBackref a = noBackref b := by
  induction h with
  | variant h h' _ | rebranch h h' _ => exact ⟨h, h'⟩
  | trans _ _ ih ih' => exact ⟨ih.1.trans ih'.1, ih.2.trans ih'.2⟩

theorem LSteps.place {f : Flags} {inv inv' : Bool} {g : Ast → Ast} {a b : Ast} (h : LSteps f inv a b)
    (ha : ∀ {a b}, isAssertion a = isAssertion b → isAssertion (g a) = isAssertion (g b))
    (hn : ∀ {a b}, noBackref a = noBackref b → noBackref (g a) = noBackref (g b))
    (hv : ∀ {a b}, Variant f inv a b → Variant f inv' (g a) (g b)) (hr : ∀ {a b}, Rebranch a b → Rebranch (g a) (g b)) :
    LSteps f inv' (g a) (g b) := by
  induction h with
  | variant h h' h'' => exact .variant (ha h) (hn h') (hv h'')
  | rebranch h h' h'' => exact .rebranch (ha h) (hn h') (hr h'')
  | trans _ _ ih ih' => exact .trans ih ih'

theorem LSteps.neg {f : Flags} {inv : Bool} {a b : Ast} (h : LSteps f inv a b) (ht : Test a) : LSteps f inv (.neg a) (.neg b) := by
  induction h with
  | variant h h' h'' => exact .variant (by simp only [isAssertion, h]) h' (.neg ht h'')
  | rebranch h h' h'' => exact .rebranch (by simp only [isAssertion, h]) h' (.neg ht h'')
  | trans h _ ih ih' => exact .trans (ih ht) (ih' (by rw [test_iff, ← h.asrt.1, ← test_iff]; exact ht))

theorem LSteps.relaid {f : Flags} {inv : Bool} {a b : Ast} (h : LSteps f inv a b) (hi : inv = false) (hb : noBackref a = true) : Relaid f a b := by
  subst hi
  induction h with
  | variant _ _ h => exact .variant h
  | rebranch _ _ h => exact .rebranch hb h
  | trans h _ ih ih' => exact .trans (ih hb) (ih' (h.asrt.2 ▸ hb))

/-- Removing parentheses from a usable regex takes some of the steps. -/
theorem Pl.steps {a b : Ast} (h : Pl a b) : ∀ (f : Flags) (inv : Bool) (E : Env) (r : Nat), E.flags = f → Ok E r (dirAst inv a) → LSteps f inv a b := by
  induction h with
  | refl a => exact fun f inv _ _ _ _ => .variant rfl rfl (.refl inv a)
  | @trans a b c h _ ih ih' =>
    intro f inv E r hf hok
    refine .trans (ih f inv E r hf hok) (ih' f inv E r hf ?_)
    cases inv with
    | false => exact (h.facts.ok E r).1.1 hok
    | true => exact (h.facts.ok E r).2.1 hok
  | @seq a b pre post _ ih =>
    intro f inv E r hf hok
    refine (ih f inv E r hf ?_).place (g := fun x => .seq (pre ++ x :: post)) (fun h => ?_) (fun h => ?_) (.seq pre post) (.seq pre post)
    · cases inv with
      | false => exact (ok_seq.1 hok).2 a (by simp)
      | true =>
        simp only [dirAst, if_true, invert, invertAll_eq] at hok
        exact (ok_seq.1 hok).2 _ (by simp [dirAst])
    · simp only [isAssertion_seq, List.all_append, List.all_cons, h, List.length_append, List.length_cons]
    · simp only [noBackref, noBackrefAll_eq, List.all_append, List.all_cons, h]
  | @alt a b pre post _ ih =>
    intro f inv E r hf hok
    refine (ih f inv E r hf ?_).place (g := fun x => .alt (pre ++ x :: post)) (fun h => ?_) (fun h => ?_) (.alt pre post) (.alt pre post)
    · cases inv with
      | false => exact (ok_alt.1 hok).2 a (by simp)
      | true =>
        simp only [dirAst, if_true, invert, invertAll_eq] at hok
        exact (ok_alt.1 hok).2 _ (by simp [dirAst])
    · simp only [isAssertion_alt, List.all_append, List.all_cons, h, List.length_append, List.length_cons]
    · simp only [noBackref, noBackrefAll_eq, List.all_append, List.all_cons, h]
  | cap id name _ ih =>
    intro f inv E r hf hok
    refine (ih f inv E r hf ?_).place (g := .cap id name) (fun _ => rfl) (fun h => h) (.cap id name) (.cap id name)
    cases inv <;> cases hok <;> assumption
  | rep m lo hi _ ih =>
    intro f inv E r hf hok
    refine (ih f inv E r hf ?_).place (g := .rep m lo hi) (fun h => by simp only [isAssertion, h]) (fun h => h) (.rep m lo hi) (.rep m lo hi)
    cases inv <;> cases hok <;> assumption
  | @look a b d _ ih =>
    intro f inv E r hf hok
    have h1 : ∀ a, Ok E r (.look .ahead a) → Ok E r a := fun a => fun | .ahead h => h
    have h2 : ∀ a, Ok E r (.look .behind a) → Ok E (r + 1) (invert a) := fun a h => (twin_ok_behind'.1 h).2
    match d, inv, hok with
    | .ahead, false, hok => exact (ih f false E r hf (h1 _ hok)).place (g := .look .ahead) (fun _ => rfl) (fun h => h) .ahead (.look _)
    | .ahead, true, hok => exact (ih f true E (r + 1) hf (h2 _ hok)).place (g := .look .ahead) (fun _ => rfl) (fun h => h) .ahead (.look _)
    | .behind, false, hok => exact (ih f true E (r + 1) hf (h2 _ hok)).place (g := .look .behind) (fun _ => rfl) (fun h => h) (fun h => .behind h) (.look _)
    | .behind, true, hok => exact (ih f false E r hf (h1 _ hok)).place (g := .look .behind) (fun _ => rfl) (fun h => h) (fun h => .behind h) (.look _)
  | @neg a b h ih =>
    intro f inv E r hf hok
    have hok' : (Ast.triv a = true ∨ isAssertion a = true) ∧ Ok E r (dirAst inv a) := by
      cases inv with
      | false => exact ok_neg.1 hok
      | true =>
        have := ok_neg.1 hok
        rwa [triv_invert, isAssertion_invert] at this
    rcases hok'.1 with ht | ht
    · have hca : CharClass a := by
        cases inv with
        | false => exact charClass_of_ok hok'.2 ht
        | true =>
          have h2 : Ok E r (invert a) := hok'.2
          exact charClass_invert.1 (charClass_of_ok h2 (by rw [triv_invert]; exact ht))
      have hcb : CharClass b := by
        have t := h.facts.triv ▸ ht
        cases inv with
        | false => exact charClass_of_ok ((h.facts.ok E r).1.1 hok'.2) t
        | true => exact charClass_invert.1 (charClass_of_ok ((h.facts.ok E r).2.1 hok'.2) (by rw [triv_invert]; exact t))
      refine .variant (by simp only [isAssertion, h.facts.asrt]) h.facts.refs (.sameClass (.neg hca) (.neg hcb) (fun x => ?_))
      rw [hca.neg.one_iff, hcb.neg.one_iff]
      simp only [matchOne, h.facts.one]
    · exact (ih f inv E r hf hok'.2).neg (test_iff.2 ht)
  | nested pre l post hl => exact fun f inv _ _ _ _ => .variant (Pl.nested pre l post hl).facts.asrt (Pl.nested pre l post hl).facts.refs (.nested inv pre l post hl)
  | one a => exact fun f inv _ _ _ _ => .variant (Pl.one a).facts.asrt (Pl.one a).facts.refs (.one inv a)
  | branch a => exact fun f inv _ _ _ _ => .variant (Pl.branch a).facts.asrt (Pl.branch a).facts.refs (.branch inv a)
  | dissolve pre l post hl =>
    exact fun f inv _ _ _ _ => .rebranch (Pl.dissolve pre l post hl).facts.asrt (Pl.dissolve pre l post hl).facts.refs (.dissolve pre l post hl)

/-! ### Expressions -/

theorem pl_seqAll (pre : List Ast) (xs : List (Ast × Ast)) (h : ∀ x ∈ xs, Pl x.1 x.2) :
    Pl (.seq (pre ++ xs.map Prod.fst)) (.seq (pre ++ xs.map Prod.snd)) := by
  induction xs generalizing pre with
  | nil => exact .refl _
  | cons x xs ih =>
    refine (Pl.seq pre (xs.map Prod.fst) (h x (by simp))).trans ?_
    have := ih (pre ++ [x.2]) (fun y hy => h y (by simp [hy]))
    simpa using this

theorem pl_altAll (pre : List Ast) (xs : List (Ast × Ast)) (h : ∀ x ∈ xs, Pl x.1 x.2) :
    Pl (.alt (pre ++ xs.map Prod.fst)) (.alt (pre ++ xs.map Prod.snd)) := by
  induction xs generalizing pre with
  | nil => exact .refl _
  | cons x xs ih =>
    refine (Pl.alt pre (xs.map Prod.fst) (h x (by simp))).trans ?_
    have := ih (pre ++ [x.2]) (fun y hy => h y (by simp [hy]))
    simpa using this

theorem pl_flatSeq (pre l : List Ast) (h : ∀ a ∈ l, seqParts a ≠ []) : Pl (.seq (pre ++ l)) (.seq (pre ++ l.flatMap seqParts)) := by
  induction l generalizing pre with
  | nil => exact .refl _
  | cons a l ih =>
    have hl := fun pre => ih pre (fun b hb => h b (by simp [hb]))
    have ha := h a (by simp)
    rw [List.flatMap_cons]
    have key : seqParts a = [a] → Pl (.seq (pre ++ a :: l)) (.seq (pre ++ (seqParts a ++ l.flatMap seqParts))) := by
      intro e
      rw [e]
      simpa using hl (pre ++ [a])
    match a, ha, key with
    | .seq l', ha, _ =>
      refine (Pl.nested pre l' l ha).trans ?_
      simpa [seqParts] using hl (pre ++ l')
    | .alt _, _, key | .set _, _, key | .neg _, _, key | .cap _ _ _, _, key | .rep _ _ _ _, _, key | .look _ _, _, key | .empty, _, key
    | .lit _, _, key | .range _ _, _, key | .wildcard, _, key | .bol, _, key | .boi, _, key | .eol, _, key | .eoi, _, key | .wordB, _, key
    | .backref _, _, key | .namedBackref _, _, key => exact key rfl

theorem pl_flatAlt (pre l : List Ast) (h : ∀ a ∈ l, altParts a ≠ []) : Pl (.alt (pre ++ l)) (.alt (pre ++ l.flatMap altParts)) := by
  induction l generalizing pre with
  | nil => exact .refl _
  | cons a l ih =>
    have hl := fun pre => ih pre (fun b hb => h b (by simp [hb]))
    have ha := h a (by simp)
    rw [List.flatMap_cons]
    have key : altParts a = [a] → Pl (.alt (pre ++ a :: l)) (.alt (pre ++ (altParts a ++ l.flatMap altParts))) := by
      intro e
      rw [e]
      simpa using hl (pre ++ [a])
    match a, ha, key with
    | .alt l', ha, _ =>
      refine (Pl.dissolve pre l' l ha).trans ?_
      simpa [altParts] using hl (pre ++ l')
    | .seq _, _, key | .set _, _, key | .neg _, _, key | .cap _ _ _, _, key | .rep _ _ _ _, _, key | .look _ _, _, key | .empty, _, key
    | .lit _, _, key | .range _ _, _, key | .wildcard, _, key | .bol, _, key | .boi, _, key | .eol, _, key | .eoi, _, key | .wordB, _, key
    | .backref _, _, key | .namedBackref _, _, key => exact key rfl

theorem pl_concat {l : List Ast} {a : Ast} (ha : Xpr.concat l = some a) (h : ∀ b ∈ l, seqParts b ≠ []) : Pl (.seq l) a := by
  match l, ha with
  | [], ha => simp [Xpr.concat, Xpr.flatWrap] at ha
  | [b], ha =>
    simp only [Xpr.concat, Xpr.flatWrap, Option.some.injEq] at ha
    subst ha; exact .one _
  | b :: b' :: l, ha =>
    rw [concat_eq] at ha
    cases ha
    exact pl_flatSeq [] _ h

theorem pl_either {l : List Ast} {a : Ast} (ha : Xpr.either l = some a) (h : ∀ b ∈ l, altParts b ≠ []) : Pl (.alt l) a := by
  match l, ha with
  | [], ha => simp [Xpr.either, Xpr.flatWrap] at ha
  | [b], ha =>
    simp only [Xpr.either, Xpr.flatWrap, Option.some.injEq] at ha
    subst ha; exact .branch _
  | b :: b' :: l, ha =>
    rw [either_eq] at ha
    cases ha
    exact pl_flatAlt [] _ h

theorem pl_pack (l : List Ast) : Pl (.seq l) (Xpr.pack l) := by
  match l with
  | [] => exact .refl _
  | [a] => exact .one a
  | _ :: _ :: _ => exact .refl _

theorem node_ast {R : Regex} {a : Ast} (h : Xpr.node R = some a) : R.ast = a := by
  simp only [Xpr.node] at h
  split at h
  · simpa using h
  · cases h

theorem nodeOf_some {o : Option Regex} {a : Ast} (h : o.bind Xpr.node = some a) : ∃ R, o = some R ∧ R.ast = a := by
  cases o with
  | none => simp at h
  | some R =>
    simp only [Option.bind_some, Xpr.node] at h
    split at h
    · exact ⟨R, rfl, by simpa using h⟩
    · cases h

theorem packedOf_some {o : Option (List Ast)} {f : List Ast → Ast} {R : Regex} (h : o.bind (Xpr.packed f) = some R) :
    ∃ l, o = some l ∧ R.ast = f l := by
  cases o with
  | none => simp at h
  | some l =>
    simp only [Option.bind_some, Xpr.packed] at h
    split at h
    · cases h
    · cases h; exact ⟨l, rfl, rfl⟩

mutual
/-- The tree of an expression is the plain one without some parentheses. -/
theorem pl_eval : ∀ (e : Xpr.Expr) (R : Regex), Xpr.eval e = some R → Pl (plain e) R.ast
  | .term t, R, h | .chr t, R, h | .range _ t, R, h | .group t, R, h | .groupNamed t, R, h => by
    simp only [Xpr.eval, Option.some.injEq] at h
    subst h; exact .refl _
  | .str w, R, h => by
    simp only [Xpr.eval] at h
    split at h
    · cases h
    · cases h; exact .refl _
  | .regex p, R, h => by
    simp only [Xpr.eval] at h
    split at h
    · next a hp => cases h; simp only [plain, hp]; exact .refl _
    · cases h
  | .concat l, R, h => by
    simp only [Xpr.eval, Option.bind_eq_some_iff, Option.map_eq_some_iff] at h
    obtain ⟨as, ho, a, ha, rfl⟩ := h
    obtain ⟨xs, hx, e1, e2⟩ := pl_operands l as ho
    simp only [plain, e1]
    refine Pl.trans (pl_seqAll [] xs hx) ?_
    simp only [List.nil_append]
    rw [e2]
    exact pl_concat ha (operand_facts l as ho).seq
  | .either l, R, h => by
    simp only [Xpr.eval, Option.bind_eq_some_iff, Option.map_eq_some_iff] at h
    obtain ⟨as, ho, a, ha, rfl⟩ := h
    obtain ⟨xs, hx, e1, e2⟩ := pl_operands l as ho
    simp only [plain, e1]
    refine Pl.trans (pl_altAll [] xs hx) ?_
    simp only [List.nil_append]
    rw [e2]
    exact pl_either ha (operand_facts l as ho).alt
  | .atomic l, R, h => by
    simp only [Xpr.eval] at h
    obtain ⟨as, ho, hR⟩ := packedOf_some h
    rw [hR]; exact .rep _ _ _ (pl_args l as ho)
  | .capture id name l, R, h => by
    simp only [Xpr.eval] at h
    obtain ⟨as, ho, hR⟩ := packedOf_some h
    rw [hR]; exact .cap _ _ (pl_args l as ho)
  | .between a b m l, R, h => by
    simp only [Xpr.eval] at h
    obtain ⟨as, ho, hR⟩ := packedOf_some h
    rw [hR]; exact .rep _ _ _ (pl_args l as ho)
  | .atLeast n m l, R, h => by
    simp only [Xpr.eval] at h
    obtain ⟨as, ho, hR⟩ := packedOf_some h
    rw [hR]; exact .rep _ _ _ (pl_args l as ho)
  | .exactly n m l, R, h => by
    simp only [Xpr.eval] at h
    obtain ⟨as, ho, hR⟩ := packedOf_some h
    rw [hR]; exact .rep _ _ _ (pl_args l as ho)
  | .zeroOrMore m l, R, h => by
    simp only [Xpr.eval] at h
    obtain ⟨as, ho, hR⟩ := packedOf_some h
    rw [hR]; exact .rep _ _ _ (pl_args l as ho)
  | .oneOrMore m l, R, h => by
    simp only [Xpr.eval] at h
    obtain ⟨as, ho, hR⟩ := packedOf_some h
    rw [hR]; exact .rep _ _ _ (pl_args l as ho)
  | .maybe m l, R, h => by
    simp only [Xpr.eval] at h
    obtain ⟨as, ho, hR⟩ := packedOf_some h
    rw [hR]; exact .rep _ _ _ (pl_args l as ho)
  | .ahead l, R, h => by
    simp only [Xpr.eval] at h
    obtain ⟨as, ho, hR⟩ := packedOf_some h
    rw [hR]; exact .look _ (pl_args l as ho)
  | .behind l, R, h => by
    simp only [Xpr.eval] at h
    obtain ⟨as, ho, hR⟩ := packedOf_some h
    rw [hR]; exact .look _ (pl_args l as ho)
  | .negate e, R, h | .not e, R, h => by
    simp only [Xpr.eval, Option.map_eq_some_iff] at h
    obtain ⟨a, ha, rfl⟩ := h
    obtain ⟨R', h', rfl⟩ := nodeOf_some ha
    exact .neg (pl_eval e R' h')
  | .star e, R, h | .plus e, R, h => by
    simp only [Xpr.eval, Option.map_eq_some_iff] at h
    obtain ⟨a, ha, rfl⟩ := h
    obtain ⟨R', h', rfl⟩ := nodeOf_some ha
    exact .rep _ _ _ (pl_eval e R' h')
  | .shiftRight e e', R, h => by
    simp only [Xpr.eval, Option.bind_eq_some_iff, Option.map_eq_some_iff] at h
    obtain ⟨a, ⟨R₁, h₁, ha⟩, b, ⟨R₂, h₂, hb⟩, c, hc, rfl⟩ := h
    obtain rfl := node_ast ha
    obtain rfl := node_ast hb
    refine Pl.trans (pl_seqAll [] [(plain e, R₁.ast), (plain e', R₂.ast)] ?_) (pl_concat hc ?_)
    · simp only [List.forall_mem_cons, List.not_mem_nil, false_implies, implies_true, and_true]
      exact ⟨pl_eval e R₁ h₁, pl_eval e' R₂ h₂⟩
    · intro b hb
      rcases List.mem_cons.1 hb with rfl | hb
      · exact (eval_facts e R₁ h₁).seq
      · rw [List.mem_singleton.1 hb]; exact (eval_facts e' R₂ h₂).seq
  | .bitOr e e', R, h => by
    simp only [Xpr.eval, Option.bind_eq_some_iff, Option.map_eq_some_iff] at h
    obtain ⟨a, ⟨R₁, h₁, ha⟩, b, ⟨R₂, h₂, hb⟩, c, hc, rfl⟩ := h
    obtain rfl := node_ast ha
    obtain rfl := node_ast hb
    refine Pl.trans (pl_altAll [] [(plain e, R₁.ast), (plain e', R₂.ast)] ?_) (pl_either hc ?_)
    · simp only [List.forall_mem_cons, List.not_mem_nil, false_implies, implies_true, and_true]
      exact ⟨pl_eval e R₁ h₁, pl_eval e' R₂ h₂⟩
    · intro b hb
      rcases List.mem_cons.1 hb with rfl | hb
      · exact (eval_facts e R₁ h₁).alt
      · rw [List.mem_singleton.1 hb]; exact (eval_facts e' R₂ h₂).alt
  | .addFlags _ e, R, h | .clearFlags e, R, h => by
    simp only [Xpr.eval, Option.map_eq_some_iff] at h
    obtain ⟨R', h', rfl⟩ := h
    exact pl_eval e R' h'
theorem pl_operands : ∀ (l : List Xpr.Expr) (as : List Ast), Xpr.operands l = some as →
    ∃ xs : List (Ast × Ast), (∀ x ∈ xs, Pl x.1 x.2) ∧ plainAll l = xs.map Prod.fst ∧ xs.map Prod.snd = as
  | [], as, h => by
    simp only [Xpr.operands, Option.some.injEq] at h
    subst h
    exact ⟨[], by simp, rfl, rfl⟩
  | e :: l, as, h => by
    simp only [Xpr.operands, Option.bind_eq_some_iff, Option.map_eq_some_iff] at h
    obtain ⟨a, ⟨R, hR, ha⟩, as', ho, rfl⟩ := h
    obtain rfl := node_ast ha
    obtain ⟨xs, hx, e1, e2⟩ := pl_operands l as' ho
    refine ⟨(plain e, R.ast) :: xs, ?_, by simp [plainAll, e1], by simp [e2]⟩
    simp only [List.forall_mem_cons]
    exact ⟨pl_eval e R hR, hx⟩
theorem pl_args : ∀ (l : List Xpr.Expr) (as : List Ast), Xpr.operands l = some as → Pl (.seq (plainAll l)) (Xpr.pack as)
  | l, as, h => by
    obtain ⟨xs, hx, e1, e2⟩ := pl_operands l as h
    rw [e1]
    refine Pl.trans (pl_seqAll [] xs hx) ?_
    simp only [List.nil_append]
    rw [e2]
    exact pl_pack as
end

end Mregex
