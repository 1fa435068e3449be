import Verif.Proof.Variants
import Verif.Proof.OkCheck
import Verif.Props.Compose
import Verif.Model.Generator

/-!
# Notational variants
-/

namespace Mregex
open Ast Spec

/-! ## C59 -/

theorem variant_env {f : Flags} {inv : Bool} {a b : Ast} (h : Variant f inv a b) (fl : List RegexFlag) (cat : Cat) (s : List Byte) :
    (Regex.mk a fl).env cat s = (Regex.mk b fl).env cat s := by
  have : (Regex.mk a fl).names = (Regex.mk b fl).names := by simp only [Regex.names, variant_names h]
  simp only [Regex.env, this]

/-- **C59**: a notational variant of a regex can be used wherever the regex can. -/
theorem C59_usable {a b : Ast} {fl : List RegexFlag} (h : Variant (Flags.ofList fl) false a b) (cat : Cat) :
    (Regex.mk a fl).Ok cat ↔ (Regex.mk b fl).Ok cat := by
  refine forall_congr' (fun s => ?_)
  rw [← variant_env h]
  exact (twin_of_variant (E := (Regex.mk a fl).env cat s) h rfl 0).1

/-- What the calls of the methods have in common, from any place on. -/
theorem variant_invoke {a b : Ast} {fl : List RegexFlag} (h : Variant (Flags.ofList fl) false a b) {cat : Cat}
    (hR : (Regex.mk a fl).Ok cat) (M : Method) (s : List Byte) {cur : Nat} (hcur : cur ≤ s.length) :
    SameResult (M.invoke ((Regex.mk a fl).env cat s) (fuelFor a s) a cur (initCtx (Regex.mk a fl).names))
      (M.invoke ((Regex.mk b fl).env cat s) (fuelFor b s) b cur (initCtx (Regex.mk b fl).names)) := by
  have hn : (Regex.mk a fl).names = (Regex.mk b fl).names := by simp only [Regex.names, variant_names h]
  rw [← variant_env h, ← hn]
  exact twin_invoke (E := (Regex.mk a fl).env cat s) (twin_of_variant h rfl) (hR s) M hcur (length_init _)

/-- A regex that is usable wherever `R` is, and whose methods return the same wherever they start. -/
structure SameUses (cat : Cat) (R R' : Regex) : Prop where
  ok : R.Ok cat → R'.Ok cat
  invoke : R.Ok cat → ∀ (M : Method) (s : List Byte) {cur : Nat}, cur ≤ s.length →
    SameResult (M.invoke (R.env cat s) (fuelFor R.ast s) R.ast cur (initCtx R.names))
      (M.invoke (R'.env cat s) (fuelFor R'.ast s) R'.ast cur (initCtx R'.names))

section
variable {cat : Cat} {R R' : Regex}

theorem SameUses.results (h : SameUses cat R R') (hR : R.Ok cat) (M : Method) (s : List Byte) :
    SameCall (R.invoke M cat s) (R'.invoke M cat s) := by
  obtain ⟨res, hr⟩ := C01_methods_return _ cat hR M s
  obtain ⟨res', hr'⟩ := C01_methods_return _ cat (h.ok hR) M s
  exact sameCall_of hr hr' (h.invoke hR M s (Nat.zero_le _))

/-- One step of the generators. -/
theorem SameUses.next (h : SameUses cat R R') (hR : R.Ok cat) (M : Method) (s : List Byte) {g : Gen}
    (hg : g.current ≤ s.length) :
    ∃ res res' g₁ g₁', genNext R M cat s g = some (res, g₁) ∧ genNext R' M cat s g = some (res', g₁') ∧
      g₁.current ≤ s.length ∧ ((res = res' ∧ g₁ = g₁') ∨ (res.matched = false ∧ res'.matched = false)) := by
  unfold genNext
  cases hact : g.active with
  | false =>
    exact ⟨_, _, _, _, rfl, rfl, hg, .inr ⟨rfl, rfl⟩⟩
  | true =>
    obtain ⟨res, c', hp, hi⟩ := C01_total _ cat hR M s g.current hg _ (length_init _)
    have hi := hi _ (Nat.le_refl _)
    have hs := h.invoke hR M s hg
    rw [show M.invoke (R.env cat s) (fuelFor R.ast s) R.ast g.current (initCtx R.names) = _ from hi] at hs
    simp only [Bool.not_true, Bool.false_eq_true, if_false]
    rw [hi]
    obtain ⟨q, m⟩ := res
    generalize M.invoke (R'.env cat s) (fuelFor R'.ast s) R'.ast g.current (initCtx R'.names) = o at hs ⊢
    cases hs with
    | hit => exact ⟨_, _, _, _, rfl, rfl, hp, .inl ⟨rfl, rfl⟩⟩
    | miss _ => exact ⟨_, _, _, _, rfl, rfl, hp, .inr ⟨rfl, rfl⟩⟩

theorem SameUses.ranges (h : SameUses cat R R') (hR : R.Ok cat) (M : Method) (s : List Byte) (rounds : Nat) :
    rangeElements R M cat s rounds = rangeElements R' M cat s rounds := by
  have key : ∀ (k : Nat) (A A' : RangeAdapter), A.gen.current ≤ s.length →
      ((A.currentResult = A'.currentResult ∧ A.gen = A'.gen) ∨
        (A.currentResult.matched = false ∧ A'.currentResult.matched = false)) →
      A.visit R M cat s k = A'.visit R' M cat s k := by
    intro k
    induction k with
    | zero =>
      intro A A' _ hA
      have : A.active = A'.active := by
        rcases hA with ⟨e, _⟩ | ⟨e, e'⟩
        · simp only [RangeAdapter.active, e]
        · simp only [RangeAdapter.active, Result.toBool, e, e']
      simp only [RangeAdapter.visit, this]
    | succ k ih =>
      intro A A' hcur hA
      rcases hA with ⟨e, e'⟩ | ⟨e, e'⟩
      · obtain ⟨res, res', g₁, g₁', h1, h2, h3, h4⟩ := h.next hR M s hcur
        have hact : A.active = A'.active := by simp only [RangeAdapter.active, e]
        rw [e'] at h2
        have := ih ⟨g₁, res⟩ ⟨g₁', res'⟩ h3 (by
          rcases h4 with ⟨x, y⟩ | x
          · exact .inl ⟨x, y⟩
          · exact .inr x)
        simp only [RangeAdapter.visit, RangeAdapter.computeNext, h1, h2, ← hact, ← e, Option.bind_eq_bind, Option.bind_some,
          Option.pure_def, this]
      · simp [RangeAdapter.visit, RangeAdapter.active, Result.toBool, e, e']
  obtain ⟨res, res', g₁, g₁', h1, h2, h3, h4⟩ := h.next hR M s (g := {}) (Nat.zero_le _)
  simp only [rangeElements, RangeAdapter.make, h1, h2, Option.bind_eq_bind, Option.bind_some, Option.pure_def]
  exact key rounds ⟨g₁, res⟩ ⟨g₁', res'⟩ h3 (by
    rcases h4 with ⟨x, y⟩ | x
    · exact .inl ⟨x, y⟩
    · exact .inr x)

end

/-- Regexes that are usable for the same inputs, and whose methods return the same wherever they start. -/
structure SameUse (fl : List RegexFlag) (cat : Cat) (a b : Ast) : Prop where
  ok : (Regex.mk a fl).Ok cat ↔ (Regex.mk b fl).Ok cat
  invoke : (Regex.mk a fl).Ok cat → ∀ (M : Method) (s : List Byte) {cur : Nat}, cur ≤ s.length →
    SameResult (M.invoke ((Regex.mk a fl).env cat s) (fuelFor a s) a cur (initCtx (Regex.mk a fl).names))
      (M.invoke ((Regex.mk b fl).env cat s) (fuelFor b s) b cur (initCtx (Regex.mk b fl).names))

section
variable {fl : List RegexFlag} {cat : Cat} {a b : Ast}

theorem sameUse_of_variant (h : Variant (Flags.ofList fl) false a b) : SameUse fl cat a b := ⟨C59_usable h cat, variant_invoke h⟩

theorem SameUse.symm (h : SameUse fl cat a b) : SameUse fl cat b a :=
  ⟨h.ok.symm, fun hR M s _ hcur => (h.invoke (h.ok.2 hR) M s hcur).symm⟩

theorem SameUse.trans {c : Ast} (h : SameUse fl cat a b) (h' : SameUse fl cat b c) : SameUse fl cat a c :=
  ⟨h.ok.trans h'.ok, fun hR M s _ hcur => (h.invoke hR M s hcur).trans (h'.invoke (h.ok.1 hR) M s hcur)⟩

theorem SameUse.uses (h : SameUse fl cat a b) : SameUses cat ⟨a, fl⟩ ⟨b, fl⟩ := ⟨h.ok.1, h.invoke⟩

theorem SameUse.results (h : SameUse fl cat a b) (hR : (Regex.mk a fl).Ok cat) (M : Method) (s : List Byte) :
    SameCall ((Regex.mk a fl).invoke M cat s) ((Regex.mk b fl).invoke M cat s) := h.uses.results hR M s

theorem SameUse.ranges (h : SameUse fl cat a b) (hR : (Regex.mk a fl).Ok cat) (M : Method) (s : List Byte) (rounds : Nat) :
    rangeElements ⟨a, fl⟩ M cat s rounds = rangeElements ⟨b, fl⟩ M cat s rounds := h.uses.ranges hR M s rounds

end

/-- **C59**: notational variants give the same results: the same verdict, all groups of a match, and all groups but group 0 if
there is no match. -/
theorem C59_results {a b : Ast} {fl : List RegexFlag} (h : Variant (Flags.ofList fl) false a b) {cat : Cat}
    (hR : (Regex.mk a fl).Ok cat) (M : Method) (s : List Byte) :
    SameCall ((Regex.mk a fl).invoke M cat s) ((Regex.mk b fl).invoke M cat s) := (sameUse_of_variant h).results hR M s

/-- **C59**: `tokenize` and `find_all` of notational variants visit the same results. -/
theorem C59_ranges {a b : Ast} {fl : List RegexFlag} (h : Variant (Flags.ofList fl) false a b) {cat : Cat}
    (hR : (Regex.mk a fl).Ok cat) (M : Method) (s : List Byte) (rounds : Nat) :
    rangeElements ⟨a, fl⟩ M cat s rounds = rangeElements ⟨b, fl⟩ M cat s rounds := (sameUse_of_variant h).ranges hR M s rounds

/-- `x(?:ab)(?:a|b)c{2}(?!$)` and `xab[ab]cc(?!(?=$))`. -/
theorem exVariant (f : Flags) : Variant f false
    (.seq [.lit (ch 'x'), .seq [.lit (ch 'a'), .lit (ch 'b')], .alt [.lit (ch 'a'), .lit (ch 'b')],
      .rep .greedy 2 (.fin 2) (.lit (ch 'c')), .neg .eol])
    (.seq [.lit (ch 'x'), .lit (ch 'a'), .lit (ch 'b'), .set [.lit (ch 'a'), .lit (ch 'b')], .lit (ch 'c'), .lit (ch 'c'),
      .neg (.look .ahead .eol)]) := by
  refine (Variant.nested false [.lit (ch 'x')] [.lit (ch 'a'), .lit (ch 'b')] _ (by simp)).trans ?_
  refine (Variant.seq [.lit (ch 'x'), .lit (ch 'a'), .lit (ch 'b')] _
    (.sameClass (b := .set [.lit (ch 'a'), .lit (ch 'b')]) (.alt (by simp) ?_) (.set ?_) (fun x => ?_))).trans ?_
  · simp only [List.forall_mem_cons, CharClass.lit, List.not_mem_nil, false_implies, implies_true, and_self]
  · simp only [List.forall_mem_cons, CharClass.lit, List.not_mem_nil, false_implies, implies_true, and_self]
  · simp [Matches, MatchesAny, CharAt]
  refine (Variant.seq [.lit (ch 'x'), .lit (ch 'a'), .lit (ch 'b'), .set [.lit (ch 'a'), .lit (ch 'b')]] _
    (.copies false .greedy 0 (.lit (ch 'c')) (by decide) rfl)).trans ?_
  refine (Variant.nested false [.lit (ch 'x'), .lit (ch 'a'), .lit (ch 'b'), .set [.lit (ch 'a'), .lit (ch 'b')]]
    [.lit (ch 'c'), .lit (ch 'c')] _ (by simp)).trans ?_
  exact .seq [.lit (ch 'x'), .lit (ch 'a'), .lit (ch 'b'), .set [.lit (ch 'a'), .lit (ch 'b')], .lit (ch 'c'), .lit (ch 'c')] []
    (.neg (.anchor .eol) (.symm (.lookTest (.anchor .eol))))

example (M : Method) (s : List Byte) := C59_results (fl := [.multiline]) (cat := .bidirectional) (exVariant _)
  (Regex.ok_of_okb (by decide)) M s
example := C59_ranges (fl := [.icase]) (cat := .forward) (exVariant _) (Regex.ok_of_okb (by decide)) .search
example := (C59_usable (fl := []) (exVariant _) .forward).1 (Regex.ok_of_okb (by decide))

/-- In a lookbehind: `(?<=a(?<=$))` and `(?<=a$)`. -/
example (M : Method) (s : List Byte) := C59_results (a := .look .behind (.seq [.lit (ch 'a'), .look .behind .eol]))
  (b := .look .behind (.seq [.lit (ch 'a'), .eol])) (fl := []) (cat := .randomAccess)
  (.behind (.seq [_] [] (.lookAnchor .eol))) (Regex.ok_of_okb (by decide)) M s

/-! ## C46 -/

theorem variant_flat {f : Flags} {inv : Bool} (pre l : List Ast)
    (h : ∀ l', .alt l' ∈ l → ∃ l'' x, l' = l'' ++ [x] ∧ ¬ CharClass x) :
    Variant f inv (.alt (pre ++ l)) (.alt (pre ++ l.flatMap altParts)) := by
  induction l generalizing pre with
  | nil => exact .refl _ _
  | cons a l ih =>
    rw [List.flatMap_cons]
    have hl := fun pre => ih pre (fun l' hl' => h l' (by simp [hl']))
    have key : altParts a = [a] → Variant f inv (.alt (pre ++ a :: l)) (.alt (pre ++ (altParts a ++ l.flatMap altParts))) := by
      intro e
      rw [e]
      simpa using hl (pre ++ [a])
    match a, h, key with
    | .alt l', h, _ =>
      obtain ⟨l'', x, rfl, hx⟩ := h l' (by simp)
      refine (Variant.branches inv pre l'' l x hx).trans ?_
      simpa [altParts] using hl (pre ++ l'' ++ [x])
    | .seq _, _, key | .set _, _, key | .neg _, _, key | .cap _ _ _, _, key | .rep _ _ _ _, _, key | .look _ _, _, key | .empty, _, key
    | .lit _, _, key | .range _ _, _, key | .wildcard, _, key | .bol, _, key | .boi, _, key | .eol, _, key | .eoi, _, key | .wordB, _, key
    | .backref _, _, key | .namedBackref _, _, key => exact key rfl

/-- **C46**, alternation, partial: the alternation built by `xpr::either` (and `|`) can replace the plain alternation of the operands
between other sub-expressions, for all groups and in the presence of backreferences, if the last branch of each operand that is
dissolved is not just a character.  Missing: operands that end in a character, for which it is false (`C46_either_backref_false`). -/
theorem C46_either_groups_partial (pre l post : List Ast) (a : Ast) (ha : Xpr.either l = some a) (fl : List RegexFlag) (cat : Cat)
    (hl : ∀ l', .alt l' ∈ l → ∃ l'' x, l' = l'' ++ [x] ∧ ¬ CharClass x)
    (hR : (Regex.mk (.seq (pre ++ .alt l :: post)) fl).Ok cat) :
    (Regex.mk (.seq (pre ++ a :: post)) fl).Ok cat ∧ ∀ (M : Method) (s : List Byte),
    SameCall ((Regex.mk (.seq (pre ++ a :: post)) fl).invoke M cat s)
      ((Regex.mk (.seq (pre ++ .alt l :: post)) fl).invoke M cat s) := by
  have hv : Variant (Flags.ofList fl) false (.alt l) a := by
    match l, ha with
    | [], h => simp [Xpr.either, Xpr.flatWrap] at h
    | [b], h =>
      simp only [Xpr.either, Xpr.flatWrap, Option.some.injEq] at h
      subst h; exact .branch _ _
    | b :: b' :: l, h =>
      rw [either_eq] at h
      cases h
      exact variant_flat [] _ hl
  have hv' := Variant.seq pre post hv
  have hok := (C59_usable hv' cat).1 hR
  exact ⟨hok, fun M s => C59_results hv'.symm hok M s⟩

theorem not_charClass_seq {a b : Ast} {l : List Ast} : ¬ CharClass (.seq (a :: b :: l)) := fun h => nomatch h

/-- `(?:(?:a|(b)c)|d)\1` without the inner parentheses. -/
example := C46_either_groups_partial [] [.alt [.lit (ch 'a'), .seq [.cap 1 none (.lit (ch 'b')), .lit (ch 'c')]], .lit (ch 'd')] [.backref 1]
  (.alt [.lit (ch 'a'), .seq [.cap 1 none (.lit (ch 'b')), .lit (ch 'c')], .lit (ch 'd')])
  (by simp [Xpr.either, Xpr.flatWrap, Xpr.flattenAlt]) [] .randomAccess
  (by
    intro l' h
    simp only [List.mem_cons, List.not_mem_nil, or_false, Ast.alt.injEq, reduceCtorEq] at h
    exact ⟨[.lit (ch 'a')], _, h, not_charClass_seq⟩)
  (Regex.ok_of_okb (by decide))

end Mregex
