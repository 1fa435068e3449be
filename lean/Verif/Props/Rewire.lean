import Verif.Proof.Rewire
import Verif.Props.Proc

/-!
# Other groups in regexes with references
-/

namespace Mregex
open Ast Spec

/-! ## C69 -/

section
variable {σ : Nat → Option (Nat × GroupName)} {ν : List Byte → Nat} {R R' : Regex} {cat : Cat} (hσ : Renumbering σ) (hR : R.Ok cat) (hR' : R'.Ok cat)
  (hf : R'.flags = R.flags) (hν : ∀ k n, R.ast.nameSpec.count (some n) = 1 → HasGroup R.ast k (some n) → ν n = k)
  (hk : refersKept σ ν R.ast = true) (hb : branchesKept σ ν R.ast = true) (he : R'.ast = rewire σ ν R.ast)
include hσ hR hR' hf hν hk hb he

/-- One call of the generators. -/
theorem rewire_next (M : Method) (s : List Byte) (g g' : Gen) (hg : g.current ≤ s.length) (hgg : g = g' ∨ (g.active = false ∧ g'.active = false)) :
    ∃ res res' g₁ g₁', genNext R M cat s g = some (res, g₁) ∧ genNext R' M cat s g' = some (res', g₁') ∧ AgreeOn σ R.ast res res' ∧
      g₁.current ≤ s.length ∧ (g₁ = g₁' ∨ (g₁.active = false ∧ g₁'.active = false)) := by
  have hgr : ∀ {k n j n'}, HasGroup R.ast k n → σ k = some (j, n') → k < R.names.length ∧ j < R'.names.length := by
    intro k n j n' h1 h2
    have h3 := hasGroup_rewire (ν := ν) h1 h2
    rw [← he] at h3
    exact ⟨(List.getElem?_eq_some_iff.1 (ok_name (hR s) h1)).1, (List.getElem?_eq_some_iff.1 (ok_name (hR' s) h3)).1⟩
  by_cases hact : g.active = true
  · have hgg : g' = g := by
      rcases hgg with h | h
      · exact h.symm
      · rw [h.1] at hact; cases hact
    subst hgg
    obtain ⟨q, c, h1, h2, h3, h4⟩ := invoke_follow (E := R.env cat s) (hR s) (fun n id => names_of_groups hR hν) M (Nat.le_refl _) hg (fun _ => none)
    obtain ⟨q', c', h1', h2', h3', h4'⟩ := invoke_follow (E := R'.env cat s) (ν := fun n => (nameIndex R'.names n).getD 0) (hR' s)
      (fun n id h => by rw [show nameIndex R'.names n = some id from h]; rfl) M (Nat.le_refl _) hg (fun _ => none)
    have hi : (R.env cat s).names = R.names := rfl
    have hi' : (R'.env cat s).names = R'.names := rfl
    rw [hi, ← ctxOf_init] at h1
    rw [hi', ← ctxOf_init] at h1'
    rw [hi] at h2 h3 h4
    rw [hi'] at h2' h3' h4'
    have hpr : ∀ p, Renoted σ (proc (R.env cat s).flags (R.env cat s).inp ν R.ast 0 false p)
        (proc (R'.env cat s).flags (R'.env cat s).inp (fun n => (nameIndex R'.names n).getD 0) R'.ast 0 false p) := by
      intro p
      have := proc_rewire (σ := σ) (ν' := fun n => (nameIndex R'.names n).getD 0) (wf_of_ok (hR s)) hk hb
        (fun n j n' hm hj => rewire_names hR hR' he hν hm hj) (R.env cat s).flags s 0 false p
      rw [← he] at this
      have e : (R'.env cat s).flags = (R.env cat s).flags := by simp only [Regex.env, hf]
      rw [e]
      exact this
    obtain ⟨hrng, hsame⟩ := Renoted.carryOut hσ hpr (R.env cat s).inp.length g'.current M (h := fun _ => none) (h' := fun _ => none)
      (fun _ _ _ _ => rfl)
    have hlen : (R'.env cat s).inp.length = (R.env cat s).inp.length := rfl
    rw [hlen] at h1' h3' h4'
    rw [hrng] at h1' h3'
    unfold genNext fuelFor
    simp only [hact, Bool.not_true, Bool.false_eq_true, if_false]
    rw [show M.invoke (R.env cat s) (R.ast.depth + s.length + 1) R.ast g'.current (initCtx R.names) = _ from h1,
      show M.invoke (R'.env cat s) (R'.ast.depth + s.length + 1) R'.ast g'.current (initCtx R'.names) = _ from h1']
    refine ⟨_, _, _, _, rfl, rfl, ⟨rfl, fun hm => ?_, fun k n j n' hk0 hg1 hg2 => ?_⟩, ?_, ?_⟩
    · obtain ⟨r, hr⟩ := Option.isSome_iff_exists.1 hm
      exact ((h3 r.1 r.2 hr).2 (Nat.succ_pos _)).trans
        ((h3' r.1 r.2 hr).2 (Nat.succ_pos _)).symm
    · obtain ⟨hk1, hk2⟩ := hgr hg1 hg2
      have hj : j ≠ 0 := fun e => hσ.2 k n' (by rw [hg2, e])
      refine ⟨(carryOut (R.env cat s).inp.length (proc (R.env cat s).flags (R.env cat s).inp ν R.ast 0 false) g'.current (fun _ => none) M).2 k, ?_, ?_⟩
      · show c[k]? = _
        rw [h4 k hk0, getElem?_ctxOf, if_pos hk1]
      · show c'[j]? = _
        rw [h4' j hj, getElem?_ctxOf, if_pos hk2, ← hsame k j n' hg2]
    · obtain ⟨res, c0, hp, hi⟩ := C01_total R cat hR M s g'.current hg _ (length_init _)
      have := (hi _ (Nat.le_refl _)).symm.trans h1
      injection this with e1 e2
      rw [e1] at hp
      exact hp
    · cases hr : (carryOut (R.env cat s).inp.length (proc (R.env cat s).flags (R.env cat s).inp ν R.ast 0 false) g'.current (fun _ => none) M).1 with
      | none => exact .inr ⟨rfl, rfl⟩
      | some r =>
        refine .inl ?_
        have a1 := h3 r.1 r.2 hr
        have a2 := h3' r.1 r.2 hr
        have b1 := a1.2 (Nat.succ_pos _)
        have b2 := a2.2 (Nat.succ_pos _)
        simp only [List.getD_eq_getElem?_getD, b1, b2, a1.1, a2.1]
  · have ha : g.active = false := by simpa using hact
    have ha' : g'.active = false := by
      rcases hgg with h | h
      · rw [← h]; exact ha
      · exact h.2
    unfold genNext
    simp only [ha, ha', Bool.not_false, if_true]
    refine ⟨_, _, _, _, rfl, rfl, ⟨rfl, fun h => by simp at h, fun k n j n' _ h1 h2 => ?_⟩, hg, hgg⟩
    obtain ⟨hk1, hk2⟩ := hgr h1 h2
    exact ⟨none, by show (initCtx _)[k]? = _; rw [init_getElem?, if_pos hk1], by show (initCtx _)[j]? = _; rw [init_getElem?, if_pos hk2]⟩

/-- **C69**: capturing groups that are not referred to only record, as long as no alternative becomes a single character.  Making some of them plain
parentheses, and giving the others new numbers and names, which the references follow, changes neither the verdict nor the range of a match, and the
groups that stay hold the same, even if the call fails. -/
theorem C69_methods (M : Method) (s : List Byte) :
    ∃ res res', R.invoke M cat s = some res ∧ R'.invoke M cat s = some res' ∧ AgreeOn σ R.ast res res' := by
  obtain ⟨res, res', g₁, g₁', h1, h2, h3, _⟩ := rewire_next hσ hR hR' hf hν hk hb he M s {} {} (Nat.zero_le _) (.inl rfl)
  refine ⟨res, res', ?_, ?_, h3⟩
  · unfold Regex.invoke
    unfold genNext at h1
    simp only [Bool.not_true, Bool.false_eq_true, if_false] at h1
    split at h1
    · next h => injection h1 with h1; injection h1 with h1; rw [h, ← h1]
    · cases h1
  · unfold Regex.invoke
    unfold genNext at h2
    simp only [Bool.not_true, Bool.false_eq_true, if_false] at h2
    split at h2
    · next h => injection h2 with h2; injection h2 with h2; rw [h, ← h2]
    · cases h2

/-- **C69**: any number of calls of a generator (`tokenizer`, `searcher`). -/
theorem C69_generators (M : Method) (s : List Byte) (k : Nat) :
    ∃ l l' g g', genCalls R M cat s k {} = some (l, g) ∧ genCalls R' M cat s k {} = some (l', g') ∧ AgreeAll σ R.ast l l' := by
  suffices h : ∀ k (g g' : Gen), g.current ≤ s.length → (g = g' ∨ (g.active = false ∧ g'.active = false)) →
      ∃ l l' g₁ g₁', genCalls R M cat s k g = some (l, g₁) ∧ genCalls R' M cat s k g' = some (l', g₁') ∧ AgreeAll σ R.ast l l' from
    h k {} {} (Nat.zero_le _) (.inl rfl)
  intro k
  induction k with
  | zero => intro g g' _ _; exact ⟨_, _, _, _, rfl, rfl, .nil⟩
  | succ k ih =>
    intro g g' hg hgg
    obtain ⟨res, res', g₁, g₁', h1, h2, h3, h4, h5⟩ := rewire_next hσ hR hR' hf hν hk hb he M s g g' hg hgg
    obtain ⟨l, l', g₂, g₂', i1, i2, i3⟩ := ih g₁ g₁' h4 h5
    refine ⟨res :: l, res' :: l', g₂, g₂', ?_, ?_, .cons h3 i3⟩
    · simp only [genCalls, h1, i1, Option.bind_eq_bind, Option.bind_some, Option.pure_def]
    · simp only [genCalls, h2, i2, Option.bind_eq_bind, Option.bind_some, Option.pure_def]

/-- **C69**: `tokenize` and `find_all` visit results that agree. -/
theorem C69_ranges (M : Method) (s : List Byte) (rounds : Nat) :
    ∃ l l' fin, rangeElements R M cat s rounds = some (l, fin) ∧ rangeElements R' M cat s rounds = some (l', fin) ∧ AgreeAll σ R.ast l l' := by
  have key : ∀ (k : Nat) (A A' : RangeAdapter), A.gen.current ≤ s.length → AgreeOn σ R.ast A.currentResult A'.currentResult →
      (A.gen = A'.gen ∨ (A.gen.active = false ∧ A'.gen.active = false)) →
      ∃ l l' fin, A.visit R M cat s k = some (l, fin) ∧ A'.visit R' M cat s k = some (l', fin) ∧ AgreeAll σ R.ast l l' := by
    intro k
    induction k with
    | zero =>
      intro A A' _ hA _
      refine ⟨[], [], !A.active, rfl, ?_, .nil⟩
      simp only [RangeAdapter.visit, RangeAdapter.active, Result.toBool, hA.1]
    | succ k ih =>
      intro A A' hcur hA hgg
      have hact : A'.active = A.active := by simp only [RangeAdapter.active, Result.toBool, hA.1]
      cases h : A.active with
      | false =>
        refine ⟨[], [], true, ?_, ?_, .nil⟩
        · simp only [RangeAdapter.visit, h, Bool.false_eq_true, if_false]
        · simp only [RangeAdapter.visit, hact, h, Bool.false_eq_true, if_false]
      | true =>
        obtain ⟨res, res', g₁, g₁', h1, h2, h3, h4, h5⟩ := rewire_next hσ hR hR' hf hν hk hb he M s _ _ hcur hgg
        obtain ⟨l, l', fin, i1, i2, i3⟩ := ih ⟨g₁, res⟩ ⟨g₁', res'⟩ h4 h3 h5
        refine ⟨_, _, fin, ?_, ?_, .cons hA i3⟩
        · simp only [RangeAdapter.visit, RangeAdapter.computeNext, h, h1, i1, if_true, Option.bind_eq_bind, Option.bind_some, Option.pure_def]
        · simp only [RangeAdapter.visit, RangeAdapter.computeNext, hact, h, h2, i2, if_true, Option.bind_eq_bind, Option.bind_some, Option.pure_def]
  obtain ⟨res, res', g₁, g₁', h1, h2, h3, h4, h5⟩ := rewire_next hσ hR hR' hf hν hk hb he M s {} {} (Nat.zero_le _) (.inl rfl)
  obtain ⟨l, l', fin, i1, i2, i3⟩ := key rounds ⟨g₁, res⟩ ⟨g₁', res'⟩ h4 h3 h5
  exact ⟨l, l', fin, by simp only [rangeElements, RangeAdapter.make, h1, i1, Option.bind_eq_bind, Option.bind_some, Option.pure_def],
    by simp only [rangeElements, RangeAdapter.make, h2, i2, Option.bind_eq_bind, Option.bind_some, Option.pure_def], i3⟩

end


/-- **C69**: if all groups stay groups, nothing is said about alternatives. -/
theorem C69_renumbered {σ : Nat → Option (Nat × GroupName)} {ν : List Byte → Nat} {R R' : Regex} {cat : Cat} (hσ : Renumbering σ) (hR : R.Ok cat)
    (hR' : R'.Ok cat) (hf : R'.flags = R.flags) (hν : ∀ k n, R.ast.nameSpec.count (some n) = 1 → HasGroup R.ast k (some n) → ν n = k)
    (hk : refersKept σ ν R.ast = true) (hall : ∀ k n, HasGroup R.ast k n → σ k ≠ none) (he : R'.ast = rewire σ ν R.ast) (M : Method) (s : List Byte) :
    ∃ res res', R.invoke M cat s = some res ∧ R'.invoke M cat s = some res' ∧ AgreeOn σ R.ast res res' :=
  C69_methods hσ hR hR' hf hν hk
    (branchesKept_of_all (fun k n h => by rw [Option.isSome_iff_ne_none]; exact hall k n h) (wf_of_ok (hR []))) he M s

/-- `(?:(?:(a)|a)(?:\2c|)|(b))*$`. -/
def exDrop : Regex :=
  ⟨.seq [.rep .greedy 0 .inf (.alt [.seq [.alt [.cap 1 none (.lit (ch 'a')), .lit (ch 'a')], .alt [.seq [.backref 2, .lit (ch 'c')], .empty]],
    .cap 2 none (.lit (ch 'b'))]), .eol], []⟩

/-- Group 1 goes, group 2 becomes group 1, named `x`. -/
def exSecond (k : Nat) : Option (Nat × GroupName) := if k = 2 then some (1, some (txt "x")) else none

theorem exSecond_renumbering : Renumbering exSecond := by
  constructor
  · intro k k' j n n' h h'
    unfold exSecond at h h'
    split at h
    · split at h'
      · omega
      · cases h'
    · cases h
  · intro k n h
    unfold exSecond at h
    split at h
    · injection h with h; injection h with h; cases h
    · cases h

/-- **C69**: a group that nothing refers to does not only record: `(?:(?:(a)|a)(?:\2c|)|(b))*$` matches `bac`, and without its first group it does not.
With the group, the alternation tries `a` twice, and the second time the group `b` has been given up; without, the library takes it for a set of
characters, and tries it once. -/
theorem C69_false : ¬ ∀ (σ : Nat → Option (Nat × GroupName)) (ν : List Byte → Nat) (R R' : Regex) (cat : Cat), Renumbering σ → R.Ok cat → R'.Ok cat →
    R'.flags = R.flags → (∀ k n, R.ast.nameSpec.count (some n) = 1 → HasGroup R.ast k (some n) → ν n = k) → refersKept σ ν R.ast = true →
    R'.ast = rewire σ ν R.ast → ∀ (M : Method) (s : List Byte), ∃ res res', R.invoke M cat s = some res ∧ R'.invoke M cat s = some res' ∧
      res.matched = res'.matched := by
  intro h
  obtain ⟨res, res', h1, h2, h3⟩ := h exSecond (fun _ => 0) exDrop ⟨rewire exSecond (fun _ => 0) exDrop.ast, []⟩ .randomAccess exSecond_renumbering
    (Regex.ok_of_okb (by decide)) (Regex.ok_of_okb (by decide)) rfl
    (fun k n h => absurd h (by rw [show exDrop.ast.nameSpec = [none, none] from rfl]; simp)) (by decide) rfl .match (txt "bac")
  have e1 : exDrop.invoke .match .randomAccess (txt "bac") = some ⟨[some (0, 3), some (1, 1), some (0, 0)], true⟩ := by decide
  have e2 : (Regex.mk (rewire exSecond (fun _ => 0) exDrop.ast) []).invoke .match .randomAccess (txt "bac") = some ⟨[some (0, 0), some (0, 0)], false⟩ := by
    decide
  rw [e1] at h1
  cases h1
  rw [e2] at h2
  cases h2
  cases h3

/-- `(x)(?:(ab)|(?<n>b))+\k<n>` and `x(?:(?<m>ab)|(b))+\2`. -/
def exRewire : Regex :=
  ⟨.seq [.cap 1 none (.lit (ch 'x')), .rep .greedy 1 .inf (.alt [.cap 2 none (.seq [.lit (ch 'a'), .lit (ch 'b')]), .cap 3 (some (txt "n")) (.lit (ch 'b'))]),
    .namedBackref (txt "n")], []⟩

def exWires (k : Nat) : Option (Nat × GroupName) := if k = 2 then some (1, some (txt "m")) else if k = 3 then some (2, none) else none

theorem exWires_renumbering : Renumbering exWires := by
  constructor
  · intro k k' j n n' h h'
    unfold exWires at h h'
    repeat' split at h
    all_goals repeat' split at h'
    all_goals first | omega | (cases h; cases h') | (cases h) | (cases h')
  · intro k n h
    unfold exWires at h
    repeat' split at h
    all_goals cases h

example : exRewire.Ok .randomAccess ∧ refersKept exWires (fun _ => 3) exRewire.ast = true ∧ branchesKept exWires (fun _ => 3) exRewire.ast = true ∧
    (Regex.mk (rewire exWires (fun _ => 3) exRewire.ast) []).Ok .randomAccess ∧
    rewire exWires (fun _ => 3) exRewire.ast = .seq [.lit (ch 'x'), .rep .greedy 1 .inf (.alt [.cap 1 (some (txt "m")) (.seq [.lit (ch 'a'), .lit (ch 'b')]),
      .cap 2 none (.lit (ch 'b'))]), .backref 2] ∧
    exRewire.match (txt "xabbb") = some ⟨[some (0, 5), some (0, 1), some (1, 1), some (4, 4)], true⟩ ∧
    (Regex.mk (rewire exWires (fun _ => 3) exRewire.ast) []).match (txt "xabbb") = some ⟨[some (0, 5), some (1, 1), some (4, 4)], true⟩ :=
  ⟨Regex.ok_of_okb (by decide), by decide, by decide, Regex.ok_of_okb (by decide), rfl, by decide, by decide⟩

end Mregex
