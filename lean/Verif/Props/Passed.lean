import Verif.Proof.Passed
import Verif.Props.Proc
import Verif.Props.Variants

/-!
# C72: the text that has been passed does not matter
-/

namespace Mregex
open Ast Spec

theorem ctxOf_passed {n d : Nat} {h h' : Notes} (hh : ∀ k, h' k = shiftCap d (h k)) (k : Nat) : (ctxOf n h')[k]? = (ctxOf n h)[k]?.map (shiftCap d) := by
  rw [getElem?_ctxOf, getElem?_ctxOf]
  split
  · rw [hh k]; rfl
  · rfl

section
variable {R : Regex} {cat : Cat}

theorem passed_invoke (hR : R.Ok cat) (ha : aheadOnly R.ast = true) (M : Method) (t u : List Byte) {cur : Nat} (hcur : cur ≤ u.length) :
    ∃ q q' b c c', M.invoke (R.env cat u) (fuelFor R.ast u) R.ast cur (initCtx R.names) = .ok ⟨q, b⟩ c ∧
      M.invoke (R.env cat (t ++ u)) (fuelFor R.ast (t ++ u)) R.ast (cur + t.length) (initCtx R.names) = .ok ⟨q', b⟩ c' ∧
      (b = true → q' = q + t.length ∧ q ≤ u.length ∧ c' = c.map (shiftCap t.length)) ∧
      c'.length = c.length ∧ ∀ k, k ≠ 0 → c'[k]? = c[k]?.map (shiftCap t.length) := by
  have hν : ∀ s n id, nameIndex (R.env cat s).names n = some id → (fun n => (nameIndex R.names n).getD 0) n = id := fun s n id h => by
    simp only [show nameIndex R.names n = some id from h]; rfl
  obtain ⟨q, c, h1, h2, h3, h4⟩ := invoke_follow (E := R.env cat u) (hR u) (hν u) M (Nat.le_refl _) hcur (fun _ => none)
  obtain ⟨q', c', h1', h2', h3', h4'⟩ := invoke_follow (E := R.env cat (t ++ u)) (hR _) (hν (t ++ u)) M (Nat.le_refl _)
    (cur := cur + t.length) (show cur + t.length ≤ (t ++ u).length by rw [List.length_append]; omega) (fun _ => none)
  obtain ⟨hc1, hc2⟩ := carryOut_passed (fun p => proc_passed t u R.fl (fun n => (nameIndex R.names n).getD 0) R.ast ha p) u.length cur M
    (h := fun _ => none) (h' := fun _ => none) (fun _ => rfl)
  have hi : ∀ s, (R.env cat s).names = R.names := fun _ => rfl
  have hl : (R.env cat (t ++ u)).inp.length = u.length + t.length := by
    show (t ++ u).length = _
    rw [List.length_append, Nat.add_comm]
  rw [hi, ← ctxOf_init] at h1 h1'
  rw [hl] at h1' h3' h4'
  have hb : ∀ n g g', (carryOut n (proc (R.env cat (t ++ u)).flags (R.env cat (t ++ u)).inp g R.ast 0 false) (cur + t.length) g' M) =
    (carryOut n (proc R.fl (t ++ u) g R.ast 0 false) (cur + t.length) g' M) := fun _ _ _ => rfl
  have hb' : ∀ n g g', (carryOut n (proc (R.env cat u).flags (R.env cat u).inp g R.ast 0 false) cur g' M) =
    (carryOut n (proc R.fl u g R.ast 0 false) cur g' M) := fun _ _ _ => rfl
  rw [hb] at h1' h3' h4'
  rw [hb', show (R.env cat u).inp.length = u.length from rfl] at h1 h3 h4
  have hk : ∀ k, k ≠ 0 → c'[k]? = c[k]?.map (shiftCap t.length) := fun k hk => by
    rw [h4' k hk, h4 k hk]
    exact ctxOf_passed hc2 k
  rw [hc1, Option.isSome_map] at h1'
  rw [show R.ast.depth + (u.length + t.length) + 1 = fuelFor R.ast (t ++ u) by unfold fuelFor; rw [List.length_append]; omega] at h1'
  refine ⟨q, q', _, c, c', h1, h1', fun hm => ?_, by rw [h2, h2', hi, hi], hk⟩
  obtain ⟨r, hr⟩ := Option.isSome_iff_exists.1 hm
  obtain ⟨b, e⟩ := r
  have h5 := h3 b e hr
  have h5' := h3' (b + t.length) (e + t.length) (by rw [hc1, hr]; rfl)
  have hpos : ∀ s, 0 < (R.env cat s).names.length := fun _ => Nat.succ_pos _
  obtain ⟨res, c₁, hp, hi⟩ := C01_total R cat hR M u cur hcur _ (length_init _)
  have := hi _ (Nat.le_refl _)
  rw [show M.invoke (R.env cat u) (fuelFor R.ast u) R.ast cur (initCtx R.names) = _ from h1] at this
  cases this
  refine ⟨by rw [h5.1, h5'.1], hp, List.ext_getElem? (fun k => ?_)⟩
  rw [List.getElem?_map]
  by_cases h0 : k = 0
  · subst h0
    rw [h5.2 (hpos _), h5'.2 (hpos _)]
    rfl
  · exact hk k h0

/-- One step of the generators. -/
theorem passed_next (hR : R.Ok cat) (ha : aheadOnly R.ast = true) (M : Method) (t u : List Byte) {g : Gen} (hg : g.current ≤ u.length) :
    ∃ res res' g₁ g₁', genNext R M cat u g = some (res, g₁) ∧ genNext R M cat (t ++ u) ⟨g.current + t.length, g.active⟩ = some (res', g₁') ∧
      g₁.current ≤ u.length ∧
      ((res' = shiftResult t.length res ∧ g₁' = ⟨g₁.current + t.length, g₁.active⟩) ∨ (res.matched = false ∧ res'.matched = false)) ∧
      ∀ k, k ≠ 0 → res'.group k = (res.group k).map (shiftCap t.length) := by
  unfold genNext
  cases hact : g.active with
  | false =>
    refine ⟨_, _, _, _, rfl, rfl, hg, .inr ⟨rfl, rfl⟩, fun k _ => ?_⟩
    simp only [Result.group, initCtx, List.getElem?_map, Option.map_map]
    rfl
  | true =>
    obtain ⟨q, q', b, c, c', h1, h2, h3, h4, h5⟩ := passed_invoke hR ha M t u hg
    have hq : q ≤ u.length := by
      obtain ⟨res, c₁, hp, hi⟩ := C01_total R cat hR M u g.current hg _ (length_init _)
      have := hi _ (Nat.le_refl _)
      rw [show M.invoke (R.env cat u) (fuelFor R.ast u) R.ast g.current (initCtx R.names) = _ from h1] at this
      cases this
      exact hp
    simp only [Bool.not_true, Bool.false_eq_true, if_false, h1, h2]
    refine ⟨_, _, _, _, rfl, rfl, hq, ?_, h5⟩
    cases b with
    | false => exact .inr ⟨rfl, rfl⟩
    | true =>
      obtain ⟨rfl, _, rfl⟩ := h3 rfl
      refine .inl ⟨rfl, ?_⟩
      simp only [Gen.mk.injEq, Bool.true_and, true_and]
      congr 1
      cases c with
      | nil => rfl
      | cons v c =>
        cases v with
        | none => rfl
        | some x =>
          simp only [List.map_cons, List.getD_cons_zero, shiftCap, Option.map_some, Cap.isEmpty]
          rw [Bool.eq_iff_iff]
          simp only [beq_iff_eq]
          omega

theorem passed_visit (hR : R.Ok cat) (ha : aheadOnly R.ast = true) (M : Method) (t u : List Byte) (k : Nat) : ∀ (A A' : RangeAdapter), A.gen.current ≤ u.length →
    ((A'.currentResult = shiftResult t.length A.currentResult ∧ A'.gen = ⟨A.gen.current + t.length, A.gen.active⟩) ∨
      (A.currentResult.matched = false ∧ A'.currentResult.matched = false)) →
    A'.visit R M cat (t ++ u) k = (A.visit R M cat u k).map (fun x => (x.1.map (shiftResult t.length), x.2)) := by
  induction k with
  | zero =>
    intro A A' _ hA
    have : A.active = A'.active := by
      rcases hA with ⟨e, _⟩ | ⟨e, e'⟩
      · simp only [RangeAdapter.active, e]; rfl
      · simp only [RangeAdapter.active, Result.toBool, e, e']
    simp only [RangeAdapter.visit, this]
    rfl
  | succ k ih =>
    intro A A' hcur hA
    rcases hA with ⟨e, e'⟩ | ⟨e, e'⟩
    · obtain ⟨res, res', g₁, g₁', h1, h2, h3, h4, _⟩ := passed_next hR ha M t u hcur
      have hact : A.active = A'.active := by simp only [RangeAdapter.active, e]; rfl
      have := ih ⟨g₁, res⟩ ⟨g₁', res'⟩ h3 h4
      simp only [RangeAdapter.visit, RangeAdapter.computeNext, e', h1, h2, ← hact, Option.bind_eq_bind, Option.bind_some,
        Option.pure_def, this]
      cases A.active with
      | false => rfl
      | true =>
        simp only [if_true, e]
        cases RangeAdapter.visit R M cat u k ⟨g₁, res⟩ <;> rfl
    · simp [RangeAdapter.visit, RangeAdapter.active, Result.toBool, e, e']

end

/-! ## C72 -/

/-- **C72** (one call): a call that a generator makes after having passed `t` gives the result of a fresh call on the text that is left, with all
ranges counted from the start of the whole text, and leaves the generator in the corresponding state.  (If there is no match, this holds for all groups but group 0.) -/
theorem C72_call (R : Regex) (cat : Cat) (hR : R.Ok cat) (ha : aheadOnly R.ast = true) (M : Method) (t u : List Byte) :
    ∃ res res' g, R.invoke M cat u = some res ∧ genNext R M cat (t ++ u) ⟨t.length, true⟩ = some (res', g) ∧ res'.matched = res.matched ∧
      (res.matched = true → res' = shiftResult t.length res) ∧ ∀ k, k ≠ 0 → res'.group k = (res.group k).map (shiftCap t.length) := by
  obtain ⟨res, res', g₁, g₁', h1, h2, h3, h4, h5⟩ := passed_next hR ha M t u (g := {}) (Nat.zero_le _)
  have hi : R.invoke M cat u = some res := by
    unfold genNext at h1
    unfold Regex.invoke
    simp only [Bool.not_true, Bool.false_eq_true, if_false] at h1
    cases hm : M.invoke (R.env cat u) (fuelFor R.ast u) R.ast 0 (initCtx R.names) with
    | ok r c =>
      rw [hm] at h1
      simp only [Option.some.injEq, Prod.mk.injEq] at h1
      simp only [h1.1]
    | _ => rw [hm] at h1; cases h1
  rw [show ({} : Gen).current + t.length = t.length from Nat.zero_add _] at h2
  refine ⟨res, res', g₁', hi, h2, ?_, fun hm => ?_, h5⟩
  · rcases h4 with ⟨e, _⟩ | ⟨e, e'⟩
    · rw [e]; rfl
    · rw [e, e']
  · rcases h4 with ⟨e, _⟩ | ⟨e, _⟩
    · exact e
    · rw [hm] at e; cases e

/-- **C72** (ranges): after a first match that is not empty, a loop over `tokenize` or `find_all` goes on as a loop over the text behind that match. -/
theorem C72_ranges (R : Regex) (cat : Cat) (hR : R.Ok cat) (ha : aheadOnly R.ast = true) (M : Method) (t u : List Byte) (res : Result) (b : Nat)
    (h : R.invoke M cat (t ++ u) = some res) (hm : res.matched = true) (h0 : res.group 0 = some (some (b, t.length))) (hb : b ≠ t.length) (rounds : Nat) :
    rangeElements R M cat (t ++ u) (rounds + 1) =
      (rangeElements R M cat u rounds).map (fun x => (res :: x.1.map (shiftResult t.length), x.2)) := by
  obtain ⟨q, c, h1⟩ : ∃ q c, M.invoke (R.env cat (t ++ u)) (fuelFor R.ast (t ++ u)) R.ast 0 (initCtx R.names) = .ok ⟨q, true⟩ c ∧ res = ⟨c, true⟩ := by
    unfold Regex.invoke at h
    cases ho : M.invoke (R.env cat (t ++ u)) (fuelFor R.ast (t ++ u)) R.ast 0 (initCtx R.names) with
    | ok r c =>
      rw [ho] at h
      simp only [Option.some.injEq] at h
      subst h
      obtain ⟨q, m⟩ := r
      cases (show m = true from hm)
      exact ⟨q, c, rfl, rfl⟩
    | _ => rw [ho] at h; cases h
  obtain ⟨h1, rfl⟩ := h1
  have hν : ∀ n id, nameIndex (R.env cat (t ++ u)).names n = some id → (fun n => (nameIndex R.names n).getD 0) n = id := fun n id h => by
    simp only [show nameIndex R.names n = some id from h]; rfl
  obtain ⟨q', c', h1', _, h3', _⟩ := invoke_follow (E := R.env cat (t ++ u)) (hR _) hν M (Nat.le_refl _) (Nat.zero_le _) (fun _ => none)
  rw [show (R.env cat (t ++ u)).names = R.names from rfl, ← ctxOf_init] at h1'
  rw [show M.invoke (R.env cat (t ++ u)) (R.ast.depth + (R.env cat (t ++ u)).inp.length + 1) R.ast 0 (initCtx R.names) = _ from h1] at h1'
  simp only [Out.ok.injEq, MR.mk.injEq] at h1'
  obtain ⟨⟨rfl, hs⟩, rfl⟩ := h1'
  obtain ⟨⟨b', e'⟩, hr⟩ := Option.isSome_iff_exists.1 hs.symm
  obtain ⟨rfl, h6⟩ := h3' b' e' hr
  have h7 := h6 (Nat.succ_pos _)
  rw [show c[0]? = some (some (b, t.length)) from h0] at h7
  simp only [Option.some.injEq, Prod.mk.injEq] at h7
  obtain ⟨rfl, rfl⟩ := h7
  have hne : (c.getD 0 none).isEmpty = false := by
    rw [List.getD_eq_getElem?_getD, show c[0]? = some (some (b, t.length)) from h0]
    simp [Cap.isEmpty, hb]
  have hg : genNext R M cat (t ++ u) {} = some (⟨c, true⟩, ⟨t.length, true⟩) := by
    unfold genNext
    simp only [Bool.not_true, Bool.false_eq_true, if_false]
    rw [h1]
    simp only [hne, Bool.not_false, Bool.and_true]
  obtain ⟨res₁, res₁', g₁, g₁', h8, h9, h10, h11, _⟩ := passed_next hR ha M t u (g := {}) (Nat.zero_le _)
  rw [show (⟨({} : Gen).current + t.length, ({} : Gen).active⟩ : Gen) = ⟨t.length, true⟩ by simp] at h9
  have := passed_visit hR ha M t u rounds ⟨g₁, res₁⟩ ⟨g₁', res₁'⟩ h10 h11
  simp only [rangeElements, RangeAdapter.make, hg, h8, Option.bind_eq_bind, Option.bind_some, Option.pure_def, RangeAdapter.visit, RangeAdapter.active,
    Result.toBool, if_true, RangeAdapter.computeNext, h9, this]
  cases RangeAdapter.visit R M cat u rounds ⟨g₁, res₁⟩ <;> rfl

/-- `(\w)\1(?=$|,)`. -/
def exPassed : Regex := ⟨.seq [.cap 1 none .word, .backref 1, .look .ahead (.alt [.eol, .lit (ch ',')])], []⟩

example : exPassed.Ok .randomAccess ∧ aheadOnly exPassed.ast = true ∧ exPassed.search (txt "aab,cc") = some ⟨[some (4, 6), some (4, 5)], true⟩ ∧
    exPassed.search (txt "bb,xcc") = some ⟨[some (0, 2), some (0, 1)], true⟩ ∧ exPassed.search (txt ",xcc") = some ⟨[some (2, 4), some (2, 3)], true⟩ ∧
    rangeElements exPassed .search .randomAccess (txt "bb,xcc") 5 = some ([⟨[some (0, 2), some (0, 1)], true⟩, ⟨[some (4, 6), some (4, 5)], true⟩], true) :=
  ⟨Regex.ok_of_okb (by decide), by decide, by decide, by decide, by decide, by decide +kernel⟩

/-- Without the restriction it is false: with `\b` the call sees the character before. -/
example : ∃ (R : Regex) (t u : List Byte), R.Ok .randomAccess ∧ (R.matchPrefix u).map (·.matched) = some true ∧
    (genNext R .matchPrefix .randomAccess (t ++ u) ⟨t.length, true⟩).map (·.1.matched) = some false :=
  ⟨⟨.seq [.wordB, .lit (ch 'b')], []⟩, txt "a", txt "b", Regex.ok_of_okb (by decide), by decide, by decide⟩

end Mregex
