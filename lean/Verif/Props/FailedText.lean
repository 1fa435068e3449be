import Verif.Props.Safety
import Verif.Props.Parsing
import Verif.Spec.FailedText

/-!
# C08: what group 0 holds after a failed call
-/

namespace Mregex
open Ast Spec

/-- **C08**: after a failed call of `match` or `match_prefix` group 0 is always set; it is a text at the beginning of the input.  (So `length()` tells how long it is, and the result looks as if it had
a match unless it is tested.) -/
theorem C08_failed (R : Regex) (cat : Mregex.Cat) (hR : R.Ok cat) (M : Method) (hM : M ≠ .search) (s : List Byte) :
    ∃ res, R.invoke M cat s = some res ∧ ∃ q, q ≤ s.length ∧ res.group 0 = some (some (0, q)) ∧ res.length = q := by
  obtain ⟨res, hr⟩ := C01_methods_return R cat hR M s
  refine ⟨res, hr, ?_⟩
  have key : ∃ q, res.group 0 = some (some (0, q)) := by
    have hl : 0 < (res.groups).length → ∀ {c : Ctx} {q : Nat}, res.groups = c.set 0 (some (0, q)) → res.group 0 = some (some (0, q)) := by
      intro h0 c q h
      have : 0 < c.length := by rw [h, List.length_set] at h0; exact h0
      show res.groups[0]? = _
      rw [h, List.getElem?_set]
      simp [this]
    have h0 : 0 < res.groups.length := by
      rw [(invoke_inBounds R cat hR M s res hr).1]
      show 0 < R.names.length
      simp [Regex.names]
    cases M with
    | «match» => obtain ⟨q, c, _, h⟩ := Regex.match_eq hr; exact ⟨q, hl h0 h⟩
    | matchPrefix => obtain ⟨q, c, _, h⟩ := Regex.matchPrefix_eq hr; exact ⟨q, hl h0 h⟩
    | search => exact absurd rfl hM
  obtain ⟨q, hq⟩ := key
  rcases C09_groups_in_bounds R cat hR M s res hr 0 _ hq with h | ⟨b, e, h, _, h'⟩
  · cases h
  · cases h
    have h9 : res.groups[0]? = some (some (0, q)) := hq
    exact ⟨q, h', hq, by simp [Result.length, h9, Cap.length]⟩

theorem runTriv_text {E : Env} (hi : E.flags.icase = false) : ∀ (w : List Byte) {p : Nat}, p + w.length ≤ E.inp.length →
    (runTriv E 0 (w.map .lit) p = .done (p + w.length) ∧ agree w (E.inp.drop p) = w.length) ∨
      (runTriv E 0 (w.map .lit) p = .fail (p + agree w (E.inp.drop p)) ∧ agree w (E.inp.drop p) < w.length)
  | [], p, _ => .inl ⟨rfl, by simp [agree]⟩
  | a :: w, p, h => by
    simp only [List.length_cons] at h
    have hp : p < E.inp.length := by omega
    have hd : E.inp.drop p = E.inp[p] :: E.inp.drop (p + 1) := List.drop_eq_getElem_cons hp
    have hx : E.deref 0 p = some E.inp[p] := by simp [Env.deref, hp]
    rw [hd]
    simp only [List.map_cons, runTriv, hx, matchOne, hi, Bool.false_and, Bool.or_false, agree, List.length_cons]
    by_cases hc : a = E.inp[p]
    · have := runTriv_text hi w (p := p + 1) (by omega)
      rw [← hc]
      simp only [beq_self_eq_true, if_true, show Env.next 0 p = p + 1 from rfl]
      rcases this with ⟨h1, h2⟩ | ⟨h1, h2⟩
      · exact .inl ⟨by rw [h1]; congr 1; omega, by omega⟩
      · exact .inr ⟨by rw [h1]; congr 1; omega, by omega⟩
    · simp [hc]

/-- **C08** for texts (of two characters or more, without the flag for letter case): a failed call of `match_prefix` reports in group 0 how far the input agrees with the text, or nothing if the input is
shorter than the text; with random access iterators it reports nothing at all.  So the reported length depends on the category of the iterators (see also `C24_failed_group0_differs`). -/
theorem C08_text (a b : Byte) (w : List Byte) (fl : List RegexFlag) (hi : (Flags.ofList fl).icase = false) (cat : Mregex.Cat) (s : List Byte) :
    ∃ res, (Regex.mk (.seq ((a :: b :: w).map .lit)) fl).matchPrefix s cat = some res ∧ (res.matched = true ↔ agree (a :: b :: w) s = w.length + 2) ∧
      res.group 0 = some (some (0, if res.matched = true then w.length + 2 else if cat = .randomAccess ∨ s.length < w.length + 2 then 0 else agree (a :: b :: w) s)) := by
  have ht : areTriv (.lit a :: .lit b :: w.map .lit) = true := by
    have : ∀ l : List Byte, areTriv (l.map .lit) = true := by
      intro l
      induction l with
      | nil => rfl
      | cons x l ih => simpa [areTriv, triv] using ih
    exact this (a :: b :: w)
  have hs0 : ∀ {w s : List Byte}, agree w s ≤ s.length := by
    intro w
    induction w with
    | nil => intro s; simp [agree]
    | cons x w ih =>
      intro s
      cases s with
      | nil => simp [agree]
      | cons y s =>
        simp only [agree]
        split
        · have := ih (s := s); simp; omega
        · simp
  have hE : (Regex.mk (.seq ((a :: b :: w).map .lit)) fl).names = [none] := by
    have : ∀ l : List Byte, nameSpecAll (l.map .lit) = [] := by
      intro l
      induction l with
      | nil => rfl
      | cons x l ih => simpa [nameSpecAll, nameSpec] using ih
    simp only [Regex.names, nameSpec, this]
  generalize hA : Regex.mk (.seq ((a :: b :: w).map .lit)) fl = R at hE ⊢
  have hm : mtch (R.env cat s) (fuelFor R.ast s) R.ast 0 0 (initCtx R.names) success = seqTriv (R.env cat s) 0 ((a :: b :: w).map .lit) 0 [none] success := by
    subst hA
    rw [hE]
    simp only [fuelFor]
    simp only [mtch, seqMatch, List.map_cons, ht, if_true]
    rfl
  have hd : (R.env cat s).distanceLessThan 0 ((a :: b :: w).map Ast.lit).length 0 = decide (s.length < w.length + 2) := by
    rw [Env.distanceLessThan_eq _ (Nat.zero_le _)]
    simp [Env.remaining, Regex.env]
  have hg : (R.env cat s).flags.icase = false := by subst hA; exact hi
  have hc : (R.env cat s).cat = cat := rfl
  unfold seqTriv at hm
  rw [hd] at hm
  unfold Regex.matchPrefix Regex.invoke Method.invoke prefixMethod
  dsimp only
  rw [hm]
  by_cases hl : s.length < w.length + 2
  · refine ⟨⟨[some (0, 0)], false⟩, by simp [hl, nonMatch, setGroup0], ?_, by simp [hl, Result.group]⟩
    have := hs0 (w := a :: b :: w) (s := s)
    simp
    omega
  · simp only [hl, decide_false, Bool.false_eq_true, if_false, hc]
    rcases runTriv_text hg (a :: b :: w) (p := 0) (by show 0 + (w.length + 2) ≤ s.length; omega) with ⟨h1, h2⟩ | ⟨h1, h2⟩
    · rw [h1]
      exact ⟨⟨[some (0, w.length + 2)], true⟩, by simp [success, setGroup0], by simpa [Regex.env] using h2, by simp [Result.group]⟩
    · rw [h1]
      have h3 : agree (a :: b :: w) s < w.length + 2 := h2
      by_cases hr : cat = .randomAccess
      · refine ⟨⟨[some (0, 0)], false⟩, by simp [hr, nonMatch, setGroup0], ?_, by simp [hr, Result.group]⟩
        simp; omega
      · refine ⟨⟨[some (0, agree (a :: b :: w) s)], false⟩, by simp [hr, nonMatch, setGroup0, Regex.env], ?_, by simp [hr, Result.group]⟩
        simp; omega

/-- `abc` against `abx`: two characters agree. -/
example : ((Regex.mk (.seq ((txt "abc").map .lit)) []).matchPrefix (txt "abx") .bidirectional).map (fun r => (r.group 0, r.matched)) = some (some (some (0, 2)), false) ∧
    ((Regex.mk (.seq ((txt "abc").map .lit)) []).matchPrefix (txt "abx")).map (fun r => (r.group 0, r.matched)) = some (some (some (0, 0)), false) := by decide

end Mregex
