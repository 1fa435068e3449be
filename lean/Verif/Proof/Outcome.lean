import Verif.Props.Language

/-!
# Verdict and overall range of a call, as a function of the possible ends
-/

namespace Mregex
open Ast Spec

/-- The range reported by a method, given the ordered ends of the regex from each position. -/
def outcome (M : Method) (n : Nat) (e : Nat → List Nat) : Option (Nat × Nat) :=
  match M with
  | .match => if n ∈ e 0 then some (0, n) else none
  | .matchPrefix => (e 0).head?.map (fun q => (0, q))
  | .search => firstFrom e (n + 1) 0

/-- Without backreferences verdict and group 0 of every method are determined by `ends`. -/
theorem invoke_outcome (R : Regex) (cat : Cat) (hR : R.Ok cat) (hb : noBackref R.ast = true) (M : Method) (s : List Byte) :
    ∃ res, R.invoke M cat s = some res ∧
      (res.matched = (outcome M s.length (ends R.fl s R.ast true false)).isSome) ∧
      (res.matched = true → res.group 0 = some (outcome M s.length (ends R.fl s R.ast true false))) := by
  cases M with
  | «match» =>
    have h := Regex.match_view (s := s) (fun _ h => h) hR hb capStable_len (Nat.zero_le _) (length_init R.names)
    rcases h.elim with ⟨q, c', h1, h2, h3⟩ | ⟨q, c', h1, h2, h3⟩
    · refine ⟨⟨c'.set 0 (some (0, q)), true⟩, ?_, ?_⟩
      · simp only [Regex.invoke, Method.invoke, matchMethod, show (R.env cat s).inp = s from rfl, h1, setGroup0]
      · split at h2
        · next hn =>
          cases h2
          simp [outcome, if_pos hn, Result.group, h3, Regex.names]
        · cases h2
    · refine ⟨⟨c'.set 0 (some (0, q)), false⟩, ?_, ?_⟩
      · simp only [Regex.invoke, Method.invoke, matchMethod, show (R.env cat s).inp = s from rfl, h1, setGroup0]
      · split at h2
        · cases h2
        · next hn => simp [outcome, if_neg hn]
  | matchPrefix =>
    have h := Regex.prefix_view (s := s) (fun _ h => h) hR hb capStable_len (Nat.zero_le _) (length_init R.names)
    rcases h.elim with ⟨q, c', h1, h2, h3⟩ | ⟨q, c', h1, h2, h3⟩
    · refine ⟨⟨c'.set 0 (some (0, q)), true⟩, ?_, ?_⟩
      · simp only [Regex.invoke, Method.invoke, prefixMethod, h1, setGroup0]
      · simp [outcome, h2, Result.group, h3, Regex.names]
    · refine ⟨⟨c'.set 0 (some (0, q)), false⟩, ?_, ?_⟩
      · simp only [Regex.invoke, Method.invoke, prefixMethod, h1, setGroup0]
      · simp [outcome, h2]
  | search =>
    have h := Regex.search_view (s := s) (fun _ h => h) hR hb capStable_len (Nat.zero_le _) (length_init R.names)
    rcases h.elim with ⟨q, c', h1, i, c'', h2, h3, h4⟩ | ⟨q, c', h1, h2, h3, h4⟩
    · have h1' : Method.search.invoke (R.env cat s) (fuelFor R.ast s) R.ast 0 (initCtx R.names) = _ := h1
      refine ⟨⟨c', true⟩, ?_, ?_⟩
      · simp only [Regex.invoke, h1']
      · rw [Nat.sub_zero] at h2
        simp [outcome, h2, Result.group, h4, h3, Regex.names]
    · have h1' : Method.search.invoke (R.env cat s) (fuelFor R.ast s) R.ast 0 (initCtx R.names) = _ := h1
      refine ⟨⟨c', false⟩, ?_, ?_⟩
      · simp only [Regex.invoke, h1']
      · rw [Nat.sub_zero] at h3
        simp [outcome, h3]

/-- Two regexes with the same ends give the same verdict and the same range. -/
theorem same_of_ends (R R' : Regex) (cat : Cat) (hR : R.Ok cat) (hR' : R'.Ok cat) (hb : noBackref R.ast = true)
    (hb' : noBackref R'.ast = true) (M : Method) (s : List Byte)
    (he : ∀ p, FEq (ends R.fl s R.ast true false p) (ends R'.fl s R'.ast true false p)) :
    ∃ res res', R.invoke M cat s = some res ∧ R'.invoke M cat s = some res' ∧ res.matched = res'.matched ∧
      (res.matched = true → res.group 0 = res'.group 0) := by
  obtain ⟨res, h1, h2, h3⟩ := invoke_outcome R cat hR hb M s
  obtain ⟨res', h1', h2', h3'⟩ := invoke_outcome R' cat hR' hb' M s
  have ho : outcome M s.length (ends R.fl s R.ast true false) = outcome M s.length (ends R'.fl s R'.ast true false) := by
    cases M with
    | «match» => simp only [outcome, (he 0).mem]
    | matchPrefix => simp only [outcome, (he 0).head?]
    | search =>
      simp only [outcome]
      generalize s.length + 1 = k
      generalize 0 = i
      induction k generalizing i with
      | zero => rfl
      | succ k ih => simp only [firstFrom, (he i).head?, ih]
  refine ⟨res, res', h1, h1', by rw [h2, h2', ho], fun h => ?_⟩
  rw [h3 h, h3' (by rw [h2', ← ho, ← h2]; exact h), ho]

end Mregex
