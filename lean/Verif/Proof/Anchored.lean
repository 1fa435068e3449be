import Verif.Proof.Skip
import Verif.Spec.Anchored

/-!
# Procedures with anchors around
-/

namespace Mregex
open Ast Spec

/-- Only ends that pass the test are accepted. -/
theorem follow_filter (t : Nat → Bool) (P : Proc) (h : Notes) :
    (P.proceed (fun q => .offers (Spec.test (t q) q))).follow (fun _ => true) h = P.follow t h := by
  induction P generalizing h with
  | done => rfl
  | note k b e P ih => exact ih _
  | cross k P ih => exact ih _
  | offer q P ih =>
    simp only [Proc.proceed, Proc.follow]
    cases ht : t q
    · exact ih h
    · rfl
  | recall k f ih => exact ih _ h

theorem tryFrom_done {g : Nat → Proc} {l : List Nat} (hl : ∀ p ∈ l, g p = .done) (h : Notes) : tryFrom g l h = (none, h) := by
  induction l with
  | nil => rfl
  | cons p l ih =>
    simp only [tryFrom, hl p (by simp), Proc.follow]
    exact ih (fun q hq => hl q (List.mem_cons_of_mem _ hq))

/-- If only the start of the text is promising, the search is one attempt. -/
theorem search_fromStart (n : Nat) {g : Nat → Proc} (hg : ∀ p, p ≠ 0 → g p = .done) (h : Notes) :
    carryOut n g 0 h .search = carryOut n g 0 h .matchPrefix := by
  have e : List.range' 0 (n + 1 - 0) = 0 :: List.range' 1 n := rfl
  simp only [carryOut, e, tryFrom]
  generalize (g 0).follow (fun _ => true) h = x
  obtain ⟨q, h'⟩ := x
  cases q with
  | some q => rfl
  | none =>
    dsimp only
    rw [tryFrom_done (fun p hp => hg p (by have := List.mem_range'_1.1 hp; omega))]
    rfl

section
variable (f : Flags) (s : List Byte) (ν : List Byte → Nat) (a : Ast)

theorem proc_boi_then (l : List Ast) (p : Nat) :
    proc f s ν (.seq (.boi :: l)) 0 false p = if p = 0 then procAll f s ν l 0 false p else .done := by
  simp only [proc, procAll, Bool.false_eq_true, if_false, ends, show (0 % 2 == 0) = true from rfl, atStart]
  by_cases hp : p = 0
  · subst hp
    exact only_goOn ..
  · rw [if_neg hp]
    simp only [if_true, Bool.false_and, Bool.or_false, show (p == 0) = false from beq_false_of_ne hp]
    rfl

theorem carryOut_fromStart (h : Notes) :
    carryOut s.length (proc f s ν (.seq [.boi, a]) 0 false) 0 h .search = carryOut s.length (proc f s ν a 0 false) 0 h .matchPrefix := by
  rw [search_fromStart _ (fun p hp => by rw [proc_boi_then, if_neg hp])]
  have e : proc f s ν (.seq [.boi, a]) 0 false 0 = proc f s ν a 0 false 0 := by
    rw [proc_boi_then, if_pos rfl]
    simp only [procAll, Bool.false_eq_true, if_false]
    exact goOn_only _
  simp only [carryOut, e]

theorem carryOut_startToEnd (h : Notes) :
    carryOut s.length (proc f s ν (.seq [.boi, a, .eoi]) 0 false) 0 h .search = carryOut s.length (proc f s ν a 0 false) 0 h .match := by
  rw [search_fromStart _ (fun p hp => by rw [proc_boi_then, if_neg hp])]
  have e : proc f s ν (.seq [.boi, a, .eoi]) 0 false 0 = (proc f s ν a 0 false 0).proceed (fun q => .offers (Spec.test (q == s.length) q)) := by
    rw [proc_boi_then, if_pos rfl]
    simp only [procAll, Bool.false_eq_true, if_false]
    congr 1
    funext q
    rw [show (fun p => Proc.only p) = Proc.only from rfl, goOn_only]
    simp only [proc, ends, show (0 % 2 == 0) = true from rfl, atStop, atStart]
    simp
  simp only [carryOut, e, follow_filter]

/-- Elsewhere nothing happens. -/
theorem carryOut_later (l : List Ast) {cur : Nat} (hcur : 0 < cur) (h : Notes) (M : Method) :
    carryOut s.length (proc f s ν (.seq (.boi :: l)) 0 false) cur h M = (none, h) := by
  have hd : ∀ p, p ≠ 0 → proc f s ν (.seq (.boi :: l)) 0 false p = .done := fun p hp => by rw [proc_boi_then, if_neg hp]
  cases M
  · simp only [carryOut, hd cur (by omega), Proc.follow]; rfl
  · simp only [carryOut, hd cur (by omega), Proc.follow]; rfl
  · exact tryFrom_done (fun p hp => hd p (by have := List.mem_range'_1.1 hp; omega)) h

end
end Mregex
