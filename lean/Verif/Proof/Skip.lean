import Verif.Proof.ProcMethods
import Verif.Spec.Skip

/-!
# Procedures that skip characters
-/

namespace Mregex
open Ast Spec

theorem follow_andThen (acc : Nat → Bool) (P Q : Proc) (h : Notes) :
    (P.andThen Q).follow acc h = match P.follow acc h with | (some q, h') => (some q, h') | (none, h') => Q.follow acc h' := by
  induction P generalizing h with
  | done => rfl
  | note k b e P ih => exact ih _
  | cross k P ih => exact ih _
  | offer q P ih =>
    simp only [Proc.andThen, Proc.follow]
    split
    · rfl
    · exact ih h
  | recall k f ih => exact ih _ h

theorem oneChar_any (f : Flags) (s : List Byte) (p : Nat) : oneChar s true (accepts f (.range 0 255)) p = if p < s.length then [p + 1] else [] := by
  have hall : ∀ x : Byte, inRange 0 255 x = true := by decide +kernel
  unfold oneChar readChar
  simp only [if_true]
  by_cases h : p < s.length
  · rw [if_pos h, List.getElem?_eq_getElem h]
    simp only [Option.map_some, accepts, hall, Bool.true_or, if_true]
  · rw [if_neg h, List.getElem?_eq_none (by omega)]
    rfl

theorem except_later {q p : Nat} (h : q ≠ p) : (Proc.only q).except p = .only q := by
  simp only [Proc.only, Proc.except, if_neg h]

/-- Skipping lazily before `G` is trying `G` at each position. -/
theorem skip_tryFrom (n : Nat) (g : Nat → Proc) (hg : ∀ p, g p = if p < n then Proc.only (p + 1) else .done) (G : Nat → Proc) (k cur : Nat) (hk : n - cur < k)
    (hcur : cur ≤ n) (h : Notes) :
    ((Proc.lazyStar g k cur).proceed G).follow (fun _ => true) h =
      ((tryFrom G (List.range' cur (n + 1 - cur)) h).1.map (·.2), (tryFrom G (List.range' cur (n + 1 - cur)) h).2) := by
  induction k generalizing cur h with
  | zero => omega
  | succ k ih =>
    have e : List.range' cur (n + 1 - cur) = cur :: List.range' (cur + 1) (n + 1 - (cur + 1)) := by
      rw [show n + 1 - cur = n + 1 - (cur + 1) + 1 by omega]
      rfl
    rw [e]
    simp only [Proc.lazyStar, Proc.proceed, tryFrom, follow_andThen]
    generalize (G cur).follow (fun _ => true) h = x
    obtain ⟨q, h'⟩ := x
    cases q with
    | some q => rfl
    | none =>
      dsimp only
      rw [hg cur]
      by_cases hlt : cur < n
      · rw [if_pos hlt, except_later (by omega), only_goOn]
        exact ih (cur + 1) (by omega) (by omega) h'
      · rw [if_neg hlt, show n + 1 - (cur + 1) = 0 by omega]
        rfl

/-- Carrying out `skipping a` from `cur` on. -/
theorem carryOut_skipping (f : Flags) (s : List Byte) (ν : List Byte → Nat) (a : Ast) (cur : Nat) (hcur : cur ≤ s.length) (h : Notes) :
    carryOut s.length (proc f s ν (skipping f.ungreedy a) 0 false) cur h .matchPrefix =
      ((carryOut s.length (proc f s ν a 0 false) cur h .search).1.map (fun r => (cur, r.2)), (carryOut s.length (proc f s ν a 0 false) cur h .search).2) := by
  have e : proc f s ν (skipping f.ungreedy a) 0 false cur =
      (Proc.lazyStar (proc f s ν (.range 0 255) 0 false) (s.length + 1) cur).proceed (proc f s ν a 0 false) := by
    unfold skipping
    rw [proc]
    simp only [procAll, Bool.false_eq_true, if_false]
    congr 1
    · funext q
      exact goOn_only _
    · cases hu : f.ungreedy <;> simp only [Bool.false_eq_true, if_false, if_true, proc, Proc.quantified, Proc.times, only_goOn, Proc.extra, hu] <;> rfl
  have hg : ∀ p, proc f s ν (.range 0 255) 0 false p = if p < s.length then Proc.only (p + 1) else .done := by
    intro p
    simp only [proc, ends, show (0 % 2 == 0) = true from rfl, oneChar_any]
    split <;> rfl
  simp only [carryOut, e]
  rw [skip_tryFrom s.length _ hg _ _ cur (by omega) hcur]
  simp only [Option.map_map, Function.comp_def]

end Mregex
