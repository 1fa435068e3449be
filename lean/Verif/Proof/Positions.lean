import Verif.Model.Methods

/-!
# Positions and iterator layers
-/

namespace Mregex
namespace Env
variable (E : Env)

/-- `q` can be reached from `p` by advancing an iterator of layer `r` inside the input. -/
def Reach (r p q : Nat) : Prop :=
  (r % 2 = 0 ∧ p ≤ q ∧ q ≤ E.inp.length) ∨ (r % 2 = 1 ∧ q ≤ p ∧ p ≤ E.inp.length)

variable {E} {r : Nat}

theorem Reach.refl {p : Nat} (h : p ≤ E.inp.length) : E.Reach r p p := by
  unfold Reach; omega

theorem Reach.trans {p q t : Nat} (h : E.Reach r p q) (h' : E.Reach r q t) : E.Reach r p t := by
  unfold Reach at *; omega

theorem Reach.left_le {p q : Nat} (h : E.Reach r p q) : p ≤ E.inp.length := by
  unfold Reach at *; omega

theorem Reach.right_le {p q : Nat} (h : E.Reach r p q) : q ≤ E.inp.length := by
  unfold Reach at *; omega

theorem Reach.antisymm {p q : Nat} (h : E.Reach r p q) (h' : E.Reach r q p) : p = q := by
  unfold Reach at *; omega

theorem Reach.remaining_le {p q : Nat} (h : E.Reach r p q) : E.remaining r q ≤ E.remaining r p := by
  unfold Reach remaining at *; split <;> omega

theorem Reach.remaining_lt {p q : Nat} (h : E.Reach r p q) (hne : p ≠ q) :
    E.remaining r q < E.remaining r p := by
  unfold Reach remaining at *; split <;> omega

theorem remaining_le {p : Nat} (h : p ≤ E.inp.length) : E.remaining r p ≤ E.inp.length := by
  unfold remaining; split <;> omega

theorem atEnd_iff {p : Nat} (h : p ≤ E.inp.length) : E.atEnd r p = true ↔ E.remaining r p = 0 := by
  unfold atEnd remaining; split <;> simp <;> omega

theorem reach_next {p : Nat} (h : p ≤ E.inp.length) (hr : E.remaining r p ≠ 0) :
    E.Reach r p (next r p) := by
  unfold Reach next remaining at *; split <;> simp_all <;> omega

theorem next_ne {p : Nat} (_ : p ≤ E.inp.length) (hr : E.remaining r p ≠ 0) : next r p ≠ p := by
  unfold next remaining at *; split <;> simp_all <;> omega

theorem remaining_next {p : Nat} (_ : p ≤ E.inp.length) (hr : E.remaining r p ≠ 0) :
    E.remaining r (next r p) + 1 = E.remaining r p := by
  unfold next remaining at *; split <;> simp_all <;> omega

theorem deref_some {p : Nat} (h : p ≤ E.inp.length) (hr : E.remaining r p ≠ 0) :
    ∃ x, E.deref r p = some x := by
  unfold deref remaining at *
  split <;> simp_all
  · exact ⟨_, List.getElem?_eq_getElem (by omega)⟩
  · exact ⟨_, List.getElem?_eq_getElem (by omega)⟩

theorem derefPrev_some {p : Nat} (hc : E.cat ≠ .forward) (h : p ≤ E.inp.length)
    (hb : E.atBegin r p = false) : ∃ x, E.derefPrev r p = some x := by
  unfold derefPrev atBegin at *
  rw [if_neg hc]
  split <;> simp_all
  · exact ⟨_, List.getElem?_eq_getElem (by omega)⟩
  · exact ⟨_, List.getElem?_eq_getElem (by omega)⟩

theorem distLoop_eq (N : Nat) {p : Nat} (h : p ≤ E.inp.length) :
    E.distLoop r N p = decide (E.remaining r p < N) := by
  induction N generalizing p with
  | zero => simp [distLoop]
  | succ k ih =>
    unfold distLoop
    by_cases h0 : E.remaining r p = 0
    · rw [if_pos ((atEnd_iff h).2 h0)]; simp [h0]
    · rw [if_neg (by rw [atEnd_iff h]; exact h0), ih (reach_next h h0).right_le]
      have := remaining_next h h0
      simp only [decide_eq_decide]; omega

theorem distanceLessThan_eq (N : Nat) {p : Nat} (h : p ≤ E.inp.length) :
    E.distanceLessThan r N p = decide (E.remaining r p < N) := by
  unfold distanceLessThan
  split
  · rfl
  · exact distLoop_eq N h

theorem prev_next {p : Nat} (_ : p ≤ E.inp.length) (hr : E.remaining r p ≠ 0) :
    prev r (next r p) = p := by
  unfold prev next remaining at *; split <;> simp_all <;> omega

theorem dist_next {p q : Nat} (h : E.Reach r p q) (hr : E.remaining r q ≠ 0) :
    dist r p (next r q) = dist r p q + 1 := by
  unfold dist next remaining Reach at *; split <;> simp_all <;> omega

theorem dist_self {p : Nat} : dist r p p = 0 := by unfold dist; split <;> omega

theorem dist_eq_zero {p q : Nat} (h : E.Reach r p q) : dist r p q = 0 ↔ q = p := by
  unfold dist Reach at *; split <;> omega

theorem dist_prev {p q : Nat} (h : E.Reach r p q) (hne : q ≠ p) :
    dist r p (prev r q) + 1 = dist r p q := by
  unfold dist prev Reach at *; split <;> simp_all <;> omega

theorem reach_prev {p q : Nat} (h : E.Reach r p q) (hne : q ≠ p) : E.Reach r p (prev r q) := by
  unfold prev Reach at *; split <;> simp_all <;> omega

end Env
end Mregex
