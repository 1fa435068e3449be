import Verif.Proof.Param

/-!
# The meters measure and do nothing else
-/

namespace Mregex
open Ast

section
variable {N : Nat}

/-- Captures with meters, and the same captures without. -/
def Bare (N : Nat) (c c' : Ctx) : Prop := c.length = N + 2 ∧ c' = c.take N

theorem take_set_lt {c : Ctx} {id : Nat} {v : Cap} : (c.set id v).take N = (c.take N).set id v := by
  rw [List.take_set]

theorem take_set_ge {c : Ctx} {id : Nat} {v : Cap} (h : N ≤ id) : (c.set id v).take N = c.take N := by
  rw [List.take_set, List.set_eq_of_length_le (by simp; omega)]

theorem groupwise_bare : Groupwise N (Bare N) where
  set := by
    rintro id v c _ hid ⟨hl, rfl⟩
    exact ⟨by simpa using hl, take_set_lt.symm⟩
  clear := by
    rintro id c _ hid ⟨hl, rfl⟩
    refine ⟨by simpa [clearCapture] using hl, ?_⟩
    apply List.ext_getElem?
    intro i
    simp only [clearCapture, List.getElem?_modify, List.getElem?_take]
    by_cases hi : i < N <;> simp [hi]
  get := by
    rintro id c _ hid ⟨hl, rfl⟩
    rw [List.getElem?_take, if_pos hid]
  len := by
    rintro c _ ⟨hl, rfl⟩
    simp only [List.length_take]
    omega

theorem bare_enter {c c' : Ctx} (h : Bare N c c') : Bare N (enter N c) c' := by
  obtain ⟨hl, rfl⟩ := h
  refine ⟨by simpa [enter] using hl, ?_⟩
  unfold enter
  rw [take_set_ge (by omega), take_set_ge (by omega)]

theorem bare_leave {c c' : Ctx} (h : Bare N c c') : Bare N (leave N c) c' := by
  obtain ⟨hl, rfl⟩ := h
  refine ⟨by simpa [leave] using hl, ?_⟩
  unfold leave
  rw [take_set_ge (by omega)]

theorem counted_bare {m m' : Matcher} (h : KindRel (Bare N) m m') : KindRel (Bare N) (counted N m) m' := by
  intro p c c' k k' hc hk
  have := h p (enter N c) c' k k' (bare_enter hc) hk
  unfold counted
  generalize m p (enter N c) k = o at this ⊢
  generalize m' p c' k' = o' at this ⊢
  cases this with
  | ok h => exact .ok (bare_leave h)
  | ub => exact .ub
  | diverge => exact .diverge

end

theorem mtchM_bare {E : Env} : ∀ fuel a r, Ok E r a → KindRel (Bare E.names.length) (mtchM E fuel a r) (mtch E fuel a r) := by
  intro fuel
  induction fuel with
  | zero => exact fun _ _ _ _ _ _ _ _ _ _ => .diverge
  | succ k ih =>
    intro a r hok
    rw [mtch_eq]
    unfold mtchM
    have := mrel_node groupwise_bare k hok (fun b r' hb => ih b r' hb)
    split
    · exact this
    · exact counted_bare this

theorem bare_init (names : List GroupName) (x y : Cap) : Bare names.length (initCtx names ++ [x, y]) (initCtx names) := by
  constructor
  · simp [initCtx]
  · rw [List.take_append_of_le_length (by simp [initCtx]), List.take_of_length_le (by simp [initCtx])]

/-- The measured run gives the result of the call. -/
theorem measure_result {R : Regex} {cat : Cat} (hR : R.Ok cat) (M : Method) (s : List Byte) :
    (R.measure M cat s).map (·.result) = R.invoke M cat s := by
  unfold Regex.measure Regex.invoke
  rw [Method.invoke_eq]
  have := invokeWith_rel (E := R.env cat s) (Q := Bare R.names.length) groupwise_bare (by simp [Regex.env, Regex.names])
    (mtchM_bare (fuelFor R.ast s) R.ast 0 (hR s)) M (cur := 0) (bare_init R.names (some (0, 0)) (some (0, 0)))
  dsimp only
  generalize M.invokeWith _ _ 0 _ = o at this ⊢
  generalize M.invokeWith _ _ 0 _ = o' at this ⊢
  cases this with
  | ok h => simp [h.2]
  | ub => rfl
  | diverge => rfl

end Mregex
