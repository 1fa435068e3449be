import Verif.Spec.Halt
import Mathlib.Computability.TuringMachine.Config

/-!
# The steps of `Spec/Halt` compute
-/

namespace Mregex
open Spec Turing.ToPartrec StateTransition Relation

/-- The frames of a continuation. -/
def contFrames : Turing.ToPartrec.Cont → Frames
  | .halt => [(.stop, [])]
  | .cons₁ g v k => (.first g, v) :: contFrames k
  | .cons₂ v k => (.second, v) :: contFrames k
  | .comp f k => (.after f, []) :: contFrames k
  | .fix f k => (.again f, []) :: contFrames k

/-- The frames of a configuration. -/
def cfgFrames : Cfg → Frames
  | .halt _ => []
  | .ret k v => (.back, v) :: contFrames k

theorem reaches_run : ∀ (c : Code) (k : Turing.ToPartrec.Cont) (v : List Nat), Reaches₁ advance ((.run c, v) :: contFrames k) (cfgFrames (stepNormal c k v))
  | .zero', k, v => .single rfl
  | .succ, k, v => .single rfl
  | .tail, k, v => .single rfl
  | .cons f g, k, v => .head rfl (reaches_run f (.cons₁ g v k) v)
  | .comp f g, k, v => .head rfl (reaches_run g (.comp f k) v)
  | .case f g, k, [] => .head rfl (reaches_run f k [])
  | .case f g, k, 0 :: v => .head rfl (reaches_run f k v)
  | .case f g, k, (n + 1) :: v => .head rfl (reaches_run g k (n :: v))
  | .fix f, k, v => .head rfl (reaches_run f (.fix f k) v)

theorem reaches_ret : ∀ (k : Turing.ToPartrec.Cont) (v : List Nat), Reaches₁ advance ((.back, v) :: contFrames k) (cfgFrames (stepRet k v))
  | .halt, v => .single rfl
  | .cons₁ g w k, v => .head rfl (reaches_run g (.cons₂ v k) w)
  | .cons₂ w k, v => .head rfl (reaches_ret k (w.headI :: v))
  | .comp f k, v => .head rfl (reaches_run f k v)
  | .fix f k, [] => .head rfl (reaches_ret k [])
  | .fix f k, 0 :: v => .head rfl (reaches_ret k v)
  | .fix f k, (n + 1) :: v => .head rfl (reaches_run f (.fix f k) v)

theorem respects : Respects step advance (fun a b => b = cfgFrames a) := by
  rintro (v | ⟨k, v⟩) _ rfl
  · rfl
  · exact ⟨_, rfl, reaches_ret k v⟩

/-- The computation comes to an end exactly if the program gives a result. -/
theorem halts_iff (c : Code) (n : Nat) : (∃ F, Reaches advance (startFrames c n) F ∧ advance F = none) ↔ (c.eval [n]).Dom := by
  have h1 : eval advance (startFrames c n) = eval advance (cfgFrames (stepNormal c .halt [n])) :=
    reaches_eval (reaches_run c .halt [n]).to_reflTransGen
  have h2 : (eval advance (cfgFrames (stepNormal c .halt [n]))).Dom ↔ (eval step (stepNormal c .halt [n])).Dom := tr_eval_dom respects rfl
  rw [stepNormal_eval] at h2
  rw [show (c.eval [n]).Dom ↔ (Cfg.halt <$> c.eval [n]).Dom from Iff.rfl, ← h2, ← h1, Part.dom_iff_mem]
  simp only [mem_eval]

/-! ### The result -/

theorem normal_ne_halt : ∀ (c : Code) (k : Turing.ToPartrec.Cont) (v w : List Nat), stepNormal c k v ≠ .halt w
  | .zero', k, v, w => nofun
  | .succ, k, v, w => nofun
  | .tail, k, v, w => nofun
  | .cons f g, k, v, w => normal_ne_halt f (.cons₁ g v k) v w
  | .comp f g, k, v, w => normal_ne_halt g (.comp f k) v w
  | .case f g, k, [], w => normal_ne_halt f k [] w
  | .case f g, k, 0 :: v, w => normal_ne_halt f k v w
  | .case f g, k, (n + 1) :: v, w => normal_ne_halt g k (n :: v) w
  | .fix f, k, v, w => normal_ne_halt f (.fix f k) v w

theorem reaches_last : ∀ (k : Turing.ToPartrec.Cont) (v w : List Nat), stepRet k v = .halt w → Reaches advance ((.back, v) :: contFrames k) [(.back, w), (.stop, [])]
  | .halt, v, w, h => by cases h; exact .refl
  | .cons₁ g u k, v, w, h => (normal_ne_halt g (.cons₂ v k) u w h).elim
  | .cons₂ u k, v, w, h => .head rfl (reaches_last k (u.headI :: v) w h)
  | .comp f k, v, w, h => (normal_ne_halt f k v w h).elim
  | .fix f k, [], w, h => .head rfl (reaches_last k [] w h)
  | .fix f k, 0 :: v, w, h => .head rfl (reaches_last k v w h)
  | .fix f k, (n + 1) :: v, w, h => (normal_ne_halt f (.fix f k) v w h).elim

/-- The last state but one has the result. -/
theorem reaches_result {c : Code} {n : Nat} {v : List Nat} (h : v ∈ c.eval [n]) : Reaches advance (startFrames c n) [(.back, v), (.stop, [])] := by
  have h1 : Cfg.halt v ∈ eval step (stepNormal c .halt [n]) := by
    rw [stepNormal_eval]
    exact Part.mem_map _ h
  refine (reaches_run c .halt [n]).to_reflTransGen.trans ?_
  rcases Relation.ReflTransGen.cases_tail (mem_eval.1 h1).1 with h2 | ⟨x, h2, h3⟩
  · exact (normal_ne_halt c .halt [n] v h2.symm).elim
  · obtain ⟨F, hF, h4⟩ := tr_reaches respects rfl h2
    subst hF
    cases x with
    | halt => cases h3
    | ret k w => exact h4.trans (reaches_last k w v (by simpa [step] using h3))

end Mregex
