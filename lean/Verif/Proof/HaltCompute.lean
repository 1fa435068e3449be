import Verif.Proof.HaltShape
import Mathlib.Computability.Halting

/-!
# The patterns of `Spec/Halt` can be computed, and their question cannot be answered
-/

namespace Mregex
open Spec Ast Turing.ToPartrec

/-! ### The pattern as a text -/

theorem prAll_append (l l' : List Ast) : prAll (l ++ l') = prAll l ++ prAll l' := by
  induction l with
  | nil => rfl
  | cons a l ih => simp [prAll, ih]

theorem join_items {l : List Ast} (h : ∀ a ∈ l, (pr a).level = .atom ∨ (pr a).level = .item) (l' : List Ast) :
    joinParts (prAll (l ++ l')) = (l.flatMap fun a => (pr a).text) ++ joinParts (prAll l') := by
  induction l with
  | nil => rfl
  | cons a l ih =>
    have h1 : ∀ w, (pr a).asItem w = (pr a).text := fun w => by
      rcases h a (by simp) with h | h <;> simp [Printed.asItem, h]
    simp [prAll, joinParts, ih fun b hb => h b (by simp [hb]), h1]

theorem flatMap_replicate {β : Type} (f : Ast → List β) (k : Nat) (a : Ast) : (List.replicate k a).flatMap f = (List.range k).flatMap fun _ => f a := by
  induction k with
  | zero => rfl
  | succ k ih => rw [List.replicate_succ', List.range_succ]; simp [ih]

/-- The text of the pattern depends on the number in two places. -/
theorem print_doubt (c : Code) : ∃ x y z : List Byte, ∀ k, print (doubtA c k) =
    x ++ (((List.range k).flatMap fun _ => txt "a?") ++ (y ++ (((List.range k).flatMap fun _ => txt "a") ++ z))) := by
  have hb : ∀ a ∈ (beforeNumber c).map Ast.lit, (pr a).level = .atom ∨ (pr a).level = .item := fun a ha => by
    obtain ⟨b, _, rfl⟩ := List.mem_map.1 ha
    exact .inl rfl
  have hr : ∀ k, ∀ a ∈ List.replicate k (Ast.rep .greedy 0 (.fin 1) (.lit unitB)), (pr a).level = .atom ∨ (pr a).level = .item := fun k a ha => by
    rw [(List.mem_replicate.1 ha).2]
    exact .inr rfl
  have hu : ∀ k, ∀ a ∈ List.replicate k (Ast.lit unitB), (pr a).level = .atom ∨ (pr a).level = .item := fun k a ha => by
    rw [(List.mem_replicate.1 ha).2]
    exact .inl rfl
  obtain ⟨e, es, he⟩ : ∃ e es, endDoubts ++ ((rulesOf c).flatMap fun r => slipsFrom r.1 [] r.2).map slipA = e :: es := ⟨_, _, rfl⟩
  refine ⟨joinParts (prAll [differA (beforeNumber c), anythingA]) ++ (txt "|" ++ ((beforeNumber c).map Ast.lit).flatMap fun a => (pr a).text),
    joinParts (prAll [otherA unitB, anythingA]) ++ (txt "|" ++ ((beforeNumber c).map Ast.lit).flatMap fun a => (pr a).text),
    txt "a" ++ (joinParts (prAll [differA afterNumber, anythingA]) ++ (txt "|" ++ joinBranches (prAll (e :: es)))), fun k => ?_⟩
  rw [print, doubtA, he, pr]
  simp only [startDoubts, List.cons_append, List.nil_append, prAll, joinBranches]
  simp only [pr, Printed.asBranch, join_items hb, join_items (hr k), join_items (hu (k + 1)), flatMap_replicate, List.range_succ]
  have h3 : (Printed.mk (txt "a") .atom).asAtom ++ (quantText 0 (.fin 1) ++ suffixText .greedy) = txt "a?" := by decide
  have h4 : charText unitB = txt "a" := by decide
  simp [prAll, h3, h4]

/-- Patterns are given by the numbers of their characters. -/
theorem ofNat_toNat (w : List Byte) : (w.map BitVec.toNat).map (BitVec.ofNat 8) = w := by
  simp [Function.comp_def]

theorem computable_doubt (c : Code) : Computable fun k => (print (doubtA c k)).map BitVec.toNat := by
  obtain ⟨x, y, z, h⟩ := print_doubt c
  have hf : ∀ w : List Nat, Primrec fun k : Nat => (List.range k).flatMap fun _ => w := fun w =>
    Primrec.list_flatMap Primrec.list_range (Primrec.const w).to₂
  have h1 : Primrec fun k : Nat => x.map BitVec.toNat ++ (((List.range k).flatMap fun _ => (txt "a?").map BitVec.toNat) ++
      (y.map BitVec.toNat ++ (((List.range k).flatMap fun _ => (txt "a").map BitVec.toNat) ++ z.map BitVec.toNat))) :=
    Primrec.list_append.comp (.const _) (Primrec.list_append.comp (hf _)
      (Primrec.list_append.comp (.const _) (Primrec.list_append.comp (hf _) (.const _))))
  refine h1.to_comp.of_eq fun k => ?_
  rw [h]
  simp [List.map_flatMap]

/-! ### Programs -/

/-- A program that gives for the number of a program, plus 1, what that program gives. -/
theorem exists_universal_eval : ∃ c : Code, ∀ d : Nat.Partrec.Code, c.eval [Encodable.encode d + 1] = (d.eval 0).map fun n => [n] := by
  have h1 : Partrec fun m : Nat => Nat.Partrec.Code.eval (Denumerable.ofNat Nat.Partrec.Code (m - 1)) 0 :=
    Nat.Partrec.Code.eval_part.comp ((Computable.ofNat _).comp (Primrec.pred.to_comp)) (Computable.const 0)
  obtain ⟨c, hc⟩ := Code.exists_code (Nat.Partrec'.part_iff₁.2 h1)
  refine ⟨c, fun d => ?_⟩
  have := hc ⟨[Encodable.encode d + 1], rfl⟩
  rw [show c.eval [Encodable.encode d + 1] = _ from this]
  simp [List.Vector.head]
  rfl

/-- A program that halts for the number of a program, plus 1, iff that program halts. -/
theorem exists_universal : ∃ c : Code, ∀ d : Nat.Partrec.Code, (c.eval [Encodable.encode d + 1]).Dom ↔ (d.eval 0).Dom := by
  obtain ⟨c, hc⟩ := exists_universal_eval
  exact ⟨c, fun d => by rw [hc]; rfl⟩

/-- There is a program the results of which exceed, for some number, whatever can be computed from the number. -/
theorem exists_exceeding : ∃ c : Code, ∀ b : Nat → Nat, Computable b → ∃ k, [b k + 1] ∈ c.eval [k + 1] := by
  obtain ⟨c, hc⟩ := exists_universal_eval
  refine ⟨c, fun b hb => ?_⟩
  have h1 : Computable₂ fun (d : Nat.Partrec.Code) (_ : Nat) => b (Encodable.encode d) + 1 :=
    (Computable.succ.comp (hb.comp (Computable.encode.comp Computable.fst))).to₂
  obtain ⟨d, hd⟩ := Nat.Partrec.Code.fixed_point₂ (f := fun d _ => Part.some (b (Encodable.encode d) + 1)) h1.partrec₂
  refine ⟨Encodable.encode d, ?_⟩
  rw [hc, hd]
  simp

/-- No procedure recognises the numbers for which the program does not halt. -/
theorem not_enumerable : ∃ c : Code, ∀ D : Nat → Prop, REPred D → ¬ ∀ k, D k ↔ ¬ (c.eval [k + 1]).Dom := by
  obtain ⟨c, hc⟩ := exists_universal
  refine ⟨c, fun D hD h => ComputablePred.halting_problem_not_re 0 ?_⟩
  have h1 : REPred fun d : Nat.Partrec.Code => D (Encodable.encode d) := Partrec.comp hD Computable.encode
  exact h1.of_eq fun d => by rw [h, hc]

end Mregex
