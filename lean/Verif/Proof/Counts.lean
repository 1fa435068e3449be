import Verif.Proof.Demands
import Verif.Spec.Syntax
import Verif.Props.Compile

/-!
# Counts in patterns
-/

namespace Mregex
open Ast Spec

/-- What was read before is in order. -/
def CatFits : Spec.Cat → Prop
  | .seq (some x) | .alts (some x) => CountsFit x
  | _ => True

theorem countsFit_cat {a b : Ast} (ha : CountsFit a) (hb : CountsFit b) : CountsFit (catAst a b) := by
  have h : ∀ x, CountsFit x → ∀ y ∈ seqParts x, CountsFit y := by
    intro x hx y hy
    cases x with
    | seq l => exact (countsFits_iff l).1 hx y hy
    | _ => simp only [seqParts, List.mem_cons, List.not_mem_nil, or_false] at hy; subst hy; exact hx
  simp only [catAst, CountsFit, countsFits_iff]
  intro y hy
  rcases List.mem_append.mp hy with hy | hy
  · exact h a ha y hy
  · exact h b hb y hy

theorem countsFit_alt {a b : Ast} (ha : CountsFit a) (hb : CountsFit b) : CountsFit (altAst a b) := by
  cases a with
  | alt l =>
    simp only [altAst, CountsFit, countsFits_iff] at ha ⊢
    intro y hy
    rcases List.mem_append.mp hy with hy | hy
    · exact ha y hy
    · simp only [List.mem_cons, List.not_mem_nil, or_false] at hy; subst hy; exact hb
  | _ => exact ⟨ha, hb, trivial⟩

theorem countsFit_open {o : List Byte} {g : Ast → Ast} (h : GroupOpen o g) {x : Ast} (hx : CountsFit x) : CountsFit (g x) := by
  cases h <;> first | exact hx | exact ⟨fun _ => by decide, hx⟩

theorem Spec.NumeralsFit.infix {w v : List Byte} (h : NumeralsFit w) (hv : v <:+: w) : NumeralsFit v := fun u hu => h u (hu.trans hv)

theorem Spec.NumeralsFit.left {w v : List Byte} (h : NumeralsFit (w ++ v)) : NumeralsFit w := h.infix (List.infix_append [] w v)

theorem Spec.NumeralsFit.right {w v : List Byte} (h : NumeralsFit (w ++ v)) : NumeralsFit v := h.infix (by simpa using List.infix_append w v [])

theorem numeral_fits {w : List Byte} {n : Nat} (h : Numeral w n) (hf : NumeralsFit w) : n < 2 ^ 63 := by
  obtain ⟨_, h1, rfl⟩ := h
  exact Nat.lt_of_le_of_lt (Nat.mod_le _ _) (hf w (List.infix_refl _) h1)

theorem quant_fits {q : List Byte} {lo : Nat} {hi : Bound} (h : Quant q lo hi) (hf : NumeralsFit q) : lo < 2 ^ 63 := by
  cases h with
  | star => decide
  | plus => decide
  | opt => decide
  | exact h => exact numeral_fits h hf.left.right
  | atLeast h => exact numeral_fits h hf.left.right
  | between h _ => exact numeral_fits h hf.left.left.left.right

theorem reads_fit {c : Spec.Cat} {w : List Byte} {f : Option Byte} {a : Ast} (h : Reads c w f a) : CatFits c → NumeralsFit w → CountsFit a := by
  induction h with
  | cls h =>
    intro _ _
    simp only [classes, List.mem_cons, Prod.mk.injEq, List.not_mem_nil, or_false] at h
    rcases h with ⟨_, rfl⟩ | ⟨_, rfl⟩ | ⟨_, rfl⟩ | ⟨_, rfl⟩ | ⟨_, rfl⟩ | ⟨_, rfl⟩ | ⟨_, rfl⟩ | ⟨_, rfl⟩ <;> trivial
  | set h => intro _ _; cases h <;> trivial
  | emptyGroup h => intro _ _; exact countsFit_open h trivial
  | group h _ ih => intro _ hf; exact countsFit_open h (ih trivial hf.left.right)
  | bare _ _ ih => intro _ hf; exact ih trivial hf
  | quant _ hq _ _ ih => intro _ hf; exact ⟨fun _ => quant_fits hq hf.left.right, ih trivial hf.left.left⟩
  | assertion h _ =>
    intro _ _
    simp only [Spec.assertions, List.mem_cons, Prod.mk.injEq, List.not_mem_nil, or_false] at h
    rcases h with ⟨_, rfl⟩ | ⟨_, rfl⟩ | ⟨_, rfl⟩ | ⟨_, rfl⟩ <;> trivial
  | braced _ _ _ _ ih1 ih2 ih3 => intro _ hf; exact ih3 (countsFit_cat (ih1 trivial hf.left.left) (ih2 trivial hf.left.right)) hf.right
  | start => intro hc _; exact hc
  | one _ ih => intro _ hf; exact ih trivial hf
  | more _ _ ih1 ih2 => intro hc hf; exact countsFit_cat (ih1 hc hf.left) (ih2 trivial hf.right)
  | @single s _ _ _ _ ih => intro hc hf; exact ih (by cases s <;> exact hc) hf
  | or _ _ ih1 ih2 => intro hc hf; exact countsFit_alt (ih1 hc hf.left.left) (ih2 trivial hf.right)
  | _ => intro _ _; trivial

/-! ### Numbering -/

theorem isAssertion_index : ∀ (a : Ast) (i : Nat), isAssertion (index i a) = isAssertion a
  | .seq [], _ | .alt [], _ => rfl
  | .seq [a], i | .alt [a], i | .neg a, i => by simpa [index, indexSeq, indexSame, isAssertion] using isAssertion_index a i
  | .seq (a :: b :: l), i | .alt (a :: b :: l), i => by simp [index, indexSeq, indexSame, isAssertion]
  | .rep m lo hi a, i => by simp [index, isAssertion, isAssertion_index a i]
  | .set _, _ | .cap _ _ _, _ | .look _ _, _ | .empty, _ | .lit _, _ | .range _ _, _ | .wildcard, _ | .bol, _ | .boi, _ | .eol, _ | .eoi, _ | .wordB, _ | .backref _, _ | .namedBackref _, _ => by
    simp [index, isAssertion]

mutual
theorem triv_index : ∀ (a : Ast) (i : Nat), triv (index i a) = triv a
  | .seq [], _ | .alt [], _ => rfl
  | .seq [a], i => by simpa [index, indexSeq, triv, trivSingle] using triv_index a i
  | .seq (a :: b :: l), i => by simp [index, indexSeq, triv, trivSingle]
  | .alt (a :: l), i => by
    simp only [index, triv, trivAlt_eq]
    rw [trivs_index (a :: l) i]
    rfl
  | .neg a, i => by simp [index, triv, isAssertion_index]
  | .rep m lo hi a, i => by simp [index, triv, triv_index a i]
  | .set _, _ | .cap _ _ _, _ | .look _ _, _ | .empty, _ | .lit _, _ | .range _ _, _ | .wildcard, _ | .bol, _ | .boi, _ | .eol, _ | .eoi, _ | .wordB, _ | .backref _, _ | .namedBackref _, _ => by
    simp [index, triv]
theorem trivs_index : ∀ (l : List Ast) (i : Nat), (indexSame i l).all triv = l.all triv
  | [], _ => rfl
  | a :: l, i => by simp [indexSame, triv_index a i, trivs_index l i]
end

mutual
theorem countsFit_index : ∀ (a : Ast) (i : Nat), CountsFit (index i a) ↔ CountsFit a
  | .seq l, i => by simp only [index, CountsFit]; exact countsFits_indexSeq l i
  | .alt l, i => by simp only [index, CountsFit]; exact countsFits_indexSame l i
  | .neg a, i | .look _ a, i => by simp only [index, CountsFit]; exact countsFit_index a i
  | .cap _ _ a, i => by simp only [index, CountsFit]; exact countsFit_index a (i + 1)
  | .rep m lo hi a, i => by simp only [index, CountsFit, triv_index, countsFit_index a i]
  | .set _, _ | .empty, _ | .lit _, _ | .range _ _, _ | .wildcard, _ | .bol, _ | .boi, _ | .eol, _ | .eoi, _ | .wordB, _ | .backref _, _ | .namedBackref _, _ => by
    simp [index, CountsFit]
theorem countsFits_indexSeq : ∀ (l : List Ast) (i : Nat), CountsFits (indexSeq i l) ↔ CountsFits l
  | [], _ => Iff.rfl
  | a :: l, i => by simp only [indexSeq, CountsFits, countsFit_index a i, countsFits_indexSeq l _]
theorem countsFits_indexSame : ∀ (l : List Ast) (i : Nat), CountsFits (indexSame i l) ↔ CountsFits l
  | [], _ => Iff.rfl
  | a :: l, i => by simp only [indexSame, CountsFits, countsFit_index a i, countsFits_indexSame l i]
end

/-! ### Sequences -/

theorem length_le_nodeCounts : ∀ l : List Ast, l.length ≤ nodeCounts l
  | [] => Nat.le_refl _
  | a :: l => by have := length_le_nodeCounts l; have := nodeCount_pos a; simp only [List.length_cons, nodeCounts]; omega

mutual
theorem shortSeqs_of_count : ∀ a : Ast, nodeCount a ≤ 2 ^ 63 → ShortSeqs a
  | .seq l, h => by
    simp only [nodeCount] at h
    have := length_le_nodeCounts l
    exact ⟨by omega, shortSeqsAll_of_count l (by omega)⟩
  | .alt l, h => by simp only [nodeCount] at h; exact shortSeqsAll_of_count l (by omega)
  | .cap _ _ a, h | .neg a, h | .look _ a, h | .rep _ _ _ a, h => by simp only [nodeCount] at h; exact shortSeqs_of_count a (by omega)
  | .set _, _ | .empty, _ | .lit _, _ | .range _ _, _ | .wildcard, _ | .bol, _ | .boi, _ | .eol, _ | .eoi, _ | .wordB, _ | .backref _, _ | .namedBackref _, _ => trivial
theorem shortSeqsAll_of_count : ∀ l : List Ast, nodeCounts l ≤ 2 ^ 63 → ShortSeqsAll l
  | [], _ => trivial
  | a :: l, h => by simp only [nodeCounts] at h; exact ⟨shortSeqs_of_count a (by omega), shortSeqsAll_of_count l (by omega)⟩
end

end Mregex
