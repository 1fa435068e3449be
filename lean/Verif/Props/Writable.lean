import Verif.Proof.Writable
import Verif.Proof.Expressions
import Verif.Props.Variants
import Verif.Props.Parsing

/-!
# Whatever can be used can be written as a pattern
-/

namespace Mregex
open Ast Spec

/-! ## C60 -/

/-- **C60**: for every usable regex whose numbers and names can be written and whose groups carry the numbers that the parser gives (in
particular for those without groups) there is a pattern that the library accepts and that can be used with the same iterators; its
groups have the same names, all methods give the same results, and `tokenize` and `find_all` visit the same ones. -/
theorem C60_pattern {R : Regex} {cat : Cat} (hR : R.Ok cat) (hw : Writable R.ast) (hi : indexCaptures R.ast = R.ast) :
    ∃ w b, parse w = .result b .success ∧ (Regex.mk b R.flags).Ok cat ∧ nameSpec b = nameSpec R.ast ∧
      (∀ M s, SameCall (R.invoke M cat s) ((Regex.mk b R.flags).invoke M cat s)) ∧
      ∀ M s rounds, rangeElements R M cat s rounds = rangeElements ⟨b, R.flags⟩ M cat s rounds := by
  obtain ⟨b, hb⟩ := exists_keeps (regular_of_ok (hR []) hw) (Flags.ofList R.flags) false
  exact ⟨print b, b, C36_parse_print hb.normal (hb.idx 1 hi), (C59_usable hb.variant cat).1 hR, (variant_names hb.variant).symm,
    fun M s => C59_results hb.variant hR M s, fun M s k => C59_ranges hb.variant hR M s k⟩

mutual
theorem index_none : ∀ (o : Nat) (a : Ast), captureCount a = 0 → index o a = a
  | _, .seq l, h => congrArg _ (indexSeq_none _ l h)
  | _, .alt l, h => congrArg _ (indexSame_none _ l h)
  | _, .set l, h => congrArg _ (indexSame_none _ l h)
  | _, .neg a, h => congrArg _ (index_none _ a h)
  | _, .cap _ _ a, h => by simp [captureCount] at h
  | _, .rep _ _ _ a, h => congrArg _ (index_none _ a h)
  | _, .look _ a, h => congrArg _ (index_none _ a h)
  | _, .empty, _ | _, .lit _, _ | _, .range _ _, _ | _, .wildcard, _ | _, .bol, _ | _, .boi, _ | _, .eol, _ | _, .eoi, _ | _, .wordB, _
  | _, .backref _, _ | _, .namedBackref _, _ => rfl
theorem indexSeq_none : ∀ (o : Nat) (l : List Ast), captureCountAll l = 0 → indexSeq o l = l
  | _, [], _ => rfl
  | o, a :: l, h => by
    simp only [captureCountAll, Nat.add_eq_zero_iff] at h
    simp [indexSeq, index_none o a h.1, indexSeq_none _ l h.2]
theorem indexSame_none : ∀ (o : Nat) (l : List Ast), captureCountAll l = 0 → indexSame o l = l
  | _, [], _ => rfl
  | o, a :: l, h => by
    simp only [captureCountAll, Nat.add_eq_zero_iff] at h
    simp [indexSame, index_none o a h.1, indexSame_none _ l h.2]
end

/-- **C60**: hence for every usable expression of the expression-based API that writes no groups. -/
theorem C60_expression {e : Xpr.Expr} {R : Regex} (he : Xpr.eval e = some R) (hg : groupsOf e = []) {cat : Cat} (hR : R.Ok cat)
    (hw : Writable R.ast) :
    ∃ w b, parse w = .result b .success ∧ (Regex.mk b (flagsOf e)).Ok cat ∧
      (∀ M s, SameCall (R.invoke M cat s) ((Regex.mk b (flagsOf e)).invoke M cat s)) ∧
      ∀ M s rounds, rangeElements R M cat s rounds = rangeElements ⟨b, flagsOf e⟩ M cat s rounds := by
  have hf := eval_facts e R he
  have h0 : captureCount R.ast = 0 := by rw [← length_nameSpec, hf.names, hg]; rfl
  obtain ⟨w, b, h1, h2, _, h4, h5⟩ := C60_pattern hR hw (index_none 1 _ h0)
  rw [← hf.flags]
  exact ⟨w, b, h1, h2, h4, h5⟩

/-- Nested alternations and sequences, a negated anchor in a lookbehind, a complement of alternatives. -/
def exTree : Regex :=
  ⟨.seq [.seq [.cap 1 (some [ch 'x']) (.alt [.alt [.lit (ch 'a'), .empty], .lit (ch 'b')]), .seq [.lit (ch 'c')]],
    .look .behind (.seq [.neg .eol, .neg (.alt [.lit (ch 'd'), .wildcard])])], [.dotall]⟩

theorem exTree_writable : Writable exTree.ast := by
  refine .seq (fun a ha => ?_)
  simp only [exTree, List.mem_cons, List.not_mem_nil, or_false] at ha
  rcases ha with rfl | rfl
  · refine .seq (fun a ha => ?_)
    simp only [List.mem_cons, List.not_mem_nil, or_false] at ha
    rcases ha with rfl | rfl
    · refine .cap (fun n hn => ?_) (.alt (fun a ha => ?_))
      · cases hn; exact ⟨by simp [WordChar]; decide, ch 'x', rfl, by decide⟩
      · simp only [List.mem_cons, List.not_mem_nil, or_false] at ha
        rcases ha with rfl | rfl
        · refine .alt (fun a ha => ?_)
          simp only [List.mem_cons, List.not_mem_nil, or_false] at ha
          rcases ha with rfl | rfl
          · exact .lit _
          · exact .empty
        · exact .lit _
    · exact .seq (fun a ha => by cases List.mem_singleton.1 ha; exact .lit _)
  · refine .look (.seq (fun a ha => ?_))
    simp only [List.mem_cons, List.not_mem_nil, or_false] at ha
    rcases ha with rfl | rfl
    · exact .neg .eol
    · refine .neg (.alt (fun a ha => ?_))
      simp only [List.mem_cons, List.not_mem_nil, or_false] at ha
      rcases ha with rfl | rfl
      · exact .lit _
      · exact .wildcard

example := C60_pattern (R := exTree) (cat := .bidirectional) (Regex.ok_of_okb (by decide)) exTree_writable rfl

end Mregex
