import Verif.Proof.Expressions
import Verif.Spec.Marks

/-!
# The groups and references of expressions
-/

namespace Mregex
open Ast Spec Xpr

theorem marksAll_append (l l' : List Ast) : groupMarksAll (l ++ l') = groupMarksAll l ++ groupMarksAll l' := by
  induction l with
  | nil => rfl
  | cons a l ih => simp only [List.cons_append, groupMarksAll, ih, List.append_assoc]

theorem marksAll_flatMap {f : Ast → List Ast} (h : ∀ a, groupMarksAll (f a) = groupMarks a) (l : List Ast) : groupMarksAll (l.flatMap f) = groupMarksAll l := by
  induction l with
  | nil => rfl
  | cons a l ih => rw [List.flatMap_cons, marksAll_append, h, ih, groupMarksAll]

theorem marks_concat {l : List Ast} {a : Ast} (h : Xpr.concat l = some a) : groupMarks a = groupMarksAll l := by
  match l, h with
  | [], h => simp [Xpr.concat, Xpr.flatWrap] at h
  | [b], h =>
    simp only [Xpr.concat, Xpr.flatWrap, Option.some.injEq] at h
    subst h; simp [groupMarksAll]
  | b :: b' :: l, h =>
    rw [concat_eq] at h
    cases h
    simp only [groupMarks]
    exact marksAll_flatMap (fun a => by cases a <;> simp [Mregex.seqParts, groupMarksAll, groupMarks]) _

theorem marks_either {l : List Ast} {a : Ast} (h : Xpr.either l = some a) : groupMarks a = groupMarksAll l := by
  match l, h with
  | [], h => simp [Xpr.either, Xpr.flatWrap] at h
  | [b], h =>
    simp only [Xpr.either, Xpr.flatWrap, Option.some.injEq] at h
    subst h; simp [groupMarksAll]
  | b :: b' :: l, h =>
    rw [either_eq] at h
    cases h
    simp only [groupMarks]
    exact marksAll_flatMap (fun a => by cases a <;> simp [Mregex.altParts, groupMarksAll, groupMarks]) _

theorem marks_pack {as : List Ast} : groupMarks (Xpr.pack as) = groupMarksAll as := by
  match as with
  | [] => rfl
  | [a] => simp [Xpr.pack, groupMarksAll]
  | a :: b :: l => rfl

theorem marks_packed {g : List Ast → Ast} {l : List Expr} {R : Regex} {ms : List Mark} (h : (operands l).bind (packed g) = some R)
    (hl : ∀ as, operands l = some as → groupMarks (g as) = ms) : groupMarks R.ast = ms := by
  obtain ⟨as, has, h⟩ := Option.bind_eq_some_iff.1 h
  obtain ⟨_, rfl⟩ := packed_some h
  exact hl as has

theorem marks_unary {g : Ast → Ast} (hg : ∀ a, groupMarks (g a) = groupMarks a) {e : Expr} {R : Regex} (ih : ∀ R, eval e = some R → groupMarks R.ast = marksOf e)
    (h : ((eval e).bind node).map (fun a => toRegex (g a)) = some R) : groupMarks R.ast = marksOf e := by
  obtain ⟨a, h', rfl⟩ := Option.map_eq_some_iff.1 h
  obtain ⟨R', h', hn⟩ := Option.bind_eq_some_iff.1 h'
  obtain rfl := node_some hn
  exact (hg a).trans (ih _ h')

mutual
theorem marks_eval : ∀ (e : Expr) (R : Regex), eval e = some R → groupMarks R.ast = marksOf e
  | .term t, R, h => by
    simp only [eval, Option.some.injEq] at h
    subst h
    cases t <;> rfl
  | .chr c, R, h => by simp only [eval, Option.some.injEq] at h; subst h; rfl
  | .str w, R, h => by
    simp only [eval] at h
    split at h
    · cases h
    · cases h
      show groupMarksAll (w.map .lit) = []
      induction w with
      | nil => rfl
      | cons x w ih =>
        cases w with
        | nil => rfl
        | cons y w => simpa [groupMarksAll, groupMarks] using ih (by simp)
  | .range a b, R, h => by simp only [eval, Option.some.injEq] at h; subst h; rfl
  | .group k, R, h => by simp only [eval, Option.some.injEq] at h; subst h; rfl
  | .groupNamed n, R, h => by simp only [eval, Option.some.injEq] at h; subst h; rfl
  | .regex p, R, h => by
    simp only [eval] at h
    simp only [marksOf]
    split at h
    · next a hp => cases h; simp only [hp]; rfl
    · cases h
  | .concat l, R, h => by
    simp only [eval, Option.bind_eq_some_iff, Option.map_eq_some_iff] at h
    obtain ⟨as, has, a, ha, rfl⟩ := h
    exact (marks_concat ha).trans (marks_operands l as has)
  | .either l, R, h => by
    simp only [eval, Option.bind_eq_some_iff, Option.map_eq_some_iff] at h
    obtain ⟨as, has, a, ha, rfl⟩ := h
    exact (marks_either ha).trans (marks_operands l as has)
  | .atomic l, R, h => by
    simp only [eval] at h
    exact marks_packed h (fun as has => (marks_pack (as := as)).trans (marks_operands l as has))
  | .capture id name l, R, h => by
    simp only [eval] at h
    exact marks_packed h (fun as has => congrArg (Mark.opens id name :: ·) ((marks_pack (as := as)).trans (marks_operands l as has)))
  | .between a b m l, R, h => by
    simp only [eval] at h
    exact marks_packed h (fun as has => (marks_pack (as := as)).trans (marks_operands l as has))
  | .atLeast n m l, R, h => by
    simp only [eval] at h
    exact marks_packed h (fun as has => (marks_pack (as := as)).trans (marks_operands l as has))
  | .exactly n m l, R, h => by
    simp only [eval] at h
    exact marks_packed h (fun as has => (marks_pack (as := as)).trans (marks_operands l as has))
  | .zeroOrMore m l, R, h => by
    simp only [eval] at h
    exact marks_packed h (fun as has => (marks_pack (as := as)).trans (marks_operands l as has))
  | .oneOrMore m l, R, h => by
    simp only [eval] at h
    exact marks_packed h (fun as has => (marks_pack (as := as)).trans (marks_operands l as has))
  | .maybe m l, R, h => by
    simp only [eval] at h
    exact marks_packed h (fun as has => (marks_pack (as := as)).trans (marks_operands l as has))
  | .ahead l, R, h => by
    simp only [eval] at h
    exact marks_packed h (fun as has => (marks_pack (as := as)).trans (marks_operands l as has))
  | .behind l, R, h => by
    simp only [eval] at h
    exact marks_packed h (fun as has => (marks_pack (as := as)).trans (marks_operands l as has))
  | .negate e, R, h => by simp only [eval] at h; simp only [marksOf]; exact marks_unary (g := negate) (fun _ => rfl) (marks_eval e) h
  | .not e, R, h => by simp only [eval] at h; simp only [marksOf]; exact marks_unary (g := opNot) (fun _ => rfl) (marks_eval e) h
  | .star e, R, h => by simp only [eval] at h; simp only [marksOf]; exact marks_unary (g := opStar) (fun _ => rfl) (marks_eval e) h
  | .plus e, R, h => by simp only [eval] at h; simp only [marksOf]; exact marks_unary (g := opPlus) (fun _ => rfl) (marks_eval e) h
  | .shiftRight e e', R, h => by
    simp only [eval, Option.bind_eq_some_iff, Option.map_eq_some_iff] at h
    obtain ⟨a, ⟨R₁, h1, h1'⟩, b, ⟨R₂, h2, h2'⟩, x, hx, rfl⟩ := h
    obtain rfl := node_some h1'
    obtain rfl := node_some h2'
    refine (marks_concat hx).trans ?_
    simp only [groupMarksAll, List.append_nil, marksOf]
    rw [← marks_eval e _ h1, ← marks_eval e' _ h2]; rfl
  | .bitOr e e', R, h => by
    simp only [eval, Option.bind_eq_some_iff, Option.map_eq_some_iff] at h
    obtain ⟨a, ⟨R₁, h1, h1'⟩, b, ⟨R₂, h2, h2'⟩, x, hx, rfl⟩ := h
    obtain rfl := node_some h1'
    obtain rfl := node_some h2'
    refine (marks_either hx).trans ?_
    simp only [groupMarksAll, List.append_nil, marksOf]
    rw [← marks_eval e _ h1, ← marks_eval e' _ h2]; rfl
  | .addFlags fl e, R, h => by
    simp only [eval, Option.map_eq_some_iff] at h
    obtain ⟨R', h, rfl⟩ := h
    exact marks_eval e R' h
  | .clearFlags e, R, h => by
    simp only [eval, Option.map_eq_some_iff] at h
    obtain ⟨R', h, rfl⟩ := h
    exact marks_eval e R' h
theorem marks_operands : ∀ (l : List Expr) (as : List Ast), operands l = some as → groupMarksAll as = marksOfAll l
  | [], as, h => by simp only [operands, Option.some.injEq] at h; subst h; rfl
  | e :: l, as, h => by
    simp only [operands, Option.bind_eq_some_iff, Option.map_eq_some_iff] at h
    obtain ⟨a, ⟨R, h1, h1'⟩, as', h2, rfl⟩ := h
    obtain rfl := node_some h1'
    simp only [groupMarksAll, marksOfAll]
    rw [← marks_eval e _ h1, ← marks_operands l as' h2]; rfl
end

/-- **C58**: the groups and the references of the regex are the written ones, with their numbers and names, in the order of writing. -/
theorem C58_marks {e : Expr} {R : Regex} (h : eval e = some R) : groupMarks R.ast = marksOf e := marks_eval e R h

/-- `(capture<2>(chr<'a'>) >> group<2>) | group_named<"n">`. -/
example : ∃ R, eval (.bitOr (.shiftRight (.capture 2 none [.chr (ch 'a')]) (.group 2)) (.groupNamed [ch 'n'])) = some R ∧
    groupMarks R.ast = [.opens 2 none, .refers 2, .refersByName [ch 'n']] :=
  have h : WellFormed (.bitOr (.shiftRight (.capture 2 none [.chr (ch 'a')]) (.group 2)) (.groupNamed [ch 'n'])) := by
    simp [WellFormed, WellFormedAll, flagsOf]
  have ⟨R, hR⟩ := Option.isSome_iff_exists.1 ((eval_isSome _).2 h)
  ⟨R, hR, C58_marks hR⟩

end Mregex
