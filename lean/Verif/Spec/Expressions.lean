import Verif.Model.Xpr
import Verif.Spec.Lang
import Verif.Spec.Sets
import Verif.Spec.Numbering

/-!
# What expressions of the expression-based API mean

Written without reference to the trees that the functions build: concatenation is relational composition, alternation is union, and so on.
-/

namespace Mregex.Spec
open Mregex Xpr

/-- The flags of an expression. -/
def flagsOf : Expr → List RegexFlag
  | .addFlags fl e => flagsOf e ++ fl
  | _ => []

mutual
/-- Expressions that compile: functions have arguments, none of which carries flags; strings are not empty; patterns are in the grammar. -/
def WellFormed : Expr → Prop
  | .term _ | .chr _ | .range _ _ | .group _ | .groupNamed _ => True
  | .str w => w ≠ []
  | .regex p => ∃ x, Pattern p x
  | .concat l | .either l | .atomic l | .capture _ _ l | .between _ _ _ l | .atLeast _ _ l | .exactly _ _ l | .zeroOrMore _ l
  | .oneOrMore _ l | .maybe _ l | .ahead l | .behind l => l ≠ [] ∧ WellFormedAll l
  | .negate e | .not e | .star e | .plus e => WellFormed e ∧ flagsOf e = []
  | .shiftRight e e' | .bitOr e e' => (WellFormed e ∧ flagsOf e = []) ∧ WellFormed e' ∧ flagsOf e' = []
  | .addFlags _ e | .clearFlags e => WellFormed e
def WellFormedAll : List Expr → Prop
  | [] => True
  | e :: l => (WellFormed e ∧ flagsOf e = []) ∧ WellFormedAll l
end

mutual
/-- The names of the groups, in the order in which the groups are written. -/
def groupsOf : Expr → List GroupName
  | .term _ | .chr _ | .str _ | .range _ _ | .group _ | .groupNamed _ => []
  | .regex p => openedGroups p
  | .capture _ name l => name :: groupsOfAll l
  | .concat l | .either l | .atomic l | .between _ _ _ l | .atLeast _ _ l | .exactly _ _ l | .zeroOrMore _ l | .oneOrMore _ l
  | .maybe _ l | .ahead l | .behind l => groupsOfAll l
  | .negate e | .not e | .star e | .plus e | .addFlags _ e | .clearFlags e => groupsOf e
  | .shiftRight e e' | .bitOr e e' => groupsOf e ++ groupsOf e'
def groupsOfAll : List Expr → List GroupName
  | [] => []
  | e :: l => groupsOf e ++ groupsOfAll l
end

/-- Expressions that test a position instead of consuming characters. -/
inductive Tests : Expr → Prop
  | beginLine : Tests (.term .beginLine)
  | endLine : Tests (.term .endLine)
  | beginInput : Tests (.term .beginInput)
  | endInput : Tests (.term .endInput)
  | wordBoundary : Tests (.term .wordBoundary)
  | ahead (l : List Expr) : Tests (.ahead l)
  | behind (l : List Expr) : Tests (.behind l)
  | negate {e : Expr} : Tests e → Tests (.negate e)
  | not {e : Expr} : Tests e → Tests (.not e)
  | concat {e : Expr} : Tests e → Tests (.concat [e])
  | either {e : Expr} : Tests e → Tests (.either [e])
  | between {m : Mode} {e : Expr} : m ≠ .possessive → Tests e → Tests (.between 1 1 m [e])
  | exactly {m : Mode} {e : Expr} : m ≠ .possessive → Tests e → Tests (.exactly 1 m [e])
  | regex {p : List Byte} {x : Ast} : Pattern p x → assertion x = true → Tests (.regex p)
  | addFlags {fl : List RegexFlag} {e : Expr} : Tests e → Tests (.addFlags fl e)
  | clearFlags {e : Expr} : Tests e → Tests (.clearFlags e)

/-- One character. -/
def One (s : List Byte) (P : Byte → Prop) (i j : Nat) : Prop := j = i + 1 ∧ CharAt s i P

/-- The constants. -/
def TermMeans (f : Flags) (s : List Byte) : Terminal → Nat → Nat → Prop
  | .empty => fun i j => i = j
  | .nothing => fun _ _ => False
  | .beginLine => fun i j => i = j ∧ (i = 0 ∨ (f.multiline = true ∧ CharBefore s i LineBreak))
  | .endLine => fun i j => i = j ∧ (i = s.length ∨ (f.multiline = true ∧ CharAt s i LineBreak))
  | .beginInput => fun i j => i = j ∧ i = 0
  | .endInput => fun i j => i = j ∧ i = s.length
  | .wordBoundary => fun i j => i = j ∧ ¬ (CharBefore s i WordChar ↔ CharAt s i WordChar)
  | .whitespace => One s WhiteSpace
  | .wildcard => One s (fun x => f.dotall = true ∨ ¬ LineBreak x)
  | .lower => One s (fun x => ∃ y : Byte, 97 ≤ y.toNat ∧ y.toNat ≤ 122 ∧ CharEq f.icase y x)
  | .upper => One s (fun x => ∃ y : Byte, 65 ≤ y.toNat ∧ y.toNat ≤ 90 ∧ CharEq f.icase y x)
  | .digit => One s DecDigit
  | .word => One s WordChar
  | .linebreak => One s LineBreak

mutual
/-- `Means f s e i j`: with flags `f`, the part of `s` between the positions `i` and `j` is described by `e`.  As in `Matches`, references are
read as arbitrary text and possessive repetitions like ordinary ones; statements that need more exclude them. -/
def Means (f : Flags) (s : List Byte) : Expr → Nat → Nat → Prop
  | .term t => TermMeans f s t
  | .chr c => One s (CharEq f.icase c)
  | .str w => fun i j => j = i + w.length ∧ ∀ k x, w[k]? = some x → CharAt s (i + k) (CharEq f.icase x)
  | .range a b => One s (fun x => ∃ y : Byte, a.toNat ≤ y.toNat ∧ y.toNat ≤ b.toNat ∧ CharEq f.icase y x)
  | .group _ | .groupNamed _ => fun i j => i ≤ j ∧ j ≤ s.length
  | .regex p => fun i j => ∃ x, Pattern p x ∧ Matches f s x i j
  | .concat l | .atomic l | .capture _ _ l => InOrder f s l
  | .either l => AnyOf f s l
  | .between a b _ l => fun i j => ∃ k, a ≤ k ∧ k ≤ b ∧ Iter (InOrder f s l) k i j
  | .atLeast n _ l => fun i j => ∃ k, n ≤ k ∧ Iter (InOrder f s l) k i j
  | .exactly n _ l => Iter (InOrder f s l) n
  | .zeroOrMore _ l => fun i j => ∃ k, Iter (InOrder f s l) k i j
  | .oneOrMore _ l => fun i j => ∃ k, 0 < k ∧ Iter (InOrder f s l) k i j
  | .maybe _ l => fun i j => i = j ∨ InOrder f s l i j
  | .ahead l => fun i j => i = j ∧ ∃ t, i ≤ t ∧ InOrder f s l i t
  | .behind l => fun i j => i = j ∧ ∃ t, t ≤ i ∧ InOrder f s l t i
  | .negate e | .not e => fun i j =>
      (Tests e ∧ i = j ∧ ¬ Means f s e i i) ∨ (¬ Tests e ∧ j = i + 1 ∧ i < s.length ∧ ¬ Means f s e i (i + 1))
  | .shiftRight e e' => fun i j => ∃ t, Means f s e i t ∧ Means f s e' t j
  | .bitOr e e' => fun i j => Means f s e i j ∨ Means f s e' i j
  | .star e => fun i j => ∃ k, Iter (Means f s e) k i j
  | .plus e => fun i j => ∃ k, 0 < k ∧ Iter (Means f s e) k i j
  | .addFlags _ e | .clearFlags e => Means f s e
/-- One after the other. -/
def InOrder (f : Flags) (s : List Byte) : List Expr → Nat → Nat → Prop
  | [] => fun i j => i = j
  | e :: l => fun i j => ∃ t, Means f s e i t ∧ InOrder f s l t j
/-- One of them. -/
def AnyOf (f : Flags) (s : List Byte) : List Expr → Nat → Nat → Prop
  | [] => fun _ _ => False
  | e :: l => fun i j => Means f s e i j ∨ AnyOf f s l i j
end

end Mregex.Spec
