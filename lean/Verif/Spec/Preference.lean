import Verif.Spec.Expressions
import Verif.Spec.Order

/-!
# What expressions of the expression-based API prefer

`prefs f s e fwd inv p`: the positions at which text described by the expression and beginning at `p` may end, in order of preference.  `fwd` and `inv` are as in
`Spec/Order`.  Written without reference to the trees that the functions build.  References have no ends here; statements that need more exclude them.
-/

namespace Mregex.Spec
open Mregex Xpr Classical

/-- The tree of an accepted pattern. -/
noncomputable def treeOf (p : List Byte) : Ast := if h : ∃ x, Pattern p x then choose h else .empty

/-- A character of a set. -/
noncomputable def charOf (s : List Byte) (fwd : Bool) (P : Byte → Prop) (p : Nat) : List Nat := oneChar s fwd (fun x => decide (P x)) p

/-- The constants. -/
noncomputable def termPrefs (f : Flags) (s : List Byte) : Terminal → Bool → Nat → List Nat
  | .empty, _, p => [p]
  | .beginLine, fwd, p => test (atStart s fwd f.multiline p) p
  | .endLine, fwd, p => test (atStop s fwd f.multiline p) p
  | .beginInput, fwd, p => test (atStart s fwd false p) p
  | .endInput, fwd, p => test (atStop s fwd false p) p
  | .wordBoundary, _, p => test (before (isWordAt s) p != isWordAt s p) p
  | t, fwd, p => charOf s fwd (fun x => TermMeans f [x] t 0 1) p

/-- The characters of a string. -/
noncomputable def strPrefs (f : Flags) (s : List Byte) (fwd inv : Bool) : List Byte → Nat → List Nat
  | [], p => [p]
  | c :: w, p =>
    if inv then (strPrefs f s fwd inv w p).flatMap (charOf s fwd (CharEq f.icase c))
    else (charOf s fwd (CharEq f.icase c) p).flatMap (strPrefs f s fwd inv w)

/-- Once or not at all. -/
def orNot (m : Mode) (ungreedy : Bool) (g : Nat → List Nat) (p : Nat) : List Nat :=
  match m, ungreedy with
  | .possessive, _ => ((g p) ++ [p]).take 1
  | .greedy, false | .lazy, true => g p ++ [p]
  | .greedy, true | .lazy, false => p :: g p

/-- A number of times; possessive: the first way only. -/
def times (m : Mode) (k : Nat) (g : Nat → List Nat) (p : Nat) : List Nat :=
  if m = .possessive then (exactly g k p).take 1 else exactly g k p

mutual
noncomputable def prefs (f : Flags) (s : List Byte) : Expr → Bool → Bool → Nat → List Nat
  | .term t, fwd, _, p => termPrefs f s t fwd p
  | .chr c, fwd, _, p => charOf s fwd (CharEq f.icase c) p
  | .str w, fwd, inv, p => strPrefs f s fwd inv w p
  | .range a b, fwd, _, p => charOf s fwd (fun x => ∃ y : Byte, a.toNat ≤ y.toNat ∧ y.toNat ≤ b.toNat ∧ CharEq f.icase y x) p
  | .group _, _, _, _ | .groupNamed _, _, _, _ => []
  | .regex w, fwd, inv, p => ends f s (treeOf w) fwd inv p
  | .concat l, fwd, inv, p => prefsInOrder f s l fwd inv p
  | .capture _ _ l, fwd, inv, p => prefsInOrder f s l fwd inv p
  | .atomic l, fwd, inv, p => (prefsInOrder f s l fwd inv p).take 1
  | .either l, fwd, inv, p => prefsAnyOf f s l fwd inv p
  | .between a b m l, fwd, inv, p => (times m a (prefsInOrder f s l fwd inv) p).flatMap (extra s.length m f.ungreedy (prefsInOrder f s l fwd inv) (some (b - a)))
  | .atLeast n m l, fwd, inv, p => (times m n (prefsInOrder f s l fwd inv) p).flatMap (extra s.length m f.ungreedy (prefsInOrder f s l fwd inv) none)
  | .exactly n m l, fwd, inv, p => times m n (prefsInOrder f s l fwd inv) p
  | .zeroOrMore m l, fwd, inv, p => extra s.length m f.ungreedy (prefsInOrder f s l fwd inv) none p
  | .oneOrMore m l, fwd, inv, p =>
      (times m 1 (prefsInOrder f s l fwd inv) p).flatMap (extra s.length m f.ungreedy (prefsInOrder f s l fwd inv) none)
  | .maybe m l, fwd, inv, p => orNot m f.ungreedy (prefsInOrder f s l fwd inv) p
  | .ahead l, fwd, inv, p =>
      if inv then test (!(prefsInOrder f s l (!fwd) true p).isEmpty) p else test (!(prefsInOrder f s l fwd false p).isEmpty) p
  | .behind l, fwd, inv, p =>
      if inv then test (!(prefsInOrder f s l fwd false p).isEmpty) p else test (!(prefsInOrder f s l (!fwd) true p).isEmpty) p
  | .negate e, fwd, inv, p | .not e, fwd, inv, p =>
      if Tests e then test (prefs f s e fwd inv p).isEmpty p else charOf s fwd (fun x => ¬ Means f [x] e 0 1) p
  | .shiftRight e e', fwd, inv, p =>
      if inv then (prefs f s e' fwd inv p).flatMap (prefs f s e fwd inv) else (prefs f s e fwd inv p).flatMap (prefs f s e' fwd inv)
  | .bitOr e e', fwd, inv, p => prefs f s e fwd inv p ++ prefs f s e' fwd inv p
  | .star e, fwd, inv, p => extra s.length .greedy f.ungreedy (prefs f s e fwd inv) none p
  | .plus e, fwd, inv, p => (prefs f s e fwd inv p).flatMap (extra s.length .greedy f.ungreedy (prefs f s e fwd inv) none)
  | .addFlags _ e, fwd, inv, p | .clearFlags e, fwd, inv, p => prefs f s e fwd inv p
/-- One after the other: earlier choices take precedence. -/
noncomputable def prefsInOrder (f : Flags) (s : List Byte) : List Expr → Bool → Bool → Nat → List Nat
  | [], _, _, p => [p]
  | e :: l, fwd, inv, p =>
      if inv then (prefsInOrder f s l fwd inv p).flatMap (prefs f s e fwd inv)
      else (prefs f s e fwd inv p).flatMap (prefsInOrder f s l fwd inv)
/-- One of them: earlier ones are preferred. -/
noncomputable def prefsAnyOf (f : Flags) (s : List Byte) : List Expr → Bool → Bool → Nat → List Nat
  | [], _, _, _ => []
  | e :: l, fwd, inv, p => prefs f s e fwd inv p ++ prefsAnyOf f s l fwd inv p
end

end Mregex.Spec
