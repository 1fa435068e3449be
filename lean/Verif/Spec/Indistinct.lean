import Verif.Spec.Proc

/-!
# Characters that an expression does not tell apart

An expression looks at characters by the tests that are written in it: literals, ranges, sets and their negations, the wildcard, and the tests for ends of lines
and words.  References compare characters of the text with each other.
-/

namespace Mregex.Spec
open Mregex

/-- `\n` or `\r`. -/
def breakByte (x : Byte) : Bool := x == 10#8 || x == 13#8

/-- ASCII letter, digit or underscore. -/
def wordByte (x : Byte) : Bool := inRange 48#8 57#8 x || inRange 65#8 90#8 x || x == 95#8 || inRange 97#8 122#8 x

mutual
/-- All tests for characters in the expression give the same for `x` and `y`. -/
def alike (f : Flags) (x y : Byte) : Ast → Bool
  | .lit c => accepts f (.lit c) x == accepts f (.lit c) y
  | .range a b => accepts f (.range a b) x == accepts f (.range a b) y
  | .wildcard => accepts f .wildcard x == accepts f .wildcard y
  | .set l => accepts f (.set l) x == accepts f (.set l) y
  | .neg a => if assertion a then alike f x y a else accepts f (.neg a) x == accepts f (.neg a) y
  | .seq l | .alt l => alikeAll f x y l
  | .cap _ _ a | .rep _ _ _ a | .look _ a => alike f x y a
  | .bol | .eol => !f.multiline || breakByte x == breakByte y
  | .wordB => wordByte x == wordByte y
  | .empty | .boi | .eoi | .backref _ | .namedBackref _ => true
def alikeAll (f : Flags) (x y : Byte) : List Ast → Bool
  | [] => true
  | a :: l => alike f x y a && alikeAll f x y l
end

/-- Two texts that the expression does not tell apart: they have the same length, the tests in the expression give the same for characters at the same place,
and, if there are references, the same places hold the same characters. -/
structure Indistinct (f : Flags) (a : Ast) (s s' : List Byte) : Prop where
  len : s.length = s'.length
  tests : ∀ (i : Nat) x x', s[i]? = some x → s'[i]? = some x' → alike f x x' a = true
  refs : noBackref a = false → ∀ (i j : Nat) x y x' y', s[i]? = some x → s[j]? = some y → s'[i]? = some x' → s'[j]? = some y' →
    sameChar f.icase x y = sameChar f.icase x' y'

end Mregex.Spec
