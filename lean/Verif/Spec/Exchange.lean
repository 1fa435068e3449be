import Verif.Spec.Decide
import Verif.Spec.Frame

/-!
# Which texts show whether two expressions can be exchanged
-/

namespace Mregex.Spec
open Mregex

/-- Each position once, in the order in which they first occur. -/
def firsts : List Nat → List Nat
  | [] => []
  | p :: l => p :: (firsts l).filter (· ≠ p)

/-- Texts of this length are long enough.  Each position of a text is left alone or marked in one of two ways (256 · 3 + 1 classes for the next character). -/
def choiceBound (X Y : Ast) : Nat := 2 * ((sizeFor X).answer 769 2 * (sizeFor Y).answer 769 2)

/-- Do the two have the same possible ends in the same order, from all positions of all texts that are shorter than the bound? -/
def choicesb (f : Flags) (fwd inv : Bool) (X Y : Ast) : Bool :=
  (shorter (choiceBound X Y)).all fun s => (List.range (s.length + 1)).all fun p =>
    firsts (ends f s X fwd inv p) == firsts (ends f s Y fwd inv p)

/-- Can the two be exchanged in all surroundings? -/
def exchangeableb (fl : List RegexFlag) (cat : Cat) (X Y : Ast) : Bool :=
  (match cat with
    | .forward => [(true, false)]
    | _ => [(true, false), (true, true), (false, false), (false, true)]).all fun r => choicesb (Flags.ofList fl) r.1 r.2 X Y

/-- Where a match that begins at a position ends. -/
def attempt (R : Regex) (cat : Cat) (s : List Byte) (p : Nat) : Option Nat :=
  match Method.matchPrefix.invoke (R.env cat s) (fuelFor R.ast s) R.ast p (initCtx R.names) with
  | .ok res _ => if res.matched then some res.pos else none
  | _ => none

/-- Do matches that begin at the same position end at the same position, in all texts that are shorter than the bound? -/
def alikeb (R R' : Regex) (cat : Cat) : Bool :=
  (shorter (choiceBound R.ast R'.ast)).all fun s => (List.range (s.length + 1)).all fun p => attempt R cat s p == attempt R' cat s p

end Mregex.Spec
