import Verif.Spec.Tidy
import Verif.Spec.Passed

/-!
# Texts that consist of pieces
-/

namespace Mregex.Spec
open Mregex

/-- A test of one character that no separator passes. -/
def rejects (f : Flags) (seps : List Byte) (a : Ast) : Bool := seps.all fun x => !accepts f a x

mutual
/-- Neither reads a separator nor distinguishes separators from the ends of the text: no character test of `a` lets a separator pass; no `\A` and `\Z`; `^` and `$`
only with `multiline`, if all separators are line breaks; word boundaries only if no separator is a word character; references that ignore case only if no separator is
a letter. -/
def stays (f : Flags) (seps : List Byte) : Ast → Bool
  | .empty => true
  | .lit c => rejects f seps (.lit c)
  | .range a b => rejects f seps (.range a b)
  | .wildcard => rejects f seps .wildcard
  | .set l => rejects f seps (.set l)
  | .neg a => if assertion a then stays f seps a else rejects f seps (.neg a)
  | .seq l | .alt l => staysAll f seps l
  | .cap _ _ a | .rep _ _ _ a | .look _ a => stays f seps a
  | .bol | .eol => f.multiline && seps.all fun x => x == 10#8 || x == 13#8
  | .boi | .eoi => false
  | .wordB => seps.all fun x => !isWordAt [x] 0
  | .backref _ | .namedBackref _ => !f.icase || seps.all fun x => asciiLower x == x && asciiUpper x == x
def staysAll (f : Flags) (seps : List Byte) : List Ast → Bool
  | [] => true
  | a :: l => stays f seps a && staysAll f seps l
end

/-- The pieces between the separators. -/
def pieces (seps : List Byte) : List Byte → List (List Byte)
  | [] => [[]]
  | c :: s =>
    if c ∈ seps then [] :: pieces seps s
    else match pieces seps s with
      | [] => [[c]]
      | w :: ws => (c :: w) :: ws

/-- What is found, in a text that begins `d` characters later. -/
def later {α : Type} (d : Nat) (x : (Nat × Nat) × α) : (Nat × Nat) × α := ((x.1.1 + d, x.1.2 + d), x.2)

/-- What is found in each of the pieces, one separator between them; the first begins at `d`. -/
def perPiece {α : Type} (find : List Byte → List ((Nat × Nat) × α)) : Nat → List (List Byte) → List ((Nat × Nat) × α)
  | _, [] => []
  | d, w :: ws => (find w).map (later d) ++ perPiece find (d + w.length + 1) ws

/-- What is found in the first of the pieces in which something is found. -/
def firstPiece {α : Type} (find : List Byte → Option ((Nat × Nat) × α)) : Nat → List (List Byte) → Option ((Nat × Nat) × α)
  | _, [] => none
  | d, w :: ws =>
    match find w with
    | some x => some (later d x)
    | none => firstPiece find (d + w.length + 1) ws

/-- The groups outside of lookarounds, negations, atomic groups and possessive quantifiers. -/
def outerGroups (a : Ast) : List Nat := (List.range' 1 (Ast.captureCount a)).filter fun k => !(innerGroups a).contains k

/-- Where a match is and what the outer groups hold. -/
def sight (a : Ast) (s : List Byte) (res : Result) : (Nat × Nat) × List (List Byte) :=
  (((res.group 0).getD none).getD (0, 0), (outerGroups a).map fun k => heldText s ((res.group k).getD none))

end Mregex.Spec
