import Verif.Spec.Lang

/-!
# Openers of groups

The ways a group can begin in a pattern (README.md, "Groups").
-/

namespace Mregex.Spec
open Mregex

/-- A text as a list of characters. -/
def txt (s : String) : List Byte := s.toList.map ch

/-- The name of a group: word characters, the first of which is not a digit. -/
def IsName (w : List Byte) : Prop :=
  (∀ c ∈ w, WordChar c) ∧ ∃ c, w.head? = some c ∧ ¬(48 ≤ c.toNat ∧ c.toNat ≤ 57)

/-- An opener that asks for something to be done with the body of the group once it is read. -/
inductive ActingOpener : List Byte → Prop
  | atomic : ActingOpener (txt "(?>")
  | ahead : ActingOpener (txt "(?=")
  | negAhead : ActingOpener (txt "(?!")
  | behind : ActingOpener (txt "(?<=")
  | negBehind : ActingOpener (txt "(?<!")
  | named (w : List Byte) : IsName w → ActingOpener (txt "(?<" ++ w ++ txt ">")

/-- An opener. -/
inductive Opener : List Byte → Prop
  | capture : Opener (txt "(")
  | plain : Opener (txt "(?:")
  | acting {o : List Byte} : ActingOpener o → Opener o

/-- A text that consists of openers. -/
inductive Openers : List Byte → Prop
  | nil : Openers []
  | snoc {w o : List Byte} : Openers w → Opener o → Openers (w ++ o)

end Mregex.Spec
