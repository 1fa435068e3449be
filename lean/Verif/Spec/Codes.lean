import Verif.Spec.Kleene
import Verif.Model.Methods

/-!
# Codes

A text is taken apart into words of a language.
-/

namespace Mregex.Spec
open Mregex

/-- No text of the language begins with another one. -/
def PrefixFree (L : Language Byte) : Prop := ∀ u ∈ L, ∀ v, u ++ v ∈ L → v = []

/-- No text of the language stands at the beginning. -/
def Stuck (L : Language Byte) (w : List Byte) : Prop := ∀ u v, w = u ++ v → u ∉ L

/-- Where the words stand in a text if one follows the other from a position on. -/
def placesOf : Nat → List (List Byte) → List (Nat × Nat)
  | _, [] => []
  | p, w :: ws => (p, p + w.length) :: placesOf (p + w.length) ws

/-- The regex that accepts the longer texts that begin with a text accepted by `R`. -/
def longer (R : Regex) : Regex := ⟨.seq [R.ast, .rep .greedy 1 .inf (.range 0 255)], R.flags⟩

/-- The regex for any number of texts accepted by `R`. -/
def repeated (R : Regex) : Regex := ⟨.rep .greedy 0 .inf R.ast, R.flags⟩

/-- The regex that prefers a given text. -/
def preferring (w : List Byte) (R : Regex) : Regex := ⟨.alt [.seq (.empty :: w.map .lit), R.ast], R.flags⟩

end Mregex.Spec
