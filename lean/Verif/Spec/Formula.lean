import Verif.Spec.Regular
import Verif.Model.Parser
import Verif.Spec.Static
import Verif.Spec.Syntax
import Verif.Spec.Lang

/-!
# Patterns combined by "and", "or" and "not"
-/

namespace Mregex.Spec
open Mregex

/-- A Boolean formula about a text, made of patterns. -/
inductive Formula
  | pattern (w : List Byte)
  | and (A B : Formula)
  | or (A B : Formula)
  | not (A : Formula)

namespace Formula

/-- The patterns of a formula. -/
def patterns : Formula → List (List Byte)
  | .pattern w => [w]
  | .and A B | .or A B => A.patterns ++ B.patterns
  | .not A => A.patterns

/-- The formula holds for a text: a pattern holds if the whole text matches it. -/
def Holds (fl : List RegexFlag) (cat : Mregex.Cat) (s : List Byte) : Formula → Prop
  | .pattern w => ∃ a, parse w = .result a .success ∧ s ∈ accepted ⟨a, fl⟩ .match cat
  | .and A B => A.Holds fl cat s ∧ B.Holds fl cat s
  | .or A B => A.Holds fl cat s ∨ B.Holds fl cat s
  | .not A => ¬A.Holds fl cat s

/-- The formula as one pattern: `(?:p)`, `(?:(?=A\Z)B)`, `(?:A|B)` and `(?:(?!A\Z)[^]*)`. -/
def write : Formula → List Byte
  | .pattern w => txt "(?:" ++ w ++ txt ")"
  | .and A B => txt "(?:(?=" ++ A.write ++ txt "\\Z)" ++ B.write ++ txt ")"
  | .or A B => txt "(?:" ++ A.write ++ txt "|" ++ B.write ++ txt ")"
  | .not A => txt "(?:(?!" ++ A.write ++ txt "\\Z)[^]*)"

end Formula

/-- Patterns of which formulas are made: accepted by the library, usable with the flags and the iterators, without references and without
names for their groups. -/
def Plain (fl : List RegexFlag) (cat : Mregex.Cat) (w : List Byte) : Prop :=
  ∃ a, parse w = .result a .success ∧ (Regex.mk a fl).Ok cat ∧ noBackref a = true ∧ ∀ n ∈ a.nameSpec, n = none

end Mregex.Spec
