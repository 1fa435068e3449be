import Verif.Spec.Local
import Verif.Spec.Paths
import Verif.Spec.Proc

/-!
# Templates

Fixed texts with fields between them.
-/

namespace Mregex.Spec
open Mregex

/-- What may stand in a field: a number of characters of a class, or a text of some expression. -/
inductive Content
  | run (m : Mode) (lo : Nat) (hi : Bound) (cls : Ast)
  | text (X : Ast)

def Content.ast : Content → Ast
  | .run m lo hi cls => .rep m lo hi cls
  | .text X => X

/-- The content is of one of the two kinds: a class of characters, or an expression without groups, references, assertions and possessive quantifiers. -/
def Content.plain : Content → Bool
  | .run _ _ _ cls => character cls && (groupIds cls).isEmpty
  | .text X => selfContained X && noPossessive X && (groupIds X).isEmpty

/-- The text `v` is admitted. -/
def Content.holds (f : Flags) : Content → List Byte → Prop
  | .run _ lo hi cls, v => (∀ x ∈ v, accepts f cls x = true) ∧ lo ≤ v.length ∧ AtMost v.length hi
  | .text X, v => Matches f v X 0 v.length

mutual
/-- The character may occur in a text of the expression. -/
def mayContain (f : Flags) : Ast → Byte → Bool
  | .seq l, x | .alt l, x => mayContainAny f l x
  | .cap _ _ a, x | .rep _ _ _ a, x => mayContain f a x
  | .backref _, _ | .namedBackref _, _ => true
  | a, x => accepts f a x
def mayContainAny (f : Flags) : List Ast → Byte → Bool
  | [], _ => false
  | a :: l, x => mayContain f a x || mayContainAny f l x
end

/-- No admitted text contains the character `c`. -/
def Content.avoids (f : Flags) (c : Byte) : Content → Prop
  | .run _ _ _ cls => ∀ x, accepts f (.lit c) x = true → accepts f cls x = false
  | .text X => ∀ x, accepts f (.lit c) x = true → mayContain f X x = false

/-- A field: the fixed text before it, the name of the group and the content. -/
structure Field where
  before : List Byte
  name : GroupName
  content : Content

/-- The parts of the regex: the fields are groups with the numbers from `k` on. -/
def templateParts : Nat → List Field → List Byte → List Ast
  | _, [], last => last.map .lit
  | k, d :: l, last => d.before.map .lit ++ .cap k d.name d.content.ast :: templateParts (k + 1) l last

def template (l : List Field) (last : List Byte) : Ast := .seq (templateParts 1 l last)

/-- The fixed text after a field. -/
def following : List Field → List Byte → List Byte
  | [], last => last
  | d :: _, _ => d.before

/-- The fields end where the fixed text after them begins: it begins with a character that is not in the field; the last field may also extend to the end of the text. -/
def Separated (f : Flags) : List Field → List Byte → Prop
  | [], _ => True
  | d :: l, last => d.content.plain = true ∧ (match following l last with | [] => l = [] | c :: _ => d.content.avoids f c) ∧ Separated f l last

/-- The text consists of the fixed texts (up to case, if `icase`) and of the values of the fields. -/
def Filled (f : Flags) : List Field → List Byte → List (List Byte) → List Byte → Prop
  | [], last, [], s => SameText f.icase last s
  | d :: l, last, v :: vs, s => ∃ u r, s = u ++ (v ++ r) ∧ SameText f.icase d.before u ∧ d.content.holds f v ∧ Filled f l last vs r
  | _, _, _, _ => False

/-- The ranges of the values, if the text begins at `p`. -/
def spans : Nat → List Field → List (List Byte) → List (Nat × Nat)
  | p, d :: l, v :: vs => (p + d.before.length, p + d.before.length + v.length) :: spans (p + d.before.length + v.length) l vs
  | _, _, _ => []

end Mregex.Spec
