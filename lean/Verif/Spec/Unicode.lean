import Mathlib.Computability.Language
import Verif.Model.Ast

/-!
# Regular expressions over Unicode characters

Characters are the Unicode scalar values (Lean's `Char`).  Expressions over them, their languages, and how to write them down in bytes.
-/

namespace Mregex.Spec
open Mregex
open scoped Computability

/-! ## UTF-8 -/

/-- The bytes that encode a character. -/
def utf8Nat (n : Nat) : List Nat :=
  if n < 0x80 then [n]
  else if n < 0x800 then [0xC0 + n / 64, 0x80 + n % 64]
  else if n < 0x10000 then [0xE0 + n / 4096, 0x80 + n / 64 % 64, 0x80 + n % 64]
  else [0xF0 + n / 262144, 0x80 + n / 4096 % 64, 0x80 + n / 64 % 64, 0x80 + n % 64]

def utf8Char (c : Char) : List Byte := (utf8Nat c.toNat).map (BitVec.ofNat 8)

/-- The bytes that encode a text. -/
def utf8 (u : List Char) : List Byte := u.flatMap utf8Char

/-! ## Expressions -/

/-- Expressions over characters; `ascii`: one character out of ranges of ASCII characters, `any`: one character. -/
inductive UExpr
  | empty
  | char (c : Char)
  | ascii (l : List (Char × Char))
  | any
  | cat (a b : UExpr)
  | alt (a b : UExpr)
  | rep (m : Mode) (lo : Nat) (hi : Bound) (a : UExpr)
  | group (id : Nat) (name : GroupName) (a : UExpr)

/-- The ranges consist of ASCII characters and are not empty; no possessive quantifiers. -/
def UExpr.Fine : UExpr → Prop
  | .ascii l => ∀ r ∈ l, r.1.toNat ≤ r.2.toNat ∧ r.2.toNat < 128
  | .cat a b | .alt a b => a.Fine ∧ b.Fine
  | .rep m _ _ a => m ≠ .possessive ∧ a.Fine
  | .group _ _ a => a.Fine
  | _ => True

/-- The same character, or the same letter of ASCII if case is ignored. -/
def SameChar (icase : Bool) (c d : Char) : Prop := c = d ∨ (icase = true ∧ c.toLower = d.toLower)

/-- The texts of one character that satisfies `P`. -/
def letterOf (P : Char → Prop) : Language Char := {u | ∃ d, u = [d] ∧ P d}

/-- The language of an expression. -/
def UExpr.lang (icase : Bool) : UExpr → Language Char
  | .empty => 1
  | .char c => letterOf (SameChar icase c)
  | .ascii l => letterOf fun d => ∃ r ∈ l, ∃ y : Char, r.1.toNat ≤ y.toNat ∧ y.toNat ≤ r.2.toNat ∧ SameChar icase y d
  | .any => letterOf fun _ => True
  | .cat a b => a.lang icase * b.lang icase
  | .alt a b => a.lang icase + b.lang icase
  | .rep _ lo .inf a => a.lang icase ^ lo * (a.lang icase)∗
  | .rep _ lo (.fin hi) a => if lo ≤ hi then a.lang icase ^ lo * (1 + a.lang icase) ^ (hi - lo) else 0
  | .group _ _ a => a.lang icase

/-! ## Writing them down in bytes -/

/-- The bytes of a character one after the other. -/
def charTree : List Byte → Ast
  | [b] => .lit b
  | l => .seq (l.map .lit)

/-- A byte out of a range: `[a-b]`. -/
def byteSet (a b : Byte) : Ast := .set [.range a b]

/-- A byte that continues a character: `[\x80-\xBF]`. -/
def trailTree : Ast := byteSet 0x80#8 0xBF#8

/-- All encodings of characters:
`(?:[\x00-\x7F]|[\xC2-\xDF][\x80-\xBF]|\xE0[\xA0-\xBF][\x80-\xBF]|[\xE1-\xEC][\x80-\xBF][\x80-\xBF]|\xED[\x80-\x9F][\x80-\xBF]|[\xEE-\xEF][\x80-\xBF][\x80-\xBF]|
\xF0[\x90-\xBF][\x80-\xBF][\x80-\xBF]|[\xF1-\xF3][\x80-\xBF][\x80-\xBF][\x80-\xBF]|\xF4[\x80-\x8F][\x80-\xBF][\x80-\xBF])` -/
def anyTree : Ast := .alt [
  byteSet 0x00#8 0x7F#8,
  .seq [byteSet 0xC2#8 0xDF#8, trailTree],
  .seq [.lit 0xE0#8, byteSet 0xA0#8 0xBF#8, trailTree],
  .seq [byteSet 0xE1#8 0xEC#8, trailTree, trailTree],
  .seq [.lit 0xED#8, byteSet 0x80#8 0x9F#8, trailTree],
  .seq [byteSet 0xEE#8 0xEF#8, trailTree, trailTree],
  .seq [.lit 0xF0#8, byteSet 0x90#8 0xBF#8, trailTree, trailTree],
  .seq [byteSet 0xF1#8 0xF3#8, trailTree, trailTree, trailTree],
  .seq [.lit 0xF4#8, byteSet 0x80#8 0x8F#8, trailTree, trailTree]]

/-- The tree for an expression. -/
def UExpr.tree : UExpr → Ast
  | .empty => .empty
  | .char c => charTree (utf8Char c)
  | .ascii l => .set (l.map fun r => .range (BitVec.ofNat 8 r.1.toNat) (BitVec.ofNat 8 r.2.toNat))
  | .any => anyTree
  | .cat a b => .seq [a.tree, b.tree]
  | .alt a b => .alt [a.tree, b.tree]
  | .rep m lo hi a => .rep m lo hi a.tree
  | .group id name a => .cap id name a.tree

/-! ## One piece after the other -/

/-- Pieces of a text that are in the language, each with the text before it: always a leftmost one in what is left, until there is none or until one is empty. -/
inductive FoundIn (L : Language Char) : List Char → List (List Char × List Char) → Prop
  | none {r} : (∀ x v y, r = x ++ v ++ y → v ∉ L) → FoundIn L r []
  | empty {r} : [] ∈ L → FoundIn L r [([], [])]
  | cons {x v y l} : v ∈ L → v ≠ [] → (∀ x' v' y', x ++ v ++ y = x' ++ v' ++ y' → v' ∈ L → x.length ≤ x'.length) → FoundIn L y l →
      FoundIn L (x ++ v ++ y) ((x, v) :: l)

/-- Pieces of a text that are in the language, one directly after the other, until there is none or until one is empty. -/
inductive TakenFrom (L : Language Char) : List Char → List (List Char × List Char) → Prop
  | none {r} : (∀ v y, r = v ++ y → v ∉ L) → TakenFrom L r []
  | empty {r} : [] ∈ L → TakenFrom L r [([], [])]
  | cons {v y l} : v ∈ L → v ≠ [] → TakenFrom L y l → TakenFrom L (v ++ y) (([], v) :: l)

/-- Where the pieces are in the encoding, counted in bytes from `p` on. -/
def byteRanges : Nat → List (List Char × List Char) → List (Nat × Nat)
  | _, [] => []
  | p, (x, v) :: l => (p + (utf8 x).length, p + (utf8 x).length + (utf8 v).length) :: byteRanges (p + (utf8 x).length + (utf8 v).length) l

end Mregex.Spec
