import Verif.Spec.Derives
import Verif.Spec.Syntax

/-!
# Texts in UTF-8

A character beyond ASCII is encoded by a byte that begins it and one to three bytes that continue it.  Which combinations of bytes are assigned to characters does not matter here.
-/

namespace Mregex.Spec
open Mregex

/-- ASCII: a character of one byte. -/
def Ascii (b : Byte) : Prop := b.toNat < 128

/-- A byte that continues a character. -/
def Trails (b : Byte) : Prop := 128 ≤ b.toNat ∧ b.toNat < 192

/-- A byte that begins a character. -/
def Leads (b : Byte) : Prop := b.toNat < 128 ∨ (192 ≤ b.toNat ∧ b.toNat < 248)

/-- The number of bytes that follow a byte that begins a character. -/
def missing (b : Byte) : Nat := if b.toNat < 192 then 0 else if b.toNat < 224 then 1 else if b.toNat < 240 then 2 else 3

/-- The text from `i` to `j` consists of `m` bytes that continue a character, and of whole characters. -/
inductive Chars (s : List Byte) : Nat → Nat → Nat → Prop
  | done {i} : Chars s 0 i i
  | leads {i j x} : s[i]? = some x → Leads x → Chars s (missing x) (i + 1) j → Chars s 0 i j
  | trails {m i j x} : s[i]? = some x → Trails x → Chars s m (i + 1) j → Chars s (m + 1) i j

/-- The text consists of whole characters. -/
def Utf8 (s : List Byte) : Prop := Chars s 0 0 s.length

/-- The text before `b`, the text from `b` to `e` and the text after `e` consist of whole characters. -/
def Undivided (s : List Byte) (b e : Nat) : Prop := Chars s 0 0 b ∧ Chars s 0 b e ∧ Chars s 0 e s.length

/-- Expressions for one character. -/
def single : Ast → Bool
  | .lit _ | .range _ _ | .set _ => true
  | .neg a => !assertion a
  | _ => false

mutual
/-- Expressions in which characters beyond ASCII are spelled out with all their bytes in a row.  Assertions may contain anything. -/
inductive Whole : Ast → Prop
  | ascii {a} : single a = true → (∀ f s i j, Matches f s a i j → j = i + 1 ∧ CharAt s i Ascii) → Whole a
  | empty : Whole .empty
  | anchor {a} : a = .bol ∨ a = .boi ∨ a = .eol ∨ a = .eoi ∨ a = .wordB → Whole a
  | look {d a} : Whole (.look d a)
  | neg {a} : assertion a = true → Whole (.neg a)
  | backref {k} : Whole (.backref k)
  | namedBackref {n} : Whole (.namedBackref n)
  | seq {l} : WholeSeq 0 l → Whole (.seq l)
  | alt {l} : (∀ a ∈ l, Whole a) → Whole (.alt l)
  | cap {id name a} : Whole a → Whole (.cap id name a)
  | rep {m lo hi a} : Whole a → Whole (.rep m lo hi a)
/-- Sequences of such expressions and bytes, after a character of which `m` bytes are missing. -/
inductive WholeSeq : Nat → List Ast → Prop
  | nil : WholeSeq 0 []
  | part {a l} : Whole a → WholeSeq 0 l → WholeSeq 0 (a :: l)
  | leads {b l} : Leads b → WholeSeq (missing b) l → WholeSeq 0 (.lit b :: l)
  | trails {b m l} : Trails b → WholeSeq m l → WholeSeq (m + 1) (.lit b :: l)
end

/-- Conditions on the text of a pattern: no `.`, no sets, no `\D \W \S \N` and hexadecimal escapes, no quantifier directly after a character beyond ASCII. -/
structure Careful (w : List Byte) : Prop where
  dot : ch '.' ∉ w
  set : ch '[' ∉ w
  esc : ∀ u c v, w = u ++ ch '\\' :: c :: v → c ∉ txt "DWSNx"
  quant : ∀ u b c v, w = u ++ b :: c :: v → c ∈ txt "*+?{" → Ascii b

end Mregex.Spec
