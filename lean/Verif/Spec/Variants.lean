import Verif.Spec.Lang

/-!
# Notational variants

`CharClass a`: the expression consumes exactly one character of some class.  `Variant f inv a b`: `a` turns into `b`
by rewriting with the laws listed below, at any place in the expression; `inv` says that the expression is read backwards
(it is in an odd number of lookbehinds).  The laws do not mention the matcher.
-/

namespace Mregex
open Ast Spec

/-- Expressions for one character.  A range must not be empty. -/
inductive CharClass : Ast → Prop
  | lit (x : Byte) : CharClass (.lit x)
  | range {x y : Byte} : x.toNat ≤ y.toNat → CharClass (.range x y)
  | wildcard : CharClass .wildcard
  | set {l : List Ast} : (∀ a ∈ l, CharClass a) → CharClass (.set l)
  | neg {a : Ast} : CharClass a → CharClass (.neg a)
  | one {a : Ast} : CharClass a → CharClass (.seq [a])
  | alt {l : List Ast} : l ≠ [] → (∀ a ∈ l, CharClass a) → CharClass (.alt l)
  | once {m : Mode} {a : Ast} : CharClass a → CharClass (.rep m 1 (.fin 1) a)

/-- The anchors. -/
inductive Anchor : Ast → Prop
  | bol : Anchor .bol
  | boi : Anchor .boi
  | eol : Anchor .eol
  | eoi : Anchor .eoi
  | wordB : Anchor .wordB

/-- Tests of the current position: anchors, lookarounds, and their negations, possibly in redundant parentheses. -/
inductive Test : Ast → Prop
  | anchor {a : Ast} : Anchor a → Test a
  | look (d : LookDir) (a : Ast) : Test (.look d a)
  | neg {a : Ast} : Test a → Test (.neg a)
  | one {a : Ast} : Test a → Test (.seq [a])
  | branch {a : Ast} : Test a → Test (.alt [a])
  | once {m : Mode} {a : Ast} : m ≠ .possessive → Test a → Test (.rep m 1 (.fin 1) a)

/-- Rewriting by laws. -/
inductive Variant (f : Flags) : Bool → Ast → Ast → Prop
  | refl (inv : Bool) (a : Ast) : Variant f inv a a
  | symm {inv : Bool} {a b : Ast} : Variant f inv a b → Variant f inv b a
  | trans {inv : Bool} {a b c : Ast} : Variant f inv a b → Variant f inv b c → Variant f inv a c
  -- places
  | seq {inv : Bool} {a b : Ast} (pre post : List Ast) : Variant f inv a b →
      Variant f inv (.seq (pre ++ a :: post)) (.seq (pre ++ b :: post))
  | alt {inv : Bool} {a b : Ast} (pre post : List Ast) : Variant f inv a b →
      Variant f inv (.alt (pre ++ a :: post)) (.alt (pre ++ b :: post))
  | cap {inv : Bool} {a b : Ast} (id : Nat) (name : GroupName) : Variant f inv a b →
      Variant f inv (.cap id name a) (.cap id name b)
  | rep {inv : Bool} {a b : Ast} (m : Mode) (lo : Nat) (hi : Bound) : Variant f inv a b →
      Variant f inv (.rep m lo hi a) (.rep m lo hi b)
  | ahead {inv : Bool} {a b : Ast} : Variant f inv a b → Variant f inv (.look .ahead a) (.look .ahead b)
  | behind {inv : Bool} {a b : Ast} : Variant f (!inv) a b → Variant f inv (.look .behind a) (.look .behind b)
  | neg {inv : Bool} {a b : Ast} : Test a → Variant f inv a b → Variant f inv (.neg a) (.neg b)
  -- laws
  /-- Classes of the same characters. -/
  | sameClass {inv : Bool} {a b : Ast} : CharClass a → CharClass b →
      (∀ x, Matches f [x] a 0 1 ↔ Matches f [x] b 0 1) → Variant f inv a b
  /-- Parentheses around a part. -/
  | nested (inv : Bool) (pre l post : List Ast) : l ≠ [] →
      Variant f inv (.seq (pre ++ .seq l :: post)) (.seq (pre ++ l ++ post))
  | one (inv : Bool) (a : Ast) : Variant f inv (.seq [a]) a
  | branch (inv : Bool) (a : Ast) : Variant f inv (.alt [a]) a
  | once (inv : Bool) (m : Mode) (a : Ast) : m ≠ .possessive → Variant f inv (.rep m 1 (.fin 1) a) a
  /-- Parentheses around branches, the last of which is more than a character. -/
  | branches (inv : Bool) (pre l post : List Ast) (x : Ast) : ¬ CharClass x →
      Variant f inv (.alt (pre ++ .alt (l ++ [x]) :: post)) (.alt (pre ++ l ++ x :: post))
  /-- Parentheses around the last branches, one of which is more than a character. -/
  | lastBranches (inv : Bool) (pre l : List Ast) (x : Ast) : x ∈ l → ¬ CharClass x →
      Variant f inv (.alt (pre ++ [.alt l])) (.alt (pre ++ l))
  /-- An empty part of at least three. -/
  | empty (inv : Bool) (pre post : List Ast) : 2 ≤ (pre ++ post).length →
      Variant f inv (.seq (pre ++ .empty :: post)) (.seq (pre ++ post))
  /-- `X{n}` is `X...X`. -/
  | copies (inv : Bool) (m : Mode) (n : Nat) (a : Ast) : m ≠ .possessive → captureCount a = 0 →
      Variant f inv (.rep m (n + 2) (.fin (n + 2)) a) (.seq (List.replicate (n + 2) a))
  /-- `X{n}?` is `X{n}`. -/
  | exactly (inv : Bool) (n : Nat) (a : Ast) : Variant f inv (.rep .lazy n (.fin n) a) (.rep .greedy n (.fin n) a)
  /-- Two negations cancel. -/
  | doubleNeg (inv : Bool) {a : Ast} : Test a → Variant f inv (.neg (.neg a)) a
  /-- A test is a lookahead at the test. -/
  | lookTest {a : Ast} : Test a → Variant f false (.look .ahead a) a
  /-- Read backwards: an anchor is a lookbehind at the anchor. -/
  | lookAnchor {a : Ast} : Anchor a → Variant f true (.look .behind a) a

end Mregex
