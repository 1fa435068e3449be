import Verif.Spec.Openers

/-!
# Syntax of patterns

A grammar for patterns and the trees they stand for, written after the "Syntax Reference" of README.md.  It does not refer to the parser.

A text is read together with the character that follows it (`none` at the end of the pattern): quantifiers and numerals extend as far as they can.
Capturing groups are numbered by `Ast.indexCaptures`; here they carry the number `0`.
-/

namespace Mregex.Spec
open Mregex Ast

/-! ## Characters -/

/-- Characters that have a meaning of their own outside sets. -/
def special : List Byte := txt "()[\\.^$|*+?{"

/-- `\0 \n \r \t \f \v \a \e`: the letter and the character it stands for. -/
def controls : List (Byte × Byte) :=
  [(ch '0', 0#8), (ch 'n', 10#8), (ch 'r', 13#8), (ch 't', 9#8), (ch 'f', 12#8), (ch 'v', 11#8), (ch 'a', 7#8), (ch 'e', 27#8)]

/-- `\d \w \s \R` and their complements. -/
def classes : List (Byte × Ast) :=
  [(ch 'd', digit), (ch 'D', .neg digit), (ch 'w', word), (ch 'W', .neg word), (ch 's', whitespace), (ch 'S', .neg whitespace),
   (ch 'R', linebreak), (ch 'N', .neg linebreak)]

/-- `\b \B \A \Z`. -/
def assertions : List (Byte × Ast) :=
  [(ch 'b', .wordB), (ch 'B', .neg .wordB), (ch 'A', .boi), (ch 'Z', .eoi)]

/-- Characters that have a meaning after a backslash, outside sets. -/
def reserved : List Byte := txt "0nrtfvaedDwWsSRNbBAZkx123456789"

/-- Characters that have a meaning after a backslash, in a set. -/
def reservedInSet : List Byte := txt "0nrtfvaedDwWsSRNbx"

/-- A hexadecimal digit and its value. -/
def HexDigit (h : Byte) (v : Nat) : Prop :=
  (48 ≤ h.toNat ∧ h.toNat ≤ 57 ∧ v = h.toNat - 48) ∨ (65 ≤ h.toNat ∧ h.toNat ≤ 70 ∧ v = h.toNat - 55) ∨
  (97 ≤ h.toNat ∧ h.toNat ≤ 102 ∧ v = h.toNat - 87)

/-- A decimal digit. -/
def DecDigit (d : Byte) : Prop := 48 ≤ d.toNat ∧ d.toNat ≤ 57

/-- The value of a decimal numeral. -/
def decimal (w : List Byte) : Nat := w.foldl (fun n d => 10 * n + (d.toNat - 48)) 0

/-- A numeral and the number that is read, an `std::size_t`. -/
def Numeral (w : List Byte) (n : Nat) : Prop := w ≠ [] ∧ (∀ d ∈ w, DecDigit d) ∧ n = decimal w % 2 ^ 64

/-- An escape for a character, outside sets. -/
inductive LitEsc : List Byte → Byte → Prop
  | ctrl {e c : Byte} : (e, c) ∈ controls → LitEsc [ch '\\', e] c
  | hex {h h' : Byte} {v v' : Nat} : HexDigit h v → HexDigit h' v' → LitEsc [ch '\\', ch 'x', h, h'] (BitVec.ofNat 8 (16 * v + v'))
  | self {c : Byte} : c ∉ reserved → LitEsc [ch '\\', c] c

/-- An escape for a character, in a set. -/
inductive SetLitEsc : List Byte → Byte → Prop
  | ctrl {e c : Byte} : (e, c) ∈ controls → SetLitEsc [ch '\\', e] c
  | hex {h h' : Byte} {v v' : Nat} : HexDigit h v → HexDigit h' v' → SetLitEsc [ch '\\', ch 'x', h, h'] (BitVec.ofNat 8 (16 * v + v'))
  | backspace : SetLitEsc (txt "\\b") 8#8
  | self {c : Byte} : c ∉ reservedInSet → SetLitEsc [ch '\\', c] c

/-! ## Sets -/

/-- A character of a set: itself or an escape. -/
inductive SetChar : List Byte → Byte → Prop
  | plain {c : Byte} : c ≠ ch ']' → c ≠ ch '\\' → SetChar [c] c
  | esc {w : List Byte} {c : Byte} : SetLitEsc w c → SetChar w c

/-- What the last item of a set was. -/
inductive SetState
  | start | char | cls | range
  deriving DecidableEq

/-- What a class contributes to a set. -/
def classItems : Ast → List Ast
  | .set l => l
  | a => [a]

/-- The items of a set, without brackets, and the list of nodes, the last item first.

A minus sign stands for itself at the beginning of the set, after a range and at the end of the set (see `SetText`).  After a character it makes a range.
After a class it stands for itself.  An exception is `\R`, whose last item makes a range. -/
inductive SetItems : SetState → List Byte → List Ast → Prop
  | nil : SetItems .start [] []
  | char {st w l v c} : SetItems st w l → SetChar v c → (v = txt "-" → st = .start ∨ st = .range) → SetItems .char (w ++ v) (.lit c :: l)
  | cls {st w l e x} : SetItems st w l → (e, x) ∈ classes → SetItems .cls (w ++ [ch '\\', e]) (classItems x ++ l)
  | range {w l a v b} : SetItems .char w (.lit a :: l) → SetChar v b → SetItems .range (w ++ txt "-" ++ v) (.range a b :: l)
  | dash {w l x v b} : SetItems .cls w (x :: l) → (∀ c, x ≠ .lit c) → SetChar v b →
      SetItems .range (w ++ txt "-" ++ v) (.lit b :: .lit (ch '-') :: x :: l)
  | quirk {w l a v b} : SetItems .cls w (.lit a :: l) → SetChar v b → SetItems .range (w ++ txt "-" ++ v) (.range a b :: l)

/-- What is between the brackets, without the sign of complement. -/
inductive SetBody : List Byte → List Ast → Prop
  | plain {st w l} : SetItems st w l → SetBody w l
  | dash {st w l} : SetItems st w l → (st = .char ∨ st = .cls) → SetBody (w ++ txt "-") (.lit (ch '-') :: l)

/-- A set with its brackets. -/
inductive SetText : List Byte → Ast → Prop
  | pos {w l} : SetBody w l → w.head? ≠ some (ch '^') → SetText (txt "[" ++ w ++ txt "]") (.set l)
  | neg {w l} : SetBody w l → SetText (txt "[^" ++ w ++ txt "]") (.neg (.set l))

/-! ## Quantifiers -/

inductive Quant : List Byte → Nat → Bound → Prop
  | star : Quant (txt "*") 0 .inf
  | plus : Quant (txt "+") 1 .inf
  | opt : Quant (txt "?") 0 (.fin 1)
  | exact {w n} : Numeral w n → Quant (txt "{" ++ w ++ txt "}") n (.fin n)
  | atLeast {w n} : Numeral w n → Quant (txt "{" ++ w ++ txt ",}") n .inf
  | between {w n v m} : Numeral w n → Numeral v m → Quant (txt "{" ++ w ++ txt "," ++ v ++ txt "}") n (.fin m)

inductive Suffix : List Byte → Mode → Prop
  | greedy : Suffix [] .greedy
  | lazy : Suffix (txt "?") .lazy
  | possessive : Suffix (txt "+") .possessive

/-! ## Groups -/

/-- The beginning of a group and what it makes of its body. -/
inductive GroupOpen : List Byte → (Ast → Ast) → Prop
  | capture : GroupOpen (txt "(") (.cap 0 none)
  | named {w} : IsName w → GroupOpen (txt "(?<" ++ w ++ txt ">") (.cap 0 (some w))
  | plain : GroupOpen (txt "(?:") id
  | atomic : GroupOpen (txt "(?>") (.rep .possessive 1 (.fin 1))
  | ahead : GroupOpen (txt "(?=") (.look .ahead)
  | negAhead : GroupOpen (txt "(?!") fun a => .neg (.look .ahead a)
  | behind : GroupOpen (txt "(?<=") (.look .behind)
  | negBehind : GroupOpen (txt "(?<!") fun a => .neg (.look .behind a)

/-! ## Concatenation and alternation -/

/-- The parts of a sequence. -/
def seqParts : Ast → List Ast
  | .seq l => l
  | a => [a]

/-- Concatenation; a group that is a sequence becomes part of the sequence around it. -/
def catAst (a b : Ast) : Ast := .seq (seqParts a ++ seqParts b)

/-- Alternation; a first alternative that is a group of alternatives becomes part of the alternation around it. -/
def altAst (a b : Ast) : Ast :=
  match a with
  | .alt l => .alt (l ++ [b])
  | a => .alt [a, b]

/-- The first character of a text or what follows it. -/
def follow (w : List Byte) (f : Option Byte) : Option Byte := w.head?.or f

/-- No quantifier follows. -/
def NoQuant (f : Option Byte) : Prop := ∀ c, f = some c → c ∉ txt "*+?{"

/-- The end of a group or of the pattern follows. -/
def AtEnd (f : Option Byte) : Prop := f = none ∨ f = some (ch ')')

/-- The categories of the grammar.  `brace`: begins with a brace that starts no quantifier.  `start`: continue after something that was read. -/
inductive Cat
  | atom (brace : Bool)
  | item (brace : Bool)
  | seq (start : Option Ast)
  | alts (start : Option Ast)

/-- `Reads cat w f a`: the text `w`, followed by `f`, is a `cat` and stands for the tree `a`. -/
inductive Reads : Cat → List Byte → Option Byte → Ast → Prop
  -- parts that can be quantified
  | plain {c f} : c ∉ special → Reads (.atom false) [c] f (.lit c)
  | dot {f} : Reads (.atom false) (txt ".") f .wildcard
  | esc {w c f} : LitEsc w c → Reads (.atom false) w f (.lit c)
  | cls {e x f} : (e, x) ∈ classes → Reads (.atom false) [ch '\\', e] f x
  | set {w x f} : SetText w x → Reads (.atom false) w f x
  | backref {w n f} : Numeral w n → w.head? ≠ some (ch '0') → (∀ c, f = some c → ¬DecDigit c) → Reads (.atom false) (ch '\\' :: w) f (.backref n)
  | namedBackref {w f} : IsName w → Reads (.atom false) (txt "\\k<" ++ w ++ txt ">") f (.namedBackref w)
  | emptyGroup {o g f} : GroupOpen o g → Reads (.atom false) (o ++ txt ")") f (g .empty)
  | group {o g w x f} : GroupOpen o g → Reads (.alts none) w (some (ch ')')) x → Reads (.atom false) (o ++ w ++ txt ")") f (g x)
  -- a brace that starts no quantifier
  | brace {f} : (∀ c, f = some c → ¬DecDigit c) → Reads (.atom true) (txt "{") f (.lit (ch '{'))
  -- with or without a quantifier
  | bare {b w f x} : Reads (.atom b) w f x → NoQuant f → Reads (.item b) w f x
  | quant {b w q s lo hi m f x} : Reads (.atom b) w q.head? x → Quant q lo hi → Suffix s m → NoQuant f → Reads (.item b) (w ++ q ++ s) f (.rep m lo hi x)
  -- assertions
  | bol {f} : NoQuant f → Reads (.item false) (txt "^") f .bol
  | eol {f} : NoQuant f → Reads (.item false) (txt "$") f .eol
  | assertion {e x f} : (e, x) ∈ assertions → NoQuant f → Reads (.item false) [ch '\\', e] f x
  -- everything up to the end of the group belongs to a part that is followed by a brace
  | braced {b w x v y u z f} : Reads (.atom b) w (some (ch '{')) x → Reads (.item true) v (follow u f) y → Reads (.alts (some (catAst x y))) u f z → AtEnd f →
      Reads (.item b) (w ++ v ++ u) f z
  -- concatenation
  | start {x f} : Reads (.seq (some x)) [] f x
  | one {w f x} : Reads (.item false) w f x → Reads (.seq none) w f x
  | more {s w v f x y} : Reads (.seq s) w v.head? x → Reads (.item false) v f y → Reads (.seq s) (w ++ v) f (catAst x y)
  -- alternation
  | single {s w f x} : Reads (.seq s) w f x → Reads (.alts s) w f x
  | or {s w v f x y} : Reads (.alts s) w (some (ch '|')) x → Reads (.seq none) v f y → Reads (.alts s) (w ++ txt "|" ++ v) f (altAst x y)

/-- A pattern and its tree. -/
inductive Pattern : List Byte → Ast → Prop
  | empty : Pattern [] .empty
  | alts {w x} : Reads (.alts none) w none x → Pattern w x

end Mregex.Spec
