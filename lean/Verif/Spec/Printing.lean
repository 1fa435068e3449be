import Verif.Spec.Escape

/-!
# Writing a tree as a pattern

With as few groups as possible: `|` binds weaker than concatenation, concatenation weaker than quantifiers.
-/

namespace Mregex.Spec
open Mregex Ast

/-- The digits of a number. -/
def numeralText (n : Nat) : List Byte :=
  if n < 10 then [BitVec.ofNat 8 (48 + n)] else numeralText (n / 10) ++ [BitVec.ofNat 8 (48 + n % 10)]
termination_by n
decreasing_by omega

/-- A character outside sets. -/
def charText (c : Byte) : List Byte := if c ∈ special then [ch '\\', c] else [c]

/-- A character in a set. -/
def setCharText (c : Byte) : List Byte := if c ∈ txt "]\\^-" then [ch '\\', c] else [c]

/-- The items of a set, the last one first. -/
def setText : List Ast → List Byte
  | [] => []
  | .lit c :: l => setText l ++ setCharText c
  | .range a b :: l => setText l ++ setCharText a ++ txt "-" ++ setCharText b
  | .neg (.range _ _) :: l => setText l ++ txt "\\D"
  | .neg (.set [_, _]) :: l => setText l ++ txt "\\N"
  | .neg (.set [_, _, _, _]) :: l => setText l ++ txt "\\W"
  | .neg _ :: l => setText l ++ txt "\\S"
  | .set _ :: _ :: _ :: _ :: _ :: l => setText l ++ txt "\\s"
  | _ => []

/-- A quantifier. -/
def quantText (lo : Nat) : Bound → List Byte
  | .inf => if lo = 0 then txt "*" else if lo = 1 then txt "+" else txt "{" ++ numeralText lo ++ txt ",}"
  | .fin hi => if lo = 0 ∧ hi = 1 then txt "?" else if lo = hi then txt "{" ++ numeralText lo ++ txt "}"
    else txt "{" ++ numeralText lo ++ txt "," ++ numeralText hi ++ txt "}"

def suffixText : Mode → List Byte
  | .greedy => []
  | .lazy => txt "?"
  | .possessive => txt "+"

/-- What kind of text it is: `ref` is an atom that must not be followed by a digit. -/
inductive Level
  | atom | ref | item | seq | alts | empty
  deriving DecidableEq

/-- A text and its kind. -/
structure Printed where
  text : List Byte
  level : Level

/-- In a group. -/
def Printed.wrapped (p : Printed) : List Byte := txt "(?:" ++ p.text ++ txt ")"

/-- As something that can be quantified. -/
def Printed.asAtom (p : Printed) : List Byte :=
  match p.level with
  | .atom | .ref => p.text
  | _ => p.wrapped

/-- Does the text begin with a digit? -/
def digitFirst (w : List Byte) : Bool := w.head?.any fun c => decide (48 ≤ c.toNat ∧ c.toNat ≤ 57)

/-- As a part of a sequence, before the text `rest`. -/
def Printed.asItem (p : Printed) (rest : List Byte) : List Byte :=
  match p.level with
  | .atom | .item => p.text
  | .ref => if digitFirst rest then p.wrapped else p.text
  | _ => p.wrapped

/-- As an alternative. -/
def Printed.asBranch (p : Printed) : List Byte :=
  match p.level with
  | .alts | .empty => p.wrapped
  | _ => p.text

def joinParts : List Printed → List Byte
  | [] => []
  | p :: l => p.asItem (joinParts l) ++ joinParts l

def joinBranches : List Printed → List Byte
  | [] => []
  | [p] => p.asBranch
  | p :: l => p.asBranch ++ txt "|" ++ joinBranches l

/-- A group with its opener. -/
def groupText (opener : String) (p : Printed) : Printed := ⟨txt opener ++ p.text ++ txt ")", .atom⟩

mutual
def pr : Ast → Printed
  | .empty => ⟨[], .empty⟩
  | .lit c => ⟨charText c, .atom⟩
  | .range _ _ => ⟨txt "\\d", .atom⟩
  | .wildcard => ⟨txt ".", .atom⟩
  | .set l => ⟨txt "[" ++ setText l ++ txt "]", .atom⟩
  | .neg .wordB => ⟨txt "\\B", .item⟩
  | .neg (.look .ahead a) => groupText "(?!" (pr a)
  | .neg (.look .behind a) => groupText "(?<!" (pr a)
  | .neg (.set l) => ⟨txt "[^" ++ setText l ++ txt "]", .atom⟩
  | .neg _ => ⟨txt "\\D", .atom⟩
  | .seq l => ⟨joinParts (prAll l), .seq⟩
  | .alt l => ⟨joinBranches (prAll l), .alts⟩
  | .cap _ none a => groupText "(" (pr a)
  | .cap _ (some n) a => ⟨txt "(?<" ++ n ++ txt ">" ++ (pr a).text ++ txt ")", .atom⟩
  | .rep m lo hi a => if m = .possessive ∧ lo = 1 ∧ hi = .fin 1 then groupText "(?>" (pr a) else ⟨(pr a).asAtom ++ quantText lo hi ++ suffixText m, .item⟩
  | .look .ahead a => groupText "(?=" (pr a)
  | .look .behind a => groupText "(?<=" (pr a)
  | .bol => ⟨txt "^", .item⟩
  | .boi => ⟨txt "\\A", .item⟩
  | .eol => ⟨txt "$", .item⟩
  | .eoi => ⟨txt "\\Z", .item⟩
  | .wordB => ⟨txt "\\b", .item⟩
  | .backref n => ⟨txt "\\" ++ numeralText (if n = 0 then 2 ^ 64 else n), .ref⟩
  | .namedBackref n => ⟨txt "\\k<" ++ n ++ txt ">", .atom⟩
def prAll : List Ast → List Printed
  | [] => []
  | a :: l => pr a :: prAll l
end

/-- The pattern of a tree. -/
def print (a : Ast) : List Byte := (pr a).text

/-! ## Trees in normal form -/

/-- The members of a set: characters, ranges, the complements of classes and the members of `\s`. -/
inductive SetMembers : List Ast → Prop
  | nil : SetMembers []
  | lit {c l} : SetMembers l → SetMembers (.lit c :: l)
  | range {a b l} : SetMembers l → SetMembers (.range a b :: l)
  | neg {e x l} : SetMembers l → (e, .neg x) ∈ classes → SetMembers (.neg x :: l)
  | white {l} : SetMembers l → SetMembers (classItems whitespace ++ l)

def NotSeq (a : Ast) : Prop := ∀ l, a ≠ .seq l
def NotAlt (a : Ast) : Prop := ∀ l, a ≠ .alt l

/-- Normal form: sequences and alternations have at least two parts; no part of a sequence is a sequence; the first branch of an alternation is no alternation; numbers
fit into 64 bits; names are names; only sets, classes, lookarounds and word boundaries are negated. -/
inductive Normal : Ast → Prop
  | empty : Normal .empty
  | lit {c} : Normal (.lit c)
  | wildcard : Normal .wildcard
  | digit : Normal digit
  | nonDigit : Normal (.neg digit)
  | set {l} : SetMembers l → Normal (.set l)
  | negSet {l} : SetMembers l → Normal (.neg (.set l))
  | seq {l} : 2 ≤ l.length → (∀ a ∈ l, NotSeq a) → (∀ a ∈ l, Normal a) → Normal (.seq l)
  | alt {a l} : l ≠ [] → NotAlt a → (∀ b ∈ a :: l, Normal b) → Normal (.alt (a :: l))
  | cap {id a} : Normal a → Normal (.cap id none a)
  | namedCap {id n a} : IsName n → Normal a → Normal (.cap id (some n) a)
  | repFin {m lo hi a} : lo < 2 ^ 64 → hi < 2 ^ 64 → Normal a → Normal (.rep m lo (.fin hi) a)
  | repInf {m lo a} : lo < 2 ^ 64 → Normal a → Normal (.rep m lo .inf a)
  | look {d a} : Normal a → Normal (.look d a)
  | negLook {d a} : Normal a → Normal (.neg (.look d a))
  | bol : Normal .bol
  | eol : Normal .eol
  | boi : Normal .boi
  | eoi : Normal .eoi
  | wordB : Normal .wordB
  | notWordB : Normal (.neg .wordB)
  | backref {n} : n < 2 ^ 64 → Normal (.backref n)
  | namedBackref {n} : IsName n → Normal (.namedBackref n)

end Mregex.Spec
