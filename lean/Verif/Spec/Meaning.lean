import Verif.Spec.Sets
import Verif.Spec.Order

/-!
# The meaning of a pattern, read off its text

A pattern stands for a function: given the flags, a text and a position where to begin, the positions where it can stop, the preferred ones first.  The function is composed while
the text of the pattern is read; there are no trees.  References have no meaning of this kind and are left out.
-/

namespace Mregex.Spec
open Mregex

/-- Where a pattern stops, given flags, a text and where it begins; the preferred ones first. -/
abbrev Sem := Flags → List Byte → Nat → List Nat

open Classical in
/-- One character with the property `P`. -/
noncomputable def semOne (P : Flags → Byte → Prop) : Sem := fun f s p => if CharAt s p (P f) then [p + 1] else []

open Classical in
/-- No character; the condition `P` has to hold here. -/
noncomputable def semHere (P : Flags → List Byte → Nat → Prop) : Sem := fun f s p => if P f s p then [p] else []

/-- No character, no condition. -/
def semEmpty : Sem := fun _ _ p => [p]

/-- First `S`, then `T` from where `S` stopped. -/
def semSeq (S T : Sem) : Sem := fun f s p => (S f s p).flatMap (T f s)

/-- `S`, and if that is not good, `T`. -/
def semAlt (S T : Sem) : Sem := fun f s p => S f s p ++ T f s p

/-- `S`, but no second thoughts. -/
def semFirst (S : Sem) : Sem := fun f s p => (S f s p).take 1

/-- `S` repeatedly. -/
def semRep (m : Mode) (lo : Nat) (hi : Bound) (S : Sem) : Sem := fun f s p => quantified s.length m f.ungreedy lo hi (S f s) p

/-- `S` can begin here. -/
def CanBegin (S : Sem) (f : Flags) (s : List Byte) (p : Nat) : Prop := ∃ q, q ∈ S f s p

/-- `S` can stop here. -/
def CanStop (S : Sem) (f : Flags) (s : List Byte) (p : Nat) : Prop := ∃ t, t ≤ p ∧ p ∈ S f s t

/-! ## Sets -/

/-- The items of a set and the characters they contain; `SetState` tells what the last item is.  Like `ItemList`, with the exception of `\R` before a minus sign spelled out: `\R`
contains the characters 10 and 13; a minus sign and another character after `\R` make a range of the first of them. -/
inductive Items : SetState → List Byte → (Byte → Prop) → Prop
  | nil : Items .start [] (fun _ => False)
  | char {st w P v c} : Items st w P → SetChar v c → (v = txt "-" → st = .start ∨ st = .range) → Items .char (w ++ v) (fun x => P x ∨ x = c)
  | range {st w P u a v b} : Items st w P → SetChar u a → (u = txt "-" → st = .start ∨ st = .range) → SetChar v b → a.toNat ≤ b.toNat →
      Items .range (w ++ u ++ txt "-" ++ v) (fun x => P x ∨ (a.toNat ≤ x.toNat ∧ x.toNat ≤ b.toNat))
  | cls {st w P e Q} : Items st w P → ClassEsc e Q → Items .cls (w ++ [ch '\\', e]) (fun x => P x ∨ Q x)
  | clsDash {st w P e Q v b} : Items st w P → ClassEsc e Q → e ≠ ch 'R' → SetChar v b →
      Items .range (w ++ [ch '\\', e] ++ txt "-" ++ v) (fun x => ((P x ∨ Q x) ∨ x = ch '-') ∨ x = b)
  | quirk {st w P v b} : Items st w P → SetChar v b → 10 ≤ b.toNat →
      Items .range (w ++ txt "\\R" ++ txt "-" ++ v) (fun x => (P x ∨ x = 13#8) ∨ (10 ≤ x.toNat ∧ x.toNat ≤ b.toNat))

/-- The text between the brackets, without the sign of complement. -/
inductive SetMeans : List Byte → (Byte → Prop) → Prop
  | plain {st w P} : Items st w P → SetMeans w P
  | dash {st w P} : Items st w P → (st = .char ∨ st = .cls) → SetMeans (w ++ txt "-") (fun x => P x ∨ x = ch '-')

/-! ## Groups -/

/-- The beginning of a group and what it makes of the meaning of its body.  `needs`: the body has to be `plain` (see `Denotes`).  `keeps`: a group with a `plain` body is `plain`. -/
inductive OpensAs : List Byte → (Sem → Sem) → (needs keeps : Bool) → Prop
  | capture : OpensAs (txt "(") id false true
  | named {w} : IsName w → OpensAs (txt "(?<" ++ w ++ txt ">") id false true
  | plain : OpensAs (txt "(?:") id false true
  | atomic : OpensAs (txt "(?>") semFirst false false
  | ahead : OpensAs (txt "(?=") (fun S => semHere (CanBegin S)) false false
  | negAhead : OpensAs (txt "(?!") (fun S => semHere fun f s p => ¬CanBegin S f s p) false false
  | behind : OpensAs (txt "(?<=") (fun S => semHere (CanStop S)) true false
  | negBehind : OpensAs (txt "(?<!") (fun S => semHere fun f s p => ¬CanStop S f s p) true false

/-- `\b \B \A \Z`. -/
inductive AssertAs : Byte → (Flags → List Byte → Nat → Prop) → Bool → Prop
  | b : AssertAs (ch 'b') (fun _ s p => ¬(CharBefore s p WordChar ↔ CharAt s p WordChar)) true
  | B : AssertAs (ch 'B') (fun _ s p => CharBefore s p WordChar ↔ CharAt s p WordChar) true
  | A : AssertAs (ch 'A') (fun _ _ p => p = 0) false
  | Z : AssertAs (ch 'Z') (fun _ s p => p = s.length) false

/-! ## Patterns -/

/-- Parts of patterns.  `brace`: begins with a brace that starts no quantifier.  `start`: continue after something whose meaning is given. -/
inductive Piece
  | atom (brace : Bool)
  | item (brace : Bool)
  | seq (start : Option (Sem × Bool))
  | alts (start : Option (Sem × Bool))

/-- `Denotes k w f S plain`: the text `w`, followed by `f`, is a `k` and means `S`.  `plain`: there are no anchors (other than `\b` and `\B`), lookarounds, possessive quantifiers and atomic groups in it. -/
inductive Denotes : Piece → List Byte → Option Byte → Sem → Bool → Prop
  -- parts that can be quantified
  | plain {c f} : c ∉ special → Denotes (.atom false) [c] f (semOne fun f x => CharEq f.icase c x) true
  | dot {f} : Denotes (.atom false) (txt ".") f (semOne fun f x => f.dotall = true ∨ ¬LineBreak x) true
  | esc {w c f} : LitEsc w c → Denotes (.atom false) w f (semOne fun f x => CharEq f.icase c x) true
  | cls {e P f} : ClassEsc e P → Denotes (.atom false) [ch '\\', e] f (semOne fun _ x => P x) true
  | set {w P f} : SetMeans w P → w.head? ≠ some (ch '^') → Denotes (.atom false) (txt "[" ++ w ++ txt "]") f (semOne fun f x => ∃ y, P y ∧ CharEq f.icase y x) true
  | negSet {w P f} : SetMeans w P → Denotes (.atom false) (txt "[^" ++ w ++ txt "]") f (semOne fun f x => ¬∃ y, P y ∧ CharEq f.icase y x) true
  | emptyGroup {o g n k f} : OpensAs o g n k → Denotes (.atom false) (o ++ txt ")") f (g semEmpty) k
  | group {o g n k w S b f} : OpensAs o g n k → Denotes (.alts none) w (some (ch ')')) S b → (n = true → b = true) →
      Denotes (.atom false) (o ++ w ++ txt ")") f (g S) (k && b)
  -- a brace that starts no quantifier
  | brace {f} : (∀ c, f = some c → ¬DecDigit c) → Denotes (.atom true) (txt "{") f (semOne fun f x => CharEq f.icase (ch '{') x) true
  -- with or without a quantifier
  | bare {k w f S b} : Denotes (.atom k) w f S b → NoQuant f → Denotes (.item k) w f S b
  | quant {k w q s lo hi m f S b} : Denotes (.atom k) w q.head? S b → Quant q lo hi → (∀ n, hi = .fin n → lo ≤ n) → Suffix s m → NoQuant f →
      Denotes (.item k) (w ++ q ++ s) f (semRep m lo hi S) (decide (m ≠ .possessive) && b)
  -- assertions
  | bol {f} : NoQuant f → Denotes (.item false) (txt "^") f (semHere fun f s p => p = 0 ∨ (f.multiline = true ∧ CharBefore s p LineBreak)) false
  | eol {f} : NoQuant f → Denotes (.item false) (txt "$") f (semHere fun f s p => p = s.length ∨ (f.multiline = true ∧ CharAt s p LineBreak)) false
  | assertion {e P k f} : AssertAs e P k → NoQuant f → Denotes (.item false) [ch '\\', e] f (semHere P) k
  -- everything up to the end of the group belongs to a part that is followed by a brace
  | braced {k w S a v T b u U c f} : Denotes (.atom k) w (some (ch '{')) S a → Denotes (.item true) v (follow u f) T b →
      Denotes (.alts (some (semSeq S T, a && b))) u f U c → AtEnd f → Denotes (.item k) (w ++ v ++ u) f U c
  -- concatenation
  | start {S b f} : Denotes (.seq (some (S, b))) [] f S b
  | one {w f S b} : Denotes (.item false) w f S b → Denotes (.seq none) w f S b
  | more {k w v f S a T b} : Denotes (.seq k) w v.head? S a → Denotes (.item false) v f T b → Denotes (.seq k) (w ++ v) f (semSeq S T) (a && b)
  -- alternation
  | single {k w f S b} : Denotes (.seq k) w f S b → Denotes (.alts k) w f S b
  | or {k w v f S a T b} : Denotes (.alts k) w (some (ch '|')) S a → Denotes (.seq none) v f T b → Denotes (.alts k) (w ++ txt "|" ++ v) f (semAlt S T) (a && b)

/-- A pattern and its meaning. -/
inductive PatternMeans : List Byte → Sem → Prop
  | empty : PatternMeans [] semEmpty
  | alts {w S b} : Denotes (.alts none) w none S b → PatternMeans w S

/-- `i` is where a search of a text of length `n` succeeds: the first position from where a match begins. -/
def FirstBegin (e : Nat → List Nat) (n i : Nat) : Prop := i ≤ n ∧ e i ≠ [] ∧ ∀ j < i, e j = []

/-- The range a method has to report for a text of length `n`, given where the pattern stops: the whole text; the preferred prefix; the preferred match at the first position that has
one. -/
def Reported (M : Method) (n : Nat) (e : Nat → List Nat) (i j : Nat) : Prop :=
  match M with
  | .match => i = 0 ∧ j = n ∧ n ∈ e 0
  | .matchPrefix => i = 0 ∧ (e 0).head? = some j
  | .search => FirstBegin e n i ∧ (e i).head? = some j

end Mregex.Spec

namespace Mregex.Spec
open Mregex Ast

/-! ## Trees whose patterns have a meaning (used to say which patterns have one) -/

mutual
/-- No anchors (other than `\b` and `\B`), lookarounds, possessive quantifiers and atomic groups. -/
def plainBody : Ast → Bool
  | .bol | .boi | .eol | .eoi | .look _ _ => false
  | .rep .possessive _ _ _ => false
  | .seq l | .alt l | .set l => plainBodies l
  | .neg a | .cap _ _ a | .rep _ _ _ a => plainBody a
  | _ => true
def plainBodies : List Ast → Bool
  | [] => true
  | a :: l => plainBody a && plainBodies l
end

mutual
/-- The bodies of all lookbehinds are `plainBody`. -/
def calm : Ast → Bool
  | .look .behind a => plainBody a
  | .look .ahead a => calm a
  | .seq l | .alt l | .set l => calmAll l
  | .neg a | .cap _ _ a | .rep _ _ _ a => calm a
  | _ => true
def calmAll : List Ast → Bool
  | [] => true
  | a :: l => calm a && calmAll l
end

end Mregex.Spec
