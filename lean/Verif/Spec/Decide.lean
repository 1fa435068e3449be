import Verif.Spec.Regular
import Verif.Spec.Order

/-!
# How long the texts are that have to be looked at

A number is read off the regex: how many classes of texts have to be told apart at most.  A class for each beginning of a text that is
longer than this number cannot be a class of its own, so that a part of the text can be left out.
-/

namespace Mregex.Spec
open Mregex

/-- The classes that are needed for values out of `d` that are computed step by step from what `n` classes determine. -/
def flowSize (n d : Nat) : Nat := n * ((d ^ d + 1) ^ n) ^ n

/-- How many classes of surroundings are needed, and how many states for a given number of answers. -/
structure Size where
  classes : Nat
  states : Nat → Nat

namespace Size

def test (n : Nat) : Size := ⟨n, fun x => (x + 1) ^ 2⟩
def unit : Size := test 1
def char : Size := ⟨257, fun x => (x + 1) ^ 2 * (x + 1) ^ 2⟩
def both (a b : Size) : Size := ⟨a.classes * b.classes, fun x => a.states x * b.states x⟩
def first (a : Size) : Size := ⟨a.classes, fun x => a.states (x + 1)⟩
/-- A loop whose body has `y` more answers. -/
def loop (a : Size) (y : Nat) : Size := ⟨a.classes, fun x => a.states (x + y) * (x + 1) ^ 2⟩
/-- The classes for the answer of a continuation that `k` classes determine, if there are `x` answers. -/
def answer (a : Size) (k x : Nat) : Nat := flowSize (a.classes * k) (a.states x)
/-- The classes for whether there is a match at a position. -/
def dead (a : Size) : Nat := a.answer 1 1

def exactly (a : Size) : Nat → Size
  | 0 => unit
  | k + 1 => a.both (a.exactly k)

def upTo (a : Size) : Nat → Size
  | 0 => unit
  | k + 1 => (a.both (a.upTo k)).both unit

def possessiveUpTo (a : Size) : Nat → Size
  | 0 => unit
  | k + 1 => (a.first.both (a.possessiveUpTo k)).both (test a.dead)

def extra (a : Size) : Mode → Option Nat → Size
  | .possessive, none => a.loop 2
  | .possessive, some k => a.possessiveUpTo k
  | _, none => a.loop 0
  | _, some k => a.upTo k

def quantified (a : Size) (m : Mode) (lo : Nat) (hi : Bound) : Size :=
  (match m with | .possessive => (a.exactly lo).first | _ => a.exactly lo).both
    (a.extra m (match hi with | .fin h => some (h - lo) | .inf => none))

end Size

mutual
def sizeFor : Ast → Size
  | .empty => .unit
  | .lit _ | .range _ _ | .wildcard | .set _ => .char
  | .neg a => if assertion a then .test (sizeFor a).dead else .char
  | .seq l => sizeAll l
  | .alt l => sizeAll l
  | .cap _ _ a => sizeFor a
  | .rep m lo hi a => (sizeFor a).quantified m lo hi
  | .look _ a => .test (sizeFor a).dead
  | .bol | .boi | .eol | .eoi | .wordB => .test (257 * 257)
  | .backref _ | .namedBackref _ => .unit
def sizeAll : List Ast → Size
  | [] => .unit
  | a :: l => (sizeFor a).both (sizeAll l)
end

/-- The number of classes for a method. -/
def classesFor (a : Ast) : Method → Nat
  | .match => (sizeFor a).answer 257 1
  | .matchPrefix => (sizeFor a).dead
  | .search => flowSize (sizeFor a).dead 2

/-- A regex that is used in some way. -/
structure Use where
  regex : Regex
  method : Method
  cat : Cat

namespace Use

/-- What the call reports for a text. -/
def verdict (x : Use) (s : List Byte) : Bool :=
  match x.regex.invoke x.method x.cat s with
  | some res => res.matched
  | none => false

def bound (x : Use) : Nat := classesFor x.regex.ast x.method

end Use

/-- The product of the numbers of classes. -/
def boundAll : List Use → Nat
  | [] => 1
  | x :: l => x.bound * boundAll l

/-! ## Looking at all texts up to a length -/

def everyByte : List Byte := (List.range 256).map (BitVec.ofNat 8)

/-- All texts of a length. -/
def textsOf : Nat → List (List Byte)
  | 0 => [[]]
  | n + 1 => (textsOf n).flatMap fun s => everyByte.map fun c => c :: s

/-- All texts that are shorter than `n`. -/
def shorter (n : Nat) : List (List Byte) := (List.range n).flatMap textsOf

/-- Is there a text with such verdicts? -/
def sometimes (l : List Use) (f : List Bool → Bool) : Bool := (shorter (boundAll l)).any fun s => f (l.map fun x => x.verdict s)

/-- Is no text accepted? -/
def neverb (x : Use) : Bool := !sometimes [x] fun v => v == [true]
/-- Is every text accepted? -/
def alwaysb (x : Use) : Bool := !sometimes [x] fun v => v == [false]
/-- Do the two accept the same texts? -/
def sameb (x y : Use) : Bool := !sometimes [x, y] fun v => v == [true, false] || v == [false, true]
/-- Does the second accept whatever the first accepts? -/
def withinb (x y : Use) : Bool := !sometimes [x, y] fun v => v == [true, false]
/-- Is there no text that both accept? -/
def apartb (x y : Use) : Bool := !sometimes [x, y] fun v => v == [true, true]
/-- Are infinitely many texts accepted? -/
def endlessb (x : Use) : Bool := (List.range x.bound).any fun k => (textsOf (x.bound + k)).any fun s => x.verdict s

end Mregex.Spec
