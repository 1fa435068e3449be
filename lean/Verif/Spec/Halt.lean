import Verif.Spec.Says
import Mathlib.Computability.TuringMachine.Config

/-!
# A pattern that doubts a computation

For a program (of the basis `Turing.ToPartrec.Code` for the partial recursive functions) and an input this file gives an expression, with groups and references, that
accepts every text except for complete and correct records of the run of the program on the input.
-/

namespace Mregex.Spec
open Mregex Turing.ToPartrec

/-! ### Rules that rewrite words -/

/-- A part of the left side of a rule: a character, or any word over some characters. -/
inductive Given
  | lit (c : Byte)
  | var (cls : List Byte)

/-- A part of the right side: a character, or a copy of what the `i`-th word of the left side (from 0) stands for. -/
inductive Made
  | lit (c : Byte)
  | copy (i : Nat)

/-- The words for the variables are over their characters. -/
def FitsVars : List Given → List (List Byte) → Prop
  | [], σ => σ = []
  | .lit _ :: l, σ => FitsVars l σ
  | .var _ :: _, [] => False
  | .var k :: l, x :: σ => (∀ b ∈ x, b ∈ k) ∧ FitsVars l σ

/-- The left side, with words for its variables. -/
def leftSide : List Given → List (List Byte) → List Byte
  | [], _ => []
  | .lit c :: l, σ => c :: leftSide l σ
  | .var _ :: l, σ => σ.headD [] ++ leftSide l σ.tail

/-- The right side, with words for the variables. -/
def rightSide : List Made → List (List Byte) → List Byte
  | [], _ => []
  | .lit c :: r, σ => c :: rightSide r σ
  | .copy i :: r, σ => σ.getD i [] ++ rightSide r σ

/-! ### Expressions that find a mistake -/

/-- What a mistake looks like: an instance of `given`, the separator, an instance of `made`, and then another character than `due`. -/
structure Slip where
  given : List Given
  made : List Made
  due : Byte

/-- The `i`-th variable replaced by two variables with a character in between. -/
def splitGiven (i : Nat) (a : Byte) : List Given → List Given
  | [] => []
  | .lit c :: l => .lit c :: splitGiven i a l
  | .var k :: l => match i with
    | 0 => .var k :: .lit a :: .var k :: l
    | i + 1 => .var k :: splitGiven i a l

def splitMade (i : Nat) (a : Byte) : List Made → List Made
  | [] => []
  | .lit c :: r => .lit c :: splitMade i a r
  | .copy j :: r => (if j < i then [.copy j] else if j = i then [.copy i, .lit a, .copy (i + 1)] else [.copy (j + 1)]) ++ splitMade i a r

/-- The characters of the `i`-th variable. -/
def charsOf (i : Nat) : List Given → List Byte
  | [] => []
  | .lit _ :: l => charsOf i l
  | .var k :: l => match i with
    | 0 => k
    | i + 1 => charsOf i l

/-- The separator of a record. -/
def bar : Byte := ch '#'

/-- The mistakes that can be made when the rest `todo` of the right side has to be written, after `done`. -/
def slipsFrom (l : List Given) (done : List Made) : (todo : List Made) → List Slip
  | [] => [⟨l, done, bar⟩]
  | .lit c :: t => ⟨l, done, c⟩ :: slipsFrom l (done ++ [.lit c]) t
  | .copy i :: t => ((charsOf i l).map fun a => ⟨splitGiven i a l, splitMade i a done ++ [.copy i], a⟩) ++ slipsFrom l (done ++ [.copy i]) t

/-- A rule. -/
abbrev WordRule := List Given × List Made

/-- Any character: `[^]`. -/
def anyA : Ast := .neg (.set [])

/-- Any text: `[^]*`. -/
def anythingA : Ast := .rep .greedy 0 .inf anyA

/-- Another character. -/
def otherA (c : Byte) : Ast := .neg (.set [.lit c])

/-- Groups for the variables, with numbers from `i`. -/
def givensA : Nat → List Given → List Ast
  | _, [] => []
  | i, .lit c :: l => .lit c :: givensA i l
  | i, .var k :: l => .cap i none (.rep .greedy 0 .inf (.set (k.map .lit))) :: givensA (i + 1) l

/-- References for the copies. -/
def madesA : List Made → List Ast
  | [] => []
  | .lit c :: r => .lit c :: madesA r
  | .copy i :: r => .backref (i + 1) :: madesA r

/-- The texts with this mistake: `[^]*#`*given*`#`*made*`[^`*due*`][^]*`. -/
def slipA (m : Slip) : Ast :=
  .seq (anythingA :: .lit bar :: (givensA 1 m.given ++ .lit bar :: (madesA m.made ++ [otherA m.due, anythingA])))

/-- The words that begin like `u` and end with the first character in which they differ from it. -/
def differA : List Byte → Ast
  | [] => .empty
  | [c] => otherA c
  | c :: d :: u => .alt [otherA c, .seq [.lit c, differA (d :: u)]]

/-! ### Records of computations -/

/-- What a frame of the stack is for: run a program, give back a result, or go on with a result. -/
inductive Job
  | run (c : Code)
  | back
  | first (c : Code)
  | second
  | after (c : Code)
  | again (c : Code)
  | stop

/-- The state of a computation: what is to be done, and with which numbers. -/
abbrev Frames := List (Job × List Nat)

/-- One step, cf. `Turing.ToPartrec.stepNormal` and `Turing.ToPartrec.stepRet`. -/
def advance : Frames → Option Frames
  | (.run .zero', v) :: F => some ((.back, 0 :: v) :: F)
  | (.run .succ, v) :: F => some ((.back, [v.headI + 1]) :: F)
  | (.run .tail, v) :: F => some ((.back, v.tail) :: F)
  | (.run (.cons f g), v) :: F => some ((.run f, v) :: (.first g, v) :: F)
  | (.run (.comp f g), v) :: F => some ((.run g, v) :: (.after f, []) :: F)
  | (.run (.case f _), []) :: F => some ((.run f, []) :: F)
  | (.run (.case f _), 0 :: v) :: F => some ((.run f, v) :: F)
  | (.run (.case _ g), (n + 1) :: v) :: F => some ((.run g, n :: v) :: F)
  | (.run (.fix f), v) :: F => some ((.run f, v) :: (.again f, []) :: F)
  | (.back, v) :: (.first g, w) :: F => some ((.run g, w) :: (.second, v) :: F)
  | (.back, v) :: (.second, w) :: F => some ((.back, w.headI :: v) :: F)
  | (.back, v) :: (.after f, []) :: F => some ((.run f, v) :: F)
  | (.back, []) :: (.again _, []) :: F => some ((.back, []) :: F)
  | (.back, 0 :: v) :: (.again _, []) :: F => some ((.back, v) :: F)
  | (.back, (_ + 1) :: v) :: (.again f, []) :: F => some ((.run f, v) :: (.again f, []) :: F)
  | [(.back, _), (.stop, [])] => some []
  | _ => none

def unitB : Byte := ch 'a'
def endB : Byte := ch 'b'
def commaB : Byte := ch ','

/-- Programs in Polish notation. -/
def codeWord : Code → List Byte
  | .zero' => [ch 'Z']
  | .succ => [ch 'S']
  | .tail => [ch 'T']
  | .cons f g => ch 'N' :: (codeWord f ++ codeWord g)
  | .comp f g => ch 'C' :: (codeWord f ++ codeWord g)
  | .case f g => ch 'K' :: (codeWord f ++ codeWord g)
  | .fix f => ch 'F' :: codeWord f

def jobWord : Job → List Byte
  | .run c => ch 'r' :: codeWord c
  | .back => [ch 'v']
  | .first c => ch 'i' :: codeWord c
  | .second => [ch 'j']
  | .after c => ch 'k' :: codeWord c
  | .again c => ch 'l' :: codeWord c
  | .stop => [ch 'h']

/-- Numbers in unary. -/
def numsWord : List Nat → List Byte
  | [] => []
  | n :: v => List.replicate n unitB ++ endB :: numsWord v

def framesWord : Frames → List Byte
  | [] => []
  | (q, v) :: F => jobWord q ++ commaB :: (numsWord v ++ commaB :: framesWord F)

/-- The characters of states. -/
def alphabet : List Byte :=
  [ch ',', ch 'a', ch 'b', ch 'Z', ch 'S', ch 'T', ch 'N', ch 'C', ch 'K', ch 'F', ch 'r', ch 'v', ch 'i', ch 'j', ch 'k', ch 'l', ch 'h']

/-- The parts of a program. -/
def codeParts : Code → List Code
  | .cons f g => .cons f g :: (codeParts f ++ codeParts g)
  | .comp f g => .comp f g :: (codeParts f ++ codeParts g)
  | .case f g => .case f g :: (codeParts f ++ codeParts g)
  | .fix f => .fix f :: codeParts f
  | c => [c]

def jobL (q : Job) : List Given := (jobWord q ++ [commaB]).map .lit
def jobR (q : Job) : List Made := (jobWord q ++ [commaB]).map .lit
def onesL : Given := .var [unitB]
def numsL : Given := .var [unitB, endB]
def restL : Given := .var alphabet
def commaL : Given := .lit commaB
def commaR : Made := .lit commaB

/-- The steps of a program. -/
def runRules : Code → List WordRule
  | .zero' => [(jobL (.run .zero') ++ [numsL, commaL, restL], jobR .back ++ [.lit endB, .copy 0, commaR, .copy 1])]
  | .succ => [
      (jobL (.run .succ) ++ [onesL, .lit endB, numsL, commaL, restL], jobR .back ++ [.lit unitB, .copy 0, .lit endB, commaR, .copy 2]),
      (jobL (.run .succ) ++ [commaL, restL], jobR .back ++ [.lit unitB, .lit endB, commaR, .copy 0])]
  | .tail => [
      (jobL (.run .tail) ++ [onesL, .lit endB, numsL, commaL, restL], jobR .back ++ [.copy 1, commaR, .copy 2]),
      (jobL (.run .tail) ++ [commaL, restL], jobR .back ++ [commaR, .copy 0])]
  | .cons f g => [(jobL (.run (.cons f g)) ++ [numsL, commaL, restL],
      jobR (.run f) ++ .copy 0 :: commaR :: (jobR (.first g) ++ [.copy 0, commaR, .copy 1]))]
  | .comp f g => [(jobL (.run (.comp f g)) ++ [numsL, commaL, restL], jobR (.run g) ++ .copy 0 :: commaR :: (jobR (.after f) ++ [commaR, .copy 1]))]
  | .case f g => [
      (jobL (.run (.case f g)) ++ [commaL, restL], jobR (.run f) ++ [commaR, .copy 0]),
      (jobL (.run (.case f g)) ++ [.lit endB, numsL, commaL, restL], jobR (.run f) ++ [.copy 0, commaR, .copy 1]),
      (jobL (.run (.case f g)) ++ [.lit unitB, numsL, commaL, restL], jobR (.run g) ++ [.copy 0, commaR, .copy 1])]
  | .fix f => [(jobL (.run (.fix f)) ++ [numsL, commaL, restL], jobR (.run f) ++ .copy 0 :: commaR :: (jobR (.again f) ++ [commaR, .copy 1]))]

/-- The steps that go on with a program. -/
def goOnRules (f : Code) : List WordRule := [
  (jobL .back ++ numsL :: commaL :: (jobL (.first f) ++ [numsL, commaL, restL]),
    jobR (.run f) ++ .copy 1 :: commaR :: (jobR .second ++ [.copy 0, commaR, .copy 2])),
  (jobL .back ++ numsL :: commaL :: (jobL (.after f) ++ [commaL, restL]), jobR (.run f) ++ [.copy 0, commaR, .copy 1]),
  (jobL .back ++ commaL :: (jobL (.again f) ++ [commaL, restL]), jobR .back ++ [commaR, .copy 0]),
  (jobL .back ++ .lit endB :: numsL :: commaL :: (jobL (.again f) ++ [commaL, restL]), jobR .back ++ [.copy 0, commaR, .copy 1]),
  (jobL .back ++ .lit unitB :: onesL :: .lit endB :: numsL :: commaL :: (jobL (.again f) ++ [commaL, restL]),
    jobR (.run f) ++ .copy 1 :: commaR :: (jobR (.again f) ++ [commaR, .copy 2]))]

/-- The other steps. -/
def otherRules : List WordRule := [
  (jobL .back ++ numsL :: commaL :: (jobL .second ++ [onesL, .lit endB, numsL, commaL, restL]),
    jobR .back ++ [.copy 1, .lit endB, .copy 0, commaR, .copy 3]),
  (jobL .back ++ numsL :: commaL :: (jobL .second ++ [commaL, restL]), jobR .back ++ [.lit endB, .copy 0, commaR, .copy 1]),
  (jobL .back ++ numsL :: commaL :: (jobL .stop ++ [commaL]), [])]

def rulesOf (c : Code) : List WordRule := otherRules ++ (codeParts c).flatMap fun d => runRules d ++ goOnRules d

/-- The start of the computation of `c` for a number. -/
def startFrames (c : Code) (n : Nat) : Frames := [(.run c, [n]), (.stop, [])]

/-- The record of a run from a state on, without the separator before it. -/
inductive RecordFrom : Frames → List Byte → Prop
  | done : RecordFrom [] [bar]
  | step {F F' : Frames} {T : List Byte} : advance F = some F' → RecordFrom F' T → RecordFrom F (framesWord F ++ bar :: T)

/-- What comes before and after the number in a record. -/
def beforeNumber (c : Code) : List Byte := bar :: (jobWord (.run c) ++ [commaB])
def afterNumber : List Byte := endB :: commaB :: (framesWord [(.stop, [])] ++ [bar])

/-- The texts that do not begin with the record of the start of `c` for the number `k + 1`. -/
def startDoubts (c : Code) (k : Nat) : List Ast := [
  .seq [differA (beforeNumber c), anythingA],
  .seq ((beforeNumber c).map .lit ++ (List.replicate k (.rep .greedy 0 (.fin 1) (.lit unitB)) ++ [otherA unitB, anythingA])),
  .seq ((beforeNumber c).map .lit ++ (List.replicate (k + 1) (.lit unitB) ++ [differA afterNumber, anythingA]))]

/-- The texts that do not end with two separators. -/
def endDoubts : List Ast := [
  .seq [anythingA, otherA bar],
  .seq [anythingA, otherA bar, anyA],
  .rep .greedy 0 (.fin 1) anyA]

/-- Whatever is not the record of a computation of `c` for `k + 1` that comes to an end. -/
def doubtA (c : Code) (k : Nat) : Ast :=
  .alt (startDoubts c k ++ (endDoubts ++ ((rulesOf c).flatMap fun r => slipsFrom r.1 [] r.2).map slipA))

/-- A pattern, given by the numbers of its characters. -/
def patternOf (l : List Nat) : List Byte := l.map (BitVec.ofNat 8)

end Mregex.Spec
