import Verif.Model.Match

/-!
# Regexes that are cheap to match
-/

namespace Mregex.Spec
open Ast

mutual
/-- Nothing that takes more than a test of one character is repeated without limit, except possessively.  (With merely
forward iterators the library also recurses for repeated single characters.) -/
def flat (cat : Cat) : Ast → Bool
  | .seq l | .alt l => flatAll cat l
  | .neg a | .cap _ _ a | .look _ a => flat cat a
  | .rep m _ hi a => flat cat a && (m == .possessive || hi != .inf || (triv a && cat != .forward))
  | _ => true
def flatAll (cat : Cat) : List Ast → Bool
  | [] => true
  | a :: l => flat cat a && flatAll cat l
end

mutual
/-- The node continues at most once, whatever happens afterwards: it has nothing to backtrack into. -/
def once : Ast → Bool
  | .seq l => onceAll l
  | .alt l => areTriv l || onceSingle l
  | .cap _ _ a => once a
  | .rep m lo hi a => m == .possessive || (hi == .fin lo && once a)
  | _ => true
def onceAll : List Ast → Bool
  | [] => true
  | a :: l => once a && onceAll l
/-- An alternation with one branch. -/
def onceSingle : List Ast → Bool
  | [a] => once a
  | _ => false
end

mutual
/-- Whatever is repeated without limit, and not possessively, has nothing to backtrack into. -/
def steady : Ast → Bool
  | .seq l | .alt l => steadyAll l
  | .neg a | .cap _ _ a | .look _ a => steady a
  | .rep m _ hi a => steady a && (m == .possessive || hi != .inf || once a)
  | _ => true
def steadyAll : List Ast → Bool
  | [] => true
  | a :: l => steady a && steadyAll l
end

mutual
/-- How often the continuation is called, as a power of the length of the input: for every repetition without limit that is neither possessive nor inside a possessive one, one. -/
def choices : Ast → Nat
  | .seq l => choicesSum l
  | .alt l => choicesMax l
  | .cap _ _ a => choices a
  | .rep .possessive _ _ _ => 0
  | .rep _ lo (.fin h) a => max lo h * choices a
  | .rep _ _ .inf _ => 1
  | _ => 0
def choicesSum : List Ast → Nat
  | [] => 0
  | a :: l => choices a + choicesSum l
def choicesMax : List Ast → Nat
  | [] => 0
  | a :: l => max (choices a) (choicesMax l)
end

mutual
/-- How many calls are made, as a power of the length of the input; `rev`: the parts of sequences are tried from the last to the first, as in lookbehinds.  A part of a sequence is
tried for every choice the parts before it have. -/
def degreeDir (rev : Bool) : Ast → Nat
  | .seq l => if rev then degreeBack rev l else degreeParts rev l
  | .alt l => degreeMax rev l
  | .cap _ _ a | .neg a => degreeDir rev a
  | .look .ahead a => degreeDir rev a
  | .look .behind a => degreeDir (!rev) a
  | .rep _ lo (.fin h) a => degreeDir rev a + (max lo h - 1) * choices a
  | .rep _ lo .inf a => degreeDir rev a + lo * choices a + 1
  | _ => 0
def degreeMax (rev : Bool) : List Ast → Nat
  | [] => 0
  | a :: l => max (degreeDir rev a) (degreeMax rev l)
def degreeParts (rev : Bool) : List Ast → Nat
  | [] => 0
  | [a] => degreeDir rev a
  | a :: b :: l => max (degreeDir rev a) (choices a + degreeParts rev (b :: l))
def degreeBack (rev : Bool) : List Ast → Nat
  | [] => 0
  | a :: l => max (degreeBack rev l) (choicesSum l + degreeDir rev a)
end

/-- How many calls are made, as a power of the length of the input. -/
def degree (a : Ast) : Nat := degreeDir false a

end Mregex.Spec
