import Verif.Spec.Paths

/-!
# Words and memories

What it means that an expression says a word, without positions and without an order of preference: groups and references are explained by a memory, in which a
group notes the word that it has said and where a reference looks up what to say.
-/

namespace Mregex.Spec
open Mregex

/-- What the groups have said so far, the latest first. -/
abbrev Memory := List (Nat × List Byte)

/-- What the group `k` has said last; nothing if it has not said anything. -/
def recall (k : Nat) : Memory → List Byte
  | [] => []
  | (id, w) :: e => if id = k then w else recall k e

/-- `n` times in a row. -/
def Repeats (P : Memory → List Byte → Memory → Prop) : Nat → Memory → List Byte → Memory → Prop
  | 0, e, w, e' => w = [] ∧ e' = e
  | n + 1, e, w, e' => ∃ u v t, w = u ++ v ∧ P e u t ∧ Repeats P n t v e'

mutual
/-- `a` says the word `w`, with the memory `e` before and `e'` afterwards. -/
def Says (f : Flags) : Ast → Memory → List Byte → Memory → Prop
  | .empty, e, w, e' => w = [] ∧ e' = e
  | .seq l, e, w, e' => SaysAll f l e w e'
  | .alt l, e, w, e' => SaysAny f l e w e'
  | .cap k _ a, e, w, e' => ∃ t, Says f a e w t ∧ e' = (k, w) :: t
  | .rep _ lo hi a, e, w, e' => ∃ n, lo ≤ n ∧ AtMost n hi ∧ Repeats (Says f a) n e w e'
  | .backref k, e, w, e' => SameText f.icase (recall k e) w ∧ e' = e
  | a, e, w, e' => (∃ x, w = [x] ∧ accepts f a x = true) ∧ e' = e
/-- One after the other. -/
def SaysAll (f : Flags) : List Ast → Memory → List Byte → Memory → Prop
  | [], e, w, e' => w = [] ∧ e' = e
  | a :: l, e, w, e' => ∃ u v t, w = u ++ v ∧ Says f a e u t ∧ SaysAll f l t v e'
/-- One of them. -/
def SaysAny (f : Flags) : List Ast → Memory → List Byte → Memory → Prop
  | [], _, _, _ => False
  | a :: l, e, w, e' => Says f a e w e' ∨ SaysAny f l e w e'
end

mutual
/-- Expressions that say words, whatever is around them: no anchors, lookarounds and possessive quantifiers.  References are by number. -/
def wordy : Ast → Bool
  | .bol | .boi | .eol | .eoi | .wordB | .look _ _ | .namedBackref _ => false
  | .seq l | .alt l => wordyAll l
  | .cap _ _ a => wordy a
  | .rep .possessive _ _ _ => false
  | .rep _ _ _ a => wordy a
  | .neg a => !assertion a
  | _ => true
def wordyAll : List Ast → Bool
  | [] => true
  | a :: l => wordy a && wordyAll l
end

/-! ### Without preferences -/

mutual
/-- The expression with all quantifiers greedy. -/
def unbiased : Ast → Ast
  | .seq l => .seq (unbiasedAll l)
  | .alt l => .alt (unbiasedAll l)
  | .cap k n a => .cap k n (unbiased a)
  | .rep _ lo hi a => .rep .greedy lo hi (unbiased a)
  | a => a
def unbiasedAll : List Ast → List Ast
  | [] => []
  | a :: l => unbiased a :: unbiasedAll l
end

/-- The word is said in one way only, as far as the group `k` is concerned. -/
def Unambiguous (f : Flags) (a : Ast) (w : List Byte) (k : Nat) : Prop :=
  ∀ e e', Says f a [] w e → Says f a [] w e' → recall k e = recall k e'

end Mregex.Spec
