import Verif.Spec.Groups
import Verif.Spec.Proc

/-!
# Derivations

What a match means if there are references and possessive quantifiers, without any order of trying.
-/

namespace Mregex.Spec
open Mregex

/-- The text from `p` to `q` is the text from `b` to `e`, up to case if `icase`. -/
def Copied (icase : Bool) (s : List Byte) (b e p q : Nat) : Prop :=
  ∃ n, e = b + n ∧ q = p + n ∧ ∀ i, i < n → ∃ x y : Byte, s[b + i]? = some x ∧ s[p + i]? = some y ∧ sameChar icase x y = true

/-- Expressions without parts that are derived on their own. -/
def indivisible : Ast → Bool
  | .empty | .bol | .boi | .eol | .eoi | .wordB => true
  | a => character a

/-- There is a derivation for `a` from `i` to `j`, as a part of the regex `A`; `ν` is the meaning of names.  Possessive quantifiers are read like ordinary ones.
A reference takes nothing, or a copy of some text for which a group with this number has a derivation.  Negated assertions must not hold if
they contain neither references nor possessive quantifiers. -/
inductive Derives (f : Flags) (s : List Byte) (ν : List Byte → Nat) (A : Ast) : Ast → Nat → Nat → Prop
  | atom {a i j} : indivisible a = true → Matches f s a i j → Derives f s ν A a i j
  | neg {a i} : assertion a = true → (noBackref a = true → noPossessive a = true → ¬ Matches f s a i i) → Derives f s ν A (.neg a) i i
  | nil {i} : Derives f s ν A (.seq []) i i
  | cons {a l i t j} : Derives f s ν A a i t → Derives f s ν A (.seq l) t j → Derives f s ν A (.seq (a :: l)) i j
  | alt {a l i j} : a ∈ l → Derives f s ν A a i j → Derives f s ν A (.alt l) i j
  | cap {id name a i j} : Derives f s ν A a i j → Derives f s ν A (.cap id name a) i j
  | rep {m lo hi a k i j} : lo ≤ k → AtMost k hi → Derives f s ν A (.seq (List.replicate k a)) i j → Derives f s ν A (.rep m lo hi a) i j
  | ahead {a i t} : Derives f s ν A a i t → Derives f s ν A (.look .ahead a) i i
  | behind {a i t} : Derives f s ν A a t i → Derives f s ν A (.look .behind a) i i
  | nothing {k i} : Derives f s ν A (.backref k) i i
  | copy {k body b e i j} : GroupBody A k body → Derives f s ν A body b e → Copied f.icase s b e i j → Derives f s ν A (.backref k) i j
  | named {n i j} : Derives f s ν A (.backref (ν n)) i j → Derives f s ν A (.namedBackref n) i j

/-! ### Lookbehinds that are read correctly -/

mutual
/-- Bodies of lookbehinds for which mirroring works, with references: no anchors; nested lookarounds have palindromic bodies without references. -/
def mirrored : Ast → Bool
  | .bol | .boi | .eol | .eoi => false
  | .seq l | .alt l | .set l => mirroredAll l
  | .neg a | .cap _ _ a | .rep _ _ _ a => mirrored a
  | .look _ a => palindromic a && noBackref a
  | _ => true
def mirroredAll : List Ast → Bool
  | [] => true
  | a :: l => mirrored a && mirroredAll l
end

mutual
/-- All lookbehinds have such bodies. -/
def orderly : Ast → Bool
  | .look .behind a => mirrored a
  | .look .ahead a => orderly a
  | .seq l | .alt l | .set l => orderlyAll l
  | .neg a | .cap _ _ a | .rep _ _ _ a => orderly a
  | _ => true
def orderlyAll : List Ast → Bool
  | [] => true
  | a :: l => orderly a && orderlyAll l
end

/-! ### Negated assertions -/

mutual
/-- Negated assertions contain neither references nor possessive quantifiers. -/
def negatesPlainly : Ast → Bool
  | .neg a => !assertion a || (noBackref a && noPossessive a)
  | .seq l | .alt l | .set l => negatePlainly l
  | .cap _ _ a | .rep _ _ _ a | .look _ a => negatesPlainly a
  | _ => true
def negatePlainly : List Ast → Bool
  | [] => true
  | a :: l => negatesPlainly a && negatePlainly l
end

end Mregex.Spec
