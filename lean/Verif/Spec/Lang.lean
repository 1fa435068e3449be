import Verif.Model.Ast
import Verif.Model.Match

/-!
# What a regex means

A declarative account of the language of an AST, written independently of the matcher: it mentions neither
continuations, nor iterators, nor the order in which alternatives are tried.

`Matches f s a i j`: with flags `f`, the part of `s` between the positions `i` and `j` is matched by `a`.
Positions before `i` and after `j` matter for anchors and lookarounds only.
-/

namespace Mregex.Spec
open Mregex

/-- ASCII lower case. -/
def asciiLower (b : Byte) : Byte := if 65 ≤ b.toNat ∧ b.toNat ≤ 90 then b + 32#8 else b

/-- ASCII upper case. -/
def asciiUpper (b : Byte) : Byte := if 97 ≤ b.toNat ∧ b.toNat ≤ 122 then b - 32#8 else b

/-- The same character, up to the case of letters if `icase`. -/
def CharEq (icase : Bool) (a b : Byte) : Prop :=
  a = b ∨ (icase = true ∧ asciiLower a = asciiLower b)

/-- `\n` or `\r`. -/
def LineBreak (b : Byte) : Prop := b = 10#8 ∨ b = 13#8

/-- ASCII letter, digit or underscore. -/
def WordChar (b : Byte) : Prop :=
  (48 ≤ b.toNat ∧ b.toNat ≤ 57) ∨ (65 ≤ b.toNat ∧ b.toNat ≤ 90) ∨ b.toNat = 95 ∨
  (97 ≤ b.toNat ∧ b.toNat ≤ 122)

/-- The character at position `i` exists and satisfies `P`. -/
def CharAt (s : List Byte) (i : Nat) (P : Byte → Prop) : Prop := ∃ x, s[i]? = some x ∧ P x

/-- The character before position `i` exists and satisfies `P`. -/
def CharBefore (s : List Byte) (i : Nat) (P : Byte → Prop) : Prop := ∃ k, i = k + 1 ∧ CharAt s k P

/-- `k` consecutive matches. -/
def Iter (R : Nat → Nat → Prop) : Nat → Nat → Nat → Prop
  | 0, i, j => i = j
  | k + 1, i, j => ∃ t, R i t ∧ Iter R k t j

/-- The number of iterations is admitted by an upper bound. -/
def AtMost (k : Nat) : Bound → Prop
  | .fin h => k ≤ h
  | .inf => True

/-- Zero-width assertions: anchors, lookarounds and their negations (possibly wrapped). -/
def assertion : Ast → Bool
  | .bol | .boi | .eol | .eoi | .wordB => true
  | .look _ _ => true
  | .neg a => assertion a
  | .seq [a] => assertion a
  | .alt [a] => assertion a
  | .rep .possessive _ _ _ => false
  | .rep _ 1 (.fin 1) a => assertion a
  | _ => false

mutual
/-- The meaning of an AST.  Backreferences have no meaning in terms of positions alone and are read as arbitrary
text; statements that need more exclude them.  Possessive quantifiers are read like ordinary ones. -/
def Matches (f : Flags) (s : List Byte) : Ast → Nat → Nat → Prop
  | .empty => fun i j => i = j
  | .lit c => fun i j => j = i + 1 ∧ CharAt s i (CharEq f.icase c)
  | .range a b => fun i j => j = i + 1 ∧
      CharAt s i (fun x => ∃ y : Byte, a.toNat ≤ y.toNat ∧ y.toNat ≤ b.toNat ∧ CharEq f.icase y x)
  | .wildcard => fun i j => j = i + 1 ∧ CharAt s i (fun x => f.dotall = true ∨ ¬ LineBreak x)
  | .set l => fun i j => j = i + 1 ∧ MatchesAny f s l i j
  | .neg a => fun i j =>
      if assertion a then i = j ∧ ¬ Matches f s a i i
      else j = i + 1 ∧ i < s.length ∧ ¬ Matches f s a i (i + 1)
  | .seq l => MatchesAll f s l
  | .alt l => MatchesAny f s l
  | .cap _ _ a => Matches f s a
  | .rep _ lo hi a => fun i j => ∃ k, lo ≤ k ∧ AtMost k hi ∧ Iter (Matches f s a) k i j
  | .look .ahead a => fun i j => i = j ∧ ∃ t, i ≤ t ∧ Matches f s a i t
  | .look .behind a => fun i j => i = j ∧ ∃ t, t ≤ i ∧ Matches f s a t i
  | .bol => fun i j => i = j ∧ (i = 0 ∨ (f.multiline = true ∧ CharBefore s i LineBreak))
  | .boi => fun i j => i = j ∧ i = 0
  | .eol => fun i j => i = j ∧ (i = s.length ∨ (f.multiline = true ∧ CharAt s i LineBreak))
  | .eoi => fun i j => i = j ∧ i = s.length
  | .wordB => fun i j => i = j ∧ ¬ (CharBefore s i WordChar ↔ CharAt s i WordChar)
  | .backref _ => fun i j => i ≤ j ∧ j ≤ s.length
  | .namedBackref _ => fun i j => i ≤ j ∧ j ≤ s.length
/-- Concatenation. -/
def MatchesAll (f : Flags) (s : List Byte) : List Ast → Nat → Nat → Prop
  | [] => fun i j => i = j
  | a :: l => fun i j => ∃ t, Matches f s a i t ∧ MatchesAll f s l t j
/-- Union. -/
def MatchesAny (f : Flags) (s : List Byte) : List Ast → Nat → Nat → Prop
  | [] => fun _ _ => False
  | a :: l => fun i j => Matches f s a i j ∨ MatchesAny f s l i j
end

/-! ### Fragments -/

mutual
/-- No backreferences. -/
def noBackref : Ast → Bool
  | .backref _ | .namedBackref _ => false
  | .seq l | .alt l | .set l => noBackrefAll l
  | .neg a | .cap _ _ a | .rep _ _ _ a | .look _ a => noBackref a
  | _ => true
def noBackrefAll : List Ast → Bool
  | [] => true
  | a :: l => noBackref a && noBackrefAll l
end

mutual
/-- No atomic groups and possessive quantifiers. -/
def noPossessive : Ast → Bool
  | .rep .possessive _ _ _ => false
  | .seq l | .alt l | .set l => noPossessiveAll l
  | .neg a | .cap _ _ a | .rep _ _ _ a | .look _ a => noPossessive a
  | _ => true
def noPossessiveAll : List Ast → Bool
  | [] => true
  | a :: l => noPossessive a && noPossessiveAll l
end

mutual
/-- Reads the same in both directions: no anchors, no lookarounds, no concatenation of several parts. -/
def palindromic : Ast → Bool
  | .bol | .boi | .eol | .eoi | .look _ _ => false
  | .seq l => decide (l.length ≤ 1) && palindromicAll l
  | .alt l | .set l => palindromicAll l
  | .neg a | .cap _ _ a | .rep _ _ _ a => palindromic a
  | _ => true
def palindromicAll : List Ast → Bool
  | [] => true
  | a :: l => palindromic a && palindromicAll l
end

mutual
/-- Bodies of lookbehinds for which mirroring works: no anchors, nested lookarounds have palindromic bodies. -/
def reversible : Ast → Bool
  | .bol | .boi | .eol | .eoi => false
  | .seq l | .alt l | .set l => reversibleAll l
  | .neg a | .cap _ _ a | .rep _ _ _ a => reversible a
  | .look _ a => palindromic a
  | _ => true
def reversibleAll : List Ast → Bool
  | [] => true
  | a :: l => reversible a && reversibleAll l
end

mutual
/-- All lookbehinds have reversible bodies. -/
def behindOk : Ast → Bool
  | .look .behind a => reversible a
  | .look .ahead a => behindOk a
  | .seq l | .alt l | .set l => behindOkAll l
  | .neg a | .cap _ _ a | .rep _ _ _ a => behindOk a
  | _ => true
def behindOkAll : List Ast → Bool
  | [] => true
  | a :: l => behindOk a && behindOkAll l
end

/-- The fragment in which a regex denotes a language that does not depend on the search order. -/
def declarative (a : Ast) : Bool := noBackref a && noPossessive a && behindOk a

end Mregex.Spec
