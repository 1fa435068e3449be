import Verif.Spec.Unicode
import Verif.Spec.Order

/-!
# The order of preference over Unicode characters

Where the attempts of an expression over characters end, in the order in which they are preferred.  Positions are counted in characters.
-/

namespace Mregex.Spec
open Mregex

/-- The ranges consist of ASCII characters and are not empty; possessive quantifiers are allowed. -/
def UExpr.Ranged : UExpr → Prop
  | .ascii l => ∀ r ∈ l, r.1.toNat ≤ r.2.toNat ∧ r.2.toNat < 128
  | .cat a b | .alt a b => a.Ranged ∧ b.Ranged
  | .rep _ _ _ a => a.Ranged
  | .group _ _ a => a.Ranged
  | _ => True

open Classical in
/-- One character, if it is in the language. -/
noncomputable def letterEnds (u : List Char) (L : Language Char) (p : Nat) : List Nat :=
  match u[p]? with
  | none => []
  | some d => if [d] ∈ L then [p + 1] else []

/-- Where the attempts of the expression from `p` on end, the preferred ones first. -/
noncomputable def UExpr.ends (icase ungreedy : Bool) (u : List Char) : UExpr → Nat → List Nat
  | .empty, p => [p]
  | .char c, p => letterEnds u ((UExpr.char c).lang icase) p
  | .ascii l, p => letterEnds u ((UExpr.ascii l).lang icase) p
  | .any, p => letterEnds u (UExpr.any.lang icase) p
  | .cat a b, p => (a.ends icase ungreedy u p).flatMap (b.ends icase ungreedy u)
  | .alt a b, p => a.ends icase ungreedy u p ++ b.ends icase ungreedy u p
  | .rep m lo hi a, p => quantified u.length m ungreedy lo hi (a.ends icase ungreedy u) p
  | .group _ _ a, p => a.ends icase ungreedy u p

/-- Where the `p`-th character begins in the encoding. -/
def byteAt (u : List Char) (p : Nat) : Nat := (utf8 (u.take p)).length

/-- The group `k` is around `a` somewhere in the expression. -/
inductive UExpr.Around (k : Nat) (a : UExpr) : UExpr → Prop
  | here {name} : Around k a (.group k name a)
  | catL {x y} : Around k a x → Around k a (.cat x y)
  | catR {x y} : Around k a y → Around k a (.cat x y)
  | altL {x y} : Around k a x → Around k a (.alt x y)
  | altR {x y} : Around k a y → Around k a (.alt x y)
  | rep {m lo hi x} : Around k a x → Around k a (.rep m lo hi x)
  | group {id name x} : Around k a x → Around k a (.group id name x)

end Mregex.Spec
