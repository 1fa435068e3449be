import Verif.Spec.Frame
import Verif.Model.Methods

/-!
# Parts that permit more
-/

namespace Mregex.Spec
open Mregex

/-- Wherever a match of `X` begins and ends, so can one of `Y`. -/
def Wider (f : Flags) (fwd inv : Bool) (X Y : Ast) : Prop :=
  ∀ s p, p ≤ s.length → ∀ q ∈ ends f s X fwd inv p, q ∈ ends f s Y fwd inv p

/-- The same in every way of reading that the iterators allow. -/
def Permits (fl : List RegexFlag) (cat : Cat) (X Y : Ast) : Prop :=
  ∀ fwd inv, Readings cat fwd inv → Wider (Flags.ofList fl) fwd inv X Y

/-- The gap is in an even number of negative lookarounds. -/
def Frame.positive : Frame → Bool
  | .gap => true
  | .seq _ C _ | .alt _ C _ | .cap _ _ C | .rep _ _ _ C | .look _ C => C.positive
  | .notLook _ C => !C.positive

/-- The gap is in no possessive quantifier or atomic group. -/
def Frame.backtracks : Frame → Bool
  | .gap => true
  | .seq _ C _ | .alt _ C _ | .cap _ _ C | .look _ C | .notLook _ C => C.backtracks
  | .rep m _ _ C => m != .possessive && C.backtracks

end Mregex.Spec
