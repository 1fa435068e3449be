import Verif.Spec.Proc
import Verif.Spec.Groups

/-!
# How the body of a group is read

In a lookbehind the text is read backwards, with sequences in reverse order.  A lookaround inside changes the direction relative to that.
-/

namespace Mregex.Spec
open Mregex

/-- `a`, read forwards or backwards and in the order `inv` (as for `ends`), contains a group `k` with the body `body`, which is then read in this way. -/
inductive ReadGroup (k : Nat) : Ast → Bool → Bool → Ast → Bool → Bool → Prop
  | here {name body fwd inv} : ReadGroup k (.cap k name body) fwd inv body fwd inv
  | cap {id name a fwd inv body fwd' inv'} : ReadGroup k a fwd inv body fwd' inv' → ReadGroup k (.cap id name a) fwd inv body fwd' inv'
  | neg {a fwd inv body fwd' inv'} : ReadGroup k a fwd inv body fwd' inv' → ReadGroup k (.neg a) fwd inv body fwd' inv'
  | rep {m lo hi a fwd inv body fwd' inv'} : ReadGroup k a fwd inv body fwd' inv' → ReadGroup k (.rep m lo hi a) fwd inv body fwd' inv'
  | seq {l a fwd inv body fwd' inv'} : a ∈ l → ReadGroup k a fwd inv body fwd' inv' → ReadGroup k (.seq l) fwd inv body fwd' inv'
  | alt {l a fwd inv body fwd' inv'} : a ∈ l → ReadGroup k a fwd inv body fwd' inv' → ReadGroup k (.alt l) fwd inv body fwd' inv'
  | same {d a fwd inv body fwd' inv'} : (d == .ahead) = !inv → ReadGroup k a fwd false body fwd' inv' → ReadGroup k (.look d a) fwd inv body fwd' inv'
  | turn {d a fwd inv body fwd' inv'} : (d == .ahead) = inv → ReadGroup k a (!fwd) true body fwd' inv' → ReadGroup k (.look d a) fwd inv body fwd' inv'

/-- The text from `b` to `e` is one that `body` takes when it is read in this way. -/
def Taken (f : Flags) (s : List Byte) (body : Ast) (fwd inv : Bool) (b e : Nat) : Prop :=
  if fwd then e ∈ ends f s body true inv b else b ∈ ends f s body false inv e

end Mregex.Spec
