import Verif.Spec.Static
import Verif.Spec.Printing

/-!
# Parts of a regex and the direction in which they are read
-/

namespace Mregex.Spec
open Mregex

/-- `Part b k r m a`: `b` is a part of `a` that is read under `k` reversals, if `a` is read under `r` reversals.  `m`: `a` is read mirrored.

The body of a lookbehind is read mirrored, under one more reversal.  In what is read mirrored, lookaheads and lookbehinds exchange their roles. -/
inductive Part (b : Ast) (k : Nat) : Nat → Bool → Ast → Prop
  | here {m} : Part b k k m b
  | neg {r m a} : Part b k r m a → Part b k r m (.neg a)
  | cap {r m id name a} : Part b k r m a → Part b k r m (.cap id name a)
  | rep {r m q lo hi a} : Part b k r m a → Part b k r m (.rep q lo hi a)
  | set {r m l a} : a ∈ l → Part b k r m a → Part b k r m (.set l)
  | seq {r m l a} : a ∈ l → Part b k r m a → Part b k r m (.seq l)
  | alt {r m l a} : a ∈ l → Part b k r m a → Part b k r m (.alt l)
  | ahead {r a} : Part b k r false a → Part b k r false (.look .ahead a)
  | behind {r a} : Part b k (r + 1) true a → Part b k r false (.look .behind a)
  | mirroredAhead {r a} : Part b k (r + 1) true a → Part b k r true (.look .ahead a)
  | mirroredBehind {r a} : Part b k r false a → Part b k r true (.look .behind a)

end Mregex.Spec
