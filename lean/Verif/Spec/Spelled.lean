import Verif.Spec.Order
import Verif.Spec.Swap
import Verif.Spec.Static

/-!
# Writing flags into the regex
-/

namespace Mregex.Spec
open Mregex

/-- The class of the characters that `a` accepts under the flags, as a list of literals. -/
def spelledClass (f : Flags) (a : Ast) : Ast := .set (((List.range 256).map (BitVec.ofNat 8)).filter (accepts f a) |>.map .lit)

/-- `[^\n\r]`. -/
def nonBreak : Ast := .neg (.set [.lit 10, .lit 13])

/-- `(?<![^\n\r])`, or `(?![^\n\r])` if `ahead`. -/
def noneBut (ahead : Bool) : Ast := .neg (.look (if ahead then .ahead else .behind) nonBreak)

mutual
/-- The regex without flags that does what `a` does with the flags `f`.  Characters become classes, so that `icase` and `dotall` are not needed.
Quantifiers are exchanged if `ungreedy`.  Under `multiline`, `^` and `$` become `(?<![^\n\r])` and `(?![^\n\r])`; with `inv` (in the body of a
lookbehind, which is mirrored before it is used) the other way round. -/
def spelled (f : Flags) : Bool → Ast → Ast
  | inv, .neg a => if assertion a then .neg (spelled f inv a) else spelledClass f (.neg a)
  | inv, .seq l => .seq (spelledAll f inv l)
  | inv, .alt l => .alt (spelledAll f inv l)
  | inv, .cap id name a => .cap id name (spelled f inv a)
  | inv, .rep m lo hi a => .rep (swapMode f.ungreedy m) lo hi (spelled f inv a)
  | inv, .look d a => .look d (spelled f (!((d == .ahead) == !inv)) a)
  | inv, .bol => if f.multiline then noneBut inv else .bol
  | inv, .eol => if f.multiline then noneBut (!inv) else .eol
  | _, .lit c => spelledClass f (.lit c)
  | _, .range a b => spelledClass f (.range a b)
  | _, .wildcard => spelledClass f .wildcard
  | _, .set l => spelledClass f (.set l)
  | _, a => a
def spelledAll (f : Flags) (inv : Bool) : List Ast → List Ast
  | [] => []
  | a :: l => spelled f inv a :: spelledAll f inv l
end

/-- The regex with its flags written into it. -/
def spelledOut (R : Regex) : Regex := ⟨spelled (Flags.ofList R.flags) false R.ast, []⟩

end Mregex.Spec
