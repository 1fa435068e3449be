import Verif.Spec.Static

/-!
# Skipping characters in the pattern
-/

namespace Mregex.Spec
open Mregex

/-- `[\x00-\xff]*?a`: skip characters, as few as possible.  (Under `ungreedy` the quantifier has to be written the other way round.) -/
def skipping (ungreedy : Bool) (a : Ast) : Ast := .seq [.rep (if ungreedy then .greedy else .lazy) 0 .inf (.range 0 255), a]

/-- The regex with characters to skip in front. -/
def skipInto (R : Regex) : Regex := ⟨skipping (Flags.ofList R.flags).ungreedy R.ast, R.flags⟩

end Mregex.Spec
