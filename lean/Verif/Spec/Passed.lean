import Verif.Spec.Proc

/-!
# Regexes that do not look at what has been passed
-/

namespace Mregex.Spec
open Mregex

mutual
/-- No `^`, `\A`, word boundaries and lookbehinds.  References, groups, lookaheads, `$`, `\Z` and atomic groups are allowed. -/
def aheadOnly : Ast → Bool
  | .bol | .boi | .wordB => false
  | .look d a => d == .ahead && aheadOnly a
  | .seq l | .alt l => aheadOnlyAll l
  | .neg a | .cap _ _ a | .rep _ _ _ a => aheadOnly a
  | _ => true
def aheadOnlyAll : List Ast → Bool
  | [] => true
  | a :: l => aheadOnly a && aheadOnlyAll l
end

/-- A range, counted from `d` characters earlier. -/
def shiftCap (d : Nat) (v : Cap) : Cap := v.map (fun x => (x.1 + d, x.2 + d))

/-- A result, counted from `d` characters earlier. -/
def shiftResult (d : Nat) (res : Result) : Result := ⟨res.groups.map (shiftCap d), res.matched⟩

end Mregex.Spec
