import Verif.Model.Holding

/-!
# What programs may do to the results they hold
-/

namespace Mregex.Spec

/-- The characters from `b` to `e`. -/
def stretchOf (s : List Byte) : Cap → List Byte
  | none => []
  | some (b, e) => (s.drop b).take (e - b)

/-- The text of group `k` of a result, as an observer sees it: views show the input as it is now, texts are what they are.  The outer `none`: there is nothing to be seen. -/
def shownText (input : Option (List Byte)) : Value → Nat → Option (Option (List Byte))
  | .views cs _, k =>
    match cs[k]?, input with
    | some c, some s => some (some (stretchOf s c))
    | _, _ => none
  | .owning ts _, k => ts[k]?
  | _, _ => none

/-- The statement gives the variable away (names it as expiring and not const) or writes to it. -/
def Spends (i : Nat) : HStmt → Prop
  | .init j e _ _ => j = i ∧ e = ⟨true, false⟩
  | .optional j e => j = i ∧ e = ⟨true, false⟩
  | .write j _ _ _ => j = i
  | _ => False

/-- Does it hold views only? -/
def OnlyViews : Value → Prop
  | .views _ _ => True
  | .capture _ => True
  | .nullopt => True
  | _ => False

/-- Statements whose functions are declared `noexcept` although they copy texts. -/
def Reckless : HStmt → Prop
  | .callTemp _ _ => True
  | .own _ => True
  | .optional _ e => e = ⟨true, true⟩
  | _ => False

/-- The input after a statement that ends normally. -/
def inputAfter (input : Option (List Byte)) : HStmt → Option (List Byte)
  | .poke j c => input.map fun s => s.take j ++ c :: s.drop (j + 1)
  | .destroy => none
  | _ => input

end Mregex.Spec
