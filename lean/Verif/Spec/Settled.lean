import Verif.Spec.Unfold

/-!
# Quantifiers with one way to go on

`X*Y`, where `X` is a single character and `Y` cannot begin with such a character: however many rounds are preferred, only the longest run of `X` can
be followed by `Y`.
-/

namespace Mregex
open Ast Spec

/-- `a` finds nothing where the next character is one that `c` accepts; `inv` as for `Variant`. -/
inductive Averse (f : Flags) (c : Ast) : Bool → Ast → Prop
  | char {inv : Bool} {a : Ast} : character a = true → (∀ x, accepts f c x = true → accepts f a x = false) → Averse f c inv a
  | first {a : Ast} (post : List Ast) : Averse f c false a → Averse f c false (.seq (a :: post))
  | last {a : Ast} (pre : List Ast) : Averse f c true a → Averse f c true (.seq (pre ++ [a]))
  | alt {inv : Bool} {l : List Ast} : (∀ a, a ∈ l → Averse f c inv a) → Averse f c inv (.alt l)
  | rep {inv : Bool} {a : Ast} (m : Mode) {lo : Nat} (hi : Bound) : lo ≠ 0 → Averse f c inv a → Averse f c inv (.rep m lo hi a)
  | ahead {a : Ast} : Averse f c false a → Averse f c false (.look .ahead a)
  | behind {a : Ast} : Averse f c false a → Averse f c true (.look .behind a)
  | eoi {inv : Bool} : Averse f c inv .eoi
  | eol {inv : Bool} : f.multiline = false ∨ (accepts f c 10#8 = false ∧ accepts f c 13#8 = false) → Averse f c inv .eol

/-- Another mode for a quantified character, before something that cannot begin with it, at any place of the expression. -/
inductive Settled (f : Flags) : Bool → Ast → Ast → Prop
  -- places
  | seq {inv : Bool} {a b : Ast} (pre post : List Ast) : Settled f inv a b → Settled f inv (.seq (pre ++ a :: post)) (.seq (pre ++ b :: post))
  | alt {inv : Bool} {a b : Ast} (pre post : List Ast) : Settled f inv a b → Settled f inv (.alt (pre ++ a :: post)) (.alt (pre ++ b :: post))
  | cap {inv : Bool} {a b : Ast} (id : Nat) (name : GroupName) : Settled f inv a b → Settled f inv (.cap id name a) (.cap id name b)
  | rep {inv : Bool} {a b : Ast} (m : Mode) (lo : Nat) (hi : Bound) : Settled f inv a b → Settled f inv (.rep m lo hi a) (.rep m lo hi b)
  | ahead {inv : Bool} {a b : Ast} : Settled f inv a b → Settled f inv (.look .ahead a) (.look .ahead b)
  | behind {inv : Bool} {a b : Ast} : Settled f (!inv) a b → Settled f inv (.look .behind a) (.look .behind b)
  | neg {inv : Bool} {a b : Ast} : Test a → Settled f inv a b → Settled f inv (.neg a) (.neg b)
  -- chains
  | trans {inv : Bool} {a b c : Ast} : Settled f inv a b → Settled f inv b c → Settled f inv a c
  -- laws
  /-- `X*Y` is `X*?Y` and `X*+Y`. -/
  | before (pre post : List Ast) (m m' : Mode) (lo : Nat) (hi : Bound) {c d : Ast} : character c = true → Averse f c false d →
      Settled f false (.seq (pre ++ .rep m lo hi c :: d :: post)) (.seq (pre ++ .rep m' lo hi c :: d :: post))
  /-- In a lookbehind, what comes before. -/
  | after (pre post : List Ast) (m m' : Mode) (lo : Nat) (hi : Bound) {c d : Ast} : character c = true → Averse f c true d →
      Settled f true (.seq (pre ++ d :: .rep m lo hi c :: post)) (.seq (pre ++ d :: .rep m' lo hi c :: post))

end Mregex
