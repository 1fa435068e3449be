import Verif.Spec.Branches
import Verif.Spec.Proc

/-!
# Unfolding

Further laws: quantifiers written as branches and copies, alternatives distributed over what follows, anchors in another order.  Like those of
`Variant`, they do not mention the matcher, and they hold with groups and references.
-/

namespace Mregex
open Ast Spec

namespace Spec

mutual
/-- Expressions that read at least one character. -/
def advances : Ast → Bool
  | .lit _ | .range _ _ | .wildcard | .set _ => true
  | .neg a => !assertion a
  | .seq l => advancesSome l
  | .alt l => advancesEach l
  | .cap _ _ a => advances a
  | .rep _ lo _ a => lo != 0 && advances a
  | _ => false
def advancesSome : List Ast → Bool
  | [] => false
  | a :: l => advances a || advancesSome l
def advancesEach : List Ast → Bool
  | [] => true
  | a :: l => advances a && advancesEach l
end

end Spec

/-- `a` and then `b`, in reading direction. -/
def inOrder (inv : Bool) (a b : Ast) : Ast := if inv then .seq [b, a] else .seq [a, b]

/-- Anchors and their negations. -/
inductive AnchorTest : Ast → Prop
  | anchor {a : Ast} : Anchor a → AnchorTest a
  | neg {a : Ast} : Anchor a → AnchorTest (.neg a)

/-- More rounds are preferred. -/
def Eager (f : Flags) (m : Mode) : Prop := (m = .greedy ∧ f.ungreedy = false) ∨ (m = .lazy ∧ f.ungreedy = true)

/-- Fewer rounds are preferred. -/
def Reluctant (f : Flags) (m : Mode) : Prop := (m = .lazy ∧ f.ungreedy = false) ∨ (m = .greedy ∧ f.ungreedy = true)

/-- One step of rewriting, at any place of the expression; `inv` as for `Variant`. -/
inductive Unfolds (f : Flags) : Bool → Ast → Ast → Prop
  -- places
  | seq {inv : Bool} {a b : Ast} (pre post : List Ast) : Unfolds f inv a b → Unfolds f inv (.seq (pre ++ a :: post)) (.seq (pre ++ b :: post))
  | alt {inv : Bool} {a b : Ast} (pre post : List Ast) : Unfolds f inv a b → Unfolds f inv (.alt (pre ++ a :: post)) (.alt (pre ++ b :: post))
  | cap {inv : Bool} {a b : Ast} (id : Nat) (name : GroupName) : Unfolds f inv a b → Unfolds f inv (.cap id name a) (.cap id name b)
  | rep {inv : Bool} {a b : Ast} (m : Mode) (lo : Nat) (hi : Bound) : Unfolds f inv a b → Unfolds f inv (.rep m lo hi a) (.rep m lo hi b)
  | ahead {inv : Bool} {a b : Ast} : Unfolds f inv a b → Unfolds f inv (.look .ahead a) (.look .ahead b)
  | behind {inv : Bool} {a b : Ast} : Unfolds f (!inv) a b → Unfolds f inv (.look .behind a) (.look .behind b)
  | neg {inv : Bool} {a b : Ast} : Test a → Unfolds f inv a b → Unfolds f inv (.neg a) (.neg b)
  -- laws
  /-- `X?` is `(?:X|)`. -/
  | eagerMaybe (inv : Bool) {m : Mode} (a : Ast) : Eager f m → Unfolds f inv (.rep m 0 (.fin 1) a) (.alt [a, .empty])
  /-- `X??` is `(?:|X)`. -/
  | reluctantMaybe (inv : Bool) {m : Mode} (a : Ast) : Reluctant f m → Unfolds f inv (.rep m 0 (.fin 1) a) (.alt [.empty, a])
  /-- `X?+` is `(?>X|)`. -/
  | possessiveMaybe (inv : Bool) (a : Ast) :
      Unfolds f inv (.rep .possessive 0 (.fin 1) a) (.rep .possessive 1 (.fin 1) (.alt [a, .empty]))
  /-- `X{n,n+k}` is `X{n}X{0,k}`, with the same suffix everywhere. -/
  | split (inv : Bool) (m : Mode) (lo k : Nat) (a : Ast) : captureCount a = 0 → k ≠ 0 →
      Unfolds f inv (.rep m lo (.fin (lo + k)) a) (inOrder inv (.rep m lo (.fin lo) a) (.rep m 0 (.fin k) a))
  /-- `X{n,}` is `X{n}X*`, so `X+` is `XX*`. -/
  | splitInf (inv : Bool) (m : Mode) (lo : Nat) (a : Ast) : captureCount a = 0 →
      Unfolds f inv (.rep m lo .inf a) (inOrder inv (.rep m lo (.fin lo) a) (.rep m 0 .inf a))
  /-- `X{0,k+1}` is `(?:XX{0,k}|)`. -/
  | eagerMore (inv : Bool) {m : Mode} (k : Nat) (a : Ast) : Eager f m → captureCount a = 0 →
      Unfolds f inv (.rep m 0 (.fin (k + 1)) a) (.alt [inOrder inv a (.rep m 0 (.fin k) a), .empty])
  /-- `X{0,k+1}?` is `(?:|XX{0,k}?)`. -/
  | reluctantMore (inv : Bool) {m : Mode} (k : Nat) (a : Ast) : Reluctant f m → captureCount a = 0 →
      Unfolds f inv (.rep m 0 (.fin (k + 1)) a) (.alt [.empty, inOrder inv a (.rep m 0 (.fin k) a)])
  /-- `X{0,k+1}+` is `(?>XX{0,k}+|)`. -/
  | possessiveMore (inv : Bool) (k : Nat) (a : Ast) : captureCount a = 0 →
      Unfolds f inv (.rep .possessive 0 (.fin (k + 1)) a)
        (.rep .possessive 1 (.fin 1) (.alt [inOrder inv a (.rep .possessive 0 (.fin k) a), .empty]))
  /-- `X*` is `(?:XX*|)`, if `X` reads something. -/
  | eagerStar (inv : Bool) {m : Mode} (a : Ast) : Eager f m → captureCount a = 0 → advances a = true →
      Unfolds f inv (.rep m 0 .inf a) (.alt [inOrder inv a (.rep m 0 .inf a), .empty])
  /-- `X*?` is `(?:|XX*?)`, if `X` reads something. -/
  | reluctantStar (inv : Bool) {m : Mode} (a : Ast) : Reluctant f m → captureCount a = 0 → advances a = true →
      Unfolds f inv (.rep m 0 .inf a) (.alt [.empty, inOrder inv a (.rep m 0 .inf a)])
  /-- `X*+` is `(?>XX*+|)`, if `X` reads something. -/
  | possessiveStar (inv : Bool) (a : Ast) : captureCount a = 0 → advances a = true →
      Unfolds f inv (.rep .possessive 0 .inf a)
        (.rep .possessive 1 (.fin 1) (.alt [inOrder inv a (.rep .possessive 0 .inf a), .empty]))
  /-- `X{n,m}+` is `(?>X{n,m})`, or with `ungreedy` `(?>X{n,m}?)`; for unbounded quantifiers if `X` reads something. -/
  | possessive (inv : Bool) {m : Mode} (lo : Nat) (hi : Bound) (a : Ast) : Eager f m → (hi = .inf → advances a = true) →
      Unfolds f inv (.rep .possessive lo hi a) (.rep .possessive 1 (.fin 1) (.rep m lo hi a))
  /-- `(?>X{n,m}?)` is `(?>X{n})`. -/
  | reluctantAtomic (inv : Bool) {m : Mode} (lo : Nat) (hi : Bound) (a : Ast) : Reluctant f m → (∀ h, hi = .fin h → lo ≤ h) →
      (lo = 1 → character a = false) →
      Unfolds f inv (.rep .possessive 1 (.fin 1) (.rep m lo hi a)) (.rep .possessive lo (.fin lo) a)
  /-- `X{k}{j}` is `X{jk}`. -/
  | power (inv : Bool) {m m' m'' : Mode} (j k : Nat) (a : Ast) : m ≠ .possessive → m' ≠ .possessive → m'' ≠ .possessive →
      Unfolds f inv (.rep m j (.fin j) (.rep m' k (.fin k) a)) (.rep m'' (j * k) (.fin (j * k)) a)
  /-- `(?>(?>X))` is `(?>X)`. -/
  | atomicTwice (inv : Bool) (a : Ast) :
      Unfolds f inv (.rep .possessive 1 (.fin 1) (.rep .possessive 1 (.fin 1) a)) (.rep .possessive 1 (.fin 1) a)
  /-- Lookarounds are atomic: `(?=(?>X))` is `(?=X)`. -/
  | lookAtomic (inv : Bool) (d : LookDir) (a : Ast) : Unfolds f inv (.look d (.rep .possessive 1 (.fin 1) a)) (.look d a)
  /-- `(?:X|Y)Z` is `XZ|YZ`, unless the last alternative is a single character. -/
  | distribute (inv : Bool) (l : List Ast) (x c : Ast) : character x = false → captureCount c = 0 →
      Unfolds f inv (inOrder inv (.alt (l ++ [x])) c) (.alt ((l ++ [x]).map (fun b => inOrder inv b c)))
  /-- An anchor twice. -/
  | anchorTwice (inv : Bool) (pre post : List Ast) {a : Ast} : AnchorTest a → pre ++ post ≠ [] →
      Unfolds f inv (.seq (pre ++ a :: a :: post)) (.seq (pre ++ a :: post))
  /-- Anchors in another order. -/
  | anchorSwap (inv : Bool) (pre post : List Ast) {a b : Ast} : AnchorTest a → AnchorTest b →
      Unfolds f inv (.seq (pre ++ a :: b :: post)) (.seq (pre ++ b :: a :: post))

/-- Chains of steps of all kinds. -/
inductive Reworked (f : Flags) : Ast → Ast → Prop
  | relaid {a b : Ast} : Relaid f a b → Reworked f a b
  | unfold {a b : Ast} : Unfolds f false a b → Reworked f a b
  | symm {a b : Ast} : Reworked f a b → Reworked f b a
  | trans {a b c : Ast} : Reworked f a b → Reworked f b c → Reworked f a c

end Mregex
