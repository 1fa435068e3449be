import Verif.Spec.Trails

/-!
# How groups lie

Where two groups are written in an expression: one inside the other, or one after the other, and not together in a part that can be iterated.
Alternatives may use the same numbers again (this is how the library numbers groups); the condition has to be true in each of them.
-/

namespace Mregex.Spec
open Mregex

/-- Each group `j` is written inside a group `i`; no part with such groups can be iterated, and a sequence has them in one place only. -/
inductive Encloses (i j : Nat) : Ast → Prop
  | free {a} : j ∉ groupIds a → Encloses i j a
  | here {name a} : i ≠ j → Encloses i j (.cap i name a)
  | cap {k name a} : k ≠ i → k ≠ j → Encloses i j a → Encloses i j (.cap k name a)
  | seq {l l' a} : i ∉ groupIdsAll l → j ∉ groupIdsAll l → Encloses i j a → i ∉ groupIdsAll l' → j ∉ groupIdsAll l' → Encloses i j (.seq (l ++ a :: l'))
  | alt {l} : (∀ a ∈ l, Encloses i j a) → Encloses i j (.alt l)
  | opt {m lo a} : m ≠ .possessive → lo ≤ 1 → Encloses i j a → Encloses i j (.rep m lo (.fin 1) a)

/-- The groups `i` are written before the groups `j`; no part with both of them can be iterated, and a sequence has them in one place only. -/
inductive Precedes (i j : Nat) : Ast → Prop
  | left {a} : j ∉ groupIds a → Precedes i j a
  | right {a} : i ∉ groupIds a → Precedes i j a
  | here {l l'} : j ∉ groupIdsAll l → i ∉ groupIdsAll l' → Precedes i j (.seq (l ++ l'))
  | cap {k name a} : k ≠ i → k ≠ j → Precedes i j a → Precedes i j (.cap k name a)
  | seq {l l' a} : i ∉ groupIdsAll l → j ∉ groupIdsAll l → Precedes i j a → i ∉ groupIdsAll l' → j ∉ groupIdsAll l' → Precedes i j (.seq (l ++ a :: l'))
  | alt {l} : (∀ a ∈ l, Precedes i j a) → Precedes i j (.alt l)
  | opt {m lo a} : m ≠ .possessive → lo ≤ 1 → Precedes i j a → Precedes i j (.rep m lo (.fin 1) a)

end Mregex.Spec
