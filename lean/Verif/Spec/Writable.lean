import Verif.Spec.Openers

/-!
# Trees whose numbers and names can be written in a pattern
-/

namespace Mregex.Spec
open Mregex

/-- The numbers fit into 64 bits (as all values of type `std::size_t` do); names are names. -/
inductive Writable : Ast → Prop
  | empty : Writable .empty
  | lit (c : Byte) : Writable (.lit c)
  | range (a b : Byte) : Writable (.range a b)
  | wildcard : Writable .wildcard
  | set {l : List Ast} : (∀ a ∈ l, Writable a) → Writable (.set l)
  | neg {a : Ast} : Writable a → Writable (.neg a)
  | seq {l : List Ast} : (∀ a ∈ l, Writable a) → Writable (.seq l)
  | alt {l : List Ast} : (∀ a ∈ l, Writable a) → Writable (.alt l)
  | cap {id : Nat} {name : GroupName} {a : Ast} : (∀ n, name = some n → IsName n) → Writable a → Writable (.cap id name a)
  | rep {m : Mode} {lo : Nat} {hi : Bound} {a : Ast} : lo < 2 ^ 64 → (∀ h, hi = .fin h → h < 2 ^ 64) → Writable a → Writable (.rep m lo hi a)
  | look {d : LookDir} {a : Ast} : Writable a → Writable (.look d a)
  | bol : Writable .bol
  | boi : Writable .boi
  | eol : Writable .eol
  | eoi : Writable .eoi
  | wordB : Writable .wordB
  | backref {n : Nat} : n < 2 ^ 64 → Writable (.backref n)
  | namedBackref {n : List Byte} : IsName n → Writable (.namedBackref n)

end Mregex.Spec
