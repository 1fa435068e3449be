import Verif.Model.Methods

/-!
# Static requirements

`Ok E r a` collects what the library demands of an AST at compile time when it is matched with iterators
wrapped in `r` reverse layers.  Programs outside of it do not compile (or, for multiline `^` over merely forward
iterators, break a precondition of `std::prev`).
-/

namespace Mregex
open Ast

/-- Requirements of the library on the node `a` used at iterator layer `r`. -/
inductive Ok (E : Env) : Nat → Ast → Prop
  | empty {r} : Ok E r .empty
  | lit {r c} : Ok E r (.lit c)
  /-- range.hpp:39, `static_assert(start < stop)`; `range<C,C>` is a literal. -/
  | range {r a b} : a.toNat ≤ b.toNat → Ok E r (.range a b)
  | wildcard {r} : Ok E r .wildcard
  /-- set.hpp: the members need `match_one`. -/
  | set {r l} : (∀ a ∈ l, triv a = true) → (∀ a ∈ l, Ok E r a) → Ok E r (.set l)
  /-- negated.hpp: the body needs `match_one` or a predicate. -/
  | neg {r a} : triv a = true ∨ isAssertion a = true → Ok E r a → Ok E r (.neg a)
  /-- sequence.hpp:10-63: there is no `sequence<>`. -/
  | seq {r l} : l ≠ [] → (∀ a ∈ l, Ok E r a) → Ok E r (.seq l)
  /-- alternation.hpp:9-29: there is no `alternation<>`. -/
  | alt {r l} : l ≠ [] → (∀ a ∈ l, Ok E r a) → Ok E r (.alt l)
  /-- capture.hpp:14-44: tuple element `id` exists and has the name; see `setCapture` for `r ≤ 1`. -/
  | cap {r id name a} : E.names[id]? = some name → r ≤ 1 → Ok E r a → Ok E r (.cap id name a)
  /-- repetition.hpp:14, `is_valid_range`. -/
  | repFin {r m lo hi a} : lo ≤ hi → Ok E r a → Ok E r (.rep m lo (.fin hi) a)
  | repInf {r m lo a} : Ok E r a → Ok E r (.rep m lo .inf a)
  | ahead {r a} : Ok E r a → Ok E r (.look .ahead a)
  /-- lookaround_predicate.hpp:31, 45: bidirectional iterators. -/
  | behindTriv {r a} : E.cat ≠ .forward → triv a = true → Ok E r a → Ok E r (.look .behind a)
  | behind {r a} : E.cat ≠ .forward → Ok E (r + 1) (invert a) → Ok E r (.look .behind a)
  /-- anchor_predicates.hpp:19: `std::prev` is called when the flag is set. -/
  | bol {r} : (E.flags.multiline = true → E.cat ≠ .forward) → Ok E r .bol
  | boi {r} : Ok E r .boi
  | eol {r} : Ok E r .eol
  | eoi {r} : Ok E r .eoi
  /-- anchor_predicates.hpp:45. -/
  | wordB {r} : E.cat ≠ .forward → Ok E r .wordB
  /-- backref.hpp:20-23, 62-69. -/
  | backref {r id} : E.cat ≠ .forward → id < E.names.length → Ok E r (.backref id)
  /-- backref.hpp:26-35: exactly one group has the name. -/
  | namedBackref {r name} : E.cat ≠ .forward → E.names.count (some name) = 1 → Ok E r (.namedBackref name)

/-- A regex that can be used with an input of iterator category `cat`. -/
def Regex.Ok (R : Regex) (cat : Cat) : Prop :=
  ∀ s, Mregex.Ok (R.env cat s) 0 R.ast

end Mregex
