import Verif.Model.Instances
import Verif.Model.Methods

/-!
# What the body of an instantiated function demands of the program

A `match` that is instantiated brings the demands of its class and of its body: the `static_assert`s of the classes it is made of, the overloads it calls, the elements of the tuple of captures it names.
`Ok` (Spec/Static) says what a whole tree demands; here it is said function by function, for the functions of Model/Instances.

Simplified: the demands of classes that are completed without a function of theirs being instantiated (as those in the body of a `{0}`) are left out.
-/

namespace Mregex
open Ast

/-- `distance_less_than<N>` takes `N` as `std::ptrdiff_t` (utility/distance.hpp:8-9, 20-21); `sequence::size` (sequence.hpp:14) and the `N` of a fixed repetition (fixed_repetition.hpp:11-12) are `std::size_t`.  A template
argument is not narrowed: with `N` from 2^63 on there is no such function. -/
def distanceFits (n : Nat) : Bool := decide (n < 2 ^ 63)

mutual
/-- The demands of `match_one`: range.hpp:39 (`static_assert(start < stop)`, `range<C, C>` being another class, range.hpp:61-62), set.hpp:9-19 (`match_one` of the members), negated.hpp:11-21 (`match_one` of the body); the classes
that inherit theirs are the ones of `home`.  Characters and the wildcard have none. -/
def oneFine : Ast → Bool
  | .range x y => decide (x.toNat ≤ y.toNat)
  | .set l => l.all triv && onesFine l
  | .neg a => triv a && oneFine a
  | .seq l | .alt l => onesFine l
  | .rep _ _ _ a => oneFine a
  | _ => true
/-- Fold over a pack: set.hpp:17, sequence.hpp:47, 57. -/
def onesFine : List Ast → Bool
  | [] => true
  | a :: l => oneFine a && onesFine l
end

/-- The demands of the predicate of an assertion (`predicate_type::is_match`), without those of the `match` it calls (`assertNeeds`): lookbehinds are only declared for bidirectional iterators (lookaround_predicate.hpp:31, 45),
so are word boundaries (anchor_predicates.hpp:45); `^` calls `std::prev` if the flag is set (anchor_predicates.hpp:16-22); `negate` (predicates/negate.hpp:11-15) demands what its predicate demands. -/
def assertFine (E : Env) : Ast → Bool
  | .bol => !E.flags.multiline || E.cat != .forward
  | .wordB => E.cat != .forward
  | .look .ahead a => !triv a || oneFine a
  | .look .behind a => E.cat != .forward && (!triv a || oneFine a)
  | .neg a => assertFine E a
  | .seq [a] => assertFine E a
  | .alt [a] => assertFine E a
  | .rep _ _ _ a => assertFine E a
  | _ => true

/-- The demands of one function. -/
def Inst.fine (E : Env) : Inst → Bool
  | ⟨.node a, r, _⟩ =>
    match a with
    /- sequence.hpp:10-63: there is no `sequence<>`; :26-36 for trivially matchable parts -/
    | .seq l => !l.isEmpty && (!areTriv l || onesFine l && distanceFits l.length)
    /- alternation.hpp:9-29: there is no `alternation<>` -/
    | .alt l => !l.isEmpty
    /- capture.hpp:14-44, and match_context: the element `id` of the tuple has the name; for `r`, see `setCapture` -/
    | .cap id name _ => decide (E.names[id]? = some name) && decide (r ≤ 1)
    /- repetition.hpp:14; fixed_repetition.hpp:47-58 -/
    | .rep _ lo hi x => !hi.below lo && (!triv x || oneFine x && (hi != .fin lo || distanceFits lo))
    /- negated.hpp:11-21 or :24-26 -/
    | .neg x => if isAssertion x then assertFine E x else triv x && oneFine x
    /- backref.hpp:20-23, 62-69 -/
    | .backref id => E.cat != .forward && decide (id < E.names.length)
    /- backref.hpp:26-35: the name is found once -/
    | .namedBackref name => E.cat != .forward && decide (E.names.count (some name) = 1)
    | .range _ _ | .set _ => oneFine a
    | a => assertFine E a
  | ⟨.greedy _ _, _, _⟩ | ⟨.lazy _ _, _, _⟩ => true

end Mregex
