import Verif.Model.Ast
import Verif.Model.Chars

/-!
# Instantiations of the matcher

`Node::match` is a function template (ast/nodes/*.hpp: `template<std::forward_iterator Iter, typename Context, match_continuation<Iter> Cont>`).  A continuation is a lambda expression of another
instantiation; every instantiation has closure types of its own.  What the compiler instantiates for a regex is the set that is reached from one call by the calls in the bodies.

Simplified: the value category in a `Cont` (`L` or `L &`) is ignored; `Context` is the same throughout; the functions that one body calls with the same arguments (`possessive_match`, `unrolled_trivial_match`,
`match_between_bounds`, predicates, `continuations<Iter>::equals`, ...) are counted with that body; the `operator()` of a lambda is counted with the body that creates it.
-/

namespace Mregex
open Ast

/-- The lambda expressions that are passed to a `match`. -/
inductive Site
  /-- sequence.hpp:21-23 -/
  | seq
  /-- capture.hpp:22-25 -/
  | cap
  /-- repetition.hpp:21-23 -/
  | rest
  /-- repetition.hpp:84-86, for one `Bound` -/
  | greedy (b : Bound)
  /-- repetition.hpp:120-122, for one `Bound` -/
  | lazy (b : Bound)
  /-- repetition.hpp:146-150 -/
  | guard
  /-- fixed_repetition.hpp:64-66 -/
  | unrolled
  /-- fixed_repetition.hpp:79-81 -/
  | again
  deriving DecidableEq, Repr

/-- The types of continuations.  `r` stands for `Iter`, as the number of times `std::reverse_iterator` has been applied. -/
inductive ContT
  /-- `continuations<Iter>::success` (utility/continuations.hpp:23-25) -/
  | success (r : Nat)
  /-- what `continuations<Iter>::equals` returns (utility/continuations.hpp:27-31) -/
  | equals
  /-- the lambda at a site of the class `node`, in the function instantiated for `Iter` and `Cont` -/
  | lam (s : Site) (node : Ast) (r : Nat) (k : ContT)
  deriving Repr

/-- The function templates. -/
inductive FnT
  /-- `node::match` -/
  | node (a : Ast)
  /-- `bounded_greedy_match<Bound>` of a repetition (repetition.hpp:78-91) -/
  | greedy (a : Ast) (b : Bound)
  /-- `bounded_lazy_match<Bound>` of a repetition (repetition.hpp:112-126) -/
  | lazy (a : Ast) (b : Bound)
  deriving Repr

/-- One function: a template with its arguments `Iter` and `Cont`. -/
structure Inst where
  fn : FnT
  r : Nat
  k : ContT
  deriving Repr

/-- What the instantiations depend on: two flags (regex_flags.hpp) and whether `Iter` is a bidirectional iterator. -/
structure InstSettings where
  unroll : Bool
  ungreedy : Bool
  bidirectional : Bool
  deriving Repr

/-- The class that declares the `match` of a node: `sequence<Inner>` (sequence.hpp:62-63), `alternation<Inner>` (alternation.hpp:28-29), alternations of trivially matchable nodes (alternation.hpp:24-26)
and `basic_repetition<Mode, N, N, Inner>` for `N < 2` (fixed_repetition.hpp:132-155) derive from another one. -/
def home : Ast → Ast
  | .seq [a] => home a
  | .alt [a] => home a
  | .alt (a :: b :: l) => if areTriv (a :: b :: l) then .set (a :: b :: l) else .alt (a :: b :: l)
  | .rep m lo hi a =>
    if lo = 0 ∧ hi = .fin 0 then .empty
    else if lo = 1 ∧ hi = .fin 1 ∧ (m ≠ .possessive ∨ triv a) then home a
    else .rep m lo hi a
  | a => a

/-- The `match` that the predicate of an assertion calls (ast/predicates/lookaround_predicate.hpp:13-18, 31-43); none for a trivially matchable node (:20-25, :45-51) and for anchors.  `negate` calls the predicate it is
made of (predicates/negate.hpp:11-15). -/
def assertNeeds (r : Nat) : Ast → List Inst
  | .look .ahead a => if triv a then [] else [⟨.node (home a), r, .success r⟩]
  | .look .behind a => if triv a then [] else [⟨.node (home (invert a)), r + 1, .success (r + 1)⟩]
  | .neg a => assertNeeds r a
  | .seq [a] => assertNeeds r a
  | .alt [a] => assertNeeds r a
  | .rep m lo hi a => if m ≠ .possessive ∧ lo = 1 ∧ hi = .fin 1 then assertNeeds r a else []
  | _ => []

/-- symbols/quantifiers.hpp `subtract_t<UpperBound, LowerBound>`. -/
def Bound.minus : Bound → Nat → Bound
  | .inf, _ => .inf
  | .fin h, lo => .fin (h - lo)

/-- Is the range not valid (symbols/quantifiers.hpp `is_valid_range`)?  Then `basic_repetition` does not compile (repetition.hpp:14). -/
def Bound.below : Bound → Nat → Bool
  | .inf, _ => false
  | .fin h, lo => decide (h < lo)

/-- The calls in the body of a fixed repetition with `N > 1` (fixed_repetition.hpp:17-83) and of an atomic group (fixed_repetition.hpp:137-149). -/
def fixedNeeds (S : InstSettings) (m : Mode) (n : Nat) (x : Ast) (r : Nat) (k : ContT) : List Inst :=
  let k' := if m = .possessive then .success r else k
  if n = 1 then [⟨.node (home x), r, k'⟩]
  else if triv x then []
  else if S.unroll then
    [⟨.node (home x), r, .lam .unrolled (.rep m n (.fin n) x) r k'⟩, ⟨.node (home (.rep .greedy (n - 1) (.fin (n - 1)) x)), r, k'⟩]
  else [⟨.node (home x), r, k'⟩, ⟨.node (home x), r, .lam .again (.rep m n (.fin n) x) r k'⟩]

/-- The calls in the body of `match_between_bounds` (repetition.hpp:36-141). -/
def betweenNeeds (S : InstSettings) (m : Mode) (lo : Nat) (hi : Bound) (x : Ast) (r : Nat) (k : ContT) : List Inst :=
  if m = .possessive then (if triv x then [] else [⟨.node (home x), r, .success r⟩])
  else if Bool.xor (m == .greedy) S.ungreedy then
    (if triv x && S.bidirectional then [] else [⟨.greedy (.rep m lo hi x) (hi.minus lo), r, k⟩])
  else (if triv x then [] else [⟨.lazy (.rep m lo hi x) (hi.minus lo), r, k⟩])

/-- The functions called in the body of a function, with the lambdas it creates. -/
def Inst.needs (S : InstSettings) : Inst → List Inst
  | ⟨.node a, r, k⟩ =>
    match a with
    | .seq (x :: y :: l) =>
      if areTriv (x :: y :: l) then [] else [⟨.node (home x), r, .lam .seq a r k⟩, ⟨.node (home (.seq (y :: l))), r, k⟩]
    | .alt (x :: y :: l) => [⟨.node (home x), r, k⟩, ⟨.node (home (.alt (y :: l))), r, k⟩]
    | .cap _ _ x => [⟨.node (home x), r, .lam .cap a r k⟩]
    | .look _ _ => assertNeeds r a
    | .neg x => if isAssertion x then assertNeeds r x else []
    | .rep m lo hi x =>
      if hi = .fin lo then fixedNeeds S m lo x r k
      else if hi.below lo then []
      else if lo = 0 then betweenNeeds S m lo hi x r k
      else ⟨.node (home (.rep m lo (.fin lo) x)), r, .lam .rest a r k⟩ :: betweenNeeds S m lo hi x r k
    | _ => []
  | ⟨.greedy a b, r, k⟩ =>
    match a, b with
    | _, .fin 0 => []
    | .rep _ _ _ x, b => [⟨.node (home x), r, .lam .guard a r (.lam (.greedy b) a r k)⟩, ⟨.greedy a (b.minus 1), r, k⟩]
    | _, _ => []
  | ⟨.lazy a b, r, k⟩ =>
    match a, b with
    | _, .fin 0 => []
    | .rep _ _ _ x, b => [⟨.node (home x), r, .lam .guard a r (.lam (.lazy b) a r k)⟩, ⟨.lazy a (b.minus 1), r, k⟩]
    | _, _ => []

/-- The calls of regex_methods.hpp: `match` with `continuations<Iter>::equals` (:22), the others with `continuations<Iter>::success` (:40, :60). -/
def rootInst (whole : Bool) (a : Ast) : Inst := ⟨.node (home a), 0, if whole then .equals else .success 0⟩

end Mregex
