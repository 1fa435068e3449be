import Verif.Model.Methods

/-!
# What a call costs

The matcher again, this time with meters: how many `match` functions of nodes are called, and how many of these calls
are active at the same time.  The meters are kept in two spare elements behind the groups, which no node reads or writes;
everything else is the matcher of `Verif.Model.Match`, whose loops are generic in the `match` of the nodes below
(`Verif.Proof.Meter`: without the meters the two matchers do the same).
-/

namespace Mregex
open Ast

/-- The body of `Node::match`, given the `match` functions of the nodes below (`rec`): the cases of `mtch` in
`Verif.Model.Match`, with the same citations (`mtch_eq` below). -/
def nodeMatch (E : Env) (k : Nat) (rec : Ast → Nat → Matcher) (node : Ast) (r : Nat) : Matcher :=
  match node with
  | .empty => fun p c cont => cont p c
  | .lit _ | .range _ _ | .wildcard | .set _ => trivMatch E r node
  | .neg a => if isAssertion a then negAssertMatch (rec a r) else trivMatch E r node
  | .seq l => seqMatch E r (fun a => rec a r) l
  | .alt l => altMatch E r (fun a => rec a r) l
  | .cap id name a => capMatch E r id name (rec a r)
  | .rep mode lo hi a => repMatch E r k mode lo hi a (rec a r)
  | .look .ahead a => if triv a then assertMatch (lookaheadTrivPred E r a) else lookMatch (rec a r)
  | .look .behind a =>
    if triv a then assertMatch (lookbehindTrivPred E r a)
    else if E.cat = .forward then fun _ _ _ => .ub
    else lookMatch (rec (invert a) (r + 1))
  | .bol => assertMatch (beginPred E r true)
  | .boi => assertMatch (beginPred E r false)
  | .eol => assertMatch (endPred E r true)
  | .eoi => assertMatch (endPred E r false)
  | .wordB => assertMatch (wordBoundaryPred E r)
  | .backref id => fun p c cont =>
    match c[id]? with
    | none => .ub
    | some g => backrefMatch E r g p c cont
  | .namedBackref name => fun p c cont =>
    match nameIndex E.names name with
    | none => .ub
    | some id =>
      match c[id]? with
      | none => .ub
      | some g => backrefMatch E r g p c cont

/-- `mtch` is `nodeMatch` at every node. -/
theorem mtch_eq (E : Env) (k : Nat) (node : Ast) (r : Nat) : mtch E (k + 1) node r = nodeMatch E k (mtch E k) node r := by
  cases node <;> first | rfl | (rename_i d a; cases d <;> rfl)

/-- Nodes without a `match` of their own: `sequence<Inner>` (sequence.hpp:62-63), `alternation<Inner>`
(alternation.hpp:28-29) and `basic_repetition<Mode, 1, 1, Inner>` (fixed_repetition.hpp:151-152), except an atomic group
(fixed_repetition.hpp:132-149), inherit the one of `Inner`. -/
def inherits : Ast → Bool
  | .seq [_] | .alt [_] => true
  | .rep m lo hi a => lo == 1 && hi == .fin 1 && (m != .possessive || triv a)
  | _ => false

/-- The number of calls made so far and the largest number of calls active at a time so far, for `N` groups. -/
def meter (N : Nat) (c : Ctx) : Nat × Nat := (c.getD N none).getD (0, 0)

def calls (N : Nat) (c : Ctx) : Nat := (meter N c).1
def peak (N : Nat) (c : Ctx) : Nat := (meter N c).2

/-- The number of calls active now. -/
def level (N : Nat) (c : Ctx) : Nat := ((c.getD (N + 1) none).getD (0, 0)).1

/-- A call begins. -/
def enter (N : Nat) (c : Ctx) : Ctx :=
  (c.set N (some (calls N c + 1, max (peak N c) (level N c + 1)))).set (N + 1) (some (level N c + 1, 0))

/-- A call ends. -/
def leave (N : Nat) (c : Ctx) : Ctx := c.set (N + 1) (some (level N c - 1, 0))

/-- What is done with the captures after a run. -/
def Out.mapCtx (f : Ctx → Ctx) : Out → Out
  | .ok res c => .ok res (f c)
  | .ub => .ub
  | .diverge => .diverge

/-- A call of `m`.  The continuation is called from inside it: the calls the continuation makes are made while this one
is active.  (Frames of helpers and of closures are not counted; between two calls of `match` there is a number of them
that depends on the regex only, as every loop of the library that recurses goes through the `match` of a node:
repetition.hpp:78-91, 112-126, fixed_repetition.hpp:60-83.  For a negated assertion, negated.hpp:23-25, the
predicate of the assertion counts as its `match`.) -/
def counted (N : Nat) (m : Matcher) : Matcher := fun p c cont => (m p (enter N c) cont).mapCtx (leave N)

/-- `Node::match` with meters. -/
def mtchM (E : Env) : Nat → Ast → Nat → Matcher
  | 0, _, _ => fun _ _ _ => .diverge
  | k + 1, node, r =>
    if inherits node then nodeMatch E k (mtchM E k) node r
    else counted E.names.length (nodeMatch E k (mtchM E k) node r)

/-- regex_methods.hpp:58-68 for any `match` function of the root. -/
def searchBy (E : Env) (m : Matcher) : Nat → Nat → Ctx → Out
  | 0, _, _ => .diverge
  | k + 1, cur, c =>
    match m cur c success with
    | .ok res c' =>
      if res.matched then .ok res (c'.set 0 (some (cur, res.pos)))
      else if cur = E.inp.length then nonMatch cur c'
      else searchBy E m k (cur + 1) c'
    | o => o

/-- regex_methods.hpp:13-70: the three methods for any `match` function of the root. -/
def Method.invokeWith (M : Method) (E : Env) (m : Matcher) (cur : Nat) (c : Ctx) : Out :=
  match M with
  | .match => setGroup0 cur (m cur c (equals E.inp.length))
  | .matchPrefix => setGroup0 cur (m cur c success)
  | .search => searchBy E m (E.inp.length - cur + 1) cur c

theorem searchBy_eq (E : Env) (fuel : Nat) (a : Ast) (k cur : Nat) (c : Ctx) :
    searchBy E (mtch E fuel a 0) k cur c = searchLoop E fuel a k cur c := by
  induction k generalizing cur c with
  | zero => rfl
  | succ k ih =>
    simp only [searchBy, searchLoop, ih]
    cases mtch E fuel a 0 cur c success <;> rfl

theorem Method.invoke_eq (M : Method) (E : Env) (fuel : Nat) (a : Ast) (cur : Nat) (c : Ctx) :
    M.invoke E fuel a cur c = M.invokeWith E (mtch E fuel a 0) cur c := by
  cases M <;> simp [Method.invoke, Method.invokeWith, matchMethod, prefixMethod, searchMethod, searchBy_eq]

/-- A result and what it cost. -/
structure Measured where
  result : Result
  calls : Nat
  depth : Nat
  deriving DecidableEq, Repr

/-- regex.hpp:274-280 `invoke<Method>` with meters. -/
def Regex.measure (R : Regex) (M : Method) (cat : Cat) (s : List Byte) : Option Measured :=
  let N := R.names.length
  match M.invokeWith (R.env cat s) (mtchM (R.env cat s) (fuelFor R.ast s) R.ast 0) 0
      (initCtx R.names ++ [some (0, 0), some (0, 0)]) with
  | .ok res c => some ⟨⟨c.take N, res.matched⟩, Mregex.calls N c, peak N c⟩
  | _ => none

end Mregex
