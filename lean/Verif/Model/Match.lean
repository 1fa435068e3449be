import Verif.Model.Ast

/-!
# The matcher

Model of `ast/nodes/**`, `ast/predicates/**`, `utility/distance.hpp`, `utility/continuations.hpp`.

Every `Node::match(begin, end, current, ctx, cont)` becomes a function of the iterator layer count
`r`, the position `p` (= `current`), the capture state `c` (= `ctx.captures`) and the
continuation.  `begin` and `end` are always the two ends of the whole input, so they are determined by
the input and by the direction.
-/

namespace Mregex

/-- regex_flags.hpp:31-35: the five tests offered by `regex_flag_sequence`. -/
structure Flags where
  icase : Bool := false
  dotall : Bool := false
  multiline : Bool := false
  ungreedy : Bool := false
  unroll : Bool := false
  deriving DecidableEq, Repr

/-- The iterator concepts distinguished by the overloads of the library. -/
inductive Cat
  | forward | bidirectional | randomAccess
  deriving DecidableEq, Repr

/-- regex_capture.hpp: `regex_capture_view`.  `none` is the value-initialised view (two equal singular
iterators), `some (b, e)` the view `{b, e}`. -/
abbrev Cap := Option (Nat × Nat)

/-- `ctx.captures` (regex_match_context.hpp:24); index 0 is the implicit group. -/
abbrev Ctx := List Cap

/-- regex_capture.hpp `clear()`: `_end = _begin`. -/
def Cap.clear : Cap → Cap
  | none => none
  | some (b, _) => some (b, b)

/-- ast/match_result.hpp:11-26. -/
structure MR where
  pos : Nat
  matched : Bool
  deriving DecidableEq, Repr

/-- Outcome of a run.  `ub`: the C++ program would read or move outside the input range, or would
not compile (missing tuple element, ...).  `diverge`: out of fuel. -/
inductive Out
  | ok (res : MR) (ctx : Ctx)
  | ub
  | diverge
  deriving DecidableEq, Repr

/-- utility/continuations.hpp:8-12: continuations; the capture state they modify is explicit. -/
abbrev Cont := Nat → Ctx → Out

/-- A node's `match` for a fixed iterator type. -/
abbrev Matcher := Nat → Ctx → Cont → Out

/-- ast/match_result.hpp:28-32 `non_match`. -/
def nonMatch (p : Nat) (c : Ctx) : Out := .ok ⟨p, false⟩ c

/-- utility/continuations.hpp:22-24 `continuations::success`. -/
def success : Cont := fun p c => .ok ⟨p, true⟩ c

/-- utility/continuations.hpp:26-30 `continuations::equals(target)`. -/
def equals (target : Nat) : Cont := fun p c => .ok ⟨p, p == target⟩ c

/-- `if (auto m = <o>) return m; <f>`. -/
def Out.orElse (o : Out) (f : Ctx → Out) : Out :=
  match o with
  | .ok r c => if r.matched then .ok r c else f c
  | .ub => .ub
  | .diverge => .diverge

/-- `if (auto m = <o>) return <f>(m.end); return <g>`. -/
def Out.onMatch (o : Out) (f : Nat → Ctx → Out) (g : Ctx → Out) : Out :=
  match o with
  | .ok r c => if r.matched then f r.pos c else g c
  | .ub => .ub
  | .diverge => .diverge

/-- Everything that is fixed during one call of a regex method: the input range, the flags, the iterator
category and the group names (`regex_capture_name_spec_t`, regex_traits.hpp:29-30). -/
structure Env where
  inp : List Byte
  flags : Flags := {}
  cat : Cat := .randomAccess
  names : List GroupName := [none]

namespace Env
variable (E : Env)

/-- `current == end` for iterator layer `r`; `reverse_iterator(begin)` is the end of odd layers
(lookaround_predicate.hpp:38-39). -/
def atEnd (r p : Nat) : Bool := if r % 2 = 0 then p == E.inp.length else p == 0

/-- `current == begin`. -/
def atBegin (r p : Nat) : Bool := if r % 2 = 0 then p == 0 else p == E.inp.length

/-- `*current`; `none` outside the range.  A reverse iterator with base `p` refers to `p - 1`. -/
def deref (r p : Nat) : Option Byte :=
  if r % 2 = 0 then E.inp[p]? else if p = 0 then none else E.inp[p - 1]?

/-- `*std::prev(current)`.  For merely forward iterators this is undefined (`std::prev` needs a
bidirectional iterator; anchor_predicates.hpp:19 calls it with any forward iterator) or does not compile
(anchor_predicates.hpp:45, lookaround_predicate.hpp:45). -/
def derefPrev (r p : Nat) : Option Byte :=
  if E.cat = .forward then none
  else if r % 2 = 0 then (if p = 0 then none else E.inp[p - 1]?) else E.inp[p]?

/-- `std::next(current)` / `++current` (callers have checked that `current != end`). -/
def next (r p : Nat) : Nat := if r % 2 = 0 then p + 1 else p - 1

/-- `--current` (repetition.hpp:105, callers have checked that `current` is not the initial position). -/
def prev (r p : Nat) : Nat := if r % 2 = 0 then p - 1 else p + 1

/-- `std::distance(current, end)`. -/
def remaining (r p : Nat) : Nat := if r % 2 = 0 then E.inp.length - p else p

/-- `std::distance(from, to)` for two positions with `to` reachable from `from`. -/
def dist (r p q : Nat) : Nat := if r % 2 = 0 then q - p else p - q

/-- utility/distance.hpp:8-18 and 26-36, the loop for forward iterators; the argument is `N - offset`. -/
def distLoop (r : Nat) : Nat → Nat → Bool
  | 0, _ => false
  | k + 1, p => if E.atEnd r p then true else distLoop r k (next r p)

/-- utility/distance.hpp `distance_less_than`. -/
def distanceLessThan (r : Nat) (N p : Nat) : Bool :=
  match E.cat with
  | .randomAccess => decide (E.remaining r p < N)
  | _ => E.distLoop r N p

end Env

open Ast

mutual
/-- `Node::match_one(input, ctx)` for trivially matchable nodes:
literal.hpp:12-19 (`linebreak::match_one` in wildcard.hpp:15 is written out: `\n`, `\r` are not letters), range.hpp:41-58 (and 61-62 for `range<C,C>`), wildcard.hpp:10-16, set.hpp:14-18 (also for alternations,
alternation.hpp:24-26), negated.hpp:16-20, sequence.hpp:62-63, fixed_repetition.hpp:151-152.
Nodes without `match_one` are mapped to `false` (never evaluated). -/
def matchOne (f : Flags) : Ast → Byte → Bool
  | .lit c, x => c == x || (f.icase && isAlpha c && flipLowercaseBit c == x)
  | .range a b, x =>
      if a = b then a == x || (f.icase && isAlpha a && flipLowercaseBit a == x)
      else
        isInAsciiRange a b x ||
        (f.icase &&
          (inIntersection a b (ch 'a') (ch 'z') (flipLowercaseBit x) ||
           inIntersection a b (ch 'A') (ch 'Z') (flipLowercaseBit x)))
  | .wildcard, x => if f.dotall then true else !(x == 10#8 || x == 13#8)
  | .set l, x => matchAny f l x
  | .alt l, x => matchAny f l x
  | .neg a, x => !matchOne f a x
  | .seq l, x => matchSingle f l x
  | .rep _ lo hi a, x => if lo == 1 && hi == .fin 1 then matchOne f a x else false
  | _, _ => false
/-- The fold of set.hpp:17. -/
def matchAny (f : Flags) : List Ast → Byte → Bool
  | [], _ => false
  | a :: l, x => matchOne f a x || matchAny f l x
/-- `sequence<Inner> : Inner`. -/
def matchSingle (f : Flags) : List Ast → Byte → Bool
  | [a], x => matchOne f a x
  | _, _ => false
/-- range.hpp:13-30 `range_intersection<R1, R2>::contains`. -/
def inIntersection (a b a' b' : Byte) (x : Byte) : Bool :=
  let start := if a.toNat < a'.toNat then a' else a
  let stop := if b'.toNat < b.toNat then b' else b
  if start.toNat > stop.toNat then false else isInAsciiRange start stop x
end

section
variable (E : Env) (r : Nat)

/-- trivially_matchable.hpp:17-24. -/
def trivMatch (a : Ast) : Matcher := fun p c cont =>
  if E.atEnd r p then nonMatch p c
  else match E.deref r p with
    | none => .ub
    | some x => if matchOne E.flags a x then cont (Env.next r p) c else nonMatch p c

/-- Result of checking a run of consecutive characters. -/
inductive Run
  | done (p : Nat)
  | fail (p : Nat)
  | ub

/-- The `&&` folds of sequence.hpp:47, 56 and the loops of fixed_repetition.hpp:91, 102, 111-115, 123-127:
check one character per node, stop at the first failure. -/
def runTriv : List Ast → Nat → Run
  | [], p => .done p
  | a :: l, p =>
    match E.deref r p with
    | none => .ub
    | some x => if matchOne E.flags a x then runTriv l (Env.next r p) else .fail p

/-- sequence.hpp:27-59, all children trivially matchable.  With random access iterators a failure reports
`current`, otherwise the position of the failing character. -/
def seqTriv (l : List Ast) : Matcher := fun p c cont =>
  if E.distanceLessThan r l.length p then nonMatch p c
  else match runTriv E r l p with
    | .ub => .ub
    | .done q => cont q c
    | .fail q => if E.cat = .randomAccess then nonMatch p c else nonMatch q c

/-- sequence.hpp:12-25 and 62-63; `m` matches the children. -/
def seqMatch (m : Ast → Matcher) : List Ast → Matcher
  | [] => fun _ _ _ => .ub
  | [a] => m a
  | a :: b :: l =>
    if areTriv (a :: b :: l) then seqTriv E r (a :: b :: l)
    else fun p c cont => m a p c (fun q c' => seqMatch m (b :: l) q c' cont)

/-- alternation.hpp:11-29. -/
def altMatch (m : Ast → Matcher) : List Ast → Matcher
  | [] => fun _ _ _ => .ub
  | [a] => m a
  | a :: b :: l =>
    if areTriv (a :: b :: l) then trivMatch E r (.set (a :: b :: l))
    else fun p c cont => (m a p c cont).orElse (fun c' => altMatch m (b :: l) p c' cont)

/-- capture.hpp:32-44 `capture_matched_range`.  Layers above 1 do not compile (`end.base()` is not the
user's iterator type), and neither does a wrong tuple index or name. -/
def setCapture (id : Nat) (name : GroupName) (p q : Nat) (c : Ctx) : Option Ctx :=
  if E.names[id]? = some name ∧ r ≤ 1 ∧ id < c.length then
    some (c.set id (some (if r = 0 then (p, q) else (q, p))))
  else none

/-- `std::get<ID>(ctx.captures).clear()` (capture.hpp:28). -/
def clearCapture (id : Nat) (c : Ctx) : Ctx := c.modify id Cap.clear

/-- capture.hpp:18-30. -/
def capMatch (id : Nat) (name : GroupName) (m : Matcher) : Matcher := fun p c cont =>
  (m p c (fun q c' =>
      match setCapture E r id name p q c' with
      | none => .ub
      | some c'' => cont q c'')).orElse
    (fun c' => nonMatch p (clearCapture id c'))

/-- backref.hpp:71-75 `equals<IgnoreCase>`. -/
def backrefEquals (icase : Bool) (a b : Byte) : Bool := a == b || (icase && invertCase a == b)

/-- backref.hpp:52-57: compare the captured characters with the input; `none` is a read outside the range. -/
def backrefLoop : List Byte → Nat → Run
  | [], p => .done p
  | t :: l, p =>
    match E.deref r p with
    | none => .ub
    | some x => if backrefEquals E.flags.icase t x then backrefLoop l (Env.next r p) else .fail p

/-- The characters of a captured range. -/
def capText (s : List Byte) : Cap → List Byte
  | none => []
  | some (b, e) => (s.drop b).take (e - b)

/-- backref.hpp:41-59 after looking up the capture.  `reverse_if` (62-69) requires a bidirectional range,
so backreferences do not compile for merely forward iterators. -/
def backrefMatch (captured : Cap) : Matcher := fun p c cont =>
  let text := capText E.inp captured
  if E.cat = .forward then .ub
  else if E.distanceLessThan r text.length p then nonMatch p c
  else match backrefLoop E r (if r = 0 then text else text.reverse) p with
    | .ub => .ub
    | .done q => cont q c
    | .fail q => nonMatch q c

/-- backref.hpp:26-35: `std::get<capture_type>(captures)` needs exactly one element with the name. -/
def nameIndex (names : List GroupName) (name : List Byte) : Option Nat :=
  if names.count (some name) = 1 then some (names.idxOf (some name)) else none

/-! ### Repetitions

The functions below are generic in `m`, the `match` of `Inner`.  A loop with bound `Bound` is given a
number of rounds `k` and a flag `inf`: for a finite bound `k` is the bound; for `infinity`
`k` is fuel and running out of it is `diverge`. -/

/-- fixed_repetition.hpp:70-83 `non_unrolled_backtracking_match`. -/
def nonUnrolled (m : Matcher) : Nat → Matcher
  | 0 => fun _ _ _ => .ub
  | 1 => m
  | k + 2 => fun p c cont => m p c (fun q c' => nonUnrolled m (k + 1) q c' cont)

/-- fixed_repetition.hpp:60-68 `unrolled_backtracking_match`, which continues with
`fixed_repetition<N - 1, Inner>::match` (lines 18-25, 37-45, 151-155). -/
def unrolled (m : Matcher) : Nat → Matcher
  | 0 => fun p c cont => cont p c
  | 1 => m
  | k + 2 => fun p c cont => m p c (fun q c' => unrolled m (k + 1) q c' cont)

/-- fixed_repetition.hpp:85-129, trivially matchable `Inner`.  The unrolled and the looping variants perform the
same checks; the random access ones report `current` on failure, the forward ones the position
after the failing character (`*current++`). -/
def fixedTriv (a : Ast) (N : Nat) : Matcher := fun p c cont =>
  if E.distanceLessThan r N p then nonMatch p c
  else match runTriv E r (List.replicate N a) p with
    | .ub => .ub
    | .done q => cont q c
    | .fail q => if E.cat = .randomAccess then nonMatch p c else nonMatch (Env.next r q) c

/-- fixed_repetition.hpp:37-58 `backtracking_match`. -/
def fixedBacktracking (a : Ast) (m : Matcher) (N : Nat) : Matcher :=
  if triv a then fixedTriv E r a N
  else if E.flags.unroll then unrolled m N else nonUnrolled m N

/-- fixed_repetition.hpp: `basic_fixed_repetition<Mode, N, Inner>::match`: lines 12-35 for `N > 1`, 132-149 for
an atomic group, 151-152 for `N = 1`, 154-155 for `N = 0`. -/
def fixedMatch (mode : Mode) (a : Ast) (m : Matcher) (N : Nat) : Matcher :=
  if N = 0 then fun p c cont => cont p c
  else if N = 1 then
    if mode = .possessive ∧ triv a = false then
      fun p c cont => (m p c success).onMatch cont (fun c' => nonMatch p c')
    else m
  else if mode = .possessive then
    fun p c cont => (fixedBacktracking E r a m N p c success).onMatch cont (fun c' => nonMatch p c')
  else fixedBacktracking E r a m N

/-- repetition.hpp:143-164: `continue_unless_infinite_loop` with `will_loop_forever`; `guard` says
whether the constrained overload (159-164) is selected. -/
def guardCont (guard : Bool) (p : Nat) (cont : Cont) : Cont := fun q c =>
  if guard && (p == q) then nonMatch p c else cont q c

/-- repetition.hpp:50-62 `bounded_possessive_match`. -/
def possLoop (m : Matcher) (guard inf : Bool) : Nat → Matcher
  | 0 => fun p c cont => if inf then .diverge else cont p c
  | k + 1 => fun p c cont =>
    (m p c success).onMatch
      (fun q c' => if guard && (p == q) then cont p c' else possLoop m guard inf k q c' cont)
      (fun c' => cont p c')

/-- repetition.hpp:64-76 `bounded_possessive_match`, trivially matchable `Inner`. -/
def possTriv (a : Ast) (inf : Bool) : Nat → Matcher
  | 0 => fun p c cont => if inf then .diverge else cont p c
  | k + 1 => fun p c cont =>
    if E.atEnd r p then cont p c
    else match E.deref r p with
      | none => .ub
      | some x => if matchOne E.flags a x then possTriv a inf k (Env.next r p) c cont else cont p c

/-- repetition.hpp:78-91 `bounded_greedy_match`. -/
def greedyLoop (m : Matcher) (guard inf : Bool) : Nat → Matcher
  | 0 => fun p c cont => if inf then .diverge else cont p c
  | k + 1 => fun p c cont =>
    (m p c (guardCont guard p (fun q c' => greedyLoop m guard inf k q c' cont))).orElse
      (fun c' => cont p c')

/-- repetition.hpp:98-108: the continuation that gives characters back one by one.  The first argument bounds the
number of steps. -/
def backOff (initial : Nat) (cont : Cont) : Nat → Nat → Ctx → Out
  | 0, q, c => (cont q c).orElse (fun c' => if q = initial then nonMatch initial c' else .diverge)
  | k + 1, q, c => (cont q c).orElse
      (fun c' => if q = initial then nonMatch initial c' else backOff initial cont k (Env.prev r q) c')

/-- repetition.hpp:93-110 `bounded_greedy_match`, trivially matchable `Inner`, bidirectional iterators. -/
def greedyTriv (a : Ast) (inf : Bool) (k : Nat) : Matcher := fun p c cont =>
  possTriv E r a inf k p c (fun q c' => backOff r p cont (Env.dist r p q) q c')

/-- repetition.hpp:112-126 `bounded_lazy_match`. -/
def lazyLoop (m : Matcher) (guard inf : Bool) : Nat → Matcher
  | 0 => fun p c cont => if inf then .diverge else (cont p c).orElse (fun c' => nonMatch p c')
  | k + 1 => fun p c cont =>
    (cont p c).orElse
      (fun c' => m p c' (guardCont guard p (fun q c'' => lazyLoop m guard inf k q c'' cont)))

/-- repetition.hpp:128-141 `bounded_lazy_match`, trivially matchable `Inner`. -/
def lazyTriv (a : Ast) (inf : Bool) : Nat → Matcher
  | 0 => fun p c cont => if inf then .diverge else (cont p c).orElse (fun c' => nonMatch p c')
  | k + 1 => fun p c cont =>
    (cont p c).orElse (fun c' =>
      if E.atEnd r p then nonMatch p c'
      else match E.deref r p with
        | none => .ub
        | some x => if matchOne E.flags a x then lazyTriv a inf k (Env.next r p) c' cont else nonMatch p c')

/-- repetition.hpp:36-48 `match_between_bounds`: `k`, `inf` describe `subtract_t<UpperBound, LowerBound>`. -/
def betweenBounds (mode : Mode) (a : Ast) (m : Matcher) (inf : Bool) (k : Nat) : Matcher :=
  let guard := inf && zlm a
  if mode = .possessive then
    if triv a then possTriv E r a inf k else possLoop m guard inf k
  else if Bool.xor (mode == .greedy) E.flags.ungreedy then
    if triv a && E.cat != .forward then greedyTriv E r a inf k else greedyLoop m guard inf k
  else
    if triv a then lazyTriv E r a inf k else lazyLoop m guard inf k

/-- repetition.hpp:11-33 and fixed_repetition.hpp: `basic_repetition<Mode, LowerBound, UpperBound, Inner>::match`.
`fuel` bounds the unbounded loops.  An invalid range does not compile (`is_valid_range`,
repetition.hpp:14). -/
def repMatch (fuel : Nat) (mode : Mode) (lo : Nat) (hi : Bound) (a : Ast) (m : Matcher) : Matcher :=
  match hi with
  | .fin h =>
    if h = lo then fixedMatch E r mode a m lo
    else if h < lo then fun _ _ _ => .ub
    else if lo = 0 then betweenBounds E r mode a m false h
    else fun p c cont =>
      fixedMatch E r mode a m lo p c (fun q c' => betweenBounds E r mode a m false (h - lo) q c' cont)
  | .inf =>
    if lo = 0 then betweenBounds E r mode a m true fuel
    else fun p c cont =>
      fixedMatch E r mode a m lo p c (fun q c' => betweenBounds E r mode a m true fuel q c' cont)

/-! ### Assertions -/

/-- assertion.hpp:22-29 for a predicate without side effects. -/
def assertMatch (pred : Nat → Option Bool) : Matcher := fun p c cont =>
  match pred p with
  | none => .ub
  | some b => if b then cont p c else nonMatch p c

/-- `linebreak::match_one` (ast/astfwd.hpp:120; not affected by any flag). -/
def isLinebreak (x : Byte) : Bool := x == 10#8 || x == 13#8

/-- anchor_predicates.hpp:9-24 `beginning_predicate<Mode>`; `multi` is `Mode == line_mode::multiline`. -/
def beginPred (multi : Bool) (p : Nat) : Option Bool :=
  if E.atBegin r p then some true
  else if multi && E.flags.multiline then (E.derefPrev r p).map isLinebreak
  else some false

/-- anchor_predicates.hpp:26-41 `end_predicate<Mode>`. -/
def endPred (multi : Bool) (p : Nat) : Option Bool :=
  if E.atEnd r p then some true
  else if multi && E.flags.multiline then (E.deref r p).map isLinebreak
  else some false

/-- anchor_predicates.hpp:43-52 `word_boundary_predicate`. -/
def wordBoundaryPred (p : Nat) : Option Bool :=
  match (if E.atBegin r p then some false else (E.derefPrev r p).map (matchOne E.flags word)),
    (if E.atEnd r p then some false else (E.deref r p).map (matchOne E.flags word)) with
  | some behind, some ahead => some (Bool.xor behind ahead)
  | _, _ => none

/-- lookaround_predicate.hpp:20-25, trivially matchable body. -/
def lookaheadTrivPred (a : Ast) (p : Nat) : Option Bool :=
  if E.atEnd r p then some false else (E.deref r p).map (matchOne E.flags a)

/-- lookaround_predicate.hpp:45-51, trivially matchable body. -/
def lookbehindTrivPred (a : Ast) (p : Nat) : Option Bool :=
  if E.atBegin r p then some false else (E.derefPrev r p).map (matchOne E.flags a)

/-- assertion.hpp:22-29 for the predicate `lookahead_predicate` / `lookbehind_predicate`
(lookaround_predicate.hpp:13-18, 31-43): run the body with `success`, keep the captures, and continue at `p`. -/
def lookMatch (m : Matcher) : Matcher := fun p c cont =>
  (m p c success).onMatch (fun _ c' => cont p c') (fun c' => nonMatch p c')

/-- negated.hpp:23-25 with predicates/negate.hpp:8-16 and assertion.hpp:22-29.  `m` is the `match` of the
negated assertion; `assertion<P>::match` with the continuation `success` matches iff `P::is_match`. -/
def negAssertMatch (m : Matcher) : Matcher := fun p c cont =>
  (m p c success).onMatch (fun _ c' => nonMatch p c') (fun c' => cont p c')

end

/-- `Node::match`.  The first argument is fuel for the nesting of nodes and for unbounded loops. -/
def mtch (E : Env) : Nat → Ast → Nat → Matcher
  | 0, _, _ => fun _ _ _ => .diverge
  | k + 1, node, r =>
    match node with
    | .empty => fun p c cont => cont p c                                      -- empty.hpp:13-18
    | .lit _ | .range _ _ | .wildcard | .set _ => trivMatch E r node          -- trivially_matchable.hpp
    | .neg a =>
      if isAssertion a then negAssertMatch (mtch E k a r) else trivMatch E r node
    | .seq l => seqMatch E r (fun a => mtch E k a r) l
    | .alt l => altMatch E r (fun a => mtch E k a r) l
    | .cap id name a => capMatch E r id name (mtch E k a r)
    | .rep mode lo hi a => repMatch E r k mode lo hi a (mtch E k a r)
    | .look .ahead a =>
      if triv a then assertMatch (lookaheadTrivPred E r a) else lookMatch (mtch E k a r)
    | .look .behind a =>
      if triv a then assertMatch (lookbehindTrivPred E r a)
      else if E.cat = .forward then fun _ _ _ => .ub                          -- lookaround_predicate.hpp:31
      else lookMatch (mtch E k (invert a) (r + 1))
    | .bol => assertMatch (beginPred E r true)                                -- anchors.hpp:10
    | .boi => assertMatch (beginPred E r false)                               -- anchors.hpp:11
    | .eol => assertMatch (endPred E r true)                                  -- anchors.hpp:12
    | .eoi => assertMatch (endPred E r false)                                 -- anchors.hpp:13
    | .wordB => assertMatch (wordBoundaryPred E r)                            -- anchors.hpp:14
    | .backref id => fun p c cont =>                                          -- backref.hpp:78-79, 16-24
      match c[id]? with
      | none => .ub
      | some g => backrefMatch E r g p c cont
    | .namedBackref name => fun p c cont =>                                   -- backref.hpp:81-82, 26-35
      match nameIndex E.names name with
      | none => .ub
      | some id =>
        match c[id]? with
        | none => .ub
        | some g => backrefMatch E r g p c cont

end Mregex
