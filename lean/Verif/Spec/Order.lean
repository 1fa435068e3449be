import Verif.Spec.Lang

/-!
# Priority order

`ends f s fwd inv a p` lists the positions at which a match of `a` that starts at `p` may end, in the order of
preference of a backtracking matcher.  `fwd` is the reading direction, `inv` tells that concatenations are
to be read back to front (both change inside lookbehinds).
-/

namespace Mregex.Spec
open Mregex

/-- Byte accepted by a one-character node. -/
def inRange (a b x : Byte) : Bool := decide (a.toNat ≤ x.toNat) && decide (x.toNat ≤ b.toNat)

mutual
/-- The set of bytes denoted by a one-character node. -/
def accepts (f : Flags) : Ast → Byte → Bool
  | .lit c, x => c == x || (f.icase && asciiLower c == asciiLower x)
  | .range a b, x => inRange a b x || (f.icase && (inRange a b (asciiLower x) || inRange a b (asciiUpper x)))
  | .wildcard, x => f.dotall || !(x == 10#8 || x == 13#8)
  | .set l, x => acceptsAny f l x
  | .alt l, x => acceptsAny f l x
  | .neg a, x => !accepts f a x
  | .seq l, x => acceptsOnly f l x
  | .rep _ 1 (.fin 1) a, x => accepts f a x
  | _, _ => false
def acceptsAny (f : Flags) : List Ast → Byte → Bool
  | [], _ => false
  | a :: l, x => accepts f a x || acceptsAny f l x
def acceptsOnly (f : Flags) : List Ast → Byte → Bool
  | [a], x => accepts f a x
  | _, _ => false
end

/-- The next character in the reading direction and the position after it. -/
def readChar (s : List Byte) (fwd : Bool) (p : Nat) : Option (Byte × Nat) :=
  if fwd then s[p]?.map (fun x => (x, p + 1))
  else match p with
    | 0 => none
    | k + 1 => s[k]?.map (fun x => (x, k))

def oneChar (s : List Byte) (fwd : Bool) (P : Byte → Bool) (p : Nat) : List Nat :=
  match readChar s fwd p with
  | none => []
  | some (x, q) => if P x then [q] else []

/-- A zero-width test. -/
def test (b : Bool) (p : Nat) : List Nat := if b then [p] else []

/-- Exactly `k` iterations. -/
def exactly (g : Nat → List Nat) : Nat → Nat → List Nat
  | 0, p => [p]
  | k + 1, p => (g p).flatMap (exactly g k)

/-- At most `k` iterations, more are preferred. -/
def greedyUpTo (g : Nat → List Nat) : Nat → Nat → List Nat
  | 0, p => [p]
  | k + 1, p => (g p).flatMap (greedyUpTo g k) ++ [p]

/-- At most `k` iterations, fewer are preferred. -/
def lazyUpTo (g : Nat → List Nat) : Nat → Nat → List Nat
  | 0, p => [p]
  | k + 1, p => [p] ++ (g p).flatMap (lazyUpTo g k)

/-- Any number of iterations, more are preferred.  An iteration must advance, so a number of rounds larger
than the length of the text imposes no bound. -/
def greedyStar (g : Nat → List Nat) : Nat → Nat → List Nat
  | 0, _ => []
  | k + 1, p => ((g p).filter (· ≠ p)).flatMap (greedyStar g k) ++ [p]

/-- Any number of iterations, fewer are preferred. -/
def lazyStar (g : Nat → List Nat) : Nat → Nat → List Nat
  | 0, _ => []
  | k + 1, p => [p] ++ ((g p).filter (· ≠ p)).flatMap (lazyStar g k)

/-- Iterate the preferred match of each round, at most `k` times. -/
def possessiveUpTo (g : Nat → List Nat) : Nat → Nat → List Nat
  | 0, p => [p]
  | k + 1, p =>
    match g p with
    | [] => [p]
    | q :: _ => possessiveUpTo g k q

/-- Iterate the preferred match of each round until there is none or it does not advance. -/
def possessiveStar (g : Nat → List Nat) : Nat → Nat → List Nat
  | 0, _ => []
  | k + 1, p =>
    match g p with
    | [] => [p]
    | q :: _ => if q = p then [p] else possessiveStar g k q

/-- The iterations beyond the lower bound: at most `k`, or (`none`) arbitrarily many. -/
def extra (n : Nat) (m : Mode) (ungreedy : Bool) (g : Nat → List Nat) : Option Nat → Nat → List Nat
  | some k =>
    match m, ungreedy with
    | .possessive, _ => possessiveUpTo g k
    | .greedy, false | .lazy, true => greedyUpTo g k
    | .greedy, true | .lazy, false => lazyUpTo g k
  | none =>
    match m, ungreedy with
    | .possessive, _ => possessiveStar g (n + 1)
    | .greedy, false | .lazy, true => greedyStar g (n + 1)
    | .greedy, true | .lazy, false => lazyStar g (n + 1)

/-- `g{lo,hi}`. -/
def quantified (n : Nat) (m : Mode) (ungreedy : Bool) (lo : Nat) (hi : Bound) (g : Nat → List Nat) (p : Nat) : List Nat :=
  let required := exactly g lo p
  let required := match m with | .possessive => required.take 1 | _ => required
  let more := match hi with | .fin h => some (h - lo) | .inf => none
  required.flatMap (extra n m ungreedy g more)

def isWordAt (s : List Byte) (p : Nat) : Bool :=
  match s[p]? with
  | none => false
  | some x => inRange 48#8 57#8 x || inRange 65#8 90#8 x || x == 95#8 || inRange 97#8 122#8 x

def isBreakAt (s : List Byte) (p : Nat) : Bool :=
  match s[p]? with
  | none => false
  | some x => x == 10#8 || x == 13#8

/-- Same for the character before `p`. -/
def before (q : Nat → Bool) : Nat → Bool
  | 0 => false
  | k + 1 => q k

/-- `^` and `\A`, seen from the reading direction. -/
def atStart (s : List Byte) (fwd multi : Bool) (p : Nat) : Bool :=
  if fwd then p == 0 || (multi && before (isBreakAt s) p)
  else p == s.length || (multi && isBreakAt s p)

/-- `$` and `\Z`, seen from the reading direction. -/
def atStop (s : List Byte) (fwd multi : Bool) (p : Nat) : Bool := atStart s (!fwd) multi p

mutual
def ends (f : Flags) (s : List Byte) : Ast → Bool → Bool → Nat → List Nat
  | .empty, _, _, p => [p]
  | .lit c, fwd, _, p => oneChar s fwd (accepts f (.lit c)) p
  | .range a b, fwd, _, p => oneChar s fwd (accepts f (.range a b)) p
  | .wildcard, fwd, _, p => oneChar s fwd (accepts f .wildcard) p
  | .set l, fwd, _, p => oneChar s fwd (accepts f (.set l)) p
  | .neg a, fwd, inv, p =>
      if assertion a then test ((ends f s a fwd inv p).isEmpty) p
      else oneChar s fwd (accepts f (.neg a)) p
  | .seq l, fwd, inv, p => endsAll f s l fwd inv p
  | .alt l, fwd, inv, p => endsAny f s l fwd inv p
  | .cap _ _ a, fwd, inv, p => ends f s a fwd inv p
  | .rep m lo hi a, fwd, inv, p => quantified s.length m f.ungreedy lo hi (ends f s a fwd inv) p
  | .look d a, fwd, inv, p =>
      if (d == .ahead) == !inv then test (!(ends f s a fwd false p).isEmpty) p
      else test (!(ends f s a (!fwd) true p).isEmpty) p
  | .bol, fwd, _, p => test (atStart s fwd f.multiline p) p
  | .boi, fwd, _, p => test (atStart s fwd false p) p
  | .eol, fwd, _, p => test (atStop s fwd f.multiline p) p
  | .eoi, fwd, _, p => test (atStop s fwd false p) p
  | .wordB, _, _, p => test (before (isWordAt s) p != isWordAt s p) p
  | .backref _, _, _, _ => []
  | .namedBackref _, _, _, _ => []
def endsAll (f : Flags) (s : List Byte) : List Ast → Bool → Bool → Nat → List Nat
  | [], _, _, p => [p]
  | a :: l, fwd, inv, p =>
      if inv then (endsAll f s l fwd inv p).flatMap (ends f s a fwd inv)
      else (ends f s a fwd inv p).flatMap (endsAll f s l fwd inv)
def endsAny (f : Flags) (s : List Byte) : List Ast → Bool → Bool → Nat → List Nat
  | [], _, _, _ => []
  | a :: l, fwd, inv, p => ends f s a fwd inv p ++ endsAny f s l fwd inv p
end

end Mregex.Spec
