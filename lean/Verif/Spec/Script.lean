import Verif.Model.Methods
import Verif.Spec.Order
import Verif.Spec.Groups

/-!
# Scripts

What a backtracking matcher without references does at a position, in order: it offers positions to the rest of the regex, and between
the offers it notes down the ranges of groups and crosses out notes.  The script ends with the first offer that is accepted.
A script depends on the expression, the flags and the text only, not on earlier notes.
-/

namespace Mregex.Spec
open Mregex

inductive Step
  /-- The group `k` has taken part from `b` to `e`. -/
  | note (k b e : Nat)
  /-- The group `k` has been given up. -/
  | cross (k : Nat)
  /-- A match may end at `q`. -/
  | offer (q : Nat)
  deriving DecidableEq, Repr

abbrev Script := List Step

/-- Every offer is continued by another script. -/
def proceed (S : Script) (g : Nat → Script) : Script :=
  S.flatMap (fun t => match t with | .offer q => g q | t => [t])

/-- Up to the first offer, continued by `f`; `h` if there is no offer. -/
def commit (f : Nat → Script) (h : Script) : Script → Script
  | [] => h
  | .offer q :: _ => f q
  | t :: S => t :: commit f h S

/-- Without the offers of `p`. -/
def except (p : Nat) (S : Script) : Script := S.filter (· ≠ .offer p)

section
variable (g : Nat → Script)

/-- Exactly `k` iterations. -/
def timesS : Nat → Nat → Script
  | 0, p => [.offer p]
  | k + 1, p => proceed (g p) (timesS k)

/-- At most `k` iterations, more are preferred. -/
def greedyS : Nat → Nat → Script
  | 0, p => [.offer p]
  | k + 1, p => proceed (g p) (greedyS k) ++ [.offer p]

/-- At most `k` iterations, fewer are preferred. -/
def lazyS : Nat → Nat → Script
  | 0, p => [.offer p]
  | k + 1, p => .offer p :: proceed (g p) (lazyS k)

/-- Iterate the preferred match of each round, at most `k` times. -/
def possessiveS : Nat → Nat → Script
  | 0, p => [.offer p]
  | k + 1, p => commit (possessiveS k) [.offer p] (g p)

/-- Any number of iterations that advance, more are preferred.  There are no more than the text has characters. -/
def greedyStarS : Nat → Nat → Script
  | 0, _ => []
  | k + 1, p => proceed (except p (g p)) (greedyStarS k) ++ [.offer p]

/-- Any number of iterations that advance, fewer are preferred. -/
def lazyStarS : Nat → Nat → Script
  | 0, _ => []
  | k + 1, p => .offer p :: proceed (except p (g p)) (lazyStarS k)

/-- Iterate the preferred match of each round until there is none or it does not advance. -/
def possessiveStarS : Nat → Nat → Script
  | 0, _ => []
  | k + 1, p => commit (fun q => if q = p then [.offer p] else possessiveStarS k q) [.offer p] (g p)

end

/-- The iterations beyond the lower bound: at most `k`, or (`none`) arbitrarily many. -/
def extraS (n : Nat) (m : Mode) (ungreedy : Bool) (g : Nat → Script) : Option Nat → Nat → Script
  | some k =>
    match m with
    | .possessive => possessiveS g k
    | m => if (m == .greedy) != ungreedy then greedyS g k else lazyS g k
  | none =>
    match m with
    | .possessive => possessiveStarS g (n + 1)
    | m => if (m == .greedy) != ungreedy then greedyStarS g (n + 1) else lazyStarS g (n + 1)

/-- `g{lo,hi}`. -/
def quantifiedS (n : Nat) (m : Mode) (ungreedy : Bool) (lo : Nat) (hi : Bound) (g : Nat → Script) (p : Nat) : Script :=
  proceed (match m with | .possessive => commit (fun q => [.offer q]) [] (timesS g lo p) | _ => timesS g lo p)
    (extraS n m ungreedy g (match hi with | .fin h => some (h - lo) | .inf => none))

/-- The offers alone. -/
def offers (l : List Nat) : Script := l.map .offer

mutual
/-- The script of `a` at `p`; `fwd` and `inv` as for `ends`. -/
def script (f : Flags) (s : List Byte) : Ast → Bool → Bool → Nat → Script
  | .neg a, fwd, inv, p =>
      if assertion a then commit (fun _ => []) [.offer p] (script f s a fwd inv p)
      else offers (oneChar s fwd (accepts f (.neg a)) p)
  | .seq l, fwd, inv, p => scriptAll f s l fwd inv p
  | .alt l, fwd, inv, p => scriptAny f s l fwd inv p
  | .cap id _ a, fwd, inv, p =>
      proceed (script f s a fwd inv p) (fun q => [if fwd then .note id p q else .note id q p, .offer q]) ++ [.cross id]
  | .rep m lo hi a, fwd, inv, p => quantifiedS s.length m f.ungreedy lo hi (script f s a fwd inv) p
  | .look d a, fwd, inv, p =>
      if (d == .ahead) == !inv then commit (fun _ => [.offer p]) [] (script f s a fwd false p)
      else commit (fun _ => [.offer p]) [] (script f s a (!fwd) true p)
  | a, fwd, inv, p => offers (ends f s a fwd inv p)
def scriptAll (f : Flags) (s : List Byte) : List Ast → Bool → Bool → Nat → Script
  | [], _, _, p => [.offer p]
  | a :: l, fwd, inv, p =>
      if inv then proceed (scriptAll f s l fwd inv p) (script f s a fwd inv)
      else proceed (script f s a fwd inv p) (scriptAll f s l fwd inv)
def scriptAny (f : Flags) (s : List Byte) : List Ast → Bool → Bool → Nat → Script
  | [], _, _, _ => []
  | a :: l, fwd, inv, p => script f s a fwd inv p ++ scriptAny f s l fwd inv p
end

/-! ### Following a script -/

/-- The first accepted offer. -/
def taken (acc : Nat → Bool) : Script → Option Nat
  | [] => none
  | .offer q :: S => if acc q then some q else taken acc S
  | _ :: S => taken acc S

/-- What is noted for the group `k` when the script is followed up to the first accepted offer, beginning with `v`.  A note that is crossed
out leaves an empty range at its begin. -/
def noted (acc : Nat → Bool) (k : Nat) : Script → Cap → Cap
  | [], v => v
  | .note i b e :: S, v => noted acc k S (if i = k then some (b, e) else v)
  | .cross i :: S, v => noted acc k S (if i = k then v.map (fun x => (x.1, x.1)) else v)
  | .offer q :: S, v => if acc q then v else noted acc k S v

/-- The range found from one of the start positions. -/
def searchRange (g : Nat → Script) : List Nat → Option (Nat × Nat)
  | [] => none
  | j :: l =>
    match taken (fun _ => true) (g j) with
    | some q => some (j, q)
    | none => searchRange g l

/-- What is noted for the group `k` after trying the start positions. -/
def searchNoted (g : Nat → Script) (k : Nat) : List Nat → Cap → Cap
  | [], v => v
  | j :: l, v =>
    match taken (fun _ => true) (g j) with
    | some _ => noted (fun _ => true) k (g j) v
    | none => searchNoted g k l (noted (fun _ => true) k (g j) v)

/-- The range of the match that a method finds from `cur` on in a text of length `n`, given the scripts from all positions. -/
def scriptRange (n : Nat) (g : Nat → Script) (cur : Nat) : Method → Option (Nat × Nat)
  | .match => (taken (· == n) (g cur)).map (cur, ·)
  | .matchPrefix => (taken (fun _ => true) (g cur)).map (cur, ·)
  | .search => searchRange g (List.range' cur (n + 1 - cur))

/-- What a method notes for the group `k`. -/
def scriptGroup (n : Nat) (g : Nat → Script) (k cur : Nat) (v : Cap) : Method → Cap
  | .match => noted (· == n) k (g cur) v
  | .matchPrefix => noted (fun _ => true) k (g cur) v
  | .search => searchNoted g k (List.range' cur (n + 1 - cur)) v

end Mregex.Spec
