import Verif.Model.Methods
import Verif.Spec.Order
import Verif.Spec.Paths

/-!
# Procedures

Scripts (`Verif.Spec.Script`) for expressions with references.  A reference looks at what is noted for a group at that moment; what
happens then depends on it, so a script becomes a tree that branches where a group is recalled.
-/

namespace Mregex.Spec
open Mregex

inductive Proc
  /-- Nothing is left to be tried. -/
  | done
  /-- The group `k` has taken part from `b` to `e`. -/
  | note (k b e : Nat) (next : Proc)
  /-- The group `k` has been given up. -/
  | cross (k : Nat) (next : Proc)
  /-- A match may end at `q`; `next` follows if this is not accepted. -/
  | offer (q : Nat) (next : Proc)
  /-- What follows depends on what is noted for the group `k`. -/
  | recall (k : Nat) (next : Cap → Proc)

namespace Proc

/-- One after the other. -/
def andThen : Proc → Proc → Proc
  | done, Q => Q
  | note k b e P, Q => note k b e (P.andThen Q)
  | cross k P, Q => cross k (P.andThen Q)
  | offer q P, Q => offer q (P.andThen Q)
  | recall k f, Q => recall k (fun v => (f v).andThen Q)

/-- Every offer is continued by another procedure. -/
def proceed (g : Nat → Proc) : Proc → Proc
  | done => done
  | note k b e P => note k b e (P.proceed g)
  | cross k P => cross k (P.proceed g)
  | offer q P => (g q).andThen (P.proceed g)
  | recall k f => recall k (fun v => (f v).proceed g)

/-- Up to the first offer, continued by `f`; `h` if there is no offer. -/
def commit (f : Nat → Proc) : Proc → Proc → Proc
  | done, h => h
  | note k b e P, h => note k b e (P.commit f h)
  | cross k P, h => cross k (P.commit f h)
  | offer q _, _ => f q
  | recall k g, h => recall k (fun v => (g v).commit f h)

/-- Without the offers of `p`. -/
def except (p : Nat) : Proc → Proc
  | done => done
  | note k b e P => note k b e (P.except p)
  | cross k P => cross k (P.except p)
  | offer q P => if q = p then P.except p else offer q (P.except p)
  | recall k f => recall k (fun v => (f v).except p)

/-- One offer. -/
def only (q : Nat) : Proc := offer q done

/-- The offers alone. -/
def offers : List Nat → Proc
  | [] => done
  | q :: l => offer q (offers l)

section
variable (g : Nat → Proc)

/-- Exactly `k` iterations. -/
def times : Nat → Nat → Proc
  | 0, p => only p
  | k + 1, p => (g p).proceed (times k)

/-- At most `k` iterations, more are preferred. -/
def greedyUpTo : Nat → Nat → Proc
  | 0, p => only p
  | k + 1, p => ((g p).proceed (greedyUpTo k)).andThen (only p)

/-- At most `k` iterations, fewer are preferred. -/
def lazyUpTo : Nat → Nat → Proc
  | 0, p => only p
  | k + 1, p => offer p ((g p).proceed (lazyUpTo k))

/-- Iterate the preferred match of each round, at most `k` times. -/
def possessiveUpTo : Nat → Nat → Proc
  | 0, p => only p
  | k + 1, p => (g p).commit (possessiveUpTo k) (only p)

/-- Any number of iterations that advance, more are preferred.  There are no more than the text has characters. -/
def greedyStar : Nat → Nat → Proc
  | 0, _ => done
  | k + 1, p => (((g p).except p).proceed (greedyStar k)).andThen (only p)

/-- Any number of iterations that advance, fewer are preferred. -/
def lazyStar : Nat → Nat → Proc
  | 0, _ => done
  | k + 1, p => offer p (((g p).except p).proceed (lazyStar k))

/-- Iterate the preferred match of each round until there is none or it does not advance. -/
def possessiveStar : Nat → Nat → Proc
  | 0, _ => done
  | k + 1, p => (g p).commit (fun q => if q = p then only p else possessiveStar k q) (only p)

end

/-- The iterations beyond the lower bound: at most `k`, or (`none`) arbitrarily many. -/
def extra (n : Nat) (m : Mode) (ungreedy : Bool) (g : Nat → Proc) : Option Nat → Nat → Proc
  | some k =>
    match m with
    | .possessive => possessiveUpTo g k
    | m => if (m == .greedy) != ungreedy then greedyUpTo g k else lazyUpTo g k
  | none =>
    match m with
    | .possessive => possessiveStar g (n + 1)
    | m => if (m == .greedy) != ungreedy then greedyStar g (n + 1) else lazyStar g (n + 1)

/-- `g{lo,hi}`. -/
def quantified (n : Nat) (m : Mode) (ungreedy : Bool) (lo : Nat) (hi : Bound) (g : Nat → Proc) (p : Nat) : Proc :=
  (match m with | .possessive => (times g lo p).commit only done | _ => times g lo p).proceed
    (extra n m ungreedy g (match hi with | .fin h => some (h - lo) | .inf => none))

end Proc

/-- The same character, up to case if `icase`. -/
def sameChar (icase : Bool) (x y : Byte) : Bool := x == y || (icase && asciiLower x == asciiLower y)

/-- Read the characters of `w`, one after the other in the reading direction. -/
def copies (icase : Bool) (s : List Byte) (fwd : Bool) : List Byte → Nat → List Nat
  | [], p => [p]
  | x :: w, p => (oneChar s fwd (sameChar icase x) p).flatMap (copies icase s fwd w)

/-- A reference to the group `k` inside `r` lookbehinds.  Reading backwards, the last character comes first.  (In a lookbehind that is
nested in another one the library reads forwards, but still takes the characters in reverse order.) -/
def reference (f : Flags) (s : List Byte) (k r p : Nat) : Proc :=
  .recall k (fun v => .offers (copies f.icase s (r % 2 == 0) (if r = 0 then heldText s v else (heldText s v).reverse) p))

mutual
/-- Expressions that read one character and do nothing else. -/
def character : Ast → Bool
  | .lit _ | .range _ _ | .wildcard | .set _ => true
  | .neg a => !assertion a
  | .seq [a] => character a
  | .alt l => !l.isEmpty && characters l
  | .rep _ 1 (.fin 1) a => character a
  | _ => false
def characters : List Ast → Bool
  | [] => true
  | a :: l => character a && characters l
end

mutual
/-- The procedure of `a` at `p`, inside `r` lookbehinds, for odd `r` reading backwards; `inv` as for `ends`; `ν` is the meaning of names. -/
def proc (f : Flags) (s : List Byte) (ν : List Byte → Nat) : Ast → Nat → Bool → Nat → Proc
  | .neg a, r, inv, p =>
      if assertion a then (proc f s ν a r inv p).commit (fun _ => .done) (.only p)
      else .offers (oneChar s (r % 2 == 0) (accepts f (.neg a)) p)
  | .seq l, r, inv, p => procAll f s ν l r inv p
  | .alt l, r, inv, p => procAny f s ν l r inv p
  | .cap id _ a, r, inv, p =>
      ((proc f s ν a r inv p).proceed (fun q => if r % 2 = 0 then .note id p q (.only q) else .note id q p (.only q))).andThen (.cross id .done)
  | .rep m lo hi a, r, inv, p => .quantified s.length m f.ungreedy lo hi (proc f s ν a r inv) p
  | .look d a, r, inv, p =>
      if (d == .ahead) == !inv then (proc f s ν a r false p).commit (fun _ => .only p) .done
      else (proc f s ν a (r + 1) true p).commit (fun _ => .only p) .done
  | .backref k, r, _, p => reference f s k r p
  | .namedBackref n, r, _, p => reference f s (ν n) r p
  | a, r, inv, p => .offers (ends f s a (r % 2 == 0) inv p)
def procAll (f : Flags) (s : List Byte) (ν : List Byte → Nat) : List Ast → Nat → Bool → Nat → Proc
  | [], _, _, p => .only p
  | a :: l, r, inv, p =>
      if inv then (procAll f s ν l r inv p).proceed (proc f s ν a r inv)
      else (proc f s ν a r inv p).proceed (procAll f s ν l r inv)
/-- The alternatives one after the other.  If all that are left are single characters, they are tried at once. -/
def procAny (f : Flags) (s : List Byte) (ν : List Byte → Nat) : List Ast → Nat → Bool → Nat → Proc
  | [], _, _, _ => .done
  | a :: l, r, inv, p =>
      if characters (a :: l) then .offers (oneChar s (r % 2 == 0) (acceptsAny f (a :: l)) p)
      else (proc f s ν a r inv p).andThen (procAny f s ν l r inv p)
end

/-! ### Carrying out a procedure -/

/-- What is noted for the groups. -/
abbrev Notes := Nat → Cap

/-- Another note for the group `k`. -/
def Notes.put (h : Notes) (k : Nat) (v : Cap) : Notes := fun j => if j = k then v else h j

/-- The first accepted offer, and what is noted then (or at the end, if none is accepted).  A note that is crossed out leaves an empty range
at its begin. -/
def Proc.follow (acc : Nat → Bool) : Proc → Notes → Option Nat × Notes
  | .done, h => (none, h)
  | .note k b e P, h => P.follow acc (h.put k (some (b, e)))
  | .cross k P, h => P.follow acc (h.put k ((h k).map (fun x => (x.1, x.1))))
  | .offer q P, h => if acc q then (some q, h) else P.follow acc h
  | .recall k f, h => (f (h k)).follow acc h

/-- Try the start positions one after the other, until there is a match. -/
def tryFrom (g : Nat → Proc) : List Nat → Notes → Option (Nat × Nat) × Notes
  | [], h => (none, h)
  | j :: l, h =>
    match (g j).follow (fun _ => true) h with
    | (some q, h') => (some (j, q), h')
    | (none, h') => tryFrom g l h'

/-- The range of the match that a method finds from `cur` on in a text of length `n`, and what is noted for the groups, given the procedures for
all positions. -/
def carryOut (n : Nat) (g : Nat → Proc) (cur : Nat) (h : Notes) : Method → Option (Nat × Nat) × Notes
  | .match => match (g cur).follow (· == n) h with | (q, h') => (q.map (cur, ·), h')
  | .matchPrefix => match (g cur).follow (fun _ => true) h with | (q, h') => (q.map (cur, ·), h')
  | .search => tryFrom g (List.range' cur (n + 1 - cur)) h

end Mregex.Spec
