import Verif.Spec.Proc
import Verif.Spec.Lengths

/-!
# What is looked at

Procedures (`Verif.Spec.Proc`) that do not know the text: whenever they need a character they ask for it.  Carrying them out on a text gives, besides the match and the notes for
the groups, the positions that were asked for.  Asking for the position behind the last character means asking whether the text ends there.
-/

namespace Mregex.Spec
open Mregex

inductive Watch
  | done
  | note (k b e : Nat) (next : Watch)
  | cross (k : Nat) (next : Watch)
  | offer (q : Nat) (next : Watch)
  | recall (k : Nat) (next : Cap → Watch)
  /-- What follows depends on the character at `t`, or on there being none. -/
  | look (t : Nat) (next : Option Byte → Watch)

namespace Watch

/-- One after the other. -/
def andThen : Watch → Watch → Watch
  | done, Q => Q
  | note k b e P, Q => note k b e (P.andThen Q)
  | cross k P, Q => cross k (P.andThen Q)
  | offer q P, Q => offer q (P.andThen Q)
  | recall k f, Q => recall k (fun v => (f v).andThen Q)
  | look t f, Q => look t (fun x => (f x).andThen Q)

/-- Every offer is continued by another procedure. -/
def proceed (g : Nat → Watch) : Watch → Watch
  | done => done
  | note k b e P => note k b e (P.proceed g)
  | cross k P => cross k (P.proceed g)
  | offer q P => (g q).andThen (P.proceed g)
  | recall k f => recall k (fun v => (f v).proceed g)
  | look t f => look t (fun x => (f x).proceed g)

/-- Up to the first offer, continued by `f`; `h` if there is no offer. -/
def commit (f : Nat → Watch) : Watch → Watch → Watch
  | done, h => h
  | note k b e P, h => note k b e (P.commit f h)
  | cross k P, h => cross k (P.commit f h)
  | offer q _, _ => f q
  | recall k g, h => recall k (fun v => (g v).commit f h)
  | look t g, h => look t (fun x => (g x).commit f h)

/-- Without the offers of `p`. -/
def except (p : Nat) : Watch → Watch
  | done => done
  | note k b e P => note k b e (P.except p)
  | cross k P => cross k (P.except p)
  | offer q P => if q = p then P.except p else offer q (P.except p)
  | recall k f => recall k (fun v => (f v).except p)
  | look t f => look t (fun x => (f x).except p)

/-- One offer. -/
def only (q : Nat) : Watch := offer q done

section
variable (g : Nat → Watch)

/-- Exactly `k` iterations. -/
def times : Nat → Nat → Watch
  | 0, p => only p
  | k + 1, p => (g p).proceed (times k)

/-- At most `k` iterations, more are preferred. -/
def greedyUpTo : Nat → Nat → Watch
  | 0, p => only p
  | k + 1, p => ((g p).proceed (greedyUpTo k)).andThen (only p)

/-- At most `k` iterations, fewer are preferred. -/
def lazyUpTo : Nat → Nat → Watch
  | 0, p => only p
  | k + 1, p => offer p ((g p).proceed (lazyUpTo k))

/-- Iterate the preferred match of each round, at most `k` times. -/
def possessiveUpTo : Nat → Nat → Watch
  | 0, p => only p
  | k + 1, p => (g p).commit (possessiveUpTo k) (only p)

/-- Any number of iterations that advance (but less than `k`), more are preferred. -/
def greedyStar : Nat → Nat → Watch
  | 0, _ => done
  | k + 1, p => (((g p).except p).proceed (greedyStar k)).andThen (only p)

/-- Any number of iterations that advance, fewer are preferred. -/
def lazyStar : Nat → Nat → Watch
  | 0, _ => done
  | k + 1, p => offer p (((g p).except p).proceed (lazyStar k))

/-- Iterate the preferred match of each round until there is none or it does not advance. -/
def possessiveStar : Nat → Nat → Watch
  | 0, _ => done
  | k + 1, p => (g p).commit (fun q => if q = p then only p else possessiveStar k q) (only p)

end

/-- The iterations beyond the lower bound: at most `k`, or (`none`) arbitrarily many, which are no more than `N` that advance. -/
def extra (N : Nat) (m : Mode) (ungreedy : Bool) (g : Nat → Watch) : Option Nat → Nat → Watch
  | some k =>
    match m with
    | .possessive => possessiveUpTo g k
    | m => if (m == .greedy) != ungreedy then greedyUpTo g k else lazyUpTo g k
  | none =>
    match m with
    | .possessive => possessiveStar g (N + 1)
    | m => if (m == .greedy) != ungreedy then greedyStar g (N + 1) else lazyStar g (N + 1)

/-- `g{lo,hi}`. -/
def quantified (N : Nat) (m : Mode) (ungreedy : Bool) (lo : Nat) (hi : Bound) (g : Nat → Watch) (p : Nat) : Watch :=
  (match m with | .possessive => (times g lo p).commit only done | _ => times g lo p).proceed
    (extra N m ungreedy g (match hi with | .fin h => some (h - lo) | .inf => none))

end Watch

/-! ### Asking -/

/-- Offer `q` if `b`. -/
def offerIf (b : Bool) (q : Nat) : Watch := if b then .only q else .done

/-- Ask for the next character in the reading direction. -/
def askChar (fwd : Bool) (P : Byte → Bool) (p : Nat) : Watch :=
  if fwd then .look p fun x => match x with | some x => offerIf (P x) (p + 1) | none => .done
  else match p with
    | 0 => .done
    | k + 1 => .look k fun x => match x with | some x => offerIf (P x) k | none => .done

/-- Is the character a line break? -/
def breakChar : Option Byte → Bool
  | none => false
  | some x => x == 10#8 || x == 13#8

/-- Is the character a letter, a digit or `_`? -/
def wordChar : Option Byte → Bool
  | none => false
  | some x => inRange 48#8 57#8 x || inRange 65#8 90#8 x || x == 95#8 || inRange 97#8 122#8 x

/-- Ask for the character before `p`. -/
def askBefore (p : Nat) (k : Option Byte → Watch) : Watch :=
  match p with
  | 0 => k none
  | j + 1 => .look j k

/-- The first position; with `multi`, also behind a line break. -/
def askStart (multi : Bool) (p : Nat) : Watch :=
  if p = 0 then .only p else if multi then askBefore p fun x => offerIf (breakChar x) p else .done

/-- The end of the text; with `multi`, also before a line break. -/
def askStop (multi : Bool) (p : Nat) : Watch :=
  .look p fun x => match x with
    | some x => offerIf (multi && breakChar (some x)) p
    | none => if p = 0 then .only p else askBefore p fun y => offerIf y.isSome p

/-- A word boundary. -/
def askBoundary (p : Nat) : Watch := askBefore p fun x => .look p fun y => offerIf (wordChar x != wordChar y) p

/-- Ask for the `c` characters from `b` on. -/
def askText : Nat → Nat → (List Byte → Watch) → Watch
  | _, 0, k => k []
  | b, c + 1, k => .look b fun x => match x with | some x => askText (b + 1) c fun w => k (x :: w) | none => k []

/-- The characters of `w`, one after the other in the reading direction. -/
def askCopies (icase fwd : Bool) : List Byte → Nat → Watch
  | [], p => .only p
  | x :: w, p => (askChar fwd (sameChar icase x) p).proceed (askCopies icase fwd w)

/-- A reference to the group `k` inside `r` lookbehinds. -/
def askReference (f : Flags) (k r p : Nat) : Watch :=
  .recall k fun v => match v with
    | none => .only p
    | some (b, e) => askText b (e - b) fun w => askCopies f.icase (r % 2 == 0) (if r = 0 then w else w.reverse) p

mutual
/-- Like `proc`, without knowing the text. -/
def watch (N : Nat) (f : Flags) (ν : List Byte → Nat) : Ast → Nat → Bool → Nat → Watch
  | .empty, _, _, p => .only p
  | .lit c, r, _, p => askChar (r % 2 == 0) (accepts f (.lit c)) p
  | .range a b, r, _, p => askChar (r % 2 == 0) (accepts f (.range a b)) p
  | .wildcard, r, _, p => askChar (r % 2 == 0) (accepts f .wildcard) p
  | .set l, r, _, p => askChar (r % 2 == 0) (accepts f (.set l)) p
  | .neg a, r, inv, p =>
      if assertion a then (watch N f ν a r inv p).commit (fun _ => .done) (.only p)
      else askChar (r % 2 == 0) (accepts f (.neg a)) p
  | .seq l, r, inv, p => watchAll N f ν l r inv p
  | .alt l, r, inv, p => watchAny N f ν l r inv p
  | .cap id _ a, r, inv, p =>
      ((watch N f ν a r inv p).proceed (fun q => if r % 2 = 0 then .note id p q (.only q) else .note id q p (.only q))).andThen (.cross id .done)
  | .rep m lo hi a, r, inv, p => .quantified N m f.ungreedy lo hi (watch N f ν a r inv) p
  | .look d a, r, inv, p =>
      if (d == .ahead) == !inv then (watch N f ν a r false p).commit (fun _ => .only p) .done
      else (watch N f ν a (r + 1) true p).commit (fun _ => .only p) .done
  | .bol, r, _, p => if r % 2 == 0 then askStart f.multiline p else askStop f.multiline p
  | .boi, r, _, p => if r % 2 == 0 then askStart false p else askStop false p
  | .eol, r, _, p => if r % 2 == 0 then askStop f.multiline p else askStart f.multiline p
  | .eoi, r, _, p => if r % 2 == 0 then askStop false p else askStart false p
  | .wordB, _, _, p => askBoundary p
  | .backref k, r, _, p => askReference f k r p
  | .namedBackref n, r, _, p => askReference f (ν n) r p
def watchAll (N : Nat) (f : Flags) (ν : List Byte → Nat) : List Ast → Nat → Bool → Nat → Watch
  | [], _, _, p => .only p
  | a :: l, r, inv, p =>
      if inv then (watchAll N f ν l r inv p).proceed (watch N f ν a r inv)
      else (watch N f ν a r inv p).proceed (watchAll N f ν l r inv)
def watchAny (N : Nat) (f : Flags) (ν : List Byte → Nat) : List Ast → Nat → Bool → Nat → Watch
  | [], _, _, _ => .done
  | a :: l, r, inv, p =>
      if characters (a :: l) then askChar (r % 2 == 0) (acceptsAny f (a :: l)) p
      else (watch N f ν a r inv p).andThen (watchAny N f ν l r inv p)
end

/-! ### Carrying out -/

/-- What comes out: the first offer, what is noted then, and the positions that were looked at. -/
structure Witnessed (α : Type) where
  found : Option α
  notes : Notes
  asked : List Nat

/-- The text answers the questions; the first offer is taken. -/
def Watch.run (s : List Byte) : Watch → Notes → Witnessed Nat
  | .done, h => ⟨none, h, []⟩
  | .note k b e P, h => P.run s (h.put k (some (b, e)))
  | .cross k P, h => P.run s (h.put k ((h k).map (fun x => (x.1, x.1))))
  | .offer q _, h => ⟨some q, h, []⟩
  | .recall k f, h => (f (h k)).run s h
  | .look t f, h => let o := (f s[t]?).run s h; ⟨o.found, o.notes, t :: o.asked⟩

/-- Try the positions from `j` on, as long as there are characters, at most `k` of them. -/
def hunt (s : List Byte) (g : Nat → Watch) : Nat → Nat → Notes → Witnessed (Nat × Nat)
  | 0, _, h => ⟨none, h, []⟩
  | k + 1, j, h =>
    let o := (g j).run s h
    match o.found with
    | some q => ⟨some (j, q), o.notes, o.asked⟩
    | none =>
      match s[j]? with
      | none => ⟨none, o.notes, o.asked ++ [j]⟩
      | some _ => let o' := hunt s g k (j + 1) o.notes; ⟨o'.found, o'.notes, o.asked ++ j :: o'.asked⟩

/-- Carry out a method from `cur` on.  A match of the whole text asks at every offer whether the text ends there. -/
def watchOut (N : Nat) (s : List Byte) (g : Nat → Watch) (cur : Nat) (h : Notes) : Method → Witnessed (Nat × Nat)
  | .match => let o := ((g cur).proceed (askStop false)).run s h; ⟨o.found.map (cur, ·), o.notes, o.asked⟩
  | .matchPrefix => let o := (g cur).run s h; ⟨o.found.map (cur, ·), o.notes, o.asked⟩
  | .search => hunt s g (N + 1 - cur) cur h

/-- The positions that a call of the method `M` from `cur` on looks at. -/
def looked (R : Regex) (ν : List Byte → Nat) (M : Method) (s : List Byte) (cur : Nat) : List Nat :=
  (watchOut s.length s (watch s.length (Flags.ofList R.flags) ν R.ast 0 false) cur (fun _ => none) M).asked

/-- How far a part of at most `m` characters takes one, in the reading direction `fwd`. -/
def drift (fwd : Bool) (m : Option Nat) : Option Nat := if fwd then m else some 0

mutual
/-- How many characters from a position on an expression may look at there, read off the expression; `none`: there is no limit.  `fwd`, `inv` as for `ends`. -/
def reach : Ast → Bool → Bool → Option Nat
  | .lit _, fwd, _ | .range _ _, fwd, _ | .wildcard, fwd, _ | .set _, fwd, _ | .eol, fwd, _ | .eoi, fwd, _ => some (if fwd then 1 else 0)
  | .bol, fwd, _ | .boi, fwd, _ => some (if fwd then 0 else 1)
  | .wordB, _, _ => some 1
  | .empty, _, _ => some 0
  | .neg a, fwd, inv => if assertion a then reach a fwd inv else some (if fwd then 1 else 0)
  | .seq l, fwd, inv => reachAll l fwd inv
  | .alt l, fwd, inv => reachAny l fwd inv
  | .cap _ _ a, fwd, inv => reach a fwd inv
  | .rep _ lo (.fin hi) a, fwd, inv =>
      if max lo hi = 0 then some 0 else addLimit ((drift fwd (longest a)).map ((max lo hi - 1) * ·)) (reach a fwd inv)
  | .rep _ _ .inf a, fwd, inv => addLimit (anyRounds (drift fwd (longest a))) (reach a fwd inv)
  | .look d a, fwd, inv => if (d == .ahead) == !inv then reach a fwd false else reach a (!fwd) true
  | .backref _, _, _ | .namedBackref _, _, _ => none
def reachAll : List Ast → Bool → Bool → Option Nat
  | [], _, _ => some 0
  | a :: l, fwd, inv =>
      if inv then maxLimit (reachAll l fwd inv) (addLimit (drift fwd (longestAll l)) (reach a fwd inv))
      else maxLimit (reach a fwd inv) (addLimit (drift fwd (longest a)) (reachAll l fwd inv))
def reachAny : List Ast → Bool → Bool → Option Nat
  | [], _, _ => some 0
  | a :: l, fwd, inv => maxLimit (reach a fwd inv) (reachAny l fwd inv)
end

/-- The same verdict, the same contents of all groups, and, if there is one, the same match. -/
def SameOutcome (a : Ast) (res res' : Result) : Prop :=
  res'.matched = res.matched ∧ (res.matched = true → res'.group 0 = res.group 0) ∧ ∀ k, k ≠ 0 → k ≤ a.captureCount → res'.group k = res.group k

/-- The same outcomes, one by one. -/
def SameOutcomes (a : Ast) : List Result → List Result → Prop
  | [], [] => True
  | res :: l, res' :: l' => SameOutcome a res res' ∧ SameOutcomes a l l'
  | _, _ => False

end Mregex.Spec
