import Verif.Model.Methods

/-!
# Extending a continuation by something that cannot fail

If what comes last never fails, then a matcher never has to come back because of it: it makes the same choices
as without it.  This is what lets possessive quantifiers be compared with atomic groups, group contents included.
-/

namespace Mregex
open Ast

/-- Go on with `k` after a success. -/
def Out.andThen (o : Out) (k : Cont) : Out :=
  match o with
  | .ok r c => if r.matched then k r.pos c else .ok r c
  | .ub => .ub
  | .diverge => .diverge

def Cont.andThen (k0 k : Cont) : Cont := fun q c => (k0 q c).andThen k

/-- `k` never reports a failure. -/
def NeverFails (k : Cont) : Prop := ∀ q c q' c', k q c ≠ .ok ⟨q', false⟩ c'

theorem Out.andThen_success (o : Out) : o.andThen success = o := by
  match o with
  | .ok ⟨q, true⟩ c => rfl
  | .ok ⟨q, false⟩ c => rfl
  | .ub => rfl
  | .diverge => rfl

theorem Out.orElse_neverFails {o : Out} (h : ∀ q c, o ≠ .ok ⟨q, false⟩ c) (f : Ctx → Out) : o.orElse f = o := by
  match o with
  | .ok ⟨q, true⟩ c => rfl
  | .ok ⟨q, false⟩ c => exact absurd rfl (h q c)
  | .ub => rfl
  | .diverge => rfl

theorem Out.orElse_andThen (o : Out) (f : Ctx → Out) {k : Cont} (hk : NeverFails k) :
    (o.orElse f).andThen k = (o.andThen k).orElse (fun c => (f c).andThen k) := by
  match o with
  | .ok ⟨q, true⟩ c => exact (Out.orElse_neverFails (hk q c) _).symm
  | .ok ⟨q, false⟩ c => rfl
  | .ub => rfl
  | .diverge => rfl

theorem Out.onMatch_andThen (o : Out) (f : Nat → Ctx → Out) (g : Ctx → Out) (k : Cont) :
    (o.onMatch f g).andThen k = o.onMatch (fun q c => (f q c).andThen k) (fun c => (g c).andThen k) := by
  match o with
  | .ok ⟨q, true⟩ c => rfl
  | .ok ⟨q, false⟩ c => rfl
  | .ub => rfl
  | .diverge => rfl

/-- `m` commutes with extending the continuation. -/
def Natural (m : Matcher) : Prop :=
  ∀ p c (k0 k : Cont), NeverFails k → m p c (k0.andThen k) = (m p c k0).andThen k

/-- With a continuation that never fails, `m` does what it would do alone. -/
theorem Natural.success {m : Matcher} (h : Natural m) (p : Nat) (c : Ctx) {k : Cont} (hk : NeverFails k) :
    m p c k = (m p c success).andThen k := h p c Mregex.success k hk

theorem Natural.seq {m m' : Matcher} (h : Natural m) (h' : Natural m') :
    Natural (fun p c cont => m p c (fun q c' => m' q c' cont)) := by
  intro p c k0 k hk
  have : (fun q c' => m' q c' (k0.andThen k)) = Cont.andThen (fun q c' => m' q c' k0) k := by
    funext q c'; exact h' q c' k0 k hk
  dsimp only
  rw [this]
  exact h p c _ k hk

theorem natural_const (o : Nat → Ctx → Out) (h : ∀ p c k, (o p c).andThen k = o p c) : Natural (fun p c _ => o p c) :=
  fun p c _ k _ => (h p c k).symm

theorem natural_id : Natural (fun p c cont => cont p c) := fun _ _ _ _ _ => rfl

section
variable {E : Env} {r : Nat}

theorem trivMatch_natural (a : Ast) : Natural (trivMatch E r a) := by
  intro p c k0 k hk
  unfold trivMatch
  split
  · rfl
  · split
    · rfl
    · split <;> rfl

theorem seqTriv_natural (l : List Ast) : Natural (seqTriv E r l) := by
  intro p c k0 k hk
  unfold seqTriv
  split
  · rfl
  · split
    · rfl
    · rfl
    · split <;> rfl

theorem seqMatch_natural {m : Ast → Matcher} {l : List Ast} (h : ∀ a ∈ l, Natural (m a)) : Natural (seqMatch E r m l) := by
  match l with
  | [] => exact fun _ _ _ _ _ => rfl
  | a :: l =>
    induction l generalizing a with
    | nil => exact h a (by simp)
    | cons b l ih =>
      unfold seqMatch
      split
      · exact seqTriv_natural _
      · exact (h a (by simp)).seq (ih b (fun x hx => h x (List.mem_cons_of_mem _ hx)))

theorem altMatch_natural {m : Ast → Matcher} {l : List Ast} (h : ∀ a ∈ l, Natural (m a)) : Natural (altMatch E r m l) := by
  match l with
  | [] => exact fun _ _ _ _ _ => rfl
  | a :: l =>
    induction l generalizing a with
    | nil => exact h a (by simp)
    | cons b l ih =>
      unfold altMatch
      split
      · exact trivMatch_natural _
      · intro p c k0 k hk
        dsimp only
        rw [Out.orElse_andThen _ _ hk, h a (by simp) p c k0 k hk]
        congr 1
        funext c'
        exact ih b (fun x hx => h x (List.mem_cons_of_mem _ hx)) p c' k0 k hk

theorem capMatch_natural {id : Nat} {name : GroupName} {m : Matcher} (h : Natural m) : Natural (capMatch E r id name m) := by
  intro p c k0 k hk
  unfold capMatch
  rw [Out.orElse_andThen _ _ hk, ← h p c _ k hk]
  congr 2
  funext q c'
  unfold Cont.andThen
  dsimp only
  split <;> rfl

theorem backrefMatch_natural (g : Cap) : Natural (backrefMatch E r g) := by
  intro p c k0 k hk
  unfold backrefMatch
  dsimp only
  split
  · rfl
  · split
    · rfl
    · split <;> rfl

theorem nonUnrolled_natural {m : Matcher} (h : Natural m) (N : Nat) : Natural (nonUnrolled m N) := by
  match N with
  | 0 => exact fun _ _ _ _ _ => rfl
  | N + 1 =>
    induction N with
    | zero => exact h
    | succ N ih => exact h.seq ih

theorem unrolled_natural {m : Matcher} (h : Natural m) (N : Nat) : Natural (unrolled m N) := by
  match N with
  | 0 => exact natural_id
  | N + 1 =>
    induction N with
    | zero => exact h
    | succ N ih => exact h.seq ih

theorem fixedTriv_natural (a : Ast) (N : Nat) : Natural (fixedTriv E r a N) := by
  intro p c k0 k hk
  unfold fixedTriv
  split
  · rfl
  · split
    · rfl
    · rfl
    · split <;> rfl

theorem fixedBacktracking_natural {a : Ast} {m : Matcher} (h : Natural m) (N : Nat) :
    Natural (fixedBacktracking E r a m N) := by
  unfold fixedBacktracking
  split
  · exact fixedTriv_natural a N
  · split
    · exact unrolled_natural h N
    · exact nonUnrolled_natural h N

theorem commit_natural (m : Matcher) :
    Natural (fun p c cont => (m p c success).onMatch cont (fun c' => nonMatch p c')) := by
  intro p c k0 k _
  dsimp only
  rw [Out.onMatch_andThen]
  rfl

theorem fixedMatch_natural {mode : Mode} {a : Ast} {m : Matcher} (h : Natural m) (N : Nat) :
    Natural (fixedMatch E r mode a m N) := by
  unfold fixedMatch
  split
  · exact natural_id
  · split
    · split
      · exact commit_natural m
      · exact h
    · split
      · exact commit_natural _
      · exact fixedBacktracking_natural h N

theorem possLoop_natural {m : Matcher} (guard inf : Bool) (n : Nat) : Natural (possLoop m guard inf n) := by
  induction n with
  | zero => intro p c k0 k _; unfold possLoop; split <;> rfl
  | succ n ih =>
    intro p c k0 k hk
    unfold possLoop
    rw [Out.onMatch_andThen]
    congr 1
    funext q c'
    split
    · rfl
    · exact ih q c' k0 k hk

theorem possTriv_natural (a : Ast) (inf : Bool) (n : Nat) : Natural (possTriv E r a inf n) := by
  induction n with
  | zero => intro p c k0 k _; unfold possTriv; split <;> rfl
  | succ n ih =>
    intro p c k0 k hk
    unfold possTriv
    split
    · rfl
    · split
      · rfl
      · split
        · exact ih _ c k0 k hk
        · rfl

theorem guardCont_andThen (guard : Bool) (p : Nat) (k0 k : Cont) :
    guardCont guard p (k0.andThen k) = (guardCont guard p k0).andThen k := by
  funext q c
  unfold guardCont Cont.andThen
  dsimp only
  split <;> rfl

theorem greedyLoop_natural {m : Matcher} (h : Natural m) (guard inf : Bool) (n : Nat) :
    Natural (greedyLoop m guard inf n) := by
  induction n with
  | zero => intro p c k0 k _; unfold greedyLoop; split <;> rfl
  | succ n ih =>
    intro p c k0 k hk
    unfold greedyLoop
    have e : (fun q c' => greedyLoop m guard inf n q c' (k0.andThen k)) =
        Cont.andThen (fun q c' => greedyLoop m guard inf n q c' k0) k := by
      funext q c'; exact ih q c' k0 k hk
    rw [Out.orElse_andThen _ _ hk, e, guardCont_andThen, h p c _ k hk]
    rfl

theorem backOff_andThen (i : Nat) (k0 : Cont) {k : Cont} (hk : NeverFails k) (n q : Nat) (c : Ctx) :
    backOff r i (k0.andThen k) n q c = (backOff r i k0 n q c).andThen k := by
  induction n generalizing q c with
  | zero =>
    unfold backOff
    rw [Out.orElse_andThen _ _ hk]
    congr 1
    funext c'
    split <;> rfl
  | succ n ih =>
    unfold backOff
    rw [Out.orElse_andThen _ _ hk]
    congr 1
    funext c'
    split
    · rfl
    · exact ih _ _

theorem greedyTriv_natural (a : Ast) (inf : Bool) (n : Nat) : Natural (greedyTriv E r a inf n) := by
  intro p c k0 k hk
  unfold greedyTriv
  have e : (fun q c' => backOff r p (k0.andThen k) (Env.dist r p q) q c') =
      Cont.andThen (fun q c' => backOff r p k0 (Env.dist r p q) q c') k := by
    funext q c'; exact backOff_andThen p k0 hk _ q c'
  rw [e]
  exact possTriv_natural a inf n p c _ k hk

theorem lazyLoop_natural {m : Matcher} (h : Natural m) (guard inf : Bool) (n : Nat) :
    Natural (lazyLoop m guard inf n) := by
  induction n with
  | zero =>
    intro p c k0 k hk
    unfold lazyLoop
    split
    · rfl
    · rw [Out.orElse_andThen _ _ hk]; rfl
  | succ n ih =>
    intro p c k0 k hk
    unfold lazyLoop
    have e : (fun q c' => lazyLoop m guard inf n q c' (k0.andThen k)) =
        Cont.andThen (fun q c' => lazyLoop m guard inf n q c' k0) k := by
      funext q c'; exact ih q c' k0 k hk
    rw [Out.orElse_andThen _ _ hk, e, guardCont_andThen]
    congr 1
    funext c'
    exact h p c' _ k hk

theorem lazyTriv_natural (a : Ast) (inf : Bool) (n : Nat) : Natural (lazyTriv E r a inf n) := by
  induction n with
  | zero =>
    intro p c k0 k hk
    unfold lazyTriv
    split
    · rfl
    · rw [Out.orElse_andThen _ _ hk]; rfl
  | succ n ih =>
    intro p c k0 k hk
    unfold lazyTriv
    rw [Out.orElse_andThen _ _ hk]
    congr 1
    funext c'
    split
    · rfl
    · split
      · rfl
      · split
        · exact ih _ c' k0 k hk
        · rfl

theorem betweenBounds_natural {mode : Mode} {a : Ast} {m : Matcher} (h : Natural m) (inf : Bool) (n : Nat) :
    Natural (betweenBounds E r mode a m inf n) := by
  unfold betweenBounds
  dsimp only
  split
  · split
    · exact possTriv_natural a inf n
    · exact possLoop_natural _ inf n
  · split
    · split
      · exact greedyTriv_natural a inf n
      · exact greedyLoop_natural h _ inf n
    · split
      · exact lazyTriv_natural a inf n
      · exact lazyLoop_natural h _ inf n

theorem repMatch_natural {fuel : Nat} {mode : Mode} {lo : Nat} {hi : Bound} {a : Ast} {m : Matcher} (h : Natural m) :
    Natural (repMatch E r fuel mode lo hi a m) := by
  unfold repMatch
  split
  · split
    · exact fixedMatch_natural h _
    · split
      · exact fun _ _ _ _ _ => rfl
      · split
        · exact betweenBounds_natural h _ _
        · exact (fixedMatch_natural h _).seq (betweenBounds_natural h _ _)
  · split
    · exact betweenBounds_natural h _ _
    · exact (fixedMatch_natural h _).seq (betweenBounds_natural h _ _)

theorem assertMatch_natural (pred : Nat → Option Bool) : Natural (assertMatch pred) := by
  intro p c k0 k _
  unfold assertMatch
  split
  · rfl
  · split <;> rfl

theorem lookMatch_natural (m : Matcher) : Natural (lookMatch m) := by
  intro p c k0 k _
  unfold lookMatch
  rw [Out.onMatch_andThen]
  rfl

theorem negAssertMatch_natural (m : Matcher) : Natural (negAssertMatch m) := by
  intro p c k0 k _
  unfold negAssertMatch
  rw [Out.onMatch_andThen]
  rfl

end

theorem mtch_natural (E : Env) (fuel : Nat) (a : Ast) (r : Nat) : Natural (mtch E fuel a r) := by
  induction fuel generalizing a r with
  | zero => exact fun _ _ _ _ _ => rfl
  | succ n ih =>
    unfold mtch
    split
    · exact natural_id
    · exact trivMatch_natural _
    · exact trivMatch_natural _
    · exact trivMatch_natural _
    · exact trivMatch_natural _
    · split
      · exact negAssertMatch_natural _
      · exact trivMatch_natural _
    · exact seqMatch_natural (fun a _ => ih a r)
    · exact altMatch_natural (fun a _ => ih a r)
    · exact capMatch_natural (ih _ r)
    · exact repMatch_natural (ih _ r)
    · split
      · exact assertMatch_natural _
      · exact lookMatch_natural _
    · split
      · exact assertMatch_natural _
      · split
        · exact fun _ _ _ _ _ => rfl
        · exact lookMatch_natural _
    · exact assertMatch_natural _
    · exact assertMatch_natural _
    · exact assertMatch_natural _
    · exact assertMatch_natural _
    · exact assertMatch_natural _
    · intro p c k0 k hk
      dsimp only
      split
      · rfl
      · exact backrefMatch_natural _ p c k0 k hk
    · intro p c k0 k hk
      dsimp only
      split
      · rfl
      · split
        · rfl
        · exact backrefMatch_natural _ p c k0 k hk

/-! ## Possessive quantifiers -/

theorem NeverFails.success : NeverFails success := by
  intro q c q' c' h
  cases h

/-- Trying a committed matcher and going on is the same as going on from its only result. -/
def Committing (m : Matcher) : Prop := ∀ p c k, m p c k = (m p c success).andThen k

theorem possLoop_committing {m : Matcher} (guard inf : Bool) (n : Nat) : Committing (possLoop m guard inf n) := by
  induction n with
  | zero => intro p c k; unfold possLoop; split <;> rfl
  | succ n ih =>
    intro p c k
    unfold possLoop
    rw [Out.onMatch_andThen]
    congr 1
    funext q c'
    split
    · rfl
    · exact ih q c' k

section
variable {E : Env} {r : Nat}

theorem trivMatch_committing (a : Ast) : Committing (trivMatch E r a) := by
  intro p c k
  unfold trivMatch
  split
  · rfl
  · split
    · rfl
    · split <;> rfl

theorem possTriv_committing (a : Ast) (inf : Bool) (n : Nat) : Committing (possTriv E r a inf n) := by
  induction n with
  | zero => intro p c k; unfold possTriv; split <;> rfl
  | succ n ih =>
    intro p c k
    unfold possTriv
    split
    · rfl
    · split
      · rfl
      · split
        · exact ih _ c k
        · rfl

theorem greedyLoop_neverFails {m : Matcher} (guard inf : Bool) (n : Nat) {k : Cont} (hk : NeverFails k) :
    NeverFails (fun q c => greedyLoop m guard inf n q c k) := by
  intro q c q' c'
  cases n with
  | zero =>
    unfold greedyLoop
    dsimp only
    split
    · intro h; cases h
    · exact hk q c q' c'
  | succ n =>
    unfold greedyLoop
    dsimp only
    generalize m q c _ = o
    match o with
    | .ok ⟨_, true⟩ _ => intro h; cases h
    | .ok ⟨_, false⟩ c'' => exact hk q c'' q' c'
    | .ub => intro h; cases h
    | .diverge => intro h; cases h

theorem guardCont_false (p : Nat) (k : Cont) : guardCont false p k = k := by
  funext q c
  simp [guardCont]

/-- Without a guard, the greedy loop alone takes exactly the iterations of the possessive one. -/
theorem greedyLoop_success {m : Matcher} (h : Natural m) (inf : Bool) (n p : Nat) (c : Ctx) :
    greedyLoop m false inf n p c success = possLoop m false inf n p c success := by
  induction n generalizing p c with
  | zero => rfl
  | succ n ih =>
    unfold greedyLoop possLoop
    rw [guardCont_false, h.success p c (greedyLoop_neverFails false inf n NeverFails.success)]
    match m p c success with
    | .ok ⟨q, true⟩ c' =>
      simp only [Out.andThen, Out.onMatch, Bool.false_and, if_true, Bool.false_eq_true, if_false]
      rw [Out.orElse_neverFails, ih]
      exact greedyLoop_neverFails false inf n NeverFails.success q c'
    | .ok ⟨q, false⟩ c' => rfl
    | .ub => rfl
    | .diverge => rfl

theorem greedyTriv_success (a : Ast) (inf : Bool) (n p : Nat) (c : Ctx) :
    greedyTriv E r a inf n p c success = possTriv E r a inf n p c success := by
  unfold greedyTriv
  congr 1
  funext q c'
  cases Env.dist r p q <;> rfl

theorem possLoop_triv (a : Ast) (inf : Bool) (n p : Nat) (c : Ctx) (k : Cont) :
    possLoop (trivMatch E r a) false inf n p c k = possTriv E r a inf n p c k := by
  induction n generalizing p with
  | zero => rfl
  | succ n ih =>
    unfold possLoop possTriv trivMatch
    split
    · rfl
    · split
      · rfl
      · split
        · simp only [success, Out.onMatch, if_true, Bool.false_and, Bool.false_eq_true, if_false]
          exact ih _
        · rfl

/-- Between the bounds, possessive is: greedy alone, then commit. -/
theorem betweenBounds_possessive {a : Ast} {m : Matcher} (h : Natural m) (hm : triv a = true → m = trivMatch E r a)
    (hu : E.flags.ungreedy = false) (inf : Bool) (hz : inf = true → zlm a = false) (n p : Nat) (c : Ctx) (k : Cont) :
    betweenBounds E r .possessive a m inf n p c k = (betweenBounds E r .greedy a m inf n p c success).andThen k ∧
    NeverFails (fun q c => betweenBounds E r .greedy a m inf n q c success) := by
  have hg : (inf && zlm a) = false := by
    cases inf with
    | false => rfl
    | true => simp [hz rfl]
  have e : betweenBounds E r .greedy a m inf n =
      if triv a && E.cat != .forward then greedyTriv E r a inf n else greedyLoop m false inf n := by
    unfold betweenBounds
    rw [hg, hu]
    rfl
  have e' : betweenBounds E r .possessive a m inf n =
      if triv a then possTriv E r a inf n else possLoop m false inf n := by
    unfold betweenBounds
    rw [hg]
    rfl
  have key : ∀ p c, betweenBounds E r .greedy a m inf n p c success = greedyLoop m false inf n p c success := by
    intro p c
    rw [e]
    split
    · next ht =>
      simp only [Bool.and_eq_true] at ht
      rw [greedyTriv_success, greedyLoop_success h, hm ht.1, possLoop_triv]
    · rfl
  refine ⟨?_, ?_⟩
  · rw [key, greedyLoop_success h, e']
    split
    · next ht =>
      rw [possTriv_committing, hm ht, possLoop_triv]
    · exact possLoop_committing _ _ _ p c k
  · simp only [key]
    exact greedyLoop_neverFails false inf n NeverFails.success

theorem onMatch_eq_andThen {o : Out} {k : Cont} {g : Ctx → Out} (h : ∀ q c, o ≠ .ok ⟨q, false⟩ c) :
    o.onMatch k g = o.andThen k := by
  match o with
  | .ok ⟨q, true⟩ c => rfl
  | .ok ⟨q, false⟩ c => exact absurd rfl (h q c)
  | .ub => rfl
  | .diverge => rfl

theorem fixedMatch_possessive {a : Ast} {m : Matcher} (hm : triv a = true → m = trivMatch E r a) (N p : Nat) (c : Ctx) (k : Cont) :
    fixedMatch E r .possessive a m N p c k =
      (fixedMatch E r .greedy a m N p c success).onMatch k (fun c' => nonMatch p c') := by
  unfold fixedMatch
  split
  · rfl
  · split
    · split
      · simp
      · next h =>
        have ht : triv a = true := by
          cases ht : triv a with
          | true => rfl
          | false => exact absurd ⟨rfl, ht⟩ h
        rw [if_neg (by rintro ⟨h, _⟩; cases h), hm ht]
        unfold trivMatch
        split
        · rfl
        · split
          · rfl
          · split <;> rfl
    · rw [if_pos rfl, if_neg (by decide)]

/-- `X{n,m}+` is `(?>X{n,m})`, as matchers: same positions, same captures, whatever comes next. -/
theorem repMatch_possessive {fuel : Nat} {lo : Nat} {hi : Bound} {a : Ast} {m : Matcher} (h : Natural m)
    (hm : triv a = true → m = trivMatch E r a) (hu : E.flags.ungreedy = false) (hz : hi = .inf → zlm a = false)
    (p : Nat) (c : Ctx) (k : Cont) :
    repMatch E r fuel .possessive lo hi a m p c k =
      (repMatch E r fuel .greedy lo hi a m p c success).onMatch k (fun c' => nonMatch p c') := by
  have two : ∀ inf n, (inf = true → zlm a = false) →
      fixedMatch E r .possessive a m lo p c (fun q c' => betweenBounds E r .possessive a m inf n q c' k) =
      (fixedMatch E r .greedy a m lo p c (fun q c' => betweenBounds E r .greedy a m inf n q c' success)).onMatch k
        (fun c' => nonMatch p c') := by
    intro inf n hz
    have hnf := (betweenBounds_possessive h hm hu inf hz n p c k).2
    rw [fixedMatch_possessive hm, (fixedMatch_natural h lo).success p c hnf]
    match fixedMatch E r .greedy a m lo p c success with
    | .ok ⟨q, true⟩ c' =>
      simp only [Out.andThen, Out.onMatch, if_true]
      rw [(betweenBounds_possessive h hm hu inf hz n q c' k).1]
      exact (onMatch_eq_andThen (hnf q c')).symm
    | .ok ⟨q, false⟩ c' => rfl
    | .ub => rfl
    | .diverge => rfl
  have zero : ∀ inf n, (inf = true → zlm a = false) →
      betweenBounds E r .possessive a m inf n p c k =
      (betweenBounds E r .greedy a m inf n p c success).onMatch k (fun c' => nonMatch p c') := by
    intro inf n hz
    rw [(betweenBounds_possessive h hm hu inf hz n p c k).1]
    exact (onMatch_eq_andThen ((betweenBounds_possessive h hm hu inf hz n p c k).2 p c)).symm
  unfold repMatch
  split
  · split
    · exact fixedMatch_possessive hm lo p c k
    · split
      · rfl
      · split
        · exact zero false _ (by intro h; cases h)
        · exact two false _ (by intro h; cases h)
  · split
    · exact zero true _ (fun _ => hz rfl)
    · exact two true _ (fun _ => hz rfl)

end
end Mregex
