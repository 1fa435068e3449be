import Verif.Proof.AstLemmas
import Verif.Proof.Positions
import Verif.Spec.Static

/-!
# Runs that agree except for the position reported on failure

The iterator category influences the overloads taken by the library, and those report different positions on failure.
-/

namespace Mregex
open Ast

/-- The same outcome up to the position of a failure; ends of matches are at most `n`. -/
inductive Sim (n : Nat) : Out → Out → Prop
  | hit {q c} : q ≤ n → Sim n (.ok ⟨q, true⟩ c) (.ok ⟨q, true⟩ c)
  | miss {q q' c} : Sim n (.ok ⟨q, false⟩ c) (.ok ⟨q', false⟩ c)
  | ub : Sim n .ub .ub
  | diverge : Sim n .diverge .diverge

theorem Sim.symm {n : Nat} {o o' : Out} (h : Sim n o o') : Sim n o' o := by
  cases h with
  | hit h => exact .hit h
  | miss => exact .miss
  | ub => exact .ub
  | diverge => exact .diverge

theorem Sim.trans {n : Nat} {o o' o'' : Out} (h : Sim n o o') (h' : Sim n o' o'') : Sim n o o'' := by
  cases h with
  | hit h => exact h'
  | miss => cases h'; exact .miss
  | ub => exact h'
  | diverge => exact h'

theorem Sim.nonMatch {n p q : Nat} {c : Ctx} : Sim n (Mregex.nonMatch p c) (Mregex.nonMatch q c) := .miss

theorem Sim.orElse {n : Nat} {o o' : Out} (h : Sim n o o') {f f' : Ctx → Out} (hf : ∀ c, Sim n (f c) (f' c)) :
    Sim n (o.orElse f) (o'.orElse f') := by
  cases h with
  | hit h => exact .hit h
  | miss => exact hf _
  | ub => exact .ub
  | diverge => exact .diverge

theorem Sim.onMatch {n : Nat} {o o' : Out} (h : Sim n o o') {f f' : Nat → Ctx → Out} {g g' : Ctx → Out}
    (hf : ∀ q c, q ≤ n → Sim n (f q c) (f' q c)) (hg : ∀ c, Sim n (g c) (g' c)) :
    Sim n (o.onMatch f g) (o'.onMatch f' g') := by
  cases h with
  | hit h => exact hf _ _ h
  | miss => exact hg _
  | ub => exact .ub
  | diverge => exact .diverge

theorem Sim.orElse_nonMatch {n : Nat} {o o' : Out} (h : Sim n o o') {p : Nat} :
    Sim n (o.orElse (fun c => Mregex.nonMatch p c)) o' := by
  cases h with
  | hit h => exact .hit h
  | miss => exact .miss
  | ub => exact .ub
  | diverge => exact .diverge

theorem orElse_assoc {o : Out} {f g : Ctx → Out} :
    (o.orElse f).orElse g = o.orElse (fun c => (f c).orElse g) := by
  match o with
  | .ok ⟨_, true⟩ _ | .ok ⟨_, false⟩ _ | .ub | .diverge => rfl

/-- Continuations that agree on positions inside of an input of length `n`. -/
def CSim (n : Nat) (k k' : Cont) : Prop := ∀ q c, q ≤ n → Sim n (k q c) (k' q c)

/-- Matchers that agree on positions inside of an input of length `n`. -/
def MSim (n : Nat) (m m' : Matcher) : Prop :=
  ∀ p c k k', p ≤ n → CSim n k k' → Sim n (m p c k) (m' p c k')

theorem CSim.success (n : Nat) : CSim n success success := fun _ _ h => .hit h

theorem CSim.equals (n t : Nat) : CSim n (equals t) (equals t) := by
  intro q c h
  unfold Mregex.equals
  cases (q == t)
  · exact .miss
  · exact .hit h

theorem CSim.symm {n : Nat} {k k' : Cont} (h : CSim n k k') : CSim n k' k := fun q c hq => (h q c hq).symm

theorem CSim.left {n : Nat} {k k' : Cont} (h : CSim n k k') : CSim n k k := fun q c hq => (h q c hq).trans (h q c hq).symm

theorem MSim.symm {n : Nat} {m m' : Matcher} (h : MSim n m m') : MSim n m' m :=
  fun p c k k' hp hk => (h p c k' k hp hk.symm).symm

theorem MSim.trans {n : Nat} {m m' m'' : Matcher} (h : MSim n m m') (h' : MSim n m' m'') : MSim n m m'' :=
  fun p c k k' hp hk => (h p c k k hp hk.left).trans (h' p c k k' hp hk)

theorem MSim.left {n : Nat} {m m' : Matcher} (h : MSim n m m') : MSim n m m := h.trans h.symm
theorem MSim.right {n : Nat} {m m' : Matcher} (h : MSim n m m') : MSim n m' m' := h.symm.trans h

theorem MSim.id {n : Nat} : MSim n (fun p c k => k p c) (fun p c k => k p c) := fun p c _ _ hp hk => hk p c hp

theorem MSim.comp {n : Nat} {m m' m2 m2' : Matcher} (h : MSim n m m') (h2 : MSim n m2 m2') :
    MSim n (fun p c k => m p c (fun q c' => m2 q c' k)) (fun p c k => m' p c (fun q c' => m2' q c' k)) :=
  fun p c _ _ hp hk => h p c _ _ hp (fun q c' hq => h2 q c' _ _ hq hk)

theorem MSim.commit {n : Nat} {m m' m2 m2' : Matcher} (h : MSim n m m') (h2 : MSim n m2 m2') :
    MSim n (fun p c k => (m p c success).onMatch (fun q c' => m2 q c' k) (fun c' => Mregex.nonMatch p c'))
      (fun p c k => (m' p c success).onMatch (fun q c' => m2' q c' k) (fun c' => Mregex.nonMatch p c')) :=
  fun p c _ _ hp hk => (h p c _ _ hp (.success n)).onMatch (fun q c' hq => h2 q c' _ _ hq hk) (fun _ => .nonMatch)

/-! ### Two environments that differ in the iterator category only -/

section
variable {E : Env} {cat' : Cat}

/-- The same environment with another iterator category. -/
abbrev Env.withCat (E : Env) (cat' : Cat) : Env := { E with cat := cat' }

theorem next_le {r p : Nat} {x : Byte} (h : E.deref r p = some x) : Env.next r p ≤ E.inp.length := by
  unfold Env.deref at h
  unfold Env.next
  split at h
  · next hr =>
    simp only [hr, if_true]
    exact (List.getElem?_eq_some_iff.1 h).1
  · next hr =>
    simp only [hr, if_false]
    split at h
    · cases h
    · have := (List.getElem?_eq_some_iff.1 h).1; omega

theorem distLoop_eq {r : Nat} : ∀ N p, p ≤ E.inp.length → E.distLoop r N p = decide (E.remaining r p < N) := by
  intro N
  induction N with
  | zero => intro p _; simp [Env.distLoop]
  | succ N ih =>
    intro p hp
    unfold Env.distLoop
    cases he : E.atEnd r p with
    | true => simp [(Env.atEnd_iff hp).1 he]
    | false =>
      have hr : E.remaining r p ≠ 0 := fun h => by rw [(Env.atEnd_iff hp).2 h] at he; cases he
      have hn := Env.remaining_next hp hr
      have hle : Env.next r p ≤ E.inp.length := (Env.reach_next hp hr).right_le
      rw [if_neg (by simp), ih _ hle]
      simp only [decide_eq_decide]
      omega

theorem distanceLessThan_eq {r N p : Nat} (hp : p ≤ E.inp.length) :
    E.distanceLessThan r N p = decide (E.remaining r p < N) := by
  unfold Env.distanceLessThan
  cases E.cat with
  | randomAccess => rfl
  | _ => exact distLoop_eq N p hp

theorem distanceLessThan_cat {r N p : Nat} (hp : p ≤ E.inp.length) :
    (E.withCat cat').distanceLessThan r N p = E.distanceLessThan r N p := by
  rw [distanceLessThan_eq hp, distanceLessThan_eq (E := E.withCat cat') hp]; rfl

theorem msim_triv (r : Nat) (a : Ast) : MSim E.inp.length (trivMatch E r a) (trivMatch (E.withCat cat') r a) := by
  intro p c k k' hp hk
  unfold trivMatch
  show Sim _ (if E.atEnd r p then _ else _) (if E.atEnd r p then _ else _)
  split
  · exact .nonMatch
  · show Sim _ (match E.deref r p with | none => _ | some x => _) (match E.deref r p with | none => _ | some x => _)
    cases hx : E.deref r p with
    | none => exact .ub
    | some x =>
      dsimp only
      split
      · exact hk _ _ (next_le hx)
      · exact .nonMatch

theorem runTriv_le {r : Nat} : ∀ l p q, p ≤ E.inp.length → runTriv E r l p = .done q → q ≤ E.inp.length := by
  intro l
  induction l with
  | nil => intro p q hp h; cases h; exact hp
  | cons a l ih =>
    intro p q hp h
    unfold runTriv at h
    cases hx : E.deref r p with
    | none => rw [hx] at h; cases h
    | some x =>
      rw [hx] at h
      dsimp only at h
      split at h
      · exact ih _ _ (next_le hx) h
      · cases h

theorem runTriv_cat {r : Nat} : ∀ l p, runTriv (E.withCat cat') r l p = runTriv E r l p := by
  intro l
  induction l with
  | nil => intro p; rfl
  | cons a l ih =>
    intro p
    unfold runTriv
    show (match E.deref r p with | none => _ | some x => _) = (match E.deref r p with | none => _ | some x => _)
    cases E.deref r p with
    | none => rfl
    | some x => dsimp only; rw [ih]

theorem sim_run {n : Nat} {k k' : Cont} (hk : CSim n k k') {c : Ctx} {run : Run} (hrun : ∀ q, run = .done q → q ≤ n)
    {p p' : Nat → Nat} :
    Sim n (match run with | .ub => .ub | .done q => k q c | .fail q => nonMatch (p q) c)
      (match run with | .ub => .ub | .done q => k' q c | .fail q => nonMatch (p' q) c) := by
  cases run with
  | ub => exact .ub
  | done q => exact hk q c (hrun q rfl)
  | fail q => exact .miss

theorem msim_seqTriv (r : Nat) (l : List Ast) : MSim E.inp.length (seqTriv E r l) (seqTriv (E.withCat cat') r l) := by
  intro p c k k' hp hk
  unfold seqTriv
  rw [distanceLessThan_cat (cat' := cat') hp, runTriv_cat (cat' := cat')]
  split
  · exact .nonMatch
  · cases hr : runTriv E r l p with
    | ub => exact .ub
    | done q => exact hk q c (runTriv_le _ _ _ hp hr)
    | fail q => dsimp only; split <;> split <;> exact .miss

theorem msim_fixedTriv (r : Nat) (a : Ast) (N : Nat) :
    MSim E.inp.length (fixedTriv E r a N) (fixedTriv (E.withCat cat') r a N) := by
  intro p c k k' hp hk
  unfold fixedTriv
  rw [distanceLessThan_cat (cat' := cat') hp, runTriv_cat (cat' := cat')]
  split
  · exact .nonMatch
  · cases hr : runTriv E r (List.replicate N a) p with
    | ub => exact .ub
    | done q => exact hk q c (runTriv_le _ _ _ hp hr)
    | fail q => dsimp only; split <;> split <;> exact .miss

theorem msim_seqMatch (r : Nat) {m m' : Ast → Matcher} (l : List Ast) (hm : ∀ a ∈ l, MSim E.inp.length (m a) (m' a)) :
    MSim E.inp.length (seqMatch E r m l) (seqMatch (E.withCat cat') r m' l) := by
  induction l with
  | nil => intro p c k k' _ _; exact .ub
  | cons a l ih =>
    match l with
    | [] => exact hm a (by simp)
    | b :: l =>
      unfold seqMatch
      split
      · exact msim_seqTriv r _
      · exact (hm a (by simp)).comp (ih (fun x hx => hm x (List.mem_cons_of_mem _ hx)))

theorem msim_altMatch (r : Nat) {m m' : Ast → Matcher} (l : List Ast) (hm : ∀ a ∈ l, MSim E.inp.length (m a) (m' a)) :
    MSim E.inp.length (altMatch E r m l) (altMatch (E.withCat cat') r m' l) := by
  induction l with
  | nil => intro p c k k' _ _; exact .ub
  | cons a l ih =>
    match l with
    | [] => exact hm a (by simp)
    | b :: l =>
      unfold altMatch
      split
      · exact msim_triv r _
      · intro p c k k' hp hk
        exact (hm a (by simp) p c k k' hp hk).orElse
          (fun c' => ih (fun x hx => hm x (List.mem_cons_of_mem _ hx)) p c' k k' hp hk)

theorem msim_capMatch (r id : Nat) (name : GroupName) {m m' : Matcher} (hm : MSim E.inp.length m m') :
    MSim E.inp.length (capMatch E r id name m) (capMatch (E.withCat cat') r id name m') := by
  intro p c k k' hp hk
  refine (hm p c _ _ hp (fun q c' hq => ?_)).orElse (fun c' => .nonMatch)
  show Sim _ (match setCapture E r id name p q c' with | none => _ | some _ => _)
    (match setCapture E r id name p q c' with | none => _ | some _ => _)
  cases setCapture E r id name p q c' with
  | none => exact .ub
  | some c'' => exact hk q c'' hq

theorem msim_unrolled {n : Nat} {m m' : Matcher} (hm : MSim n m m') : ∀ N, MSim n (unrolled m N) (unrolled m' N)
  | 0 => .id
  | 1 => hm
  | N + 2 => hm.comp (msim_unrolled hm (N + 1))

theorem msim_nonUnrolled {n : Nat} {m m' : Matcher} (hm : MSim n m m') : ∀ N, MSim n (nonUnrolled m N) (nonUnrolled m' N)
  | 0 => fun _ _ _ _ _ _ => .ub
  | 1 => hm
  | N + 2 => hm.comp (msim_nonUnrolled hm (N + 1))

theorem msim_fixedBacktracking (r : Nat) (a : Ast) {m m' : Matcher} (hm : MSim E.inp.length m m') (N : Nat) :
    MSim E.inp.length (fixedBacktracking E r a m N) (fixedBacktracking (E.withCat cat') r a m' N) := by
  unfold fixedBacktracking
  split
  · exact msim_fixedTriv r a N
  · show MSim _ (if E.flags.unroll then _ else _) (if E.flags.unroll then _ else _)
    split
    · exact msim_unrolled hm N
    · exact msim_nonUnrolled hm N

theorem msim_fixedMatch (r : Nat) (mode : Mode) (a : Ast) {m m' : Matcher} (hm : MSim E.inp.length m m') (N : Nat) :
    MSim E.inp.length (fixedMatch E r mode a m N) (fixedMatch (E.withCat cat') r mode a m' N) := by
  unfold fixedMatch
  split
  · exact .id
  · split
    · split
      · exact hm.commit .id
      · exact hm
    · split
      · exact (msim_fixedBacktracking r a hm N).commit .id
      · exact msim_fixedBacktracking r a hm N

theorem csim_guard {n : Nat} (guard : Bool) (p : Nat) {k k' : Cont} (hk : CSim n k k') :
    CSim n (guardCont guard p k) (guardCont guard p k') := by
  intro q c hq
  unfold guardCont
  split
  · exact .nonMatch
  · exact hk q c hq

theorem msim_possLoop {n : Nat} {m m' : Matcher} (hm : MSim n m m') (guard inf : Bool) :
    ∀ k, MSim n (possLoop m guard inf k) (possLoop m' guard inf k) := by
  intro k
  induction k with
  | zero => intro p c k k' hp hk; unfold possLoop; split <;> first | exact .diverge | exact hk p c hp
  | succ k ih =>
    intro p c k k' hp hk
    unfold possLoop
    refine (hm p c _ _ hp (.success n)).onMatch (fun q c' hq => ?_) (fun c' => hk p c' hp)
    split
    · exact hk p c' hp
    · exact ih q c' _ _ hq hk

theorem msim_possTriv (r : Nat) (a : Ast) (inf : Bool) :
    ∀ k, MSim E.inp.length (possTriv E r a inf k) (possTriv (E.withCat cat') r a inf k) := by
  intro k
  induction k with
  | zero => intro p c k k' hp hk; unfold possTriv; split <;> first | exact .diverge | exact hk p c hp
  | succ k ih =>
    intro p c k k' hp hk
    unfold possTriv
    show Sim _ (if E.atEnd r p then _ else _) (if E.atEnd r p then _ else _)
    split
    · exact hk p c hp
    · show Sim _ (match E.deref r p with | none => _ | some x => _) (match E.deref r p with | none => _ | some x => _)
      cases hx : E.deref r p with
      | none => exact .ub
      | some x =>
        dsimp only
        split
        · exact ih _ _ _ _ (next_le hx) hk
        · exact hk p c hp

theorem msim_greedyLoop {n : Nat} {m m' : Matcher} (hm : MSim n m m') (guard inf : Bool) :
    ∀ k, MSim n (greedyLoop m guard inf k) (greedyLoop m' guard inf k) := by
  intro k
  induction k with
  | zero => intro p c k k' hp hk; unfold greedyLoop; split <;> first | exact .diverge | exact hk p c hp
  | succ k ih =>
    intro p c k k' hp hk
    unfold greedyLoop
    exact (hm p c _ _ hp (csim_guard guard p (fun q c' hq => ih q c' _ _ hq hk))).orElse (fun c' => hk p c' hp)

theorem msim_lazyLoop {n : Nat} {m m' : Matcher} (hm : MSim n m m') (guard inf : Bool) :
    ∀ k, MSim n (lazyLoop m guard inf k) (lazyLoop m' guard inf k) := by
  intro k
  induction k with
  | zero =>
    intro p c k k' hp hk; unfold lazyLoop
    split
    · exact .diverge
    · exact (hk p c hp).orElse (fun _ => .nonMatch)
  | succ k ih =>
    intro p c k k' hp hk
    unfold lazyLoop
    exact (hk p c hp).orElse (fun c' => hm p c' _ _ hp (csim_guard guard p (fun q c' hq => ih q c' _ _ hq hk)))

theorem msim_lazyTriv (r : Nat) (a : Ast) (inf : Bool) :
    ∀ k, MSim E.inp.length (lazyTriv E r a inf k) (lazyTriv (E.withCat cat') r a inf k) := by
  intro k
  induction k with
  | zero =>
    intro p c k k' hp hk; unfold lazyTriv
    split
    · exact .diverge
    · exact (hk p c hp).orElse (fun _ => .nonMatch)
  | succ k ih =>
    intro p c k k' hp hk
    unfold lazyTriv
    refine (hk p c hp).orElse (fun c' => ?_)
    show Sim _ (if E.atEnd r p then _ else _) (if E.atEnd r p then _ else _)
    split
    · exact .nonMatch
    · show Sim _ (match E.deref r p with | none => _ | some x => _) (match E.deref r p with | none => _ | some x => _)
      cases hx : E.deref r p with
      | none => exact .ub
      | some x =>
        dsimp only
        split
        · exact ih _ _ _ _ (next_le hx) hk
        · exact .nonMatch

/-! ### Giving characters back one by one is what the general loop does -/

theorem possTriv_orElse (r : Nat) (a : Ast) (inf : Bool) (g : Ctx → Out) :
    ∀ k p c F, possTriv E r a inf k p c (fun q c' => (F q c').orElse g) = (possTriv E r a inf k p c F).orElse g := by
  intro k
  induction k with
  | zero => intro p c F; unfold possTriv; split <;> rfl
  | succ k ih =>
    intro p c F
    unfold possTriv
    split
    · rfl
    · cases E.deref r p with
      | none => rfl
      | some x => dsimp only; split
                  · exact ih _ _ _
                  · rfl

theorem prev_next {r p : Nat} (h : E.remaining r p ≠ 0) : Env.prev r (Env.next r p) = p := by
  unfold Env.prev Env.next Env.remaining at *
  split <;> simp_all
  omega

theorem prev_lt {r p q k : Nat} (hd : Env.dist r p q = k + 1) : Env.dist r p (Env.prev r q) = k := by
  unfold Env.dist Env.prev at *
  split <;> simp_all <;> omega

theorem dist_next {r p q : Nat} (hr : E.remaining r p ≠ 0)
    (hq : E.Reach r (Env.next r p) q) : Env.dist r p q = Env.dist r (Env.next r p) q + 1 := by
  by_cases h : r % 2 = 0
  · simp only [Env.Reach, Env.dist, Env.next, Env.remaining, h, if_true] at hr hq ⊢; omega
  · simp only [Env.Reach, Env.dist, Env.next, Env.remaining, h, if_false, false_and, false_or] at hr hq ⊢; omega

theorem dist_zero {r p q : Nat} (h : E.Reach r p q) (hd : Env.dist r p q = 0) : q = p := by
  unfold Env.Reach Env.dist at *
  split at * <;> omega

theorem reach_prev {r p q k : Nat} (hq : E.Reach r p q) (hd : Env.dist r p q = k + 1) :
    E.Reach r p (Env.prev r q) := by
  unfold Env.dist at hd
  unfold Env.prev
  rcases hq with ⟨h, h1, h2⟩ | ⟨h, h1, h2⟩
  · rw [if_pos h] at hd ⊢; exact .inl ⟨h, by omega, by omega⟩
  · rw [if_neg (by omega)] at hd ⊢; exact .inr ⟨h, by omega, h2⟩

theorem dist_pos_ne {r p q k : Nat} (hd : Env.dist r p q = k + 1) : q ≠ p := by
  rintro rfl
  unfold Env.dist at hd
  split at hd <;> omega

/-- Backing off to `p` is backing off to the position after it and then trying `p`. -/
theorem sim_backOff {r p : Nat} (hp : p ≤ E.inp.length) (hr : E.remaining r p ≠ 0) {cont cont' : Cont}
    (hk : CSim E.inp.length cont cont') :
    ∀ d q c, E.Reach r (Env.next r p) q → Env.dist r (Env.next r p) q = d →
      Sim E.inp.length (backOff r p cont (d + 1) q c)
        ((backOff r (Env.next r p) cont' d q c).orElse (fun c' => cont' p c')) := by
  intro d
  induction d with
  | zero =>
    intro q c hq hd
    obtain rfl := dist_zero hq hd
    have hne : Env.next r p ≠ p := Env.next_ne hp hr
    unfold backOff backOff
    rw [orElse_assoc]
    refine (hk _ c hq.right_le).orElse (fun c' => ?_)
    simp only [hne, if_false, if_true]
    rw [prev_next hr]
    simp only [if_true]
    exact (hk p c' hp).orElse_nonMatch
  | succ d ih =>
    intro q c hq hd
    have hd' := dist_next hr hq
    have hne : q ≠ p := dist_pos_ne (hd'.trans (by rw [hd]))
    have hne' : q ≠ Env.next r p := dist_pos_ne hd
    rw [backOff, backOff, orElse_assoc]
    refine (hk _ c hq.right_le).orElse (fun c' => ?_)
    simp only [hne, hne', if_false]
    exact ih _ c' (reach_prev hq hd) (prev_lt hd)

theorem reach_of_deref {r p : Nat} {x : Byte} (h : E.deref r p = some x) : E.remaining r p ≠ 0 ∧ p ≤ E.inp.length := by
  unfold Env.deref at h
  unfold Env.remaining
  split at h
  · next hr =>
    simp only [hr, if_true]
    have := (List.getElem?_eq_some_iff.1 h).1
    omega
  · next hr =>
    simp only [hr, if_false]
    split at h
    · cases h
    · have := (List.getElem?_eq_some_iff.1 h).1; omega

theorem msim_greedyTriv (r : Nat) (a : Ast) (inf : Bool) :
    ∀ k, MSim E.inp.length (greedyTriv E r a inf k) (greedyLoop (trivMatch E r a) false inf k) := by
  -- relate `possTriv` followed by backing off to the loop
  have key : ∀ k p c cont cont', p ≤ E.inp.length → CSim E.inp.length cont cont' →
      Sim E.inp.length (possTriv E r a inf k p c (fun q c' => backOff r p cont (Env.dist r p q) q c'))
        (greedyLoop (trivMatch E r a) false inf k p c cont') := by
    intro k
    induction k with
    | zero =>
      intro p c cont cont' hp hk
      unfold possTriv greedyLoop
      split
      · exact .diverge
      · have : Env.dist r p p = 0 := by unfold Env.dist; split <;> omega
        dsimp only
        rw [this]
        unfold backOff
        simp only [if_true]
        exact (hk p c hp).orElse_nonMatch
    | succ k ih =>
      intro p c cont cont' hp hk
      have hd0 : Env.dist r p p = 0 := by unfold Env.dist; split <;> omega
      have hstop : Sim E.inp.length (backOff r p cont (Env.dist r p p) p c) (cont' p c) := by
        rw [hd0]
        unfold backOff
        simp only [if_true]
        exact (hk p c hp).orElse_nonMatch
      have hgl : greedyLoop (trivMatch E r a) false inf (k + 1) p c cont' =
          (if E.atEnd r p then nonMatch p c
            else match E.deref r p with
              | none => .ub
              | some x => if matchOne E.flags a x then greedyLoop (trivMatch E r a) false inf k (Env.next r p) c cont'
                  else nonMatch p c).orElse (fun c' => cont' p c') := by
        have hg : guardCont false p (fun q c' => greedyLoop (trivMatch E r a) false inf k q c' cont') =
            fun q c' => greedyLoop (trivMatch E r a) false inf k q c' cont' := by
          funext q c'; simp [guardCont]
        simp only [greedyLoop, hg]
        rfl
      rw [hgl]
      unfold possTriv
      cases he : E.atEnd r p with
      | true => simpa [nonMatch, Out.orElse] using hstop
      | false =>
        simp only [Bool.false_eq_true, if_false]
        cases hx : E.deref r p with
        | none => exact .ub
        | some x =>
          dsimp only
          split
          · have hr := (reach_of_deref hx).1
            have hn := next_le hx
            have h1 := ih (Env.next r p) c cont' cont' hn (hk.symm.left)
            refine Sim.trans ?_ ((h1.orElse (f := fun c' => cont' p c') (f' := fun c' => cont' p c')
              (fun c' => hk.symm.left p c' hp)).trans ?_)
            · rw [← possTriv_orElse]
              -- the continuation is only called at reachable positions
              have : ∀ k q c, E.Reach r (Env.next r p) q →
                  Sim E.inp.length (possTriv E r a inf k q c (fun q c' => backOff r p cont (Env.dist r p q) q c'))
                    (possTriv E r a inf k q c (fun q c' =>
                      (backOff r (Env.next r p) cont' (Env.dist r (Env.next r p) q) q c').orElse (fun c' => cont' p c'))) := by
                intro k
                induction k with
                | zero =>
                  intro q c hq
                  unfold possTriv
                  split
                  · exact .diverge
                  · dsimp only
                    rw [dist_next hr hq]
                    exact sim_backOff hp hr hk _ q c hq rfl
                | succ k ih' =>
                  intro q c hq
                  have hb : Sim E.inp.length (backOff r p cont (Env.dist r p q) q c)
                      ((backOff r (Env.next r p) cont' (Env.dist r (Env.next r p) q) q c).orElse (fun c' => cont' p c')) := by
                    rw [dist_next hr hq]
                    exact sim_backOff hp hr hk _ q c hq rfl
                  unfold possTriv
                  split
                  · exact hb
                  · cases hy : E.deref r q with
                    | none => exact .ub
                    | some y =>
                      dsimp only
                      split
                      · exact ih' _ _ (hq.trans (Env.reach_next (reach_of_deref hy).2 (reach_of_deref hy).1))
                      · exact hb
              exact this k _ c (.refl hn)
            · exact (msim_greedyLoop (msim_triv (cat' := E.cat) r a) false inf k _ c _ _ hn hk.symm.left).orElse
                (fun c' => hk.symm.left p c' hp)
          · simpa [nonMatch, Out.orElse] using hstop
  intro k p c cont cont' hp hk
  exact key k p c cont cont' hp hk

theorem msim_betweenBounds (r : Nat) (mode : Mode) (a : Ast) {m m' : Matcher} (hm : MSim E.inp.length m m')
    (ht : triv a = true → MSim E.inp.length m (trivMatch E r a)) (inf : Bool) (k : Nat) :
    MSim E.inp.length (betweenBounds E r mode a m inf k) (betweenBounds (E.withCat cat') r mode a m' inf k) := by
  unfold betweenBounds
  dsimp only
  split
  · split
    · exact msim_possTriv r a inf k
    · exact msim_possLoop hm _ _ k
  · split
    · cases htriv : triv a with
      | false => simpa using msim_greedyLoop hm _ _ k
      | true =>
        have hz : zlm a = false := zlm_of_triv htriv
        have h1 : ∀ m, MSim E.inp.length m (trivMatch E r a) →
            MSim E.inp.length (greedyLoop m (inf && zlm a) inf k) (greedyLoop (trivMatch E r a) false inf k) := by
          intro m hm
          rw [hz, Bool.and_false]
          exact msim_greedyLoop hm _ _ k
        have h2 : MSim E.inp.length
            (if (true && E.cat != Cat.forward) = true then greedyTriv E r a inf k else greedyLoop m (inf && zlm a) inf k)
            (greedyLoop (trivMatch E r a) false inf k) := by
          split
          · exact msim_greedyTriv r a inf k
          · exact h1 m (ht htriv)
        have hm' : MSim E.inp.length m' (trivMatch E r a) := hm.symm.trans (ht htriv)
        have h3 : MSim E.inp.length
            (if (true && cat' != Cat.forward) = true then greedyTriv (E.withCat cat') r a inf k
              else greedyLoop m' (inf && zlm a) inf k)
            (greedyLoop (trivMatch E r a) false inf k) := by
          split
          · have := msim_greedyTriv (E := E.withCat cat') r a inf k
            exact this.trans (msim_greedyLoop (msim_triv r a).symm _ _ k)
          · exact h1 m' hm'
        exact h2.trans h3.symm
    · split
      · exact msim_lazyTriv r a inf k
      · exact msim_lazyLoop hm _ _ k

theorem msim_repMatch (r fuel : Nat) (mode : Mode) (lo : Nat) (hi : Bound) (a : Ast) {m m' : Matcher}
    (hm : MSim E.inp.length m m') (ht : triv a = true → MSim E.inp.length m (trivMatch E r a)) :
    MSim E.inp.length (repMatch E r fuel mode lo hi a m) (repMatch (E.withCat cat') r fuel mode lo hi a m') := by
  unfold repMatch
  cases hi with
  | fin h =>
    dsimp only
    split
    · exact msim_fixedMatch r mode a hm lo
    · split
      · exact fun _ _ _ _ _ _ => .ub
      · split
        · exact msim_betweenBounds r mode a hm ht _ _
        · exact (msim_fixedMatch r mode a hm lo).comp (msim_betweenBounds r mode a hm ht _ _)
  | inf =>
    dsimp only
    split
    · exact msim_betweenBounds r mode a hm ht _ _
    · exact (msim_fixedMatch r mode a hm lo).comp (msim_betweenBounds r mode a hm ht _ _)

theorem msim_assert {n : Nat} {pred pred' : Nat → Option Bool} (h : ∀ p, p ≤ n → pred p = pred' p) :
    MSim n (assertMatch pred) (assertMatch pred') := by
  intro p c k k' hp hk
  unfold assertMatch
  rw [h p hp]
  cases pred' p with
  | none => exact .ub
  | some b =>
    dsimp only
    split
    · exact hk p c hp
    · exact .nonMatch

theorem msim_look {n : Nat} {m m' : Matcher} (hm : MSim n m m') : MSim n (lookMatch m) (lookMatch m') :=
  fun p c _ _ hp hk => (hm p c _ _ hp (.success n)).onMatch (fun _ c' _ => hk p c' hp) (fun _ => .nonMatch)

theorem msim_negAssert {n : Nat} {m m' : Matcher} (hm : MSim n m m') : MSim n (negAssertMatch m) (negAssertMatch m') :=
  fun p c _ _ hp hk => (hm p c _ _ hp (.success n)).onMatch (fun _ _ _ => .nonMatch) (fun c' => hk p c' hp)

theorem backrefLoop_le {r : Nat} : ∀ l p q, p ≤ E.inp.length → backrefLoop E r l p = .done q → q ≤ E.inp.length := by
  intro l
  induction l with
  | nil => intro p q hp h; cases h; exact hp
  | cons a l ih =>
    intro p q hp h
    unfold backrefLoop at h
    cases hx : E.deref r p with
    | none => rw [hx] at h; cases h
    | some x =>
      rw [hx] at h
      dsimp only at h
      split at h
      · exact ih _ _ (next_le hx) h
      · cases h

theorem backrefLoop_cat {r : Nat} : ∀ l p, backrefLoop (E.withCat cat') r l p = backrefLoop E r l p := by
  intro l
  induction l with
  | nil => intro p; rfl
  | cons a l ih =>
    intro p
    unfold backrefLoop
    show (match E.deref r p with | none => _ | some x => _) = (match E.deref r p with | none => _ | some x => _)
    cases E.deref r p with
    | none => rfl
    | some x => dsimp only; rw [ih]

theorem msim_backref (r : Nat) (g : Cap) (h1 : E.cat ≠ .forward) (h2 : cat' ≠ .forward) :
    MSim E.inp.length (backrefMatch E r g) (backrefMatch (E.withCat cat') r g) := by
  intro p c k k' hp hk
  unfold backrefMatch
  dsimp only
  rw [if_neg h1, if_neg h2, distanceLessThan_cat (cat' := cat') hp, backrefLoop_cat (cat' := cat')]
  split
  · exact .nonMatch
  · cases hr : backrefLoop E r (if r = 0 then capText E.inp g else (capText E.inp g).reverse) p with
    | ub => exact .ub
    | done q => exact hk q c (backrefLoop_le _ _ _ hp hr)
    | fail q => exact .miss

theorem derefPrev_cat {r p : Nat} (h1 : E.cat ≠ .forward) (h2 : cat' ≠ .forward) :
    (E.withCat cat').derefPrev r p = E.derefPrev r p := by
  unfold Env.derefPrev
  rw [if_neg h1, if_neg h2]

/-- A trivially matchable node behaves like a one-character test. -/
theorem mtch_triv {a : Ast} (ht : triv a = true) {fuel : Nat} (hf : a.depth ≤ fuel) (r : Nat) :
    mtch E fuel a r = trivMatch E r a := by
  induction a using ind generalizing fuel with
  | lit c => obtain ⟨k, rfl⟩ := Nat.exists_eq_add_of_lt (Nat.lt_of_lt_of_le (depth_pos _) hf); simp only [mtch]
  | range x y => obtain ⟨k, rfl⟩ := Nat.exists_eq_add_of_lt (Nat.lt_of_lt_of_le (depth_pos _) hf); simp only [mtch]
  | wildcard => obtain ⟨k, rfl⟩ := Nat.exists_eq_add_of_lt (Nat.lt_of_lt_of_le (depth_pos _) hf); simp only [mtch]
  | set l => obtain ⟨k, rfl⟩ := Nat.exists_eq_add_of_lt (Nat.lt_of_lt_of_le (depth_pos _) hf); simp only [mtch]
  | neg a ih =>
    obtain ⟨k, rfl⟩ := Nat.exists_eq_add_of_lt (Nat.lt_of_lt_of_le (depth_pos _) hf)
    simp only [triv, Bool.not_eq_true'] at ht
    simp [mtch, ht]
  | seq l ih =>
    obtain ⟨k, rfl⟩ := Nat.exists_eq_add_of_lt (Nat.lt_of_lt_of_le (depth_pos _) hf)
    match l with
    | [] => simp [triv, trivSingle] at ht
    | [a] =>
      simp only [triv, trivSingle] at ht
      simp only [depth, depthAll] at hf
      simp only [Nat.zero_add, mtch, seqMatch]
      rw [ih a (by simp) ht (by omega)]
      rfl
    | _ :: _ :: _ => simp [triv, trivSingle] at ht
  | alt l ih =>
    obtain ⟨k, rfl⟩ := Nat.exists_eq_add_of_lt (Nat.lt_of_lt_of_le (depth_pos _) hf)
    match l with
    | [] => simp [triv, trivAlt] at ht
    | [a] =>
      simp only [triv, trivAlt] at ht
      simp only [depth, depthAll] at hf
      simp only [Nat.zero_add, mtch, altMatch]
      rw [ih a (by simp) ht (by omega)]
      funext p c k
      simp only [trivMatch, matchOne, matchAny, Bool.or_false]
    | a :: b :: l =>
      have h : areTriv (a :: b :: l) = true := by
        simp only [triv, trivAlt_eq, Bool.and_eq_true] at ht
        exact ht.2
      simp only [Nat.zero_add, mtch, altMatch, h, if_true]
      rfl
  | rep m lo hi a ih =>
    obtain ⟨k, rfl⟩ := Nat.exists_eq_add_of_lt (Nat.lt_of_lt_of_le (depth_pos _) hf)
    simp only [triv, Bool.and_eq_true, beq_iff_eq] at ht
    obtain ⟨⟨rfl, rfl⟩, ht⟩ := ht
    simp only [depth] at hf
    simp only [Nat.zero_add, mtch, repMatch, if_true, fixedMatch, ht]
    rw [ih ht (by omega)]
    simp only [Bool.true_eq_false, and_false, if_false]
    rfl
  | _ => simp [triv] at ht

/-- **Simulation**: the iterator category is irrelevant up to the position of failures. -/
theorem msim_mtch : ∀ fuel a r, Ok E r a → Ok (E.withCat cat') r a → a.depth + E.inp.length + 1 ≤ fuel →
    MSim E.inp.length (mtch E fuel a r) (mtch (E.withCat cat') fuel a r) := by
  intro fuel
  induction fuel with
  | zero => intro a r _ _ h; omega
  | succ k ih =>
    intro a r hok hok' hf
    have hrep : ∀ m lo hi b, Ok E r b → Ok (E.withCat cat') r b → b.depth + E.inp.length + 1 ≤ k →
        MSim E.inp.length (repMatch E r k m lo hi b (mtch E k b r))
          (repMatch (E.withCat cat') r k m lo hi b (mtch (E.withCat cat') k b r)) := by
      intro m lo hi b h1 h2 h3
      refine msim_repMatch r k m lo hi b (ih b r h1 h2 h3) (fun ht => ?_)
      rw [mtch_triv ht (by omega)]
      exact msim_triv (cat' := E.cat) r b
    cases hok with
    | empty => exact .id
    | lit => simp only [mtch]; exact msim_triv r _
    | range => simp only [mtch]; exact msim_triv r _
    | wildcard => simp only [mtch]; exact msim_triv r _
    | set => simp only [mtch]; exact msim_triv r _
    | neg h1 h2 =>
      cases hok' with
      | neg h1' h2' =>
        simp only [depth] at hf
        simp only [mtch]
        split
        · exact msim_negAssert (ih _ r h2 h2' (by omega))
        · exact msim_triv r _
    | @seq _ l h1 h2 =>
      cases hok' with
      | seq h1' h2' =>
        simp only [depth] at hf
        simp only [mtch]
        refine msim_seqMatch r l (fun a ha => ih a r (h2 a ha) (h2' a ha) ?_)
        have := depth_le_all ha; omega
    | @alt _ l h1 h2 =>
      cases hok' with
      | alt h1' h2' =>
        simp only [depth] at hf
        simp only [mtch]
        refine msim_altMatch r l (fun a ha => ih a r (h2 a ha) (h2' a ha) ?_)
        have := depth_le_all ha; omega
    | cap h1 h2 h3 =>
      cases hok' with
      | cap h1' h2' h3' =>
        simp only [depth] at hf
        simp only [mtch]
        exact msim_capMatch r _ _ (ih _ r h3 h3' (by omega))
    | repFin h1 h2 =>
      cases hok' with
      | repFin h1' h2' =>
        simp only [depth] at hf
        simp only [mtch]
        exact hrep _ _ _ _ h2 h2' (by omega)
    | repInf h2 =>
      cases hok' with
      | repInf h2' =>
        simp only [depth] at hf
        simp only [mtch]
        exact hrep _ _ _ _ h2 h2' (by omega)
    | ahead h1 =>
      cases hok' with
      | ahead h1' =>
        simp only [depth] at hf
        simp only [mtch]
        split
        · exact msim_assert (fun _ _ => rfl)
        · exact msim_look (ih _ r h1 h1' (by omega))
    | @behindTriv _ a hc ht h1 =>
      have hc' : cat' ≠ .forward := by cases hok' <;> assumption
      simp only [mtch, ht, if_true]
      exact msim_assert (fun p _ => by
        unfold lookbehindTrivPred
        rw [derefPrev_cat hc hc']; rfl)
    | @behind _ a hc h1 =>
      have hc' : cat' ≠ .forward := by cases hok' <;> assumption
      simp only [depth] at hf
      simp only [mtch]
      split
      · exact msim_assert (fun p _ => by
          unfold lookbehindTrivPred
          rw [derefPrev_cat hc hc']; rfl)
      · next ht =>

        cases hok' with
        | behindTriv _ ht' => exact absurd ht' ht
        | behind _ h1' => exact msim_look (ih _ (r + 1) h1 h1' (by rw [depth_invert]; omega))
    | bol h1 =>
      cases hok' with
      | bol h1' =>
        simp only [mtch]
        refine msim_assert (fun p _ => ?_)
        unfold beginPred
        show (if E.atBegin r p then _ else _) = (if E.atBegin r p then _ else _)
        split
        · rfl
        · cases hm : E.flags.multiline with
          | false => simp
          | true => rw [derefPrev_cat (h1 hm) (h1' hm)]
    | boi =>
      simp only [mtch]
      exact msim_assert (fun p _ => by simp only [beginPred, Bool.false_and, Bool.false_eq_true, if_false]; rfl)
    | eol => simp only [mtch]; exact msim_assert (fun _ _ => rfl)
    | eoi => simp only [mtch]; exact msim_assert (fun _ _ => rfl)
    | wordB hc =>
      cases hok' with
      | wordB hc' =>
        simp only [mtch]
        refine msim_assert (fun p _ => ?_)
        unfold wordBoundaryPred
        rw [derefPrev_cat hc hc']; rfl
    | backref hc _ =>
      cases hok' with
      | backref hc' _ =>
        simp only [mtch]
        intro p c kk kk' hp hk
        dsimp only
        split
        · exact .ub
        · exact msim_backref r _ hc hc' p c _ _ hp hk
    | namedBackref hc _ =>
      cases hok' with
      | namedBackref hc' _ =>
        simp only [mtch]
        intro p c kk kk' hp hk
        dsimp only
        cases nameIndex E.names _ with
        | none => exact .ub
        | some id =>
          dsimp only
          cases c[id]? with
          | none => exact .ub
          | some g => exact msim_backref r g hc hc' p c _ _ hp hk

end

end Mregex
