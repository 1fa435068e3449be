import Verif.Proof.Meter
import Verif.Proof.Hoare

/-!
# A rule for the meters

`Cost E N B r m adv A H T W`: a call of `m` at a position with `ρ` characters left calls its continuation at most `T` reruns,
makes at most `W` calls besides those of the continuation, has at most `H + B * ρ` calls active at a time besides those
of the continuation, and when it calls its continuation at a position with `ρ'` characters left then at most
`A + B * (ρ - ρ')` calls of it are active.  With `adv` the continuation is only called elsewhere.
-/

namespace Mregex
open Ast

section
variable {N : Nat}

/-- A run that began with the captures `c` has spent at most `w` calls and never had more than `Z` active;
matches end at positions with `S`. -/
def Spent (N : Nat) (S : Nat → Prop) (w Z : Nat) (c : Ctx) (o : Out) : Prop :=
  ∀ res c', o = .ok res c' → c'.length = N + 2 ∧ level N c' = level N c ∧ calls N c' ≤ calls N c + w ∧
    peak N c' ≤ max (peak N c) Z ∧ (res.matched = true → S res.pos)

/-- The same readings. -/
def SameMeters (N : Nat) (c c' : Ctx) : Prop := level N c' = level N c ∧ calls N c' = calls N c ∧ peak N c' = peak N c

theorem getD_set_ne {c : Ctx} {i j : Nat} {v : Cap} (h : i ≠ j) : (c.set i v).getD j none = c.getD j none := by
  simp only [List.getD_eq_getElem?_getD, List.getElem?_set_ne h]

theorem getD_set_self {c : Ctx} {i : Nat} {v : Cap} (h : i < c.length) : (c.set i v).getD i none = v := by
  simp [List.getD_eq_getElem?_getD, List.getElem?_set_self h]

theorem same_set {c : Ctx} {id : Nat} {v : Cap} (h : id < N) : SameMeters N c (c.set id v) := by
  refine ⟨?_, ?_, ?_⟩ <;> simp only [level, calls, peak, meter] <;> rw [getD_set_ne (by omega)]

theorem same_clear {c : Ctx} {id : Nat} (h : id < N) : SameMeters N c (clearCapture id c) := by
  have : ∀ j, id ≠ j → (clearCapture id c).getD j none = c.getD j none := by
    intro j hj
    simp [clearCapture, List.getD_eq_getElem?_getD, List.getElem?_modify, hj]
  refine ⟨?_, ?_, ?_⟩ <;> simp only [level, calls, peak, meter] <;> rw [this _ (by omega)]

theorem length_clear_capture {c : Ctx} {id : Nat} : (clearCapture id c).length = c.length := by simp [clearCapture]

theorem readings_enter {c : Ctx} (h : c.length = N + 2) : (enter N c).length = N + 2 ∧ level N (enter N c) = level N c + 1 ∧
    calls N (enter N c) = calls N c + 1 ∧ peak N (enter N c) = max (peak N c) (level N c + 1) := by
  refine ⟨by simpa [enter] using h, ?_, ?_, ?_⟩
  · unfold enter
    rw [level, getD_set_self (by simp; omega)]
    rfl
  · unfold enter
    rw [calls, meter, getD_set_ne (by omega), getD_set_self (by omega)]
    rfl
  · unfold enter
    rw [peak, meter, getD_set_ne (by omega), getD_set_self (by omega)]
    rfl

theorem readings_leave {c : Ctx} (h : c.length = N + 2) : (leave N c).length = N + 2 ∧ level N (leave N c) = level N c - 1 ∧
    calls N (leave N c) = calls N c ∧ peak N (leave N c) = peak N c := by
  refine ⟨by simpa [leave] using h, ?_, ?_, ?_⟩
  · unfold leave
    rw [level, getD_set_self (by omega)]
    rfl
  · unfold leave
    rw [calls, meter, getD_set_ne (by omega)]
    rfl
  · unfold leave
    rw [peak, meter, getD_set_ne (by omega)]
    rfl

theorem Spent.mono {S S' : Nat → Prop} {w w' Z Z' : Nat} {c : Ctx} {o : Out} (h : Spent N S w Z c o) (hS : ∀ q, S q → S' q)
    (hw : w ≤ w') (hZ : Z ≤ Z') : Spent N S' w' Z' c o := by
  intro res c' ho
  obtain ⟨h1, h2, h3, h4, h5⟩ := h res c' ho
  exact ⟨h1, h2, by omega, by omega, fun hm => hS _ (h5 hm)⟩

theorem Spent.mono' {S : Nat → Prop} {w w' Z Z' : Nat} {c : Ctx} {o : Out} (h : Spent N S w Z c o)
    (hw : w ≤ w') (hZ : Z ≤ Z') : Spent N S w' Z' c o := h.mono (fun _ h => h) hw hZ

theorem spent_nonMatch {S : Nat → Prop} {w Z p : Nat} {c : Ctx} (hc : c.length = N + 2) :
    Spent N S w Z c (nonMatch p c) := by
  intro res c' ho
  cases ho
  exact ⟨hc, rfl, by omega, by omega, fun h => by cases h⟩

theorem spent_success {S : Nat → Prop} {w Z p : Nat} {c : Ctx} (hc : c.length = N + 2) (hp : S p) :
    Spent N S w Z c (success p c) := by
  intro res c' ho
  cases ho
  exact ⟨hc, rfl, by omega, by omega, fun _ => hp⟩

theorem spent_ub {S : Nat → Prop} {w Z : Nat} {c : Ctx} : Spent N S w Z c .ub := fun _ _ h => by cases h

theorem spent_diverge {S : Nat → Prop} {w Z : Nat} {c : Ctx} : Spent N S w Z c .diverge := fun _ _ h => by cases h

/-- Only the readings at the beginning matter. -/
theorem Spent.same {S : Nat → Prop} {w Z : Nat} {c c1 : Ctx} {o : Out} (h : Spent N S w Z c1 o) (hs : SameMeters N c c1) :
    Spent N S w Z c o := by
  intro res c' ho
  obtain ⟨h1, h2, h3, h4, h5⟩ := h res c' ho
  obtain ⟨g1, g2, g3⟩ := hs
  exact ⟨h1, by omega, by omega, by omega, h5⟩

theorem Spent.orElse {S : Nat → Prop} {w1 w2 Z : Nat} {c : Ctx} {o : Out} {f : Ctx → Out} (h : Spent N S w1 Z c o)
    (hf : ∀ c', c'.length = N + 2 → level N c' = level N c → Spent N S w2 Z c' (f c')) :
    Spent N S (w1 + w2) Z c (o.orElse f) := by
  intro res c' ho
  match o, h with
  | .ok ⟨q, true⟩ c1, h =>
    obtain ⟨h1, h2, h3, h4, h5⟩ := h _ _ rfl
    simp only [Out.orElse, if_true] at ho
    cases ho
    exact ⟨h1, h2, by omega, h4, h5⟩
  | .ok ⟨q, false⟩ c1, h =>
    obtain ⟨h1, h2, h3, h4, h5⟩ := h _ _ rfl
    simp only [Out.orElse, Bool.false_eq_true, if_false] at ho
    obtain ⟨g1, g2, g3, g4, g5⟩ := hf c1 h1 h2 _ _ ho
    exact ⟨g1, by omega, by omega, by omega, g5⟩

theorem Spent.onMatch {S S1 : Nat → Prop} {w1 w2 Z : Nat} {c : Ctx} {o : Out} {f : Nat → Ctx → Out} {g : Ctx → Out}
    (h : Spent N S1 w1 Z c o)
    (hf : ∀ q c', S1 q → c'.length = N + 2 → level N c' = level N c → Spent N S w2 Z c' (f q c'))
    (hg : ∀ c', c'.length = N + 2 → level N c' = level N c → Spent N S w2 Z c' (g c')) :
    Spent N S (w1 + w2) Z c (o.onMatch f g) := by
  intro res c' ho
  match o, h with
  | .ok ⟨q, true⟩ c1, h =>
    obtain ⟨h1, h2, h3, h4, h5⟩ := h _ _ rfl
    simp only [Out.onMatch, if_true] at ho
    obtain ⟨g1, g2, g3, g4, g5⟩ := hf q c1 (h5 rfl) h1 h2 _ _ ho
    exact ⟨g1, by omega, by omega, by omega, g5⟩
  | .ok ⟨q, false⟩ c1, h =>
    obtain ⟨h1, h2, h3, h4, h5⟩ := h _ _ rfl
    simp only [Out.onMatch, Bool.false_eq_true, if_false] at ho
    obtain ⟨g1, g2, g3, g4, g5⟩ := hg c1 h1 h2 _ _ ho
    exact ⟨g1, by omega, by omega, by omega, g5⟩

end

def Cost (E : Env) (N B r : Nat) (m : Matcher) (adv : Bool) (A H T W : Nat) : Prop :=
  ∀ (S : Nat → Prop) (p : Nat) (c : Ctx) (cont : Cont) (w Z : Nat), p ≤ E.inp.length → c.length = N + 2 →
    (∀ q c', E.Reach r p q → (adv = true → p ≠ q) → c'.length = N + 2 →
      level N c' + B * E.remaining r q ≤ level N c + B * E.remaining r p + A → Spent N S w Z c' (cont q c')) →
    Spent N S (W + T * w) (max Z (level N c + B * E.remaining r p + H)) c (m p c cont)

section
variable {E : Env} {N B r : Nat} {m m' : Matcher} {adv adv' : Bool} {A H T W A' H' T' W' : Nat}

theorem Cost.mono (h : Cost E N B r m adv A H T W) (hadv : adv' = true → adv = true) (hA : A ≤ A') (hH : H ≤ H')
    (hT : T ≤ T') (hW : W ≤ W') : Cost E N B r m adv' A' H' T' W' := by
  intro S p c cont w Z hp hc hk
  refine (h S p c cont w Z hp hc (fun q c' hq ha hc' hl => hk q c' hq (fun h => ha (hadv h)) hc' (by omega))).mono' ?_ (by omega)
  have := Nat.mul_le_mul_right w hT
  omega

theorem Cost.lift (h : Cost E N B r m adv A H T W) {B' : Nat} (hB : B ≤ B') : Cost E N B' r m adv A H T W := by
  obtain ⟨d, rfl⟩ : ∃ d, B' = B + d := ⟨B' - B, by omega⟩
  intro S p c cont w Z hp hc hk
  refine (h S p c cont w Z hp hc (fun q c' hq ha hc' hl => hk q c' hq ha hc' ?_)).mono' (Nat.le_refl _) ?_
  · have := Nat.mul_le_mul_left d hq.remaining_le
    rw [Nat.add_mul, Nat.add_mul]
    omega
  · rw [Nat.add_mul]
    omega

theorem cost_id : Cost E N B r (fun p c cont => cont p c) false 0 0 1 0 := by
  intro S p c cont w Z hp hc hk
  exact (hk p c (.refl hp) (by simp) hc (by omega)).mono' (by omega) (by omega)

theorem cost_ub : Cost E N B r (fun _ _ _ => .ub) adv A H T W := fun _ _ _ _ _ _ _ _ _ => spent_ub

theorem cost_diverge : Cost E N B r (fun _ _ _ => .diverge) adv A H T W := fun _ _ _ _ _ _ _ _ _ => spent_diverge

theorem Cost.comp (h : Cost E N B r m adv A H T W) (h' : Cost E N B r m' adv' A' H' T' W') :
    Cost E N B r (fun p c cont => m p c (fun q c' => m' q c' cont)) (adv || adv') (A + A') (max H (A + H')) (T * T') (W + T * W') := by
  intro S p c cont w Z hp hc hk
  refine (h S p c _ (W' + T' * w) (max Z (level N c + B * E.remaining r p + (A + H'))) hp hc ?_).mono' ?_ (by omega)
  · intro q c' hq ha hc' hl
    refine (h' S q c' cont w Z hq.right_le hc' ?_).mono' (Nat.le_refl _) (by omega)
    intro t c'' ht ha' hc'' hl'
    refine hk t c'' (hq.trans ht) ?_ hc'' (by omega)
    intro hor
    simp only [Bool.or_eq_true] at hor
    rintro rfl
    have := hq.antisymm ht
    subst this
    rcases hor with h | h
    · exact ha h rfl
    · exact ha' h rfl
  · rw [Nat.mul_add, Nat.mul_assoc]
    omega

theorem Cost.orElse (h : Cost E N B r m adv A H T W) (h' : Cost E N B r m' adv' A' H' T' W') :
    Cost E N B r (fun p c cont => (m p c cont).orElse (fun c' => m' p c' cont)) (adv && adv') (max A A') (max H H')
      (T + T') (W + W') := by
  intro S p c cont w Z hp hc hk
  refine Spent.mono' (w := (W + T * w) + (W' + T' * w)) (Z := max Z (level N c + B * E.remaining r p + max H H'))
    (Spent.orElse ?_ ?_) ?_ (Nat.le_refl _)
  · refine (h S p c cont w Z hp hc ?_).mono' (Nat.le_refl _) (by omega)
    exact fun q c' hq ha hc' hl => hk q c' hq (fun h => ha (by simp at h; exact h.1)) hc' (by omega)
  · intro c1 hc1 hl1
    refine (h' S p c1 cont w Z hp hc1 ?_).mono' (Nat.le_refl _) (by omega)
    exact fun q c' hq ha hc' hl => hk q c' hq (fun h => ha (by simp at h; exact h.2)) hc' (by omega)
  · rw [Nat.add_mul]
    omega

/-- Run `m` alone. -/
theorem Cost.alone (h : Cost E N B r m adv A H T W) {p : Nat} {c : Ctx} (hp : p ≤ E.inp.length) (hc : c.length = N + 2) :
    Spent N (fun q => E.Reach r p q ∧ (adv = true → p ≠ q)) W (level N c + B * E.remaining r p + H) c (m p c success) := by
  refine (h _ p c success 0 0 hp hc ?_).mono' (by omega) (by omega)
  exact fun q c' hq ha hc' _ => spent_success hc' ⟨hq, ha⟩

theorem Cost.commit (h : Cost E N B r m adv A H T W) :
    Cost E N B r (fun p c cont => (m p c success).onMatch cont (fun c' => nonMatch p c')) adv 0 H 1 W := by
  intro S p c cont w Z hp hc hk
  refine Spent.mono' (w := W + w) (Spent.onMatch ((h.alone hp hc).mono' (Nat.le_refl _) (Nat.le_max_right _ _)) ?_ ?_)
    (by omega) (Nat.le_refl _)
  · intro q c' hq hc' hl
    refine (hk q c' hq.1 hq.2 hc' ?_).mono' (Nat.le_refl _) (by omega)
    have := Nat.mul_le_mul_left B hq.1.remaining_le
    omega
  · exact fun c' hc' _ => spent_nonMatch hc'

theorem Cost.counted (h : Cost E N B r m adv A H T W) : Cost E N B r (counted N m) adv (A + 1) (H + 1) T (W + 1) := by
  intro S p c cont w Z hp hc hk
  obtain ⟨e1, e2, e3, e4⟩ := readings_enter hc
  have := h S p (enter N c) cont w Z hp e1 (fun q c' hq ha hc' hl => hk q c' hq ha hc' (by omega))
  intro res c' ho
  unfold Mregex.counted at ho
  generalize m p (enter N c) cont = o at this ho
  match o, this with
  | .ok res1 c1, this =>
    obtain ⟨h1, h2, h3, h4, h5⟩ := this _ _ rfl
    simp only [Out.mapCtx] at ho
    cases ho
    obtain ⟨l1, l2, l3, l4⟩ := readings_leave h1
    exact ⟨l1, by omega, by omega, by omega, h5⟩

theorem cost_triv (a : Ast) : Cost E N B r (trivMatch E r a) true 0 0 1 0 := by
  intro S p c cont w Z hp hc hk
  unfold trivMatch
  split
  · exact spent_nonMatch hc
  · next he =>
    have h0 : E.remaining r p ≠ 0 := by rw [Env.atEnd_iff hp] at he; exact he
    split
    · exact spent_ub
    · split
      · refine (hk _ _ (Env.reach_next hp h0) (fun _ => (Env.next_ne hp h0).symm) hc ?_).mono' (by omega) (by omega)
        have := Nat.mul_le_mul_left B (Env.reach_next hp h0).remaining_le
        omega
      · exact spent_nonMatch hc

theorem steps_reach {l : List Ast} {p q : Nat} (hp : p ≤ E.inp.length) (h : Steps E r l p q) :
    E.Reach r p q ∧ (l ≠ [] → p ≠ q) := by
  induction l generalizing p with
  | nil => cases h; exact ⟨.refl hp, by simp⟩
  | cons a l ih =>
    obtain ⟨t, h1, h2⟩ := h
    have ht := h1.reach hp
    obtain ⟨h3, _⟩ := ih ht.right_le h2
    refine ⟨ht.trans h3, fun _ => ?_⟩
    rintro rfl
    exact h1.ne hp (ht.antisymm h3)

/-- A matcher that reads some characters and continues or fails. -/
theorem cost_run {p q : Nat} {c : Ctx} {cont : Cont} {S : Nat → Prop} {w Z : Nat} (hc : c.length = N + 2)
    (hq : E.Reach r p q) (ha : adv = true → p ≠ q)
    (hk : ∀ q c', E.Reach r p q → (adv = true → p ≠ q) → c'.length = N + 2 →
      level N c' + B * E.remaining r q ≤ level N c + B * E.remaining r p + 0 → Spent N S w Z c' (cont q c')) :
    Spent N S (0 + 1 * w) (max Z (level N c + B * E.remaining r p + 0)) c (cont q c) := by
  refine (hk q c hq ha hc ?_).mono' (by omega) (by omega)
  have := Nat.mul_le_mul_left B hq.remaining_le
  omega

theorem cost_seqTriv (l : List Ast) (hl : l ≠ []) : Cost E N B r (seqTriv E r l) true 0 0 1 0 := by
  intro S p c cont w Z hp hc hk
  unfold seqTriv
  rw [Env.distanceLessThan_eq _ hp]
  split
  · exact spent_nonMatch hc
  · next h =>
    rcases runTriv_spec (r := r) l hp (by simpa using h) with ⟨q, h1, h2⟩ | ⟨q, h1, h2, _⟩
    · rw [h1]
      obtain ⟨h3, h4⟩ := steps_reach hp h2
      exact cost_run hc h3 (fun _ => h4 hl) hk
    · rw [h1]; dsimp only; split <;> exact spent_nonMatch hc

theorem cost_fixedTriv (a : Ast) (K : Nat) (hK : 0 < K) : Cost E N B r (fixedTriv E r a K) true 0 0 1 0 := by
  intro S p c cont w Z hp hc hk
  unfold fixedTriv
  rw [Env.distanceLessThan_eq _ hp]
  split
  · exact spent_nonMatch hc
  · next h =>
    rcases runTriv_spec (r := r) (List.replicate K a) hp (by simpa using h) with ⟨q, h1, h2⟩ | ⟨q, h1, h2, _⟩
    · rw [h1]
      obtain ⟨h3, h4⟩ := steps_reach hp h2
      exact cost_run hc h3 (fun _ => h4 (by cases K <;> simp_all [List.replicate])) hk
    · rw [h1]; dsimp only; split <;> exact spent_nonMatch hc

theorem cost_assert (pred : Nat → Option Bool) : Cost E N B r (assertMatch pred) false 0 0 1 0 := by
  intro S p c cont w Z hp hc hk
  unfold assertMatch
  split
  · exact spent_ub
  · split
    · exact cost_run hc (.refl hp) (by simp) hk
    · exact spent_nonMatch hc

theorem cost_backref (g : Cap) : Cost E N B r (backrefMatch E r g) false 0 0 1 0 := by
  intro S p c cont w Z hp hc hk
  unfold backrefMatch
  dsimp only
  split
  · exact spent_ub
  · rw [Env.distanceLessThan_eq _ hp]
    split
    · exact spent_nonMatch hc
    · next h =>
      have hlen : (if r = 0 then capText E.inp g else (capText E.inp g).reverse).length ≤ E.remaining r p := by
        split <;> simp_all
      rcases backrefLoop_spec (r := r) _ hp hlen with ⟨q, h1, h2⟩ | ⟨q, h1, h2⟩
      · rw [h1]; exact cost_run hc h2 (by simp) hk
      · rw [h1]; exact spent_nonMatch hc

/-- Bodies of assertions may run in the other direction. -/
theorem Cost.look {r' : Nat} (h : Cost E N B r' m adv A H T W) (B' : Nat) :
    Cost E N B' r (lookMatch m) false 0 (H + B * E.inp.length) 1 W := by
  intro S p c cont w Z hp hc hk
  have hb := Nat.mul_le_mul_left B (Env.remaining_le (E := E) (r := r') hp)
  refine Spent.mono' (w := W + w) (Spent.onMatch ((h.alone hp hc).mono' (Nat.le_refl _) ?_) ?_ ?_) (by omega) (Nat.le_refl _)
  · exact Nat.le_trans (by omega) (Nat.le_max_right _ _)
  · exact fun q c' _ hc' hl => (hk p c' (.refl hp) (by simp) hc' (by omega)).mono' (Nat.le_refl _) (by omega)
  · exact fun c' hc' _ => spent_nonMatch hc'

theorem Cost.negAssert (h : Cost E N B r m adv A H T W) (B' : Nat) :
    Cost E N B' r (negAssertMatch m) false 0 (H + B * E.inp.length) 1 W := by
  intro S p c cont w Z hp hc hk
  have hb := Nat.mul_le_mul_left B (Env.remaining_le (E := E) (r := r) hp)
  refine Spent.mono' (w := W + w) (Spent.onMatch ((h.alone hp hc).mono' (Nat.le_refl _) ?_) ?_ ?_) (by omega) (Nat.le_refl _)
  · exact Nat.le_trans (by omega) (Nat.le_max_right _ _)
  · exact fun q c' _ hc' hl => spent_nonMatch hc'
  · exact fun c' hc' hl => (hk p c' (.refl hp) (by simp) hc' (by omega)).mono' (Nat.le_refl _) (by omega)

theorem cost_cap (h : Cost E N B r m adv A H T W) {id : Nat} {name : GroupName} (hid : id < N) :
    Cost E N B r (capMatch E r id name m) adv A H T W := by
  intro S p c cont w Z hp hc hk
  unfold capMatch
  refine Spent.mono' (w := (W + T * w) + 0) (Spent.orElse (h S p c _ w Z hp hc ?_) ?_) (by omega) (Nat.le_refl _)
  · intro q c' hq ha hc' hl
    unfold setCapture
    split
    · exact spent_ub
    · next c'' h =>
      split at h
      · cases h
        have hs := same_set (N := N) (c := c') (v := some (if r = 0 then (p, q) else (q, p))) hid
        exact (hk q _ hq ha (by simpa using hc') (by rw [hs.1]; exact hl)).same hs
      · cases h
  · intro c' hc' hl
    exact (spent_nonMatch (by rw [length_clear_capture]; exact hc')).same (same_clear hid)

/-! ### Repetitions -/

/-- Continuations of up to `k` rounds of something with `T` continuations. -/
def rounds (T : Nat) : Nat → Nat
  | 0 => 1
  | k + 1 => T * rounds T k + 1

/-- Calls of up to `k` rounds. -/
def toil (T W : Nat) : Nat → Nat
  | 0 => 0
  | k + 1 => W + T * toil T W k

theorem rounds_mono {T k k' : Nat} (hT : 1 ≤ T) (h : k ≤ k') : rounds T k ≤ rounds T k' := by
  induction h with
  | refl => exact Nat.le_refl _
  | @step j _ ih =>
    have := Nat.mul_le_mul_right (rounds T j) hT
    simp only [rounds]
    exact Nat.le_trans ih (by omega)

theorem toil_mono {T W k k' : Nat} (hT : 1 ≤ T) (h : k ≤ k') : toil T W k ≤ toil T W k' := by
  induction h with
  | refl => exact Nat.le_refl _
  | @step j _ ih =>
    have := Nat.mul_le_mul_right (toil T W j) hT
    simp only [toil]
    exact Nat.le_trans ih (by omega)

theorem le_rounds {T : Nat} (hT : 1 ≤ T) (k : Nat) : k + 1 ≤ rounds T k := by
  induction k with
  | zero => exact Nat.le_refl _
  | succ k ih =>
    have := Nat.mul_le_mul_right (rounds T k) hT
    simp only [rounds]
    omega

theorem cost_nonUnrolled (h : Cost E N B r m adv A H T W) (K : Nat) :
    Cost E N B r (nonUnrolled m (K + 1)) adv ((K + 1) * A) ((K + 1) * A + H) (T ^ (K + 1)) (toil T W (K + 1)) := by
  induction K with
  | zero => exact h.mono (fun h => h) (by omega) (by omega) (by simp) (by simp [toil])
  | succ K ih =>
    refine (h.comp ih).mono (fun h => by simp [h]) ?_ ?_ ?_ ?_
    · rw [Nat.succ_mul (K + 1)]; omega
    · rw [Nat.succ_mul (K + 1)]; omega
    · rw [Nat.pow_succ T (K + 1), Nat.mul_comm]; exact Nat.le_refl _
    · exact Nat.le_refl _

theorem cost_unrolled (h : Cost E N B r m adv A H T W) (K : Nat) :
    Cost E N B r (unrolled m (K + 1)) adv ((K + 1) * A) ((K + 1) * A + H) (T ^ (K + 1)) (toil T W (K + 1)) := by
  induction K with
  | zero => exact h.mono (fun h => h) (by omega) (by omega) (by simp) (by simp [toil])
  | succ K ih =>
    refine (h.comp ih).mono (fun h => by simp [h]) ?_ ?_ ?_ ?_
    · rw [Nat.succ_mul (K + 1)]; omega
    · rw [Nat.succ_mul (K + 1)]; omega
    · rw [Nat.pow_succ T (K + 1), Nat.mul_comm]; exact Nat.le_refl _
    · exact Nat.le_refl _

theorem cost_fixedBacktracking (h : Cost E N B r m adv A H T W) (hT : 1 ≤ T) (a : Ast) (K : Nat) :
    Cost E N B r (fixedBacktracking E r a m (K + 1)) adv ((K + 1) * A) ((K + 1) * A + H) (T ^ (K + 1)) (toil T W (K + 1)) := by
  unfold fixedBacktracking
  split
  · exact (cost_fixedTriv a (K + 1) (by omega)).mono (fun _ => rfl) (by omega) (by omega) (Nat.one_le_pow _ _ hT) (by omega)
  · split
    · exact cost_unrolled h K
    · exact cost_nonUnrolled h K

/-- Continuations of `K` rounds, none of them optional. -/
def reruns (mode : Mode) (T K : Nat) : Nat := if mode = .possessive then 1 else T ^ K

theorem cost_fixedMatch (h : Cost E N B r m adv A H T W) (hT : 1 ≤ T) (a : Ast) (hta : triv a = true → T = 1) (mode : Mode) (K : Nat) :
    Cost E N B r (fixedMatch E r mode a m K) (adv && K != 0) (K * A) (K * A + H) (reruns mode T K) (toil T W K) := by
  have ht : 1 ≤ reruns mode T K := by
    unfold reruns
    split
    · exact Nat.le_refl _
    · exact Nat.one_le_pow _ _ hT
  unfold fixedMatch
  split
  · next h0 => subst h0; exact cost_id.mono (by simp) (by omega) (by omega) ht (by omega)
  · next h0 =>
    split
    · next h1 =>
      subst h1
      split
      · exact h.commit.mono (fun h => by simpa using h) (by omega) (by omega) ht (by simp [toil])
      · next hm =>
        refine h.mono (fun h => by simpa using h) (by omega) (by omega) ?_ (by simp [toil])
        unfold reruns
        split
        · next hp =>
          have : triv a = true := by
            cases hx : triv a with
            | true => rfl
            | false => exact absurd ⟨hp, hx⟩ hm
          rw [hta this]
          exact Nat.le_refl _
        · simp
    · obtain ⟨K, rfl⟩ : ∃ j, K = j + 1 := ⟨K - 1, by omega⟩
      have hb := cost_fixedBacktracking h hT a K
      split
      · exact hb.commit.mono (fun h => by simp at h; exact h) (by omega) (by omega) ht (by omega)
      · next hm =>
        refine hb.mono (fun h => by simp at h; exact h) (by omega) (by omega) ?_ (by omega)
        simp [reruns, hm]

theorem spent_guard {guard : Bool} {p q : Nat} {cont : Cont} {c : Ctx} {S : Nat → Prop} {w Z : Nat} (hc : c.length = N + 2)
    (h : (guard = true → p ≠ q) → Spent N S w Z c (cont q c)) : Spent N S w Z c (guardCont guard p cont q c) := by
  unfold guardCont
  split
  · exact spent_nonMatch hc
  · next hg => exact h (fun hg1 he => hg (by simp [hg1, he]))

theorem cost_greedyFin (h : Cost E N B r m adv A H T W) (guard : Bool) (k : Nat) :
    Cost E N B r (greedyLoop m guard false k) false (k * A) (k * A + H) (rounds T k) (toil T W k) := by
  induction k with
  | zero => exact cost_id.mono (by simp) (by omega) (by omega) (by simp [rounds]) (by omega)
  | succ k ih =>
    intro S p c cont w Z hp hc hk
    have hA : (k + 1) * A = k * A + A := Nat.succ_mul k A
    unfold greedyLoop
    refine Spent.mono' (w := (W + T * (toil T W k + rounds T k * w)) + w)
      (Spent.orElse ((h S p c _ _ (max Z (level N c + B * E.remaining r p + (A + (k * A + H)))) hp hc ?_).mono' (Nat.le_refl _)
        (Z' := max Z (level N c + B * E.remaining r p + ((k + 1) * A + H))) (by omega)) ?_) ?_ (Nat.le_refl _)
    · intro q c' hq _ hc' hl
      refine spent_guard hc' (fun _ => ?_)
      refine (ih S q c' cont w Z hq.right_le hc' ?_).mono' (Nat.le_refl _) (by omega)
      exact fun t c'' ht _ hc'' hl' => hk t c'' (hq.trans ht) (by simp) hc'' (by omega)
    · exact fun c' hc' hl => (hk p c' (.refl hp) (by simp) hc' (by omega)).mono' (Nat.le_refl _) (by omega)
    · simp only [toil, rounds]
      rw [Nat.mul_add, Nat.add_mul, Nat.mul_assoc]
      omega

theorem cost_lazyFin (h : Cost E N B r m adv A H T W) (guard : Bool) (k : Nat) :
    Cost E N B r (lazyLoop m guard false k) false (k * A) (k * A + H) (rounds T k) (toil T W k) := by
  induction k with
  | zero =>
    intro S p c cont w Z hp hc hk
    unfold lazyLoop
    simp only [Bool.false_eq_true, if_false]
    refine Spent.mono' (w := w + 0) (Spent.orElse (hk p c (.refl hp) (by simp) hc (by omega)) ?_) (by simp [rounds, toil]) (by omega)
    exact fun c' hc' _ => spent_nonMatch hc'
  | succ k ih =>
    intro S p c cont w Z hp hc hk
    have hA : (k + 1) * A = k * A + A := Nat.succ_mul k A
    unfold lazyLoop
    refine Spent.mono' (w := w + (W + T * (toil T W k + rounds T k * w)))
      (Z := max Z (level N c + B * E.remaining r p + ((k + 1) * A + H))) (Spent.orElse ?_ ?_) ?_ (Nat.le_refl _)
    · exact (hk p c (.refl hp) (by simp) hc (by omega)).mono' (Nat.le_refl _) (by omega)
    · intro c1 hc1 hl1
      refine (h S p c1 _ _ (max Z (level N c + B * E.remaining r p + (A + (k * A + H)))) hp hc1 ?_).mono' (Nat.le_refl _) (by omega)
      intro q c' hq _ hc' hl
      refine spent_guard hc' (fun _ => ?_)
      refine (ih S q c' cont w Z hq.right_le hc' ?_).mono' (Nat.le_refl _) (by omega)
      exact fun t c'' ht _ hc'' hl' => hk t c'' (hq.trans ht) (by simp) hc'' (by omega)
    · simp only [toil, rounds]
      rw [Nat.mul_add, Nat.add_mul, Nat.mul_assoc]
      omega

/-- The calls of a round are paid for by the characters it passes. -/
theorem pays {l l' ρ ρ' : Nat} (hl : l' + B * ρ' ≤ l + B * ρ + A) (hρ : ρ' < ρ) : l' + (B + A) * ρ' ≤ l + (B + A) * ρ := by
  have := Nat.mul_le_mul_left A hρ
  rw [Nat.mul_succ] at this
  rw [Nat.add_mul, Nat.add_mul]
  omega

theorem cost_greedyInf (h : Cost E N B r m adv A H T W) {guard : Bool} (hg : guard = true ∨ adv = true) (k : Nat) :
    ∀ (ρ : Nat) (S : Nat → Prop) (p : Nat) (c : Ctx) (cont : Cont) (w Z : Nat), E.remaining r p ≤ ρ → p ≤ E.inp.length → c.length = N + 2 →
    (∀ q c', E.Reach r p q → c'.length = N + 2 →
      level N c' + (B + A) * E.remaining r q ≤ level N c + (B + A) * E.remaining r p → Spent N S w Z c' (cont q c')) →
    Spent N S (toil T W (ρ + 1) + rounds T (ρ + 1) * w) (max Z (level N c + (B + A) * E.remaining r p + H)) c
      (greedyLoop m guard true k p c cont) := by
  induction k with
  | zero => exact fun _ _ _ _ _ _ _ _ _ _ _ => spent_diverge
  | succ k ih =>
    intro ρ S p c cont w Z hρ hp hc hk
    have hBA : B * E.remaining r p ≤ (B + A) * E.remaining r p := Nat.mul_le_mul_right _ (by omega)
    unfold greedyLoop
    refine Spent.mono' (w := (W + T * (toil T W ρ + rounds T ρ * w)) + w) (Z := max Z (level N c + (B + A) * E.remaining r p + H))
      (Spent.orElse ((h S p c _ _ (max Z (level N c + (B + A) * E.remaining r p + H)) hp hc ?_).mono' (Nat.le_refl _)
        (by omega)) ?_) ?_ (Nat.le_refl _)
    · intro q c' hq ha hc' hl
      refine spent_guard hc' (fun hne => ?_)
      have hlt := hq.remaining_lt (hg.elim hne ha)
      have hpay := pays hl hlt
      obtain ⟨ρ', rfl⟩ : ∃ j, ρ = j + 1 := ⟨ρ - 1, by omega⟩
      refine (ih ρ' S q c' cont w Z (by omega) hq.right_le hc' ?_).mono' (Nat.le_refl _) (by omega)
      exact fun t c'' ht hc'' hl' => hk t c'' (hq.trans ht) hc'' (by omega)
    · exact fun c' hc' hl => (hk p c' (.refl hp) hc' (by omega)).mono' (Nat.le_refl _) (by omega)
    · simp only [toil, rounds]
      rw [Nat.mul_add, Nat.add_mul, Nat.mul_assoc]
      omega

theorem cost_lazyInf (h : Cost E N B r m adv A H T W) {guard : Bool} (hg : guard = true ∨ adv = true) (k : Nat) :
    ∀ (ρ : Nat) (S : Nat → Prop) (p : Nat) (c : Ctx) (cont : Cont) (w Z : Nat), E.remaining r p ≤ ρ → p ≤ E.inp.length → c.length = N + 2 →
    (∀ q c', E.Reach r p q → c'.length = N + 2 →
      level N c' + (B + A) * E.remaining r q ≤ level N c + (B + A) * E.remaining r p → Spent N S w Z c' (cont q c')) →
    Spent N S (toil T W (ρ + 1) + rounds T (ρ + 1) * w) (max Z (level N c + (B + A) * E.remaining r p + H)) c
      (lazyLoop m guard true k p c cont) := by
  induction k with
  | zero => exact fun _ _ _ _ _ _ _ _ _ _ _ => spent_diverge
  | succ k ih =>
    intro ρ S p c cont w Z hρ hp hc hk
    have hBA : B * E.remaining r p ≤ (B + A) * E.remaining r p := Nat.mul_le_mul_right _ (by omega)
    unfold lazyLoop
    refine Spent.mono' (w := w + (W + T * (toil T W ρ + rounds T ρ * w))) (Z := max Z (level N c + (B + A) * E.remaining r p + H))
      (Spent.orElse ((hk p c (.refl hp) hc (by omega)).mono' (Nat.le_refl _) (by omega)) ?_) ?_ (Nat.le_refl _)
    · intro c1 hc1 hl1
      refine (h S p c1 _ _ (max Z (level N c + (B + A) * E.remaining r p + H)) hp hc1 ?_).mono' (Nat.le_refl _) (by omega)
      intro q c' hq ha hc' hl
      refine spent_guard hc' (fun hne => ?_)
      have hlt := hq.remaining_lt (hg.elim hne ha)
      have hpay := pays hl hlt
      obtain ⟨ρ', rfl⟩ : ∃ j, ρ = j + 1 := ⟨ρ - 1, by omega⟩
      refine (ih ρ' S q c' cont w Z (by omega) hq.right_le hc' ?_).mono' (Nat.le_refl _) (by omega)
      exact fun t c'' ht hc'' hl' => hk t c'' (hq.trans ht) hc'' (by omega)
    · simp only [toil, rounds]
      rw [Nat.mul_add, Nat.add_mul, Nat.mul_assoc]
      omega

theorem cost_possLoop (h : Cost E N B r m adv A H T W) {guard inf : Bool} (hg : inf = true → guard = true ∨ adv = true) (k : Nat) :
    ∀ (ρ : Nat) (S : Nat → Prop) (p : Nat) (c : Ctx) (cont : Cont) (w Z : Nat), (inf = false → k ≤ ρ) → (inf = true → E.remaining r p < ρ) →
    p ≤ E.inp.length → c.length = N + 2 →
    (∀ q c', E.Reach r p q → c'.length = N + 2 → level N c' = level N c → Spent N S w Z c' (cont q c')) →
    Spent N S (toil 1 W ρ + w) (max Z (level N c + B * E.remaining r p + H)) c (possLoop m guard inf k p c cont) := by
  induction k with
  | zero =>
    intro ρ S p c cont w Z _ _ hp hc hk
    unfold possLoop
    split
    · exact spent_diverge
    · exact (hk p c (.refl hp) hc rfl).mono' (by omega) (by omega)
  | succ k ih =>
    intro ρ S p c cont w Z hρ hρ' hp hc hk
    obtain ⟨ρ, rfl⟩ : ∃ j, ρ = j + 1 := by
      refine ⟨ρ - 1, ?_⟩
      cases inf
      · have := hρ rfl; omega
      · have := hρ' rfl; omega
    unfold possLoop
    refine Spent.mono' (w := W + (toil 1 W ρ + w))
      (Spent.onMatch ((h.alone hp hc).mono' (Nat.le_refl _) (Nat.le_max_right Z _)) ?_ ?_) ?_ (Nat.le_refl _)
    · intro q c' hq hc' hl
      split
      · exact (hk p c' (.refl hp) hc' hl).mono' (by omega) (by omega)
      · next hne =>
        have hr := hq.1.remaining_le
        have hb := Nat.mul_le_mul_left B hr
        refine (ih ρ S q c' cont w Z (fun hi => by have := hρ hi; omega) (fun hi => ?_) hq.1.right_le hc' ?_).mono'
          (Nat.le_refl _) (by omega)
        · have hpq : p ≠ q := by
            rcases hg hi with h | h
            · rintro rfl; simp [h] at hne
            · exact hq.2 h
          have := hq.1.remaining_lt hpq
          have := hρ' hi
          omega
        · exact fun t c'' ht hc'' hl' => hk t c'' (hq.1.trans ht) hc'' (by omega)
    · exact fun c' hc' hl => (hk p c' (.refl hp) hc' hl).mono' (by omega) (by omega)
    · simp only [toil]
      omega

theorem spent_possTriv (a : Ast) {inf : Bool} (k : Nat) :
    ∀ (S : Nat → Prop) (p : Nat) (c : Ctx) (cont : Cont) (w Z : Nat), p ≤ E.inp.length →
    (∀ q, E.Reach r p q → (inf = false → Env.dist r p q ≤ k) → Spent N S w Z c (cont q c)) →
    Spent N S w Z c (possTriv E r a inf k p c cont) := by
  induction k with
  | zero =>
    intro S p c cont w Z hp hk
    unfold possTriv
    split
    · exact spent_diverge
    · exact hk p (.refl hp) (fun _ => by rw [Env.dist_self]; omega)
  | succ k ih =>
    intro S p c cont w Z hp hk
    have h0 := hk p (.refl hp) (fun _ => by rw [Env.dist_self]; omega)
    unfold possTriv
    split
    · exact h0
    · next he =>
      have hr : E.remaining r p ≠ 0 := by rw [Env.atEnd_iff hp] at he; exact he
      split
      · exact spent_ub
      · split
        · have hn := Env.reach_next hp hr
          refine ih S _ c cont w Z hn.right_le (fun q hq hd => hk q (hn.trans hq) (fun hi => ?_))
          have := hd hi
          have hx := Env.remaining_next hp hr
          have hy := hq
          unfold Env.dist Env.Reach Env.next Env.remaining at *
          split at this <;> simp_all <;> omega
        · exact h0

theorem spent_backOff {p : Nat} {cont : Cont} {S : Nat → Prop} {w Z l : Nat}
    (hk : ∀ q c', E.Reach r p q → c'.length = N + 2 → level N c' = l → Spent N S w Z c' (cont q c')) (k : Nat) :
    ∀ q c, E.Reach r p q → Env.dist r p q ≤ k → c.length = N + 2 → level N c = l →
      Spent N S ((k + 1) * w) Z c (backOff r p cont k q c) := by
  induction k with
  | zero =>
    intro q c hq hd hc hl
    unfold backOff
    refine Spent.mono' (w := w + 0) (Spent.orElse (hk q c hq hc hl) (fun c' hc' _ => ?_)) (by omega) (Nat.le_refl _)
    split
    · exact spent_nonMatch hc'
    · exact spent_diverge
  | succ k ih =>
    intro q c hq hd hc hl
    unfold backOff
    refine Spent.mono' (w := w + (k + 1) * w) (Spent.orElse (hk q c hq hc hl) (fun c' hc' hl' => ?_))
      (by rw [Nat.succ_mul (k + 1)]; omega) (Nat.le_refl _)
    split
    · exact spent_nonMatch hc'
    · next hne =>
      have := Env.dist_prev hq hne
      exact ih _ c' (Env.reach_prev hq hne) (by omega) hc' (by omega)

theorem cost_greedyTriv (a : Ast) {inf : Bool} (k K : Nat) (hK : inf = false → k ≤ K) (hK' : inf = true → E.inp.length ≤ K) :
    Cost E N B r (greedyTriv E r a inf k) false 0 0 (K + 1) 0 := by
  intro S p c cont w Z hp hc hk
  unfold greedyTriv
  refine spent_possTriv a k S p c _ _ _ hp (fun q hq hd => ?_)
  have hbo := spent_backOff (N := N) (E := E) (r := r) (p := p) (cont := cont) (S := S) (w := w) (Z := Z) (l := level N c)
    (fun q c' hq hc' hl => hk q c' hq (by simp) hc' (by
      have := Nat.mul_le_mul_left B hq.remaining_le
      omega)) (Env.dist r p q) q c hq (Nat.le_refl _) hc rfl
  refine hbo.mono' ?_ (by omega)
  have hle : Env.dist r p q ≤ K := by
    cases inf
    · have := hd rfl; have := hK rfl; omega
    · have h1 := hK' rfl
      have h2 := hq.right_le
      unfold Env.dist
      split <;> omega
  have := Nat.mul_le_mul_right w (Nat.succ_le_succ hle)
  simp only [Nat.succ_eq_add_one] at this
  omega

theorem cost_lazyTriv (a : Ast) {inf : Bool} (k : Nat) :
    ∀ (K : Nat) (S : Nat → Prop) (p : Nat) (c : Ctx) (cont : Cont) (w Z : Nat), (inf = false → k ≤ K) → (inf = true → E.remaining r p ≤ K) →
    p ≤ E.inp.length → c.length = N + 2 →
    (∀ q c', E.Reach r p q → c'.length = N + 2 → level N c' = level N c → Spent N S w Z c' (cont q c')) →
    Spent N S ((K + 1) * w) Z c (lazyTriv E r a inf k p c cont) := by
  induction k with
  | zero =>
    intro K S p c cont w Z _ _ hp hc hk
    unfold lazyTriv
    split
    · exact spent_diverge
    · refine Spent.mono' (w := w + 0) (Spent.orElse (hk p c (.refl hp) hc rfl) (fun c' hc' _ => spent_nonMatch hc'))
        (by rw [Nat.succ_mul]; omega) (Nat.le_refl _)
  | succ k ih =>
    intro K S p c cont w Z hK hK' hp hc hk
    unfold lazyTriv
    refine Spent.mono' (w := w + K * w) (Spent.orElse (hk p c (.refl hp) hc rfl) (fun c' hc' hl => ?_))
      (by rw [Nat.succ_mul]; omega) (Nat.le_refl _)
    split
    · exact spent_nonMatch hc'
    · next he =>
      have hr : E.remaining r p ≠ 0 := by rw [Env.atEnd_iff hp] at he; exact he
      split
      · exact spent_ub
      · split
        · obtain ⟨K, rfl⟩ : ∃ j, K = j + 1 := by
            refine ⟨K - 1, ?_⟩
            cases inf
            · have := hK rfl; omega
            · have := hK' rfl; omega
          have hn := Env.reach_next hp hr
          refine ih K S _ c' cont w Z (fun hi => by have := hK hi; omega) (fun hi => ?_) hn.right_le hc' ?_
          · have := Env.remaining_next hp hr
            have := hK' hi
            omega
          · exact fun q c'' hq hc'' hl' => hk q c'' (hn.trans hq) hc'' (by omega)
        · exact spent_nonMatch hc'

/-- How far a repetition of this kind goes down per character. -/
def descent (cat : Cat) (mode : Mode) (inf : Bool) (a : Ast) (A : Nat) : Nat :=
  if mode != .possessive && inf && (!triv a || cat == .forward) then A else 0

theorem cost_betweenBounds (h : Cost E N B r m adv A H T W) (hT : 1 ≤ T) (a : Ast) (mode : Mode) (inf : Bool) (k K : Nat)
    (hadv : zlm a = false → adv = true) (hK : inf = false → k ≤ K) (hK' : inf = true → E.inp.length < K) :
    Cost E N (B + descent E.cat mode inf a A) r (betweenBounds E r mode a m inf k) false (if inf then 0 else k * A)
      ((if inf then 0 else k * A) + H) (if mode = .possessive then 1 else rounds T K)
      (toil (if mode = .possessive then 1 else T) W K) := by
  have hg : inf = true → (inf && zlm a) = true ∨ adv = true := by
    intro hi
    cases hz : zlm a
    · exact .inr (hadv hz)
    · simp [hi]
  have htriv : 1 ≤ rounds T K := Nat.le_trans (by omega) (le_rounds hT K)
  unfold betweenBounds
  dsimp only
  split
  · next hm =>
    split
    · intro S p c cont w Z hp hc hk
      refine (spent_possTriv a k S p c cont w Z hp (fun q hq _ => hk q c hq (by simp) hc ?_)).mono' (by omega) (by omega)
      have := Nat.mul_le_mul_left (B + descent E.cat mode inf a A) hq.remaining_le
      omega
    · have hd : descent E.cat mode inf a A = 0 := by simp [descent, hm]
      rw [hd, Nat.add_zero]
      intro S p c cont w Z hp hc hk
      refine (cost_possLoop h hg k K S p c cont w Z hK (fun hi => ?_) hp hc ?_).mono' (by omega) (by omega)
      · exact Nat.lt_of_le_of_lt (Env.remaining_le hp) (hK' hi)
      · intro q c' hq hc' hl
        refine hk q c' hq (by simp) hc' ?_
        have := Nat.mul_le_mul_left B hq.remaining_le
        omega
  · next hm =>
    split
    · split
      · refine (cost_greedyTriv a k K hK (fun hi => Nat.le_of_lt (hK' hi))).mono (by simp) (by omega) (by omega) (le_rounds hT K) (by omega)
      · next ht =>
        cases inf
        · refine ((cost_greedyFin h _ k).lift (by omega)).mono (by simp) (by simp) (by simp) (rounds_mono hT (hK rfl)) (toil_mono hT (hK rfl))
        · have hd : descent E.cat mode true a A = A := by
            unfold descent
            rw [if_pos]
            cases mode <;> cases hx : triv a <;> cases hy : E.cat <;> simp_all
          rw [hd]
          intro S p c cont w Z hp hc hk
          have hlt := hK' rfl
          refine (cost_greedyInf h (hg rfl) k E.inp.length S p c cont w Z (Env.remaining_le hp) hp hc ?_).mono' ?_ (by simp)
          · exact fun q c' hq hc' hl => hk q c' hq (by simp) hc' (by simpa using hl)
          · exact Nat.add_le_add (toil_mono hT hlt) (Nat.mul_le_mul_right w (rounds_mono hT hlt))
    · split
      · intro S p c cont w Z hp hc hk
        refine (cost_lazyTriv a k K S p c cont w Z hK (fun hi => ?_) hp hc ?_).mono' ?_ (by omega)
        · exact Nat.le_of_lt (Nat.lt_of_le_of_lt (Env.remaining_le hp) (hK' hi))
        · intro q c' hq hc' hl
          refine hk q c' hq (by simp) hc' ?_
          have := Nat.mul_le_mul_left (B + descent E.cat mode inf a A) hq.remaining_le
          omega
        · have := Nat.mul_le_mul_right w (le_rounds hT K)
          omega
      · next ht =>
        cases inf
        · refine ((cost_lazyFin h _ k).lift (by omega)).mono (by simp) (by simp) (by simp) (rounds_mono hT (hK rfl)) (toil_mono hT (hK rfl))
        · have hd : descent E.cat mode true a A = A := by
            unfold descent
            rw [if_pos]
            cases mode <;> simp_all
          rw [hd]
          intro S p c cont w Z hp hc hk
          have hlt := hK' rfl
          refine (cost_lazyInf h (hg rfl) k E.inp.length S p c cont w Z (Env.remaining_le hp) hp hc ?_).mono' ?_ (by simp)
          · exact fun q c' hq hc' hl => hk q c' hq (by simp) hc' (by simpa using hl)
          · exact Nat.add_le_add (toil_mono hT hlt) (Nat.mul_le_mul_right w (rounds_mono hT hlt))

end

end Mregex
