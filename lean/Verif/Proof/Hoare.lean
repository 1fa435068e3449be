import Verif.Spec.Static
import Verif.Proof.Over

/-!
# A Hoare-style rule for the matcher

`Safe E r I m R`: the matcher `m` (run with iterators of layer `r`) neither exhibits undefined behaviour nor
diverges provided its continuation does not; it calls the continuation only at positions related by `R` and with
captures satisfying `I`; failures report a position inside the input and leave captures satisfying `I`.
-/

namespace Mregex
open Ast

/-- `S` holds of a successful and `F` of a failed outcome; `ub` and `diverge` are excluded. -/
def Post (S F : Nat → Ctx → Prop) : Out → Prop
  | .ok res c => if res.matched then S res.pos c else F res.pos c
  | _ => False

/-- What is known after a failure of an attempt that began at `p0`. -/
def FailP (E : Env) (r : Nat) (I : Ctx → Prop) (p0 : Nat) : Nat → Ctx → Prop :=
  fun q c => E.Reach r p0 q ∧ I c

def Safe (E : Env) (r : Nat) (I : Ctx → Prop) (m : Matcher) (R : Nat → Nat → Prop) : Prop :=
  ∀ p0 p c cont S, E.Reach r p0 p → I c →
    (∀ q c', R p q → I c' → Post S (FailP E r I p0) (cont q c')) → Post S (FailP E r I p0) (m p c cont)

section
variable {E : Env} {r : Nat} {I : Ctx → Prop}

theorem Post.orElse {S F F' : Nat → Ctx → Prop} {o : Out} {f : Ctx → Out} (h : Post S F' o)
    (hf : ∀ q c, F' q c → Post S F (f c)) : Post S F (o.orElse f) := by
  match o with
  | .ok ⟨q, true⟩ c => simpa [Post, Out.orElse] using h
  | .ok ⟨q, false⟩ c => simp only [Post, Out.orElse] at *; exact hf q c (by simpa using h)
  | .ub => exact h.elim
  | .diverge => exact h.elim

theorem Post.onMatch {S F S' F' : Nat → Ctx → Prop} {o : Out} {f : Nat → Ctx → Out} {g : Ctx → Out}
    (h : Post S' F' o) (hf : ∀ q c, S' q c → Post S F (f q c)) (hg : ∀ q c, F' q c → Post S F (g c)) :
    Post S F (o.onMatch f g) := by
  match o with
  | .ok ⟨q, true⟩ c => simp only [Post, Out.onMatch] at *; exact hf q c (by simpa using h)
  | .ok ⟨q, false⟩ c => simp only [Post, Out.onMatch] at *; exact hg q c (by simpa using h)
  | .ub => exact h.elim
  | .diverge => exact h.elim

theorem Post.mono {S F S' F' : Nat → Ctx → Prop} {o : Out} (h : Post S F o) (hs : ∀ q c, S q c → S' q c)
    (hf : ∀ q c, F q c → F' q c) : Post S' F' o := by
  match o with
  | .ok ⟨q, true⟩ c => simp only [Post] at *; exact hs q c (by simpa using h)
  | .ok ⟨q, false⟩ c => simp only [Post] at *; exact hf q c (by simpa using h)
  | .ub => exact h.elim
  | .diverge => exact h.elim

theorem post_nonMatch {S : Nat → Ctx → Prop} {p0 p : Nat} {c : Ctx} (hp : E.Reach r p0 p) (hc : I c) :
    Post S (FailP E r I p0) (nonMatch p c) := by
  simpa [Post, nonMatch, FailP] using ⟨hp, hc⟩

theorem Safe.mono {m : Matcher} {R R' : Nat → Nat → Prop} (h : Safe E r I m R)
    (hR : ∀ p q, p ≤ E.inp.length → R p q → R' p q) : Safe E r I m R' :=
  fun p0 p c cont S hp hc hk => h p0 p c cont S hp hc (fun q c' hq => hk q c' (hR p q hp.right_le hq))

theorem Safe.id : Safe E r I (fun p c cont => cont p c) (fun p q => p = q) :=
  fun _ p c _ _ _ hc hk => hk p c rfl hc

theorem Safe.comp {m m' : Matcher} {R R' : Nat → Nat → Prop} (h : Safe E r I m R) (h' : Safe E r I m' R')
    (hR : ∀ p q, p ≤ E.inp.length → R p q → E.Reach r p q) :
    Safe E r I (fun p c cont => m p c (fun q c' => m' q c' cont)) (fun p q => ∃ t, R p t ∧ R' t q) :=
  fun p0 p c cont S hp hc hk =>
    h p0 p c _ S hp hc (fun t c' ht hc' =>
      h' p0 t c' cont S (hp.trans (hR p t hp.right_le ht)) hc' (fun q c'' hq hc'' => hk q c'' ⟨t, ht, hq⟩ hc''))

/-- Running a matcher with the continuation `success`. -/
theorem Safe.success {m : Matcher} {R : Nat → Nat → Prop} (h : Safe E r I m R) {p : Nat} {c : Ctx}
    (hp : p ≤ E.inp.length) (hc : I c) :
    Post (fun q c' => R p q ∧ I c') (FailP E r I p) (m p c success) :=
  h p p c Mregex.success _ (.refl hp) hc (fun q c' hq hc' => by simpa [Post, Mregex.success] using ⟨hq, hc'⟩)

theorem Safe.triv (a : Ast) : Safe E r I (trivMatch E r a) (CharStep E (matchOne E.flags a) r) := by
  intro p0 p c cont S hp hc hk
  unfold trivMatch
  by_cases h0 : E.remaining r p = 0
  · rw [if_pos ((Env.atEnd_iff hp.right_le).2 h0)]
    exact post_nonMatch hp hc
  · rw [if_neg (by rw [Env.atEnd_iff hp.right_le]; exact h0)]
    obtain ⟨x, hx⟩ := Env.deref_some hp.right_le h0
    rw [hx]
    dsimp only
    split
    · next hm => exact hk _ _ ⟨h0, rfl, x, hx, hm⟩ hc
    · exact post_nonMatch hp hc

/-- Composition of single character steps. -/
def Steps (E : Env) (r : Nat) : List Ast → Nat → Nat → Prop
  | [], p, q => p = q
  | a :: l, p, q => ∃ t, CharStep E (matchOne E.flags a) r p t ∧ Steps E r l t q

theorem runTriv_spec (l : List Ast) {p : Nat} (hp : p ≤ E.inp.length) (hl : l.length ≤ E.remaining r p) :
    (∃ q, runTriv E r l p = .done q ∧ Steps E r l p q) ∨
    (∃ q, runTriv E r l p = .fail q ∧ E.Reach r p q ∧ E.remaining r q ≠ 0) := by
  induction l generalizing p with
  | nil => exact .inl ⟨p, rfl, rfl⟩
  | cons a l ih =>
    have h0 : E.remaining r p ≠ 0 := by simp at hl; omega
    obtain ⟨x, hx⟩ := Env.deref_some hp h0
    have hn := Env.reach_next hp h0
    have hr := Env.remaining_next hp h0
    simp only [runTriv, hx]
    split
    · next hm =>
      rcases ih hn.right_le (by simp at hl; omega) with ⟨q, h1, h2⟩ | ⟨q, h1, h2, h3⟩
      · exact .inl ⟨q, h1, _, ⟨h0, rfl, x, hx, hm⟩, h2⟩
      · exact .inr ⟨q, h1, hn.trans h2, h3⟩
    · exact .inr ⟨p, rfl, .refl hp, h0⟩

theorem Safe.seqTriv (l : List Ast) : Safe E r I (seqTriv E r l) (Steps E r l) := by
  intro p0 p c cont S hp hc hk
  unfold Mregex.seqTriv
  rw [Env.distanceLessThan_eq _ hp.right_le]
  split
  · exact post_nonMatch hp hc
  · next h =>
    rcases runTriv_spec (r := r) l hp.right_le (by simpa using h) with ⟨q, h1, h2⟩ | ⟨q, h1, h2, _⟩
    · rw [h1]; exact hk q c h2 hc
    · rw [h1]; dsimp only; split
      · exact post_nonMatch hp hc
      · exact post_nonMatch (hp.trans h2) hc

theorem Safe.fixedTriv (a : Ast) (N : Nat) :
    Safe E r I (fixedTriv E r a N) (Pow (CharStep E (matchOne E.flags a) r) N) := by
  have hs : ∀ N p q, Steps E r (List.replicate N a) p q → Pow (CharStep E (matchOne E.flags a) r) N p q := by
    intro N
    induction N with
    | zero => exact fun p q h => h
    | succ N ih => rintro p q ⟨t, h1, h2⟩; exact ⟨t, h1, ih _ _ h2⟩
  intro p0 p c cont S hp hc hk
  unfold Mregex.fixedTriv
  rw [Env.distanceLessThan_eq _ hp.right_le]
  split
  · exact post_nonMatch hp hc
  · next h =>
    rcases runTriv_spec (r := r) (List.replicate N a) hp.right_le (by simpa using h) with
      ⟨q, h1, h2⟩ | ⟨q, h1, h2, h3⟩
    · rw [h1]; exact hk q c (hs _ _ _ h2) hc
    · rw [h1]; dsimp only; split
      · exact post_nonMatch hp hc
      · exact post_nonMatch (hp.trans (h2.trans (Env.reach_next h2.right_le h3))) hc

theorem Safe.orElse {m m' : Matcher} {R R' : Nat → Nat → Prop} (h : Safe E r I m R) (h' : Safe E r I m' R') :
    Safe E r I (fun p c cont => (m p c cont).orElse (fun c' => m' p c' cont)) (fun p q => R p q ∨ R' p q) :=
  fun p0 p c cont S hp hc hk =>
    (h p0 p c cont S hp hc (fun q c' hq hc' => hk q c' (.inl hq) hc')).orElse
      (fun _ c' hf => h' p0 p c' cont S hp hf.2 (fun q c'' hq hc'' => hk q c'' (.inr hq) hc''))

theorem Safe.pow_nonUnrolled {m : Matcher} {R : Nat → Nat → Prop} (h : Safe E r I m R)
    (hR : ∀ p q, p ≤ E.inp.length → R p q → E.Reach r p q) (k : Nat) :
    Safe E r I (nonUnrolled m (k + 1)) (Pow R (k + 1)) := by
  induction k with
  | zero => exact h.mono (fun p q _ hq => Pow.one.2 hq)
  | succ k ih => exact h.comp ih hR

theorem Safe.pow_unrolled {m : Matcher} {R : Nat → Nat → Prop} (h : Safe E r I m R)
    (hR : ∀ p q, p ≤ E.inp.length → R p q → E.Reach r p q) (k : Nat) :
    Safe E r I (unrolled m k) (Pow R k) := by
  match k with
  | 0 => exact Safe.id
  | k + 1 =>
    induction k with
    | zero => exact h.mono (fun p q _ hq => Pow.one.2 hq)
    | succ k ih => exact h.comp ih hR

/-- Running `m` in isolation and continuing from its first result. -/
theorem Safe.commit {m : Matcher} {R : Nat → Nat → Prop} (h : Safe E r I m R) :
    Safe E r I (fun p c cont => (m p c Mregex.success).onMatch cont (fun c' => nonMatch p c')) R :=
  fun _ _ _ _ _ hp hc hk =>
    (h.success hp.right_le hc).onMatch (fun q c' hq => hk q c' hq.1 hq.2)
      (fun _ _ hf => post_nonMatch hp hf.2)

/-- At most `k` (or arbitrarily many) repetitions. -/
def PowUpTo (R : Nat → Nat → Prop) (inf : Bool) (k : Nat) (p q : Nat) : Prop :=
  ∃ j, (inf = false → j ≤ k) ∧ Pow R j p q

theorem PowUpTo.refl {R : Nat → Nat → Prop} {inf : Bool} {k p : Nat} : PowUpTo R inf k p p :=
  ⟨0, fun _ => Nat.zero_le _, rfl⟩

theorem PowUpTo.step {R : Nat → Nat → Prop} {inf : Bool} {k p t q : Nat} (h : R p t) (h' : PowUpTo R inf k t q) :
    PowUpTo R inf (k + 1) p q := by
  obtain ⟨j, hj, h'⟩ := h'
  exact ⟨j + 1, fun hi => by have := hj hi; omega, t, h, h'⟩

section loops
variable {m : Matcher} {R : Nat → Nat → Prop} {guard inf : Bool}

theorem safe_greedyLoop (h : Safe E r I m R) (hR : ∀ p q, p ≤ E.inp.length → R p q → E.Reach r p q)
    (hg : inf = true → guard = true ∨ ∀ p q, p ≤ E.inp.length → R p q → p ≠ q) :
    ∀ k p0 p c cont S, (inf = true → E.remaining r p < k) → E.Reach r p0 p → I c →
      (∀ q c', PowUpTo R inf k p q → I c' → Post S (FailP E r I p0) (cont q c')) →
      Post S (FailP E r I p0) (greedyLoop m guard inf k p c cont) := by
  intro k
  induction k with
  | zero =>
    intro p0 p c cont S hk hp hc hcont
    unfold greedyLoop
    split
    · next hi => exact absurd (hk hi) (by omega)
    · exact hcont p c .refl hc
  | succ k ih =>
    intro p0 p c cont S hk hp hc hcont
    unfold greedyLoop
    refine Post.orElse (F' := FailP E r I p0) (h p0 p c _ S hp hc ?_) (fun _ c' hf => hcont p c' .refl hf.2)
    intro q c' hq hc'
    have hpq := hR p q hp.right_le hq
    unfold guardCont
    split
    · exact post_nonMatch hp hc'
    · next hne =>
      refine ih p0 q c' cont S ?_ (hp.trans hpq) hc' (fun t c'' ht hc'' => hcont t c'' (.step hq ht) hc'')
      intro hi
      have hne' : p ≠ q := by
        rcases hg hi with hg | hg
        · rintro rfl; simp [hg] at hne
        · exact hg p q hp.right_le hq
      have := hpq.remaining_lt hne'
      have := hk hi
      omega

theorem safe_lazyLoop (h : Safe E r I m R) (hR : ∀ p q, p ≤ E.inp.length → R p q → E.Reach r p q)
    (hg : inf = true → guard = true ∨ ∀ p q, p ≤ E.inp.length → R p q → p ≠ q) :
    ∀ k p0 p c cont S, (inf = true → E.remaining r p < k) → E.Reach r p0 p → I c →
      (∀ q c', PowUpTo R inf k p q → I c' → Post S (FailP E r I p0) (cont q c')) →
      Post S (FailP E r I p0) (lazyLoop m guard inf k p c cont) := by
  intro k
  induction k with
  | zero =>
    intro p0 p c cont S hk hp hc hcont
    unfold lazyLoop
    split
    · next hi => exact absurd (hk hi) (by omega)
    · exact (hcont p c .refl hc).orElse (fun _ _ hf => post_nonMatch hp hf.2)
  | succ k ih =>
    intro p0 p c cont S hk hp hc hcont
    unfold lazyLoop
    refine Post.orElse (F' := FailP E r I p0) (hcont p c .refl hc) (fun _ c0 hf => h p0 p c0 _ S hp hf.2 ?_)
    intro q c' hq hc'
    have hpq := hR p q hp.right_le hq
    unfold guardCont
    split
    · exact post_nonMatch hp hc'
    · next hne =>
      refine ih p0 q c' cont S ?_ (hp.trans hpq) hc' (fun t c'' ht hc'' => hcont t c'' (.step hq ht) hc'')
      intro hi
      have hne' : p ≠ q := by
        rcases hg hi with hg | hg
        · rintro rfl; simp [hg] at hne
        · exact hg p q hp.right_le hq
      have := hpq.remaining_lt hne'
      have := hk hi
      omega

theorem safe_possLoop (h : Safe E r I m R) (hR : ∀ p q, p ≤ E.inp.length → R p q → E.Reach r p q)
    (hg : inf = true → guard = true ∨ ∀ p q, p ≤ E.inp.length → R p q → p ≠ q) :
    ∀ k p0 p c cont S, (inf = true → E.remaining r p < k) → E.Reach r p0 p → I c →
      (∀ q c', PowUpTo R inf k p q → I c' → Post S (FailP E r I p0) (cont q c')) →
      Post S (FailP E r I p0) (possLoop m guard inf k p c cont) := by
  intro k
  induction k with
  | zero =>
    intro p0 p c cont S hk hp hc hcont
    unfold possLoop
    split
    · next hi => exact absurd (hk hi) (by omega)
    · exact hcont p c .refl hc
  | succ k ih =>
    intro p0 p c cont S hk hp hc hcont
    unfold possLoop
    refine (h.success hp.right_le hc).onMatch ?_ (fun _ c' hf => hcont p c' .refl hf.2)
    rintro q c' ⟨hq, hc'⟩
    have hpq := hR p q hp.right_le hq
    split
    · exact hcont p c' .refl hc'
    · next hne =>
      refine ih p0 q c' cont S ?_ (hp.trans hpq) hc' (fun t c'' ht hc'' => hcont t c'' (.step hq ht) hc'')
      intro hi
      have hne' : p ≠ q := by
        rcases hg hi with hg | hg
        · rintro rfl; simp [hg] at hne
        · exact hg p q hp.right_le hq
      have := hpq.remaining_lt hne'
      have := hk hi
      omega

end loops

section trivLoops
variable {a : Ast} {inf : Bool}

theorem safe_possTriv :
    ∀ k p0 p c cont S, (inf = true → E.remaining r p < k) → E.Reach r p0 p → I c →
      (∀ q c', PowUpTo (CharStep E (matchOne E.flags a) r) inf k p q → I c' →
        Post S (FailP E r I p0) (cont q c')) →
      Post S (FailP E r I p0) (possTriv E r a inf k p c cont) := by
  intro k
  induction k with
  | zero =>
    intro p0 p c cont S hk hp hc hcont
    unfold possTriv
    split
    · next hi => exact absurd (hk hi) (by omega)
    · exact hcont p c .refl hc
  | succ k ih =>
    intro p0 p c cont S hk hp hc hcont
    unfold possTriv
    by_cases h0 : E.remaining r p = 0
    · rw [if_pos ((Env.atEnd_iff hp.right_le).2 h0)]
      exact hcont p c .refl hc
    · rw [if_neg (by rw [Env.atEnd_iff hp.right_le]; exact h0)]
      obtain ⟨x, hx⟩ := Env.deref_some hp.right_le h0
      rw [hx]
      dsimp only
      split
      · next hm =>
        have hs : CharStep E (matchOne E.flags a) r p (Env.next r p) := ⟨h0, rfl, x, hx, hm⟩
        refine ih p0 _ c cont S ?_ (hp.trans (hs.reach hp.right_le)) hc
          (fun t c'' ht hc'' => hcont t c'' (.step hs ht) hc'')
        intro hi
        have := Env.remaining_next hp.right_le h0
        have := hk hi
        omega
      · exact hcont p c .refl hc

theorem safe_lazyTriv :
    ∀ k p0 p c cont S, (inf = true → E.remaining r p < k) → E.Reach r p0 p → I c →
      (∀ q c', PowUpTo (CharStep E (matchOne E.flags a) r) inf k p q → I c' →
        Post S (FailP E r I p0) (cont q c')) →
      Post S (FailP E r I p0) (lazyTriv E r a inf k p c cont) := by
  intro k
  induction k with
  | zero =>
    intro p0 p c cont S hk hp hc hcont
    unfold lazyTriv
    split
    · next hi => exact absurd (hk hi) (by omega)
    · exact (hcont p c .refl hc).orElse (fun _ _ hf => post_nonMatch hp hf.2)
  | succ k ih =>
    intro p0 p c cont S hk hp hc hcont
    unfold lazyTriv
    refine Post.orElse (F' := FailP E r I p0) (hcont p c .refl hc) (fun _ c0 hf => ?_)
    by_cases h0 : E.remaining r p = 0
    · rw [if_pos ((Env.atEnd_iff hp.right_le).2 h0)]
      exact post_nonMatch hp hf.2
    · rw [if_neg (by rw [Env.atEnd_iff hp.right_le]; exact h0)]
      obtain ⟨x, hx⟩ := Env.deref_some hp.right_le h0
      rw [hx]
      dsimp only
      split
      · next hm =>
        have hs : CharStep E (matchOne E.flags a) r p (Env.next r p) := ⟨h0, rfl, x, hx, hm⟩
        refine ih p0 _ c0 cont S ?_ (hp.trans (hs.reach hp.right_le)) hf.2
          (fun t c'' ht hc'' => hcont t c'' (.step hs ht) hc'')
        intro hi
        have := Env.remaining_next hp.right_le h0
        have := hk hi
        omega
      · exact post_nonMatch hp hf.2

/-- Giving back a character of a run of single character steps. -/
theorem pow_charStep_prev {P : Byte → Bool} {p q : Nat} {j : Nat} (hp : p ≤ E.inp.length)
    (h : Pow (CharStep E P r) j p q) (hne : q ≠ p) :
    ∃ j', j = j' + 1 ∧ Pow (CharStep E P r) j' p (Env.prev r q) := by
  induction j generalizing p with
  | zero => exact absurd h.symm hne
  | succ j ih =>
    obtain ⟨t, h1, h2⟩ := h
    refine ⟨j, rfl, ?_⟩
    by_cases htq : q = t
    · subst htq
      have hr := h1.reach hp
      have : j = 0 := by
        cases j with
        | zero => rfl
        | succ j =>
          obtain ⟨u, h3, h4⟩ := h2
          have r1 := h3.reach hr.right_le
          have r2 := Pow.reach (fun p q hp h => CharStep.reach hp h) r1.right_le h4
          exact absurd (r1.antisymm r2) (h3.ne hr.right_le)
      subst this
      obtain ⟨h0, rfl, _⟩ := h1
      exact (Env.prev_next hp h0).symm
    · obtain ⟨j', rfl, h3⟩ := ih (h1.reach hp).right_le h2 htq
      exact ⟨t, h1, h3⟩

theorem safe_backOff {P : Nat → Prop} {p0 p : Nat} {cont : Cont} {S : Nat → Ctx → Prop} (hp : E.Reach r p0 p)
    (hP : ∀ q, P q → q ≠ p → P (Env.prev r q))
    (hcont : ∀ q c', P q → I c' → Post S (FailP E r I p0) (cont q c')) :
    ∀ k q c, E.Reach r p q → Env.dist r p q ≤ k → P q → I c →
      Post S (FailP E r I p0) (backOff r p cont k q c) := by
  intro k
  induction k with
  | zero =>
    intro q c hq hk hPq hc
    unfold backOff
    refine (hcont q c hPq hc).orElse (fun _ c' hf => ?_)
    rw [if_pos ((Env.dist_eq_zero hq).1 (by omega))]
    exact post_nonMatch hp hf.2
  | succ k ih =>
    intro q c hq hk hPq hc
    unfold backOff
    refine (hcont q c hPq hc).orElse (fun _ c' hf => ?_)
    split
    · exact post_nonMatch hp hf.2
    · next hne =>
      have := Env.dist_prev hq hne
      exact ih _ c' (Env.reach_prev hq hne) (by omega) (hP q hPq hne) hf.2

theorem safe_greedyTriv (k p0 p : Nat) (c : Ctx) (cont : Cont) (S : Nat → Ctx → Prop)
    (hk : inf = true → E.remaining r p < k) (hp : E.Reach r p0 p) (hc : I c)
    (hcont : ∀ q c', PowUpTo (CharStep E (matchOne E.flags a) r) inf k p q → I c' →
        Post S (FailP E r I p0) (cont q c')) :
    Post S (FailP E r I p0) (greedyTriv E r a inf k p c cont) := by
  unfold greedyTriv
  refine safe_possTriv k p0 p c _ S hk hp hc (fun q c' hq hc' => ?_)
  have hpq : E.Reach r p q := by
    obtain ⟨j, _, hj⟩ := hq
    exact Pow.reach (fun p q hp h => CharStep.reach hp h) hp.right_le hj
  refine safe_backOff (P := fun q => PowUpTo (CharStep E (matchOne E.flags a) r) inf k p q) hp ?_ hcont
    _ q c' hpq (Nat.le_refl _) hq hc'
  rintro q' ⟨j, hj, hpow⟩ hne
  obtain ⟨j', rfl, h⟩ := pow_charStep_prev hp.right_le hpow hne
  exact ⟨j', fun hi => by have := hj hi; omega, h⟩

end trivLoops

theorem safe_betweenBounds {a : Ast} {m : Matcher} {R : Nat → Nat → Prop} {mode : Mode} {inf : Bool} {k : Nat}
    (h : Safe E r I m R) (hR : ∀ p q, p ≤ E.inp.length → R p q → E.Reach r p q)
    (hz : zlm a = false → ∀ p q, p ≤ E.inp.length → R p q → p ≠ q)
    (ht : triv a = true → ∀ p q, CharStep E (matchOne E.flags a) r p q → R p q)
    (hk : inf = true → E.inp.length < k) :
    Safe E r I (betweenBounds E r mode a m inf k) (PowUpTo R inf k) := by
  intro p0 p c cont S hp hc hcont
  have hk' : inf = true → E.remaining r p < k := fun hi =>
    Nat.lt_of_le_of_lt (Env.remaining_le hp.right_le) (hk hi)
  have hg : inf = true → (inf && zlm a) = true ∨ ∀ p q, p ≤ E.inp.length → R p q → p ≠ q := by
    intro hi
    cases hza : zlm a with
    | true => left; simp [hi]
    | false => exact .inr (hz hza)
  have hcont' : triv a = true → ∀ q c', PowUpTo (CharStep E (matchOne E.flags a) r) inf k p q → I c' →
        Post S (FailP E r I p0) (cont q c') := by
    rintro hta q c' ⟨j, hj, hpow⟩ hc'
    exact hcont q c' ⟨j, hj, hpow.mono (fun p q h => ht hta p q h)⟩ hc'
  unfold betweenBounds
  split
  · split
    · next hta => exact safe_possTriv k p0 p c cont S hk' hp hc (hcont' hta)
    · exact safe_possLoop h hR hg k p0 p c cont S hk' hp hc hcont
  · split
    · split
      · next hta =>
        simp only [Bool.and_eq_true] at hta
        exact safe_greedyTriv k p0 p c cont S hk' hp hc (hcont' hta.1)
      · exact safe_greedyLoop h hR hg k p0 p c cont S hk' hp hc hcont
    · split
      · next hta => exact safe_lazyTriv k p0 p c cont S hk' hp hc (hcont' hta)
      · exact safe_lazyLoop h hR hg k p0 p c cont S hk' hp hc hcont

theorem safe_fixedMatch {a : Ast} {m : Matcher} {R : Nat → Nat → Prop} {mode : Mode} {N : Nat}
    (h : Safe E r I m R) (hR : ∀ p q, p ≤ E.inp.length → R p q → E.Reach r p q)
    (ht : triv a = true → ∀ p q, CharStep E (matchOne E.flags a) r p q → R p q) :
    Safe E r I (fixedMatch E r mode a m N) (Pow R N) := by
  have hb : N ≠ 0 → Safe E r I (fixedBacktracking E r a m N) (Pow R N) := by
    intro hN
    unfold fixedBacktracking
    split
    · next hta => exact (Safe.fixedTriv a N).mono (fun p q _ hq => hq.mono (ht hta))
    · split
      · exact h.pow_unrolled hR N
      · obtain ⟨k, rfl⟩ := Nat.exists_eq_succ_of_ne_zero hN
        exact h.pow_nonUnrolled hR k
  unfold fixedMatch
  split
  · next hN => subst hN; exact Safe.id
  · next hN =>
    split
    · next h1 =>
      subst h1
      split
      · exact h.commit.mono (fun p q _ hq => Pow.one.2 hq)
      · exact h.mono (fun p q _ hq => Pow.one.2 hq)
    · split
      · exact (hb hN).commit
      · exact hb hN

theorem safe_repMatch {a : Ast} {m : Matcher} {R : Nat → Nat → Prop} {mode : Mode} {lo : Nat} {hi : Bound} {k : Nat}
    (h : Safe E r I m R) (hR : ∀ p q, p ≤ E.inp.length → R p q → E.Reach r p q)
    (hz : zlm a = false → ∀ p q, p ≤ E.inp.length → R p q → p ≠ q)
    (ht : triv a = true → ∀ p q, CharStep E (matchOne E.flags a) r p q → R p q)
    (hk : E.inp.length < k) (hlo : ∀ h, hi = .fin h → lo ≤ h) :
    Safe E r I (repMatch E r k mode lo hi a m)
      (fun p q => ∃ k, lo ≤ k ∧ (∀ h, hi = .fin h → k ≤ h) ∧ Pow R k p q) := by
  have hPR : ∀ N p q, p ≤ E.inp.length → Pow R N p q → E.Reach r p q :=
    fun N p q hp hq => Pow.reach hR hp hq
  unfold repMatch
  split
  · next hh =>
    have hlh := hlo hh rfl
    split
    · next heq =>
      subst heq
      exact (safe_fixedMatch h hR ht).mono
        (fun p q _ hq => ⟨hh, Nat.le_refl _, fun h e => by cases e; exact Nat.le_refl _, hq⟩)
    · split
      · omega
      · split
        · next h0 =>
          subst h0
          refine (safe_betweenBounds h hR hz ht (by simp)).mono ?_
          rintro p q _ ⟨j, hj, hq⟩
          exact ⟨j, Nat.zero_le _, fun h e => by cases e; exact hj rfl, hq⟩
        · refine ((safe_fixedMatch h hR ht).comp (safe_betweenBounds h hR hz ht (by simp)) (hPR _)).mono ?_
          rintro p q _ ⟨t, h1, j, hj, h2⟩
          refine ⟨lo + j, by omega, fun h e => ?_, h1.comp h2⟩
          cases e
          have := hj rfl
          omega
  · split
    · next h0 =>
      subst h0
      refine (safe_betweenBounds h hR hz ht (fun _ => hk)).mono ?_
      rintro p q _ ⟨j, hj, hq⟩
      exact ⟨j, Nat.zero_le _, (fun h e => by cases e), hq⟩
    · refine ((safe_fixedMatch h hR ht).comp (safe_betweenBounds h hR hz ht (fun _ => hk)) (hPR _)).mono ?_
      rintro p q _ ⟨t, h1, j, hj, h2⟩
      exact ⟨lo + j, by omega, (fun h e => by cases e), h1.comp h2⟩

theorem Safe.assert {pred : Nat → Option Bool} (h : ∀ p, p ≤ E.inp.length → pred p ≠ none) :
    Safe E r I (assertMatch pred) (fun p q => p = q ∧ pred p = some true) := by
  intro p0 p c cont S hp hc hcont
  unfold assertMatch
  match hpred : pred p with
  | none => exact absurd hpred (h p hp.right_le)
  | some true => exact hcont p c ⟨rfl, hpred⟩ hc
  | some false => exact post_nonMatch hp hc

theorem Safe.look {m : Matcher} {r' : Nat} {R : Nat → Nat → Prop} (h : Safe E r' I m R) :
    Safe E r I (lookMatch m) (fun p q => p = q ∧ ∃ t, R p t) :=
  fun _ p _ _ _ hp hc hcont =>
    (h.success hp.right_le hc).onMatch (fun t c' ht => hcont p c' ⟨rfl, t, ht.1⟩ ht.2)
      (fun _ _ hf => post_nonMatch hp hf.2)

theorem Safe.negAssert {m : Matcher} {R : Nat → Nat → Prop} (h : Safe E r I m R) :
    Safe E r I (negAssertMatch m) (fun p q => p = q) :=
  fun _ p _ _ _ hp hc hcont =>
    (h.success hp.right_le hc).onMatch (fun _ _ ht => post_nonMatch hp ht.2)
      (fun _ c' hf => hcont p c' rfl hf.2)

theorem safe_capMatch {m : Matcher} {R : Nat → Nat → Prop} {id : Nat} {name : GroupName} (h : Safe E r I m R)
    (hclear : ∀ c, I c → I (clearCapture id c))
    (hset : ∀ c p q, I c → p ≤ E.inp.length → R p q →
      I (c.set id (some (if r = 0 then (p, q) else (q, p)))))
    (hlen : ∀ c, I c → c.length = E.names.length)
    (hn : E.names[id]? = some name) (hr : r ≤ 1) :
    Safe E r I (capMatch E r id name m) R := by
  intro p0 p c cont S hp hc hcont
  unfold capMatch
  refine Post.orElse (F' := FailP E r I p0) (h p0 p c _ S hp hc ?_)
    (fun _ c' hf => post_nonMatch hp (hclear _ hf.2))
  intro q c' hq hc'
  have hid : id < c'.length := by
    rw [hlen c' hc']
    exact (List.getElem?_eq_some_iff.1 hn).1
  have : setCapture E r id name p q c' = some (c'.set id (some (if r = 0 then (p, q) else (q, p)))) := by
    unfold setCapture
    rw [if_pos ⟨hn, hr, hid⟩]
  rw [this]
  exact hcont q _ hq (hset c' p q hc' hp.right_le hq)

theorem backrefLoop_spec (l : List Byte) {p : Nat} (hp : p ≤ E.inp.length) (hl : l.length ≤ E.remaining r p) :
    (∃ q, backrefLoop E r l p = .done q ∧ E.Reach r p q) ∨
    (∃ q, backrefLoop E r l p = .fail q ∧ E.Reach r p q) := by
  induction l generalizing p with
  | nil => exact .inl ⟨p, rfl, .refl hp⟩
  | cons a l ih =>
    have h0 : E.remaining r p ≠ 0 := by simp at hl; omega
    obtain ⟨x, hx⟩ := Env.deref_some hp h0
    have hn := Env.reach_next hp h0
    have hr := Env.remaining_next hp h0
    simp only [backrefLoop, hx]
    split
    · rcases ih hn.right_le (by simp at hl; omega) with ⟨q, h1, h2⟩ | ⟨q, h1, h2⟩
      · exact .inl ⟨q, h1, hn.trans h2⟩
      · exact .inr ⟨q, h1, hn.trans h2⟩
    · exact .inr ⟨p, rfl, .refl hp⟩

theorem Safe.backref (hcat : E.cat ≠ .forward) (g : Cap) : Safe E r I (backrefMatch E r g) (E.Reach r) := by
  intro p0 p c cont S hp hc hcont
  unfold backrefMatch
  dsimp only
  rw [if_neg hcat, Env.distanceLessThan_eq _ hp.right_le]
  split
  · exact post_nonMatch hp hc
  · next h =>
    have hlen : (if r = 0 then capText E.inp g else (capText E.inp g).reverse).length ≤ E.remaining r p := by
      split <;> simpa using h
    rcases backrefLoop_spec (r := r) _ hp.right_le hlen with ⟨q, h1, h2⟩ | ⟨q, h1, h2⟩
    · rw [h1]; exact hcont q c h2 hc
    · rw [h1]; exact post_nonMatch (hp.trans h2) hc

end

/-- The capture nodes below `a`, with the layer at which they are run. -/
inductive CapAt : Nat → Ast → Nat → Nat → Ast → Prop
  | here {r id name a} : CapAt r (.cap id name a) r id a
  | cap {r id name a r' id' b} : CapAt r a r' id' b → CapAt r (.cap id name a) r' id' b
  | neg {r a r' id' b} : CapAt r a r' id' b → CapAt r (.neg a) r' id' b
  | rep {r m lo hi a r' id' b} : CapAt r a r' id' b → CapAt r (.rep m lo hi a) r' id' b
  | seq {r l a r' id' b} : a ∈ l → CapAt r a r' id' b → CapAt r (.seq l) r' id' b
  | alt {r l a r' id' b} : a ∈ l → CapAt r a r' id' b → CapAt r (.alt l) r' id' b
  | ahead {r a r' id' b} : CapAt r a r' id' b → CapAt r (.look .ahead a) r' id' b
  | behind {r a r' id' b} : CapAt (r + 1) (invert a) r' id' b → CapAt r (.look .behind a) r' id' b

/-- The invariant `I` is preserved by everything the captures below `a` may do. -/
def CapClosed (E : Env) (I : Ctx → Prop) (r : Nat) (a : Ast) : Prop :=
  ∀ r' id b, CapAt r a r' id b →
    (∀ c, I c → I (clearCapture id c)) ∧
    (∀ c p q, I c → p ≤ E.inp.length → Over E b r' false p q →
      I (c.set id (some (if r' = 0 then (p, q) else (q, p)))))

section
variable {E : Env} {I : Ctx → Prop}

theorem overSeq_of_steps {l : List Ast} (hl : areTriv l = true) {r p q : Nat} (h : Steps E r l p q) :
    OverSeq E l r false p q := by
  induction l generalizing p with
  | nil => exact h
  | cons a l ih =>
    obtain ⟨t, h1, h2⟩ := h
    simp only [areTriv, List.all_cons, Bool.and_eq_true] at hl
    simp only [OverSeq, Bool.false_eq_true, if_false]
    exact ⟨t, (over_triv hl.1).2 h1, ih hl.2 h2⟩

theorem safe_seqMatch {l : List Ast} {r : Nat} {m : Ast → Matcher} (hne : l ≠ [])
    (h : ∀ a ∈ l, Safe E r I (m a) (Over E a r false)) :
    Safe E r I (seqMatch E r m l) (fun p q => OverSeq E l r false p q) := by
  match l with
  | [] => exact absurd rfl hne
  | a :: l =>
    induction l generalizing a with
    | nil =>
      refine (h a (by simp)).mono ?_
      intro p q _ hq
      simpa [OverSeq] using hq
    | cons b l ih =>
      unfold seqMatch
      split
      · next ht => exact (Safe.seqTriv _).mono (fun p q _ hq => overSeq_of_steps ht hq)
      · refine ((h a (by simp)).comp (ih b (by simp) (fun x hx => h x (List.mem_cons_of_mem _ hx)))
          (fun p q hp hq => over_reach hp hq)).mono ?_
        rintro p q _ ⟨t, h1, h2⟩
        rw [OverSeq]
        simp only [Bool.false_eq_true, if_false]
        exact ⟨t, h1, h2⟩

theorem safe_altMatch {l : List Ast} {r : Nat} {m : Ast → Matcher} (hne : l ≠ [])
    (h : ∀ a ∈ l, Safe E r I (m a) (Over E a r false)) :
    Safe E r I (altMatch E r m l) (fun p q => OverAny E l r false p q) := by
  match l with
  | [] => exact absurd rfl hne
  | a :: l =>
    induction l generalizing a with
    | nil =>
      refine (h a (by simp)).mono ?_
      intro p q _ hq
      simpa [OverAny] using hq
    | cons b l ih =>
      unfold altMatch
      split
      · next ht =>
        refine (Safe.triv _).mono (fun p q _ hq => ?_)
        have := (over_triv (E := E) (a := .alt (a :: b :: l)) (r := r) (inv := false) (p := p) (q := q)
          (by simpa [triv, trivAlt_eq, areTriv] using ht)).2 hq
        simpa only [Over] using this
      · refine ((h a (by simp)).orElse (ih b (by simp) (fun x hx => h x (List.mem_cons_of_mem _ hx)))).mono ?_
        intro p q _ hq
        rw [OverAny]
        exact hq

theorem beginPred_ne_none {r : Nat} {multi : Bool} (h : multi = true → E.flags.multiline = true → E.cat ≠ .forward)
    {p : Nat} (hp : p ≤ E.inp.length) : beginPred E r multi p ≠ none := by
  unfold beginPred
  split
  · simp
  · next hb =>
    split
    · next hm =>
      simp only [Bool.and_eq_true] at hm
      obtain ⟨x, hx⟩ := Env.derefPrev_some (r := r) (h hm.1 hm.2) hp (by simpa using hb)
      simp [hx]
    · simp

theorem endPred_ne_none {r : Nat} {multi : Bool} {p : Nat} (hp : p ≤ E.inp.length) :
    endPred E r multi p ≠ none := by
  unfold endPred
  split
  · simp
  · next he =>
    split
    · obtain ⟨x, hx⟩ := Env.deref_some (r := r) hp (by rw [Env.atEnd_iff hp] at he; exact he)
      simp [hx]
    · simp

theorem wordBoundaryPred_ne_none {r : Nat} (hcat : E.cat ≠ .forward) {p : Nat} (hp : p ≤ E.inp.length) :
    wordBoundaryPred E r p ≠ none := by
  have h1 : ∃ b, (if E.atBegin r p then some false else (E.derefPrev r p).map (matchOne E.flags word)) = some b := by
    split
    · exact ⟨_, rfl⟩
    · next hb =>
      obtain ⟨x, hx⟩ := Env.derefPrev_some (r := r) hcat hp (by simpa using hb)
      simp [hx]
  have h2 : ∃ b, (if E.atEnd r p then some false else (E.deref r p).map (matchOne E.flags word)) = some b := by
    split
    · exact ⟨_, rfl⟩
    · next he =>
      obtain ⟨x, hx⟩ := Env.deref_some (r := r) hp (by rw [Env.atEnd_iff hp] at he; exact he)
      simp [hx]
  obtain ⟨b1, h1⟩ := h1
  obtain ⟨b2, h2⟩ := h2
  unfold wordBoundaryPred
  rw [h1, h2]
  simp

/-- `*std::prev(current)` is what a reverse iterator at the same base position refers to. -/
theorem derefPrev_eq {r p : Nat} (hcat : E.cat ≠ .forward) : E.derefPrev r p = E.deref (r + 1) p := by
  unfold Env.derefPrev Env.deref
  rw [if_neg hcat]
  rcases Nat.mod_two_eq_zero_or_one r with h | h
  · have h' : (r + 1) % 2 = 1 := by omega
    simp [h, h']
  · have h' : (r + 1) % 2 = 0 := by omega
    simp [h, h']

theorem atBegin_eq {r p : Nat} : E.atBegin r p = E.atEnd (r + 1) p := by
  unfold Env.atBegin Env.atEnd
  rcases Nat.mod_two_eq_zero_or_one r with h | h
  · have h' : (r + 1) % 2 = 1 := by omega
    simp [h, h']
  · have h' : (r + 1) % 2 = 0 := by omega
    simp [h, h']

/-- The main rule. -/
theorem mtch_safe (hlen : ∀ c, I c → c.length = E.names.length) :
    ∀ fuel a r, Ok E r a → a.depth + E.inp.length + 1 ≤ fuel → CapClosed E I r a →
      Safe E r I (mtch E fuel a r) (Over E a r false) := by
  intro fuel
  induction fuel with
  | zero => intro a r _ h; omega
  | succ k ih =>
    intro a r hok hfuel hcl
    unfold mtch
    cases hok with
    | empty => dsimp only; exact Safe.id.mono (fun p q _ h => by simpa only [Over] using h)
    | lit => dsimp only; exact (Safe.triv _).mono (fun p q _ h => by simpa only [Over] using h)
    | range => dsimp only; exact (Safe.triv _).mono (fun p q _ h => by simpa only [Over] using h)
    | wildcard => dsimp only; exact (Safe.triv _).mono (fun p q _ h => by simpa only [Over] using h)
    | set => dsimp only; exact (Safe.triv _).mono (fun p q _ h => by simpa only [Over] using h)
    | @neg _ b hb hok =>
      simp only [depth] at hfuel
      dsimp only
      split
      · next ha =>
        have := ih b r hok (by omega) (fun r' id b' h => hcl r' id b' (.neg h))
        refine this.negAssert.mono (fun p q _ h => ?_)
        simpa only [Over, ha, if_true] using h
      · next ha =>
        refine (Safe.triv _).mono (fun p q _ h => ?_)
        simp only [Over]
        rw [if_neg ha]
        exact h
    | @seq _ l hne hl =>
      simp only [depth] at hfuel
      dsimp only
      refine (safe_seqMatch hne (fun b hb => ?_)).mono (fun p q _ h => by simpa only [Over] using h)
      have := depth_le_all hb
      exact ih b r (hl b hb) (by omega) (fun r' id b' h => hcl r' id b' (.seq hb h))
    | @alt _ l hne hl =>
      simp only [depth] at hfuel
      dsimp only
      refine (safe_altMatch hne (fun b hb => ?_)).mono (fun p q _ h => by simpa only [Over] using h)
      have := depth_le_all hb
      exact ih b r (hl b hb) (by omega) (fun r' id b' h => hcl r' id b' (.alt hb h))
    | @cap _ id name b hn hr hok =>
      simp only [depth] at hfuel
      dsimp only
      have := ih b r hok (by omega) (fun r' id b' h => hcl r' id b' (.cap h))
      have hh := hcl r id b .here
      refine (safe_capMatch this hh.1 (fun c p q hc hp hq => hh.2 c p q hc hp hq) hlen hn hr).mono
        (fun p q _ h => by simpa only [Over] using h)
    | @repFin _ m lo hi b hlo hok =>
      simp only [depth] at hfuel
      dsimp only
      have := depth_pos b
      refine (safe_repMatch (ih b r hok (by omega) (fun r' id b' h => hcl r' id b' (.rep h)))
        (fun p q hp h => over_reach hp h) (fun hz p q hp h => over_ne hp hz h)
        (fun ht p q h => (over_triv ht).2 h) (by omega) (fun h e => by cases e; exact hlo)).mono
        (fun p q _ h => by simpa only [Over] using h)
    | @repInf _ m lo b hok =>
      simp only [depth] at hfuel
      dsimp only
      have := depth_pos b
      refine (safe_repMatch (ih b r hok (by omega) (fun r' id b' h => hcl r' id b' (.rep h)))
        (fun p q hp h => over_reach hp h) (fun hz p q hp h => over_ne hp hz h)
        (fun ht p q h => (over_triv ht).2 h) (by omega) (fun h e => by cases e)).mono
        (fun p q _ h => by simpa only [Over] using h)
    | @ahead _ b hok =>
      simp only [depth] at hfuel
      dsimp only
      split
      · next ht =>
        refine (Safe.assert (pred := lookaheadTrivPred E r b) ?_).mono ?_
        · intro p hp
          unfold lookaheadTrivPred
          split
          · simp
          · next he =>
            obtain ⟨x, hx⟩ := Env.deref_some (r := r) hp (by rw [Env.atEnd_iff hp] at he; exact he)
            simp [hx]
        · rintro p q hp ⟨rfl, h⟩
          simp only [Over, Bool.false_eq_true, if_false, true_and]
          unfold lookaheadTrivPred at h
          split at h
          · simp at h
          · next he =>
            simp only [Option.map_eq_some_iff] at h
            obtain ⟨x, hx, hm⟩ := h
            exact ⟨_, (over_triv ht).2 ⟨by rw [Env.atEnd_iff hp] at he; exact he, rfl, x, hx, hm⟩⟩
      · refine (Safe.look (ih b r hok (by omega) (fun r' id b' h => hcl r' id b' (.ahead h)))).mono
          (fun p q _ h => ?_)
        simpa only [Over, Bool.false_eq_true, if_false] using h
    | @behindTriv _ b hcat ht hok =>
      dsimp only
      rw [if_pos ht]
      refine (Safe.assert (pred := lookbehindTrivPred E r b) ?_).mono ?_
      · intro p hp
        unfold lookbehindTrivPred
        split
        · simp
        · next he =>
          obtain ⟨x, hx⟩ := Env.derefPrev_some (r := r) hcat hp (by simpa using he)
          simp [hx]
      · rintro p q hp ⟨rfl, h⟩
        simp only [Over, Bool.false_eq_true, if_false, true_and]
        unfold lookbehindTrivPred at h
        rw [atBegin_eq, derefPrev_eq hcat] at h
        split at h
        · simp at h
        · next he =>
          simp only [Option.map_eq_some_iff] at h
          obtain ⟨x, hx, hm⟩ := h
          exact ⟨_, (over_triv ht).2 ⟨by rw [Env.atEnd_iff hp] at he; exact he, rfl, x, hx, hm⟩⟩
    | @behind _ b hcat hok =>
      simp only [depth] at hfuel
      dsimp only
      split
      · next ht =>
        refine (Safe.assert (pred := lookbehindTrivPred E r b) ?_).mono ?_
        · intro p hp
          unfold lookbehindTrivPred
          split
          · simp
          · next he =>
            obtain ⟨x, hx⟩ := Env.derefPrev_some (r := r) hcat hp (by simpa using he)
            simp [hx]
        · rintro p q hp ⟨rfl, h⟩
          simp only [Over, Bool.false_eq_true, if_false, true_and]
          unfold lookbehindTrivPred at h
          rw [atBegin_eq, derefPrev_eq hcat] at h
          split at h
          · simp at h
          · next he =>
            simp only [Option.map_eq_some_iff] at h
            obtain ⟨x, hx, hm⟩ := h
            exact ⟨_, (over_triv ht).2 ⟨by rw [Env.atEnd_iff hp] at he; exact he, rfl, x, hx, hm⟩⟩
      · refine (Safe.look (ih (invert b) (r + 1) hok (by rw [depth_invert]; omega)
          (fun r' id b' h => hcl r' id b' (.behind h)))).mono (fun p q _ h => ?_)
        simp only [Over, Bool.false_eq_true, if_false]
        obtain ⟨rfl, t, ht⟩ := h
        exact ⟨rfl, t, by simpa using over_invert.1 ht⟩
    | bol h =>
      dsimp only
      exact (Safe.assert (fun p hp => beginPred_ne_none (fun _ => h) hp)).mono
        (fun p q _ h => by simpa only [Over] using h)
    | boi =>
      dsimp only
      exact (Safe.assert (fun p hp => beginPred_ne_none (by simp) hp)).mono
        (fun p q _ h => by simpa only [Over] using h)
    | eol =>
      dsimp only
      exact (Safe.assert (fun p hp => endPred_ne_none hp)).mono
        (fun p q _ h => by simpa only [Over] using h)
    | eoi =>
      dsimp only
      exact (Safe.assert (fun p hp => endPred_ne_none hp)).mono
        (fun p q _ h => by simpa only [Over] using h)
    | wordB h =>
      dsimp only
      exact (Safe.assert (fun p hp => wordBoundaryPred_ne_none h hp)).mono
        (fun p q _ h => by simpa only [Over] using h)
    | @backref _ id hcat hid =>
      intro p0 p c cont S hp hc hcont
      dsimp only
      rw [List.getElem?_eq_getElem (by rw [hlen c hc]; exact hid)]
      dsimp only
      exact Safe.backref hcat _ p0 p c cont S hp hc (fun q c' hq => hcont q c' (by simpa only [Over] using hq))
    | @namedBackref _ name hcat hname =>
      intro p0 p c cont S hp hc hcont
      dsimp only
      have hidx : nameIndex E.names name = some (E.names.idxOf (some name)) := by
        unfold nameIndex; rw [if_pos hname]
      have hlt : E.names.idxOf (some name) < c.length := by
        rw [hlen c hc]
        exact List.idxOf_lt_length_of_mem (List.count_pos_iff.1 (by omega))
      rw [hidx]
      dsimp only
      rw [List.getElem?_eq_getElem hlt]
      dsimp only
      exact Safe.backref hcat _ p0 p c cont S hp hc (fun q c' hq => hcont q c' (by simpa only [Over] using hq))

end
end Mregex
