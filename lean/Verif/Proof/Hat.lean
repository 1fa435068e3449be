import Verif.Proof.Flatten

/-!
# Matchers on good continuations

With enough fuel a matcher depends on its fuel only for continuations that do not return properly.  `hat m` is
`m` on the good continuations and `diverge` on the others; two matchers for which `hat` agrees can be exchanged.
-/

namespace Mregex
open Ast

section
variable (E : Env)

/-- The ends a part may have: on the way, and not at the start unless the part may be empty. -/
def RZ (r : Nat) (z : Bool) (p q : Nat) : Prop := E.Reach r p q ∧ (z = false → q ≠ p)

/-- The continuation returns, and what it leaves after a failure is well-formed. -/
def GoodK (r : Nat) (z : Bool) (p : Nat) (k : Cont) : Prop :=
  ∀ q c, RZ E r z p q → c.length = E.names.length →
    ∃ res c', k q c = .ok res c' ∧ (res.matched = false → c'.length = E.names.length)

open Classical in
/-- `m` on good continuations. -/
noncomputable def hat (r : Nat) (z : Bool) (m : Matcher) : Matcher := fun p c k =>
  if p ≤ E.inp.length ∧ c.length = E.names.length ∧ GoodK E r z p k then m p c k else .diverge

/-- Captures of the right number. -/
abbrev LenI : Ctx → Prop := fun c => c.length = E.names.length

variable {E} {r : Nat} {z : Bool}

theorem GoodK.sim {p : Nat} {k k' : Cont} (h : GoodK E r z p k) (hk : CSim E.inp.length k k') : GoodK E r z p k' := by
  intro q c hq hc
  obtain ⟨res, c', h1, h2⟩ := h q c hq hc
  have := hk q c hq.1.right_le
  rw [h1] at this
  generalize k' q c = o at this
  obtain ⟨pos, b⟩ := res
  cases this with
  | hit h => exact ⟨_, _, rfl, fun h => (by cases h)⟩
  | miss => exact ⟨_, _, rfl, fun _ => h2 rfl⟩

theorem hat_pos {m : Matcher} {p : Nat} {c : Ctx} {k : Cont} (h : p ≤ E.inp.length ∧ c.length = E.names.length ∧ GoodK E r z p k) :
    hat E r z m p c k = m p c k := by
  unfold hat
  rw [if_pos h]

theorem hat_neg {m : Matcher} {p : Nat} {c : Ctx} {k : Cont}
    (h : ¬ (p ≤ E.inp.length ∧ c.length = E.names.length ∧ GoodK E r z p k)) : hat E r z m p c k = .diverge := by
  unfold hat
  rw [if_neg h]

theorem hat_hat (m : Matcher) : hat E r z (hat E r z m) = hat E r z m := by
  funext p c k
  by_cases h : p ≤ E.inp.length ∧ c.length = E.names.length ∧ GoodK E r z p k
  · rw [hat_pos h]
  · rw [hat_neg h, hat_neg h]

theorem msim_hat {m m' : Matcher} (h : MSim E.inp.length m m') : MSim E.inp.length (hat E r z m) (hat E r z m') := by
  intro p c k k' hp hk
  by_cases hg : p ≤ E.inp.length ∧ c.length = E.names.length ∧ GoodK E r z p k
  · rw [hat_pos hg, hat_pos ⟨hg.1, hg.2.1, hg.2.2.sim hk⟩]
    exact h p c k k' hp hk
  · rw [hat_neg hg, hat_neg (fun h => hg ⟨h.1, h.2.1, h.2.2.sim hk.symm⟩)]
    exact .diverge

theorem hat_le {m m' : Matcher} (h : m.Le m') : Matcher.Le (hat E r z m) m' := by
  intro p c k k' hk
  by_cases hg : p ≤ E.inp.length ∧ c.length = E.names.length ∧ GoodK E r z p k
  · rw [hat_pos hg]; exact h p c k k' hk
  · rw [hat_neg hg]; exact .inl rfl

theorem GoodK.le {p : Nat} {k k' : Cont} (h : GoodK E r z p k) (hk : k.Le k') : GoodK E r z p k' := by
  intro q c hq hc
  obtain ⟨res, c', h1, h2⟩ := h q c hq hc
  rcases hk q c with h | h
  · rw [h1] at h; cases h
  · exact ⟨res, c', h.symm.trans h1, h2⟩

theorem hat_mono {m m' : Matcher} (h : m.Le m') : Matcher.Le (hat E r z m) (hat E r z m') := by
  intro p c k k' hk
  by_cases hg : p ≤ E.inp.length ∧ c.length = E.names.length ∧ GoodK E r z p k
  · rw [hat_pos hg, hat_pos ⟨hg.1, hg.2.1, hg.2.2.le hk⟩]; exact h p c k k' hk
  · rw [hat_neg hg]; exact .inl rfl

theorem hat_safe {m : Matcher} (h : Safe E r (LenI E) m (RZ E r z)) : Safe E r (LenI E) (hat E r z m) (RZ E r z) := by
  intro p0 p c cont S hp hc hcont
  rw [hat_pos]
  · exact h p0 p c cont S hp hc hcont
  · refine ⟨hp.right_le, hc, fun q c' hq hc' => ?_⟩
    have := hcont q c' hq hc'
    match hk : cont q c' with
    | .ok ⟨pos, true⟩ c'' => exact ⟨_, _, rfl, fun h => (by cases h)⟩
    | .ok ⟨pos, false⟩ c'' =>
      rw [hk] at this
      simp only [Post, Bool.false_eq_true, if_false] at this
      exact ⟨_, _, rfl, fun _ => this.2⟩
    | .ub => rw [hk] at this; exact False.elim this
    | .diverge => rw [hk] at this; exact False.elim this

/-- The same continuation, reporting failures at `p`. -/
def failAt (p : Nat) (k : Cont) : Cont := fun q c =>
  match k q c with
  | .ok ⟨_, false⟩ c' => .ok ⟨p, false⟩ c'
  | o => o

theorem csim_failAt {n p : Nat} {k : Cont} (h : CSim n k k) : CSim n k (failAt p k) := by
  intro q c hq
  have := h q c hq
  unfold failAt
  match hk : k q c with
  | .ok ⟨pos, true⟩ c' => rw [hk] at this; exact this
  | .ok ⟨pos, false⟩ c' => exact .miss
  | .ub => exact .ub
  | .diverge => exact .diverge

/-- A safe matcher returns on good continuations. -/
theorem returns_of_good {m : Matcher} (hs : Safe E r (LenI E) m (RZ E r z)) (hm : MSim E.inp.length m m) {p : Nat} {c : Ctx}
    {k : Cont} (hg : p ≤ E.inp.length ∧ c.length = E.names.length ∧ GoodK E r z p k) (hk : CSim E.inp.length k k) :
    m p c k ≠ .diverge := by
  have h1 := hs p p c (failAt p k) (fun _ _ => True) (.refl hg.1) hg.2.1 (fun q c' hq hc' => by
    obtain ⟨⟨pos, b⟩, c'', h1, h2⟩ := hg.2.2 q c' hq hc'
    unfold failAt
    rw [h1]
    cases b
    · exact post_nonMatch (.refl hg.1) (h2 rfl)
    · simp [Post])
  have h2 := hm p c k (failAt p k) hg.1 (csim_failAt hk)
  intro hd
  rw [hd] at h2
  generalize m p c (failAt p k) = o at h1 h2
  cases h2
  exact h1

/-- More fuel does not matter on good continuations. -/
theorem hat_sim {m m' : Matcher} (hle : m.Le m') (hs : Safe E r (LenI E) m (RZ E r z)) (hm : MSim E.inp.length m m) :
    MSim E.inp.length (hat E r z m) (hat E r z m') := by
  intro p c k k' hp hk
  by_cases hg : p ≤ E.inp.length ∧ c.length = E.names.length ∧ GoodK E r z p k
  · have hg' : p ≤ E.inp.length ∧ c.length = E.names.length ∧ GoodK E r z p k' := ⟨hg.1, hg.2.1, hg.2.2.sim hk⟩
    rw [hat_pos hg, hat_pos hg']
    rcases hle p c k' k' (Cont.Le.refl _) with h | h
    · exact absurd h (returns_of_good hs hm hg' hk.symm.left)
    · rw [← h]; exact hm p c k k' hp hk
  · rw [hat_neg hg, hat_neg (fun h => hg ⟨h.1, h.2.1, h.2.2.sim hk.symm⟩)]
    exact .diverge

theorem RZ.refl {p : Nat} (hp : p ≤ E.inp.length) : RZ E r true p p := ⟨.refl hp, fun h => by cases h⟩

theorem RZ.comp {z' : Bool} {p t q : Nat} (h : RZ E r z p t) (h' : RZ E r z' t q) : RZ E r (z && z') p q := by
  refine ⟨h.1.trans h'.1, fun hz => ?_⟩
  rintro rfl
  have := h.1.antisymm h'.1
  subst this
  cases z
  · exact h.2 rfl rfl
  · exact h'.2 (by simpa using hz) rfl

theorem RZ.weaken {z' : Bool} {p q : Nat} (h : RZ E r z p q) (hz : z = true → z' = true) : RZ E r z' p q :=
  ⟨h.1, fun h' => h.2 (by cases z <;> simp_all)⟩

theorem rz_charStep {P : Byte → Bool} {p q : Nat} (hp : p ≤ E.inp.length) (h : CharStep E P r p q) : RZ E r z p q :=
  ⟨h.reach hp, fun _ => (h.ne hp).symm⟩

theorem rz_over {a : Ast} {p q : Nat} (hp : p ≤ E.inp.length) (h : Over E a r false p q) : RZ E r (zlm a) p q :=
  ⟨over_reach hp h, fun hz => (over_ne hp hz h).symm⟩

theorem mtch_rz {fuel : Nat} {a : Ast} (hok : Ok E r a) (hf : a.depth + E.inp.length + 1 ≤ fuel) :
    Safe E r (LenI E) (mtch E fuel a r) (RZ E r (zlm a)) :=
  (mtch_safe (fun _ h => h) fuel a r hok hf capClosed_len).mono (fun _ _ hp h => rz_over hp h)

/-- The matcher of `a` on good continuations. -/
noncomputable def H (E : Env) (r : Nat) (a : Ast) : Matcher := hat E r (zlm a) (mtch E (a.depth + E.inp.length + 1) a r)

theorem H_fuel {fuel : Nat} {a : Ast} (hok : Ok E r a) (hf : a.depth + E.inp.length + 1 ≤ fuel) :
    MSim E.inp.length (H E r a) (hat E r (zlm a) (mtch E fuel a r)) :=
  hat_sim (mtch_le E _ _ a r hf) (mtch_rz hok (Nat.le_refl _)) (msim_self hok (Nat.le_refl _))

theorem H_self {a : Ast} (hok : Ok E r a) : MSim E.inp.length (H E r a) (H E r a) := msim_hat (msim_self hok (Nat.le_refl _))

theorem H_safe {a : Ast} (hok : Ok E r a) : Safe E r (LenI E) (H E r a) (RZ E r (zlm a)) := hat_safe (mtch_rz hok (Nat.le_refl _))

theorem H_le {fuel : Nat} {a : Ast} (hf : a.depth + E.inp.length + 1 ≤ fuel) : Matcher.Le (H E r a) (mtch E fuel a r) :=
  hat_le (mtch_le E _ _ a r hf)

theorem H_mono (a : Ast) : Matcher.Le (H E r a) (H E r a) := hat_mono (mtch_le E _ _ a r (Nat.le_refl _))

theorem H_triv {a : Ast} (ht : triv a = true) : H E r a = hat E r false (trivMatch E r a) := by
  unfold H
  rw [mtch_triv ht (by omega), zlm_of_triv ht]

theorem hat_H {a : Ast} : hat E r (zlm a) (H E r a) = H E r a := hat_hat _

/-! ### Sequences -/

theorem safe_chain {l : List Ast} {m : Ast → Matcher} (h : ∀ a ∈ l, Safe E r (LenI E) (m a) (RZ E r (zlm a))) :
    Safe E r (LenI E) (chain (l.map m)) (RZ E r (l.all zlm)) := by
  induction l with
  | nil => exact Safe.id.mono (fun p q hp h => by subst h; exact .refl hp)
  | cons a l ih =>
    have := (h a (by simp)).comp (ih (fun b hb => h b (by simp [hb]))) (fun p q _ h => h.1)
    exact this.mono (fun p q _ ⟨t, h1, h2⟩ => by simpa using h1.comp h2)

theorem H_seq {l : List Ast} (hl : l ≠ []) (hok : ∀ a ∈ l, Ok E r a) :
    MSim E.inp.length (H E r (.seq l)) (hat E r (zlm (.seq l)) (chain (l.map (H E r)))) := by
  have hz : zlm (.seq l) = l.all zlm := by simp only [zlm, zlmAll_eq]
  have hd : ∀ a ∈ l, a.depth + E.inp.length + 1 ≤ depthAll l + E.inp.length + 1 := fun a ha => by
    have := depth_le_all ha; omega
  refine (H_fuel (.seq hl hok) (fuel := depthAll l + E.inp.length + 1 + 1) (by simp only [depth]; omega)).trans ?_
  refine (msim_hat (msim_seq hl hok hd)).trans ?_
  rw [hz]
  exact (hat_sim (chain_le l (fun a ha => H_le (hd a ha))) (safe_chain (fun a ha => H_safe (hok a ha)))
    (msim_chain l (fun a ha => H_self (hok a ha)))).symm

/-! ### Alternations -/

theorem safe_alt {l : List Ast} {m : Ast → Matcher} (hl : l ≠ []) (h : ∀ a ∈ l, Safe E r (LenI E) (m a) (RZ E r (zlm a))) :
    Safe E r (LenI E) (altMatch E r m l) (RZ E r (l.any zlm)) := by
  induction l with
  | nil => exact absurd rfl hl
  | cons a l ih =>
    match l with
    | [] => exact (h a (by simp)).mono (fun p q _ hq => hq.weaken (by simp))
    | b :: l =>
      unfold altMatch
      split
      · exact (Safe.triv _).mono (fun p q hp hq => rz_charStep hp hq)
      · have ih := ih (by simp) (fun x hx => h x (List.mem_cons_of_mem _ hx))
        intro p0 p c cont S hp hc hcont
        refine (h a (by simp) p0 p c cont S hp hc (fun q c' hq => hcont q c' (hq.weaken (by simp +contextual)))).orElse ?_
        intro q c' hf
        exact ih p0 p c' cont S hp hf.2 (fun q c' hq => hcont q c' (hq.weaken (fun h => by
          rw [List.any_cons, h, Bool.or_true])))

/-- Corresponding branches. -/
theorem msim_alts {m m' : Ast → Matcher} (pre post : List Ast) {a b : Ast} (ht : triv a = triv b)
    (h1 : triv a = true → ∀ x, matchOne E.flags a x = matchOne E.flags b x)
    (hm : ∀ x, x ∈ pre ∨ x ∈ post → MSim E.inp.length (m x) (m' x)) (hab : MSim E.inp.length (m a) (m' b)) :
    MSim E.inp.length (altMatch E r m (pre ++ a :: post)) (altMatch E r m' (pre ++ b :: post)) := by
  have hset : ∀ pre : List Ast, areTriv (pre ++ a :: post) = true →
      trivMatch E r (.set (pre ++ a :: post)) = trivMatch E r (.set (pre ++ b :: post)) := by
    intro pre h
    simp only [areTriv, List.all_append, List.all_cons, Bool.and_eq_true] at h
    have hone : ∀ x, matchOne E.flags (.set (pre ++ a :: post)) x = matchOne E.flags (.set (pre ++ b :: post)) x := by
      intro x
      simp only [matchOne, matchAny_eq, List.any_append, List.any_cons, h1 h.2.1 x]
    funext p c k
    unfold trivMatch
    simp only [hone]
  have hare : ∀ pre : List Ast, areTriv (pre ++ a :: post) = areTriv (pre ++ b :: post) := by
    intro pre; simp [areTriv, ht]
  induction pre with
  | nil =>
    match post with
    | [] => exact hab
    | y :: post =>
      simp only [List.nil_append]
      unfold altMatch
      rw [← show areTriv (a :: y :: post) = areTriv (b :: y :: post) from hare []]
      split
      · next h =>
        rw [show trivMatch E r (.set (a :: y :: post)) = _ from hset [] h]
        exact msim_triv (cat' := E.cat) r _
      · intro p c k k' hp hk
        exact (hab p c k k' hp hk).orElse
          (fun c' => msim_altMatch (cat' := E.cat) r (y :: post) (fun x hx => hm x (.inr hx)) p c' k k' hp hk)
  | cons x pre ih =>
    have ih := ih (fun y hy => hm y (hy.elim (fun h => .inl (List.mem_cons_of_mem _ h)) .inr))
    have hne : ∃ y t, pre ++ a :: post = y :: t ∧ ∃ y' t', pre ++ b :: post = y' :: t' := by
      cases pre with
      | nil => exact ⟨_, _, rfl, _, _, rfl⟩
      | cons => exact ⟨_, _, rfl, _, _, rfl⟩
    have h2 := hare (x :: pre)
    have h3 := hset (x :: pre)
    obtain ⟨y, t, e, y', t', e'⟩ := hne
    simp only [List.cons_append, e, e'] at h2 h3 ih ⊢
    unfold altMatch
    rw [← h2]
    split
    · next h =>
      rw [h3 h]
      exact msim_triv (cat' := E.cat) r _
    · intro p c k k' hp hk
      exact (hm x (.inl (by simp)) p c k k' hp hk).orElse (fun c' => ih p c' k k' hp hk)

theorem H_alt {l : List Ast} (hl : l ≠ []) (hok : ∀ a ∈ l, Ok E r a) :
    MSim E.inp.length (H E r (.alt l)) (hat E r (zlm (.alt l)) (altMatch E r (H E r) l)) := by
  have hz : zlm (.alt l) = l.any zlm := by simp only [zlm, zlmAny_eq]
  have hd : ∀ a ∈ l, a.depth + E.inp.length + 1 ≤ depthAll l + E.inp.length + 1 := fun a ha => by
    have := depth_le_all ha; omega
  refine (H_fuel (.alt hl hok) (fuel := depthAll l + E.inp.length + 1 + 1) (by simp only [depth]; omega)).trans ?_
  rw [hz]
  simp only [mtch]
  exact (hat_sim (altMatch_le (fun a ha => H_le (hd a ha))) (safe_alt hl (fun a ha => H_safe (hok a ha)))
    (msim_altMatch (cat' := E.cat) r l (fun a ha => H_self (hok a ha)))).symm

/-! ### The other nodes -/

theorem H_cap {id : Nat} {name : GroupName} {a : Ast} (hok : Ok E r (.cap id name a)) :
    MSim E.inp.length (H E r (.cap id name a)) (hat E r (zlm a) (capMatch E r id name (H E r a))) := by
  refine (H_fuel hok (fuel := a.depth + E.inp.length + 1 + 1) (by simp only [depth]; omega)).trans ?_
  cases hok with
  | cap hn hr hok =>
    simp only [mtch, zlm]
    refine (hat_sim (capMatch_le (H_le (Nat.le_refl _))) (safe_capMatch (H_safe hok) (fun c hc => (length_clear id c).trans hc)
      (fun c p q hc _ _ => List.length_set.trans hc) (fun _ h => h) hn hr)
      (msim_capMatch (cat' := E.cat) r id name (H_self hok))).symm

theorem rz_pow {R : Nat → Nat → Prop} (hR : ∀ p q, p ≤ E.inp.length → R p q → RZ E r z p q) {k p q : Nat} (hp : p ≤ E.inp.length)
    (h : Pow R k p q) : RZ E r (k == 0 || z) p q := by
  induction k generalizing p with
  | zero => cases h; exact .refl hp
  | succ k ih =>
    obtain ⟨t, h1, h2⟩ := h
    have h1 := hR p t hp h1
    exact (h1.comp (ih h1.1.right_le h2)).weaken (by simp +contextual)

theorem safe_rep {a : Ast} {m : Matcher} (hs : Safe E r (LenI E) m (RZ E r (zlm a))) {mode : Mode} {lo : Nat} {hi : Bound} {k : Nat}
    (hk : E.inp.length < k) (hlo : ∀ h, hi = .fin h → lo ≤ h) :
    Safe E r (LenI E) (repMatch E r k mode lo hi a m) (RZ E r (zlm (.rep mode lo hi a))) := by
  refine (safe_repMatch hs (fun p q _ h => h.1) (fun hz p q _ h => (h.2 hz).symm) ?_ hk hlo).mono ?_
  · intro ht p q h
    refine rz_charStep ?_ h
    obtain ⟨h0, rfl, x, hx, _⟩ := h
    exact (reach_of_deref hx).2
  · rintro p q hp ⟨j, hj, _, h⟩
    refine (rz_pow (fun p q _ h => h) hp h).weaken (fun h => ?_)
    simp only [zlm, Bool.or_eq_true, beq_iff_eq] at h ⊢
    exact h.imp (fun h => by omega) id

theorem lo_le_of_ok {mode : Mode} {lo : Nat} {hi : Bound} {a : Ast} (hok : Ok E r (.rep mode lo hi a)) : ∀ h, hi = .fin h → lo ≤ h := by
  intro h e
  subst e
  cases hok with
  | repFin hle _ => exact hle

theorem body_of_ok {mode : Mode} {lo : Nat} {hi : Bound} {a : Ast} (hok : Ok E r (.rep mode lo hi a)) : Ok E r a := by
  cases hok with
  | repFin _ h => exact h
  | repInf h => exact h

theorem H_rep {mode : Mode} {lo : Nat} {hi : Bound} {a : Ast} (hok : Ok E r (.rep mode lo hi a)) (ht : triv a = false) {F : Nat}
    (hF : a.depth + E.inp.length + 1 ≤ F) :
    MSim E.inp.length (H E r (.rep mode lo hi a)) (hat E r (zlm (.rep mode lo hi a)) (repMatch E r F mode lo hi a (H E r a))) := by
  refine (H_fuel hok (fuel := F + 1) (by simp only [depth]; omega)).trans ?_
  have hb := body_of_ok hok
  simp only [mtch]
  refine (hat_sim (repMatch_le (Nat.le_refl _) mode lo hi a (H_le hF)) (safe_rep (H_safe hb) (by omega) (lo_le_of_ok hok))
    (msim_repMatch (cat' := E.cat) r F mode lo hi a (H_self hb) (fun h => by rw [ht] at h; cases h))).symm

theorem H_ahead {a : Ast} (hok : Ok E r a) (ht : triv a = false) :
    MSim E.inp.length (H E r (.look .ahead a)) (hat E r true (lookMatch (H E r a))) := by
  refine (H_fuel (.ahead hok) (fuel := a.depth + E.inp.length + 1 + 1) (by simp only [depth]; omega)).trans ?_
  simp only [mtch, zlm, ht, Bool.false_eq_true, if_false]
  exact (hat_sim (lookMatch_le (H_le (Nat.le_refl _))) ((H_safe hok).look.mono (fun p q hp h => h.1 ▸ .refl hp))
    (msim_look (H_self hok))).symm

theorem H_behind {a : Ast} (hcat : E.cat ≠ .forward) (hok : Ok E (r + 1) (invert a)) (ht : triv a = false) :
    MSim E.inp.length (H E r (.look .behind a)) (hat E r true (lookMatch (H E (r + 1) (invert a)))) := by
  obtain ⟨F, hF⟩ : ∃ F, F = a.depth + E.inp.length + 1 := ⟨_, rfl⟩
  have hd : (invert a).depth + E.inp.length + 1 ≤ F := by rw [depth_invert]; omega
  refine (H_fuel (.behind hcat hok) (fuel := F + 1) (by simp only [depth]; omega)).trans ?_
  simp only [mtch, zlm, ht, Bool.false_eq_true, if_false, hcat]
  exact (hat_sim (lookMatch_le (H_le hd)) ((H_safe hok).look.mono (fun p q hp h => h.1 ▸ .refl hp))
    (msim_look (H_self hok))).symm

theorem H_neg {a : Ast} (hok : Ok E r a) (ha : isAssertion a = true) :
    MSim E.inp.length (H E r (.neg a)) (hat E r true (negAssertMatch (H E r a))) := by
  refine (H_fuel (.neg (.inr ha) hok) (fuel := a.depth + E.inp.length + 1 + 1) (by simp only [depth]; omega)).trans ?_
  simp only [mtch, zlm, ha, if_true]
  exact (hat_sim (negAssertMatch_le (H_le (Nat.le_refl _))) ((H_safe hok).negAssert.mono (fun p q hp h => h ▸ .refl hp))
    (msim_negAssert (H_self hok))).symm

end
end Mregex
