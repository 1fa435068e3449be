import Verif.Proof.CaptureLemmas
import Verif.Spec.Forget
import Verif.Spec.Paths

/-!
# Iterations that forget
-/

namespace Mregex
open Ast Spec

/-- The captures have the right number. -/
abbrev Len (E : Env) (c : Ctx) : Prop := c.length = E.names.length

/-- The group `k` holds no text. -/
def Lost (E : Env) (k : Nat) (c : Ctx) : Prop := Len E c ∧ ∀ g, c[k]? = some g → NoText g

/-- A failure of `m` leaves the group without text. -/
def Clr (E : Env) (r k : Nat) (m : Matcher) (R : Nat → Nat → Prop) : Prop :=
  ∀ p0 p c cont S, E.Reach r p0 p → Len E c → (∀ q c', R p q → Len E c' → Post S (FailP E r (Len E) p0) (cont q c')) →
    Post S (FailP E r (Lost E k) p0) (m p c cont)

/-- The continuation of `m` finds the group without text. -/
def Forg (E : Env) (r k : Nat) (m : Matcher) (R : Nat → Nat → Prop) : Prop :=
  ∀ p0 p c cont S, E.Reach r p0 p → Len E c → (∀ q c', R p q → Lost E k c' → Post S (FailP E r (Lost E k) p0) (cont q c')) →
    Post S (FailP E r (Len E) p0) (m p c cont)

section
variable {E : Env} {r k : Nat} {m m' : Matcher} {R R' : Nat → Nat → Prop}

theorem FailP.len {p0 q : Nat} {c : Ctx} (h : FailP E r (Lost E k) p0 q c) : FailP E r (Len E) p0 q c := ⟨h.1, h.2.1⟩

theorem Clr.mono (h : Clr E r k m R) (hR : ∀ p q, p ≤ E.inp.length → R p q → R' p q) : Clr E r k m R' :=
  fun p0 p c cont S hp hc hk => h p0 p c cont S hp hc (fun q c' hq => hk q c' (hR p q hp.right_le hq))

theorem Forg.mono (h : Forg E r k m R) (hR : ∀ p q, p ≤ E.inp.length → R p q → R' p q) : Forg E r k m R' :=
  fun p0 p c cont S hp hc hk => h p0 p c cont S hp hc (fun q c' hq => hk q c' (hR p q hp.right_le hq))

theorem Clr.comp (h : Clr E r k m R) (h' : Safe E r (Len E) m' R') (hR : ∀ p q, p ≤ E.inp.length → R p q → E.Reach r p q) :
    Clr E r k (fun p c cont => m p c (fun q c' => m' q c' cont)) (fun p q => ∃ t, R p t ∧ R' t q) :=
  fun p0 p c cont S hp hc hk =>
    h p0 p c _ S hp hc (fun t c' ht hc' =>
      h' p0 t c' cont S (hp.trans (hR p t hp.right_le ht)) hc' (fun q c'' hq hc'' => hk q c'' ⟨t, ht, hq⟩ hc''))

theorem Forg.comp (h : Forg E r k m R) (h' : Safe E r (Lost E k) m' R') (hR : ∀ p q, p ≤ E.inp.length → R p q → E.Reach r p q) :
    Forg E r k (fun p c cont => m p c (fun q c' => m' q c' cont)) (fun p q => ∃ t, R p t ∧ R' t q) :=
  fun p0 p c cont S hp hc hk =>
    h p0 p c _ S hp hc (fun t c' ht hc' =>
      h' p0 t c' cont S (hp.trans (hR p t hp.right_le ht)) hc' (fun q c'' hq hc'' => hk q c'' ⟨t, ht, hq⟩ hc''))

theorem Forg.after (h : Safe E r (Len E) m R) (h' : Forg E r k m' R') (hR : ∀ p q, p ≤ E.inp.length → R p q → E.Reach r p q) :
    Forg E r k (fun p c cont => m p c (fun q c' => m' q c' cont)) (fun p q => ∃ t, R p t ∧ R' t q) :=
  fun p0 p c cont S hp hc hk =>
    h p0 p c _ S hp hc (fun t c' ht hc' =>
      h' p0 t c' cont S (hp.trans (hR p t hp.right_le ht)) hc' (fun q c'' hq hc'' => hk q c'' ⟨t, ht, hq⟩ hc''))

theorem clr_or (h : Safe E r (Len E) m R) (h' : Clr E r k m' R') :
    Clr E r k (fun p c cont => (m p c cont).orElse (fun c' => m' p c' cont)) (fun p q => R p q ∨ R' p q) :=
  fun p0 p c cont S hp hc hk =>
    Post.orElse (F' := FailP E r (Len E) p0) (h p0 p c cont S hp hc (fun q c' hq => hk q c' (.inl hq)))
      (fun _ c' hf => h' p0 p c' cont S hp hf.2 (fun q c'' hq => hk q c'' (.inr hq)))

theorem Forg.orElse (h : Forg E r k m R) (h' : Forg E r k m' R') :
    Forg E r k (fun p c cont => (m p c cont).orElse (fun c' => m' p c' cont)) (fun p q => R p q ∨ R' p q) :=
  fun p0 p c cont S hp hc hk =>
    Post.orElse (F' := FailP E r (Len E) p0) (h p0 p c cont S hp hc (fun q c' hq => hk q c' (.inl hq)))
      (fun _ c' hf => h' p0 p c' cont S hp hf.2 (fun q c'' hq => hk q c'' (.inr hq)))

theorem Lost.clear {c : Ctx} {id : Nat} (h : Len E c) (hk : id = k ∨ Lost E k c) : Lost E k (clearCapture id c) := by
  refine ⟨(length_clear id c).trans h, fun g hg => ?_⟩
  rw [clearCapture, List.getElem?_modify] at hg
  have hclear : ∀ g : Cap, NoText g.clear := by intro g; cases g <;> simp [Cap.clear, NoText]
  cases hc : c[k]? with
  | none => simp [hc] at hg
  | some g' =>
    by_cases hid : id = k
    · simp only [hc, hid, if_true, Option.map_eq_map, Option.map_some, Option.some.injEq] at hg
      subst hg
      exact hclear g'
    · simp only [hc, hid, if_false, Option.map_eq_map, Option.map_some, Option.some.injEq] at hg
      subst hg
      exact (hk.resolve_left hid).2 _ hc

theorem Lost.set {c : Ctx} {id : Nat} {v : Cap} (h : Lost E k c) (hid : id ≠ k) : Lost E k (c.set id v) := by
  refine ⟨List.length_set.trans h.1, fun g hg => ?_⟩
  rw [List.getElem?_set, if_neg hid] at hg
  exact h.2 g hg

theorem capClosed_lost {a : Ast} (h : k ∉ groupIds a) : CapClosed E (Lost E k) r a := by
  intro r' id b hb
  have hid : id ≠ k := fun e => h (e ▸ capAt_groupIds hb)
  exact ⟨fun c hc => Lost.clear hc.1 (.inr hc), fun c p q hc _ _ => hc.set hid⟩

/-! ### Captures -/

theorem setCapture_len {id : Nat} {name : GroupName} (hn : E.names[id]? = some name) (hr : r ≤ 1) {c : Ctx} (hc : Len E c) (p q : Nat) :
    setCapture E r id name p q c = some (c.set id (some (if r = 0 then (p, q) else (q, p)))) := by
  unfold setCapture
  rw [if_pos ⟨hn, hr, by rw [show c.length = _ from hc]; exact (List.getElem?_eq_some_iff.1 hn).1⟩]

theorem clr_cap {id : Nat} {name : GroupName} (hn : E.names[id]? = some name) (hr : r ≤ 1)
    (h : (id = k ∧ Safe E r (Len E) m R) ∨ Clr E r k m R) : Clr E r k (capMatch E r id name m) R := by
  intro p0 p c cont S hp hc hcont
  unfold capMatch
  have hk : ∀ q c', R p q → Len E c' → Post S (FailP E r (Len E) p0)
      (match setCapture E r id name p q c' with | none => .ub | some c'' => cont q c'') := by
    intro q c' hq hc'
    rw [setCapture_len hn hr hc']
    exact hcont q _ hq (List.length_set.trans hc')
  rcases h with ⟨rfl, h⟩ | h
  · exact Post.orElse (F' := FailP E r (Len E) p0) (h p0 p c _ S hp hc hk) (fun _ c' hf => post_nonMatch hp (.clear hf.2 (.inl rfl)))
  · exact Post.orElse (F' := FailP E r (Lost E k) p0) (h p0 p c _ S hp hc hk) (fun _ c' hf => post_nonMatch hp (.clear hf.2.1 (.inr hf.2)))

theorem forg_cap {id : Nat} {name : GroupName} (hn : E.names[id]? = some name) (hr : r ≤ 1) (hid : id ≠ k) (h : Forg E r k m R) :
    Forg E r k (capMatch E r id name m) R := by
  intro p0 p c cont S hp hc hcont
  unfold capMatch
  refine Post.orElse (F' := FailP E r (Len E) p0) (h p0 p c _ S hp hc (fun q c' hq hc' => ?_))
    (fun _ c' hf => post_nonMatch hp ((length_clear id c').trans hf.2))
  rw [setCapture_len hn hr hc'.1]
  exact hcont q _ hq (hc'.set hid)

/-! ### Loops -/

theorem forg_greedyLoop {guard : Bool} (h : Clr E r k m R) (hR : ∀ p q, p ≤ E.inp.length → R p q → E.Reach r p q)
    (hg : guard = true ∨ ∀ p q, p ≤ E.inp.length → R p q → p ≠ q) :
    ∀ n p0 p c cont S, E.remaining r p < n → E.Reach r p0 p → Len E c →
      (∀ q c', PowUpTo R true n p q → Lost E k c' → Post S (FailP E r (Lost E k) p0) (cont q c')) →
      Post S (FailP E r (Lost E k) p0) (greedyLoop m guard true n p c cont) := by
  intro n
  induction n with
  | zero => intro p0 p c cont S hk; omega
  | succ n ih =>
    intro p0 p c cont S hk hp hc hcont
    unfold greedyLoop
    refine Post.orElse (F' := FailP E r (Lost E k) p0) (h p0 p c _ S hp hc ?_) (fun _ c' hf => hcont p c' .refl hf.2)
    intro q c' hq hc'
    have hpq := hR p q hp.right_le hq
    unfold guardCont
    split
    · exact post_nonMatch hp hc'
    · next hne =>
      have hne' : p ≠ q := by
        rcases hg with hg | hg
        · rintro rfl; simp [hg] at hne
        · exact hg p q hp.right_le hq
      have := hpq.remaining_lt hne'
      exact (ih p0 q c' cont S (by omega) (hp.trans hpq) hc' (fun t c'' ht hc'' => hcont t c'' (.step hq ht) hc'')).mono
        (fun _ _ h => h) (fun _ _ h => h.len)

theorem forg_possLoop (h : Clr E r k m R) (hR : ∀ p q, p ≤ E.inp.length → R p q → E.Reach r p q)
    (hg : ∀ p q, p ≤ E.inp.length → R p q → p ≠ q) :
    ∀ n p0 p c cont S, E.remaining r p < n → E.Reach r p0 p → Len E c →
      (∀ q c', PowUpTo R true n p q → Lost E k c' → Post S (FailP E r (Lost E k) p0) (cont q c')) →
      Post S (FailP E r (Lost E k) p0) (possLoop m false true n p c cont) := by
  intro n
  induction n with
  | zero => intro p0 p c cont S hk; omega
  | succ n ih =>
    intro p0 p c cont S hk hp hc hcont
    unfold possLoop
    refine Post.onMatch (S' := fun q c' => R p q ∧ Len E c') (F' := FailP E r (Lost E k) p) (h p p c success _ (.refl hp.right_le) hc
      (fun q c' hq hc' => post_success ⟨hq, hc'⟩)) (fun q c' hq => ?_) (fun _ c' hf => hcont p c' .refl hf.2)
    have hpq := hR p q hp.right_le hq.1
    have := hpq.remaining_lt (hg p q hp.right_le hq.1)
    simp only [Bool.false_and, Bool.false_eq_true, if_false]
    exact ih p0 q c' cont S (by omega) (hp.trans hpq) hq.2 (fun t c'' ht hc'' => hcont t c'' (.step hq.1 ht) hc'')

end

/-! ### All constructs -/

theorem tries_triv {k : Nat} (a : Ast) : tries k a = true → triv a = false := by
  induction a using ind with
  | seq l ih =>
    intro h
    match l with
    | [] => rfl
    | [a] => simpa [triv, trivSingle] using ih a (by simp) (by simpa [tries, triesFirst] using h)
    | _ :: _ :: _ => rfl
  | alt l ih =>
    intro h
    simp only [tries] at h
    simp only [triv]
    induction l with
    | nil => simp [triesLast] at h
    | cons a l ihl =>
      match l with
      | [] => exact ih a (by simp) (by simpa [triesLast] using h)
      | b :: l =>
        have := ihl (fun c hc => ih c (by simp [hc])) (by simpa [triesLast] using h)
        simp only [trivAlt, Bool.and_eq_false_imp]
        exact fun _ => this
  | rep m lo hi a ih =>
    intro h
    simp only [tries, Bool.and_eq_true] at h
    simp [triv, ih h.2]
  | cap => intro _; rfl
  | _ => intro h; simp [tries] at h

theorem forgets_triv {u : Bool} {k : Nat} (a : Ast) : triv a = true → forgets u k a = false := by
  induction a using ind with
  | seq l ih =>
    intro h
    match l with
    | [a] => simp [forgets, forgetsSome, ih a (by simp) (by simpa [triv, trivSingle] using h)]
    | [] | _ :: _ :: _ => simp [triv, trivSingle] at h
  | alt l ih =>
    intro h
    match l with
    | [] => simp [forgets]
    | a :: l =>
      simp only [triv, trivAlt_eq, Bool.and_eq_true, List.all_cons] at h
      simp [forgets, forgetsEach, ih a (by simp) h.2.1]
  | rep m lo hi a ih =>
    intro h
    cases hi with
    | fin h => simp [forgets]
    | inf => simp [triv] at h
  | look d a => intro h; simp [triv] at h
  | cap => intro h; simp [triv] at h
  | _ => intro h; simp [forgets]

theorem forgets_triv_of {u : Bool} {k : Nat} {a : Ast} (h : forgets u k a = true) : triv a = false := by
  cases ht : triv a with
  | false => rfl
  | true => rw [forgets_triv a ht] at h; cases h

section
variable {E : Env} {k : Nat}

theorem mtch_len {fuel : Nat} {a : Ast} {r : Nat} (hok : Ok E r a) (hf : a.depth + E.inp.length + 1 ≤ fuel) :
    Safe E r (Len E) (mtch E fuel a r) (Over E a r false) :=
  mtch_safe (fun _ h => h) fuel a r hok hf capClosed_len

theorem mtch_lost {fuel : Nat} {a : Ast} {r : Nat} (hok : Ok E r a) (hf : a.depth + E.inp.length + 1 ≤ fuel) (hk : k ∉ groupIds a) :
    Safe E r (Lost E k) (mtch E fuel a r) (Over E a r false) :=
  mtch_safe (fun _ h => h.1) fuel a r hok hf (capClosed_lost hk)

theorem clr_pow {m : Matcher} {R : Nat → Nat → Prop} {r : Nat} (h : Clr E r k m R) (hs : Safe E r (Len E) m R)
    (hR : ∀ p q, p ≤ E.inp.length → R p q → E.Reach r p q) (n : Nat) : Clr E r k (nonUnrolled m (n + 1)) (Pow R (n + 1)) := by
  match n with
  | 0 => exact h.mono (fun p q _ hq => Pow.one.2 hq)
  | n + 1 => exact h.comp (hs.pow_nonUnrolled hR n) hR

theorem clr_pow' {m : Matcher} {R : Nat → Nat → Prop} {r : Nat} (h : Clr E r k m R) (hs : Safe E r (Len E) m R)
    (hR : ∀ p q, p ≤ E.inp.length → R p q → E.Reach r p q) (n : Nat) : Clr E r k (unrolled m (n + 1)) (Pow R (n + 1)) := by
  match n with
  | 0 => exact h.mono (fun p q _ hq => Pow.one.2 hq)
  | n + 1 => exact h.comp (hs.pow_unrolled hR (n + 1)) hR

theorem mtch_clr : ∀ fuel a r, Ok E r a → a.depth + E.inp.length + 1 ≤ fuel → tries k a = true →
    Clr E r k (mtch E fuel a r) (Over E a r false) := by
  intro fuel
  induction fuel with
  | zero => intro a r _ h; omega
  | succ n ih =>
    intro a r hok hf ht
    match a with
    | .cap id name b =>
      cases hok with | cap hn hr hok => ?_
      simp only [depth] at hf
      simp only [tries, Bool.or_eq_true, beq_iff_eq] at ht
      refine (clr_cap hn hr (m := mtch E n b r) (R := Over E b r false) ?_).mono (fun p q _ h => by simpa only [Over] using h)
      rcases ht with rfl | ht
      · exact .inl ⟨rfl, mtch_len hok (by omega)⟩
      · exact .inr (ih b r hok (by omega) ht)
    | .seq l =>
      have htr := tries_triv _ ht
      cases hok with | seq hne hl => ?_
      simp only [depth] at hf
      simp only [tries] at ht
      have hd : ∀ b ∈ l, b.depth + E.inp.length + 1 ≤ n := fun b hb => by have := depth_le_all hb; omega
      match l, hne with
      | [a], _ =>
        simp only [triesFirst] at ht
        exact (ih a r (hl a (by simp)) (hd a (by simp)) ht).mono (fun p q _ h => by simpa [Over, OverSeq] using h)
      | a :: b :: l, _ =>
        simp only [triesFirst] at ht
        have hna : ¬areTriv (a :: b :: l) = true := by simp [areTriv, tries_triv _ ht]
        unfold mtch
        dsimp only
        unfold seqMatch
        rw [if_neg hna]
        refine ((ih a r (hl a (by simp)) (hd a (by simp)) ht).comp
          (safe_seqMatch (l := b :: l) (by simp) (fun c hc => mtch_len (hl c (by simp [hc])) (hd c (by simp [hc]))))
          (fun p q hp hq => over_reach hp hq)).mono ?_
        rintro p q _ ⟨t, h1, h2⟩
        simp only [Over]
        rw [OverSeq]
        simp only [Bool.false_eq_true, if_false]
        exact ⟨t, h1, h2⟩
    | .alt l =>
      cases hok with | alt hne hl => ?_
      simp only [depth] at hf
      simp only [tries] at ht
      have hd : ∀ b ∈ l, b.depth + E.inp.length + 1 ≤ n := fun b hb => by have := depth_le_all hb; omega
      suffices h : Clr E r k (altMatch E r (fun a => mtch E n a r) l) (fun p q => OverAny E l r false p q) from
        h.mono (fun p q _ h => by simpa only [Over] using h)
      clear hf
      induction l with
      | nil => exact absurd rfl hne
      | cons a l ihl =>
        match l with
        | [] =>
          simp only [triesLast] at ht
          exact (ih a r (hl a (by simp)) (hd a (by simp)) ht).mono (fun p q _ h => by simpa [OverAny] using h)
        | b :: l =>
          have hta : tries k (.alt (b :: l)) = true := by simpa [tries, triesLast] using ht
          have hna : ¬areTriv (a :: b :: l) = true := by
            intro h
            have := tries_triv _ hta
            simp only [triv, trivAlt_eq] at this
            simp only [areTriv, List.all_cons, Bool.and_eq_true] at h
            simp [h.2] at this
          unfold altMatch
          rw [if_neg hna]
          refine (clr_or (mtch_len (hl a (by simp)) (hd a (by simp)))
            (ihl (by simpa [triesLast] using ht) (by simp) (fun c hc => hl c (by simp [hc])) (fun c hc => hd c (by simp [hc])))).mono ?_
          intro p q _ h
          rw [OverAny]
          exact h
    | .rep m lo hi b =>
      simp only [depth] at hf
      simp only [tries, Bool.and_eq_true, bne_iff_ne, ne_eq, decide_eq_true_eq] at ht
      obtain ⟨⟨hm, hlo⟩, ht⟩ := ht
      have htr := tries_triv _ ht
      have hb : Ok E r b := by cases hok <;> assumption
      have hlh : ∀ h, hi = .fin h → lo ≤ h := by
        intro h e
        subst e
        cases hok
        assumption
      have hc := ih b r hb (by omega) ht
      have hs := mtch_len (fuel := n) hb (by omega)
      have hR : ∀ p q, p ≤ E.inp.length → Over E b r false p q → E.Reach r p q := fun p q hp h => over_reach hp h
      have hPR : ∀ N p q, p ≤ E.inp.length → Pow (Over E b r false) N p q → E.Reach r p q := fun N p q hp hq => Pow.reach hR hp hq
      have hbet : ∀ inf j, (inf = true → E.inp.length < j) → Safe E r (Len E) (betweenBounds E r m b (mtch E n b r) inf j) (PowUpTo (Over E b r false) inf j) :=
        fun inf j hj => safe_betweenBounds hs hR (fun hz p q hp h => over_ne hp hz h) (fun ht p q h => (over_triv ht).2 h) hj
      have hfix : Clr E r k (fixedMatch E r m b (mtch E n b r) lo) (Pow (Over E b r false) lo) := by
        obtain ⟨lo, rfl⟩ : ∃ j, lo = j + 1 := ⟨lo - 1, by omega⟩
        unfold fixedMatch
        rw [if_neg (by omega)]
        split
        · next h1 =>
          obtain rfl : lo = 0 := by omega
          simp only [hm, false_and, if_false]
          exact hc.mono (fun p q _ hq => Pow.one.2 hq)
        · unfold fixedBacktracking
          simp only [htr, Bool.false_eq_true, if_false]
          split
          · exact clr_pow' hc hs hR lo
          · exact clr_pow hc hs hR lo
      show Clr E r k (repMatch E r n m lo hi b (mtch E n b r)) (Over E (.rep m lo hi b) r false)
      unfold repMatch
      split
      · next h =>
        have := hlh h rfl
        split
        · next e =>
          subst e
          exact hfix.mono (fun p q _ hq => by
            simp only [Over]
            exact ⟨_, Nat.le_refl _, fun h e => by cases e; exact Nat.le_refl _, hq⟩)
        · rw [if_neg (by omega), if_neg (by omega)]
          refine (hfix.comp (hbet false _ (by simp)) (hPR _)).mono ?_
          rintro p q _ ⟨t, h1, j, hj, h2⟩
          simp only [Over]
          refine ⟨lo + j, by omega, fun h e => ?_, h1.comp h2⟩
          cases e
          have := hj rfl
          omega
      · rw [if_neg (by omega)]
        refine (hfix.comp (hbet true _ (fun _ => by have := depth_pos b; omega)) (hPR _)).mono ?_
        rintro p q _ ⟨t, h1, j, hj, h2⟩
        simp only [Over]
        exact ⟨lo + j, by omega, (fun h e => by cases e), h1.comp h2⟩
    | .empty | .lit _ | .range _ _ | .wildcard | .set _ | .neg _ | .look _ _ | .bol | .boi | .eol | .eoi | .wordB | .backref _ | .namedBackref _ =>
      simp [tries] at ht

theorem mtch_forg : ∀ fuel a r, Ok E r a → a.depth + E.inp.length + 1 ≤ fuel → forgets E.flags.ungreedy k a = true →
    Forg E r k (mtch E fuel a r) (Over E a r false) := by
  intro fuel
  induction fuel with
  | zero => intro a r _ h; omega
  | succ n ih =>
    intro a r hok hf ht
    match a with
    | .cap id name b =>
      cases hok with | cap hn hr hok => ?_
      simp only [depth] at hf
      simp only [forgets, Bool.and_eq_true, bne_iff_ne] at ht
      exact (forg_cap hn hr ht.1 (ih b r hok (by omega) ht.2)).mono (fun p q _ h => by simpa only [Over] using h)
    | .seq l =>
      cases hok with | seq hne hl => ?_
      simp only [depth] at hf
      simp only [forgets] at ht
      have hd : ∀ b ∈ l, b.depth + E.inp.length + 1 ≤ n := fun b hb => by have := depth_le_all hb; omega
      suffices h : Forg E r k (seqMatch E r (fun a => mtch E n a r) l) (fun p q => OverSeq E l r false p q) from
        h.mono (fun p q _ h => by simpa only [Over] using h)
      clear hf
      induction l with
      | nil => exact absurd rfl hne
      | cons a l ihl =>
        match l with
        | [] =>
          simp only [forgetsSome, groupIdsAll, Bool.false_or, Bool.and_eq_true] at ht
          exact (ih a r (hl a (by simp)) (hd a (by simp)) ht.1).mono (fun p q _ h => by simpa [OverSeq] using h)
        | b :: l =>
          have hna : ¬areTriv (a :: b :: l) = true := by
            intro h
            have : ∀ l : List Ast, areTriv l = true → forgetsSome E.flags.ungreedy k l = false := by
              intro l h
              induction l with
              | nil => rfl
              | cons a l ihl =>
                simp only [areTriv, List.all_cons, Bool.and_eq_true] at h
                simp only [forgetsSome, ihl h.2, Bool.false_or, forgets_triv _ h.1, Bool.false_and]
            rw [this _ h] at ht
            cases ht
          unfold seqMatch
          rw [if_neg hna]
          have hov : ∀ p q : Nat, p ≤ E.inp.length → (∃ t, Over E a r false p t ∧ OverSeq E (b :: l) r false t q) →
              OverSeq E (a :: b :: l) r false p q := by
            rintro p q _ ⟨t, h1, h2⟩
            rw [OverSeq]
            simp only [Bool.false_eq_true, if_false]
            exact ⟨t, h1, h2⟩
          rw [forgetsSome] at ht
          simp only [Bool.or_eq_true, Bool.and_eq_true, Bool.not_eq_true', List.contains_eq_mem, decide_eq_false_iff_not] at ht
          rcases ht with ht | ⟨ht, hk⟩
          · exact (Forg.after (mtch_len (hl a (by simp)) (hd a (by simp)))
              (ihl ht (by simp) (fun c hc => hl c (by simp [hc])) (fun c hc => hd c (by simp [hc])))
              (fun p q hp hq => over_reach hp hq)).mono hov
          · refine ((ih a r (hl a (by simp)) (hd a (by simp)) ht).comp
              (safe_seqMatch (l := b :: l) (by simp) (fun c hc => mtch_lost (hl c (by simp [hc])) (hd c (by simp [hc])) ?_))
              (fun p q hp hq => over_reach hp hq)).mono hov
            intro hmem
            apply hk
            rw [groupIdsAll_eq]
            exact List.mem_flatMap.2 ⟨c, hc, hmem⟩
    | .alt l =>
      cases hok with | alt hne hl => ?_
      simp only [depth] at hf
      simp only [forgets, Bool.and_eq_true] at ht
      replace ht := ht.2
      have hd : ∀ b ∈ l, b.depth + E.inp.length + 1 ≤ n := fun b hb => by have := depth_le_all hb; omega
      suffices h : Forg E r k (altMatch E r (fun a => mtch E n a r) l) (fun p q => OverAny E l r false p q) from
        h.mono (fun p q _ h => by simpa only [Over] using h)
      clear hf
      induction l with
      | nil => exact absurd rfl hne
      | cons a l ihl =>
        match l with
        | [] =>
          simp only [forgetsEach, Bool.and_true] at ht
          exact (ih a r (hl a (by simp)) (hd a (by simp)) ht).mono (fun p q _ h => by simpa [OverAny] using h)
        | b :: l =>
          rw [forgetsEach] at ht
          simp only [Bool.and_eq_true] at ht
          have hna : ¬areTriv (a :: b :: l) = true := by
            intro h
            simp only [areTriv, List.all_cons, Bool.and_eq_true] at h
            have := forgets_triv (k := k) (u := E.flags.ungreedy) _ h.1
            rw [ht.1] at this
            cases this
          unfold altMatch
          rw [if_neg hna]
          refine ((ih a r (hl a (by simp)) (hd a (by simp)) ht.1).orElse
            (ihl (by simp) (fun c hc => hl c (by simp [hc])) ht.2 (fun c hc => hd c (by simp [hc])))).mono ?_
          intro p q _ h
          rw [OverAny]
          exact h
    | .rep m lo .inf b =>
      simp only [depth] at hf
      simp only [forgets, Bool.and_eq_true] at ht
      obtain ⟨ht, hmode⟩ := ht
      have htr := tries_triv _ ht
      have hb : Ok E r b := by cases hok <;> assumption
      have hc := mtch_clr n b r hb (by omega) ht
      have hs := mtch_len (fuel := n) hb (by omega)
      have hR : ∀ p q, p ≤ E.inp.length → Over E b r false p q → E.Reach r p q := fun p q hp h => over_reach hp h
      have hbet : Forg E r k (betweenBounds E r m b (mtch E n b r) true n) (PowUpTo (Over E b r false) true n) := by
        intro p0 p c cont S hp hlen hcont
        have hrem : E.remaining r p < n := by
          have := Env.remaining_le (E := E) (r := r) hp.right_le
          have := depth_pos b
          omega
        refine Post.mono (S := S) (F := FailP E r (Lost E k) p0) ?_ (fun _ _ h => h) (fun _ _ h => h.len)
        unfold betweenBounds
        simp only [htr, Bool.false_and, Bool.false_eq_true, if_false, Bool.true_and]
        split at hmode
        · next hm =>
          simp only [Bool.not_eq_true'] at hmode
          simp only [hm, if_true, hmode]
          exact forg_possLoop hc hR (fun p q hp h => over_ne hp hmode h) n p0 p c cont S hrem hp hlen hcont
        · next hm =>
          simp only [hm, if_false]
          rw [show Bool.xor (m == .greedy) E.flags.ungreedy = true from hmode, if_pos rfl]
          refine forg_greedyLoop hc hR ?_ n p0 p c cont S hrem hp hlen hcont
          cases hz : zlm b with
          | true => exact .inl rfl
          | false => exact .inr (fun p q hp h => over_ne hp hz h)
      show Forg E r k (repMatch E r n m lo .inf b (mtch E n b r)) (Over E (.rep m lo .inf b) r false)
      unfold repMatch
      dsimp only
      split
      · next h0 =>
        subst h0
        refine hbet.mono ?_
        rintro p q _ ⟨j, hj, hq⟩
        simp only [Over]
        exact ⟨j, Nat.zero_le _, (fun h e => by cases e), hq⟩
      · refine (Forg.after (safe_fixedMatch hs hR (fun ht p q h => (over_triv ht).2 h)) hbet (fun p q hp hq => Pow.reach hR hp hq)).mono ?_
        rintro p q _ ⟨t, h1, j, hj, h2⟩
        simp only [Over]
        exact ⟨lo + j, by omega, (fun h e => by cases e), h1.comp h2⟩
    | .look .ahead b =>
      simp only [depth] at hf
      simp only [forgets] at ht
      have hb : Ok E r b := by cases hok; assumption
      have htr := forgets_triv_of ht
      intro p0 p c cont S hp hc hcont
      unfold mtch
      simp only [htr, Bool.false_eq_true, if_false]
      unfold lookMatch
      refine Post.onMatch (S' := fun q c' => Over E b r false p q ∧ Lost E k c') (F' := FailP E r (Len E) p)
        (ih b r hb (by omega) ht p p c success _ (.refl hp.right_le) hc (fun q c' hq hc' => post_success ⟨hq, hc'⟩))
        (fun q c' hq => ?_) (fun _ c' hf => post_nonMatch hp hf.2)
      refine (hcont p c' ?_ hq.2).mono (fun _ _ h => h) (fun _ _ h => h.len)
      simp only [Over, Bool.false_eq_true, if_false]
      exact ⟨trivial, q, hq.1⟩
    | .rep m lo (.fin h) b => simp [forgets] at ht
    | .look .behind b => simp [forgets] at ht
    | .empty | .lit _ | .range _ _ | .wildcard | .set _ | .neg _ | .bol | .boi | .eol | .eoi | .wordB | .backref _ | .namedBackref _ =>
      simp [forgets] at ht

end
end Mregex

namespace Mregex
open Ast Spec

section
variable {R : Regex} {cat : Cat} {s : List Byte} {k : Nat}

theorem attempt_lost (hR : R.Ok cat) (hk : forgets (Flags.ofList R.flags).ungreedy k R.ast = true) {cur : Nat} (hcur : cur ≤ s.length) {c : Ctx}
    (hc : Len (R.env cat s) c) (t : Option Nat) :
    Post (fun _ c' => Lost (R.env cat s) k c') (fun _ c' => Len (R.env cat s) c')
      (mtch (R.env cat s) (fuelFor R.ast s) R.ast 0 cur c (match t with | none => success | some t => equals t)) := by
  refine (mtch_forg (E := R.env cat s) _ R.ast 0 (hR s) (Nat.le_refl _) hk cur cur c _ (fun _ c' => Lost (R.env cat s) k c') (.refl hcur) hc
    (fun q c' hq hc' => ?_)).mono (fun _ _ h => h) (fun _ _ h => h.2)
  have := over_reach (E := R.env cat s) hcur hq
  match t with
  | none => exact post_success hc'
  | some t =>
    cases ht : q == t <;> simp only [equals, Post, ht, if_true, Bool.false_eq_true, if_false]
    · exact ⟨this, hc'⟩
    · exact hc'

theorem search_lost (hR : R.Ok cat) (hk : forgets (Flags.ofList R.flags).ungreedy k R.ast = true) (h0 : k ≠ 0) :
    ∀ n cur c, cur ≤ s.length → Len (R.env cat s) c →
      ∀ q c', searchLoop (R.env cat s) (fuelFor R.ast s) R.ast n cur c = .ok ⟨q, true⟩ c' → Lost (R.env cat s) k c' := by
  intro n
  induction n with
  | zero => intro cur c _ _ q c' h; simp [searchLoop] at h
  | succ n ih =>
    intro cur c hcur hc q c' h
    unfold searchLoop at h
    have ha := attempt_lost hR hk hcur hc none
    match hm : mtch (R.env cat s) (fuelFor R.ast s) R.ast 0 cur c success with
    | .ok ⟨q', true⟩ c'' =>
      simp only [hm] at h ha
      simp only [if_true, Out.ok.injEq] at h
      rw [← h.2]
      exact ha.of_true.set (Ne.symm h0)
    | .ok ⟨q', false⟩ c'' =>
      simp only [hm] at h ha
      simp only [Bool.false_eq_true, if_false] at h
      split at h
      · simp [nonMatch] at h
      · next hne =>
        exact ih (cur + 1) c'' (by have : (R.env cat s).inp.length = s.length := rfl; omega) ha.of_false q c' h
    | .ub => simp [hm] at h
    | .diverge => simp [hm] at h

theorem method_lost (hR : R.Ok cat) (hk : forgets (Flags.ofList R.flags).ungreedy k R.ast = true) (h0 : k ≠ 0) {M : Method} {res : Result}
    (h : R.invoke M cat s = some res) (hm : res.matched = true) {g : Cap} (hg : res.group k = some g) : NoText g := by
  have hi : Len (R.env cat s) (initCtx R.names) := length_init R.names
  cases M with
  | «match» =>
    obtain ⟨q, c, h1, h2⟩ := Regex.match_eq h
    have ha := attempt_lost (s := s) hR hk (Nat.zero_le _) hi (some s.length)
    rw [show (match some s.length with | none => success | some t => equals t) = equals s.length from rfl, h1, hm] at ha
    exact (Lost.set ha.of_true (Ne.symm h0)).2 g (by rw [← h2]; exact hg)
  | matchPrefix =>
    obtain ⟨q, c, h1, h2⟩ := Regex.matchPrefix_eq h
    have ha := attempt_lost (s := s) hR hk (Nat.zero_le _) hi none
    rw [show (match (none : Option Nat) with | none => success | some t => equals t) = success from rfl, h1, hm] at ha
    exact (Lost.set ha.of_true (Ne.symm h0)).2 g (by rw [← h2]; exact hg)
  | search =>
    obtain ⟨q, h1⟩ := Regex.search_eq h
    rw [hm] at h1
    exact (search_lost hR hk h0 _ 0 _ (Nat.zero_le _) hi q _ h1).2 g hg

end
end Mregex
