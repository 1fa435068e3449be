import Verif.Proof.EffortMethods

/-!
# Regexes that need that much
-/

namespace Mregex
open Ast

section
variable {E : Env} {n : Nat}

/-- Input of `n` letters `a`. -/
structure Letters (E : Env) (n : Nat) : Prop where
  inp : E.inp = List.replicate n 97#8
  flags : E.flags = {}
  names : E.names = [none]

theorem Letters.triv_a (h : Letters E n) {p : Nat} {c : Ctx} {cont : Cont} (hp : p < n) :
    trivMatch E 0 (.lit 97#8) p c cont = cont (p + 1) c := by
  have h1 : E.inp[p]? = some 97#8 := by rw [h.inp]; simp [hp]
  have h2 : p ≠ E.inp.length := by rw [h.inp]; simp; omega
  simp [trivMatch, Env.atEnd, Env.deref, h1, h2, matchOne, Env.next]

theorem Letters.triv_end (h : Letters E n) {a : Ast} {c : Ctx} {cont : Cont} :
    trivMatch E 0 a n c cont = nonMatch n c := by
  have h2 : n = E.inp.length := by rw [h.inp]; simp
  simp [trivMatch, Env.atEnd, ← h2]

theorem Letters.triv_b (h : Letters E n) {p : Nat} {c : Ctx} {cont : Cont} (hp : p ≤ n) :
    trivMatch E 0 (.lit 98#8) p c cont = nonMatch p c := by
  by_cases hn : p = n
  · subst hn; exact h.triv_end
  · have h1 : E.inp[p]? = some 97#8 := by rw [h.inp, List.getElem?_replicate, if_pos (by omega)]
    have h2 : p ≠ E.inp.length := by rw [h.inp]; simp; omega
    have h3 : matchOne E.flags (.lit 98#8) 97#8 = false := by rw [h.flags]; decide
    simp [trivMatch, Env.atEnd, Env.deref, h1, h2, h3]

theorem Letters.possTriv (h : Letters E n) {c : Ctx} {cont : Cont} (k : Nat) : ∀ p, p ≤ n → n < p + k →
    possTriv E 0 (.lit 97#8) true k p c cont = cont n c := by
  induction k with
  | zero => intro p h1 h2; omega
  | succ k ih =>
    intro p h1 h2
    have hlen : E.inp.length = n := by rw [h.inp]; simp
    by_cases hn : p = n
    · subst hn
      simp [Mregex.possTriv, Env.atEnd, hlen]
    · have h3 : E.inp[p]? = some 97#8 := by rw [h.inp, List.getElem?_replicate, if_pos (by omega)]
      have := ih (p + 1) (by omega) (by omega)
      simp [Mregex.possTriv, Env.atEnd, Env.deref, hlen, hn, h3, matchOne, Env.next, this]

/-- The run fails after at least `w` calls. -/
def Burns (w : Nat) (c : Ctx) (o : Out) : Prop := ∃ q c', o = nonMatch q c' ∧ c'.length = 3 ∧ calls 1 c + w ≤ calls 1 c'

theorem burns_fail {p : Nat} {c : Ctx} (hc : c.length = 3) : Burns 0 c (nonMatch p c) := ⟨p, c, rfl, hc, by omega⟩

theorem Burns.orElse {w w' : Nat} {c : Ctx} {o : Out} {f : Ctx → Out} (h : Burns w c o)
    (hf : ∀ c', c'.length = 3 → Burns w' c' (f c')) : Burns (w + w') c (o.orElse f) := by
  obtain ⟨q, c1, rfl, h1, h2⟩ := h
  obtain ⟨q', c2, h3, h4, h5⟩ := hf c1 h1
  exact ⟨q', c2, by simpa [nonMatch, Out.orElse] using h3, h4, by omega⟩

theorem Burns.counted {w p : Nat} {c : Ctx} {m : Matcher} {cont : Cont} (hc : c.length = 3)
    (h : Burns w (enter 1 c) (m p (enter 1 c) cont)) : Burns (w + 1) c (counted 1 m p c cont) := by
  obtain ⟨e1, e2, e3, e4⟩ := readings_enter (N := 1) hc
  obtain ⟨q, c1, h1, h2, h3⟩ := h
  obtain ⟨l1, l2, l3, l4⟩ := readings_leave (N := 1) h2
  refine ⟨q, leave 1 c1, ?_, l1, by omega⟩
  unfold Mregex.counted
  rw [h1]
  rfl

theorem Burns.mono {w w' : Nat} {c : Ctx} {o : Out} (h : Burns w c o) (hw : w' ≤ w) : Burns w' c o := by
  obtain ⟨q, c', h1, h2, h3⟩ := h
  exact ⟨q, c', h1, h2, by omega⟩

/-- Giving back characters: what is tried at every position adds up. -/
theorem burns_backOff {p : Nat} {cont : Cont} (hk : ∀ q c, p ≤ q → q ≤ n → c.length = 3 → Burns (2 ^ (n - q)) c (cont q c)) (j : Nat) :
    ∀ q c w, q = p + j → q ≤ n → c.length = 3 → w + 2 ^ (n - q) ≤ 2 ^ (n - p + 1) → Burns w c (backOff 0 p cont j q c) := by
  induction j with
  | zero =>
    intro q c w hq hn hc hw
    have : q = p := by omega
    subst this
    unfold backOff
    refine ((hk q c (by omega) hn hc).orElse (w' := 0) (fun c' hc' => ?_)).mono ?_
    · rw [if_pos rfl]; exact burns_fail hc'
    · rw [Nat.pow_succ] at hw; omega
  | succ j ih =>
    intro q c w hq hn hc hw
    unfold backOff
    refine ((hk q c (by omega) hn hc).orElse (w' := w - 2 ^ (n - q)) (fun c' hc' => ?_)).mono (by omega)
    rw [if_neg (by omega)]
    refine ih (Env.prev 0 q) c' _ ?_ ?_ hc' ?_
    · simp only [Env.prev]; simp; omega
    · simp only [Env.prev]; simp; omega
    · have h1 : n - Env.prev 0 q = n - q + 1 := by simp only [Env.prev]; simp; omega
      rw [h1]
      have h2 : 2 ^ (n - q + 1) ≤ 2 ^ (n - p + 1) := Nat.pow_le_pow_right (by omega) (by omega)
      rw [Nat.pow_succ] at *
      omega

/-- `a+` -/
def manyA : Ast := .rep .greedy 1 .inf (.lit 97#8)

theorem Letters.manyA_eq (h : Letters E n) (hcat : E.cat ≠ .forward) (k : Nat) (p : Nat) (c : Ctx) (cont : Cont) :
    mtchM E (k + 2) manyA 0 p c cont =
      counted 1 (fun p c cont => counted 1 (trivMatch E 0 (.lit 97#8)) p c
        (fun q c' => greedyTriv E 0 (.lit 97#8) true (k + 1) q c' cont)) p c cont := by
  have hc : (E.cat != .forward) = true := by cases hx : E.cat <;> simp_all
  simp [mtchM, manyA, inherits, h.names, nodeMatch, repMatch, fixedMatch, betweenBounds, h.flags, triv, hc]

theorem Letters.manyA_burns (h : Letters E n) (hcat : E.cat ≠ .forward) {k : Nat} (hk : n ≤ k) {p : Nat} (hp : p ≤ n) {c : Ctx}
    (hc : c.length = 3) {cont : Cont} (hcont : ∀ q c, p < q → q ≤ n → c.length = 3 → Burns (2 ^ (n - q)) c (cont q c)) :
    Burns (2 ^ (n - p) - 1) c (mtchM E (k + 2) manyA 0 p c cont) := by
  rw [h.manyA_eq hcat]
  obtain ⟨e1, _, _, _⟩ := readings_enter (N := 1) hc
  refine (Burns.counted hc (w := 2 ^ (n - p) - 1) ?_).mono (by omega)
  refine (Burns.counted e1 (w := 2 ^ (n - p) - 1) ?_).mono (by omega)
  obtain ⟨e1, _, _, _⟩ := readings_enter (N := 1) e1
  by_cases hn : p = n
  · subst hn
    rw [h.triv_end]
    exact (burns_fail e1).mono (by simp)
  · rw [h.triv_a (by omega)]
    unfold greedyTriv
    rw [h.possTriv (k + 1) (p + 1) (by omega) (by omega)]
    refine burns_backOff (n := n) (fun q c hq hqn hc => hcont q c (by omega) hqn hc) _ n _ _ ?_ (by omega) e1 ?_
    · simp only [Env.dist]; simp; omega
    · have : n - (p + 1) + 1 = n - p := by omega
      have h1 : 1 ≤ 2 ^ (n - p) := Nat.one_le_pow _ _ (by omega)
      rw [this]
      simp
      omega

theorem Letters.loop_burns (h : Letters E n) (hcat : E.cat ≠ .forward) {k : Nat} (hk : n ≤ k) {cont : Cont}
    (hcont : ∀ q c, q ≤ n → c.length = 3 → Burns 1 c (cont q c)) (j : Nat) :
    ∀ p c, p ≤ n → n < p + j → c.length = 3 →
      Burns (2 ^ (n - p)) c (greedyLoop (mtchM E (k + 2) manyA 0) false true j p c cont) := by
  induction j with
  | zero => intro p c h1 h2; omega
  | succ j ih =>
    intro p c hp hj hc
    unfold greedyLoop
    refine ((h.manyA_burns hcat hk hp hc (fun q c' hq hqn hc' => ?_)).orElse (fun c' hc' => hcont p c' hp hc')).mono (by omega)
    simp only [guardCont, Bool.false_and, Bool.false_eq_true, if_false]
    exact ih q c' hqn (by omega) hc'

/-- `(?:a+)+b` -/
def manyMany : Regex := ⟨.seq [.rep .greedy 1 .inf manyA, .lit 98#8], []⟩

theorem Letters.root_burns (h : Letters E n) (hcat : E.cat ≠ .forward) {p : Nat} (hp : p ≤ n) {c : Ctx} (hc : c.length = 3) (cont : Cont) :
    Burns (2 ^ (n - p)) c (mtchM E (n + 5) manyMany.ast 0 p c cont) := by
  have hroot : mtchM E (n + 5) manyMany.ast 0 p c cont =
      counted 1 (fun p c cont => counted 1 (fun p c cont => mtchM E (n + 1 + 2) manyA 0 p c (fun q c' =>
        greedyLoop (mtchM E (n + 1 + 2) manyA 0) false true (n + 3) q c' cont)) p c
        (fun q c' => counted 1 (trivMatch E 0 (.lit 98#8)) q c' cont)) p c cont := by
    conv => lhs; unfold mtchM
    have h1 : mtchM E (n + 4) (.rep .greedy 1 .inf manyA) 0 = counted 1 (fun p c cont => mtchM E (n + 3) manyA 0 p c (fun q c' =>
        greedyLoop (mtchM E (n + 3) manyA 0) false true (n + 3) q c' cont)) := by
      conv => lhs; unfold mtchM
      simp [inherits, h.names, nodeMatch, repMatch, fixedMatch, betweenBounds, h.flags, manyA, triv, zlm]
    have h2 : mtchM E (n + 4) (.lit 98#8) 0 = counted 1 (trivMatch E 0 (.lit 98#8)) := by
      simp [mtchM, inherits, h.names, nodeMatch]
    simp [manyMany, inherits, h.names, nodeMatch, seqMatch, areTriv, triv, h1, h2]
  rw [hroot]
  have hpos : 1 ≤ 2 ^ (n - p) := Nat.one_le_pow _ _ (by omega)
  obtain ⟨e1, _, _, _⟩ := readings_enter (N := 1) hc
  refine (Burns.counted hc (w := 2 ^ (n - p) - 1) ?_).mono (by omega)
  refine (Burns.counted e1 (w := 2 ^ (n - p) - 1) ?_).mono (by omega)
  obtain ⟨e1, _, _, _⟩ := readings_enter (N := 1) e1
  refine h.manyA_burns hcat (by omega) hp e1 (fun q c' hq hqn hc' => ?_)
  refine h.loop_burns hcat (by omega) (fun t c'' ht hc'' => ?_) _ q c' hqn (by omega) hc'
  refine Burns.counted hc'' (w := 0) ?_
  rw [h.triv_b ht]
  exact burns_fail (readings_enter (N := 1) hc'').1

theorem Letters.search_burns (h : Letters E n) (hcat : E.cat ≠ .forward) (j : Nat) :
    ∀ p c, p + j = n → c.length = 3 → Burns (2 ^ (n - p)) c (searchBy E (mtchM E (n + 5) manyMany.ast 0) (j + 1) p c) := by
  induction j with
  | zero =>
    intro p c hp hc
    obtain ⟨q, c', h1, h2, h3⟩ := h.root_burns hcat (by omega : p ≤ n) hc success
    have hlen : E.inp.length = n := by rw [h.inp]; simp
    unfold searchBy
    rw [h1]
    simp only [nonMatch, Bool.false_eq_true, if_false]
    rw [if_pos (by omega)]
    exact ⟨_, _, rfl, h2, h3⟩
  | succ j ih =>
    intro p c hp hc
    obtain ⟨q, c', h1, h2, h3⟩ := h.root_burns hcat (by omega : p ≤ n) hc success
    have hlen : E.inp.length = n := by rw [h.inp]; simp
    unfold searchBy
    rw [h1]
    simp only [nonMatch, Bool.false_eq_true, if_false]
    rw [if_neg (by omega)]
    obtain ⟨q', c'', h4, h5, h6⟩ := ih (p + 1) c' (by omega) h2
    exact ⟨q', c'', h4, h5, Nat.le_trans (Nat.le_trans h3 (Nat.le_add_right _ _)) h6⟩

theorem letters_of {R : Regex} {cat : Cat} (hf : R.flags = []) (hn : R.names = [none]) : Letters (R.env cat (List.replicate n 97#8)) n :=
  ⟨rfl, by simp [Regex.env, hf]; rfl, hn⟩

theorem manyMany_calls (M : Method) {cat : Cat} (hcat : cat ≠ .forward) (n : Nat) :
    ∃ μ, manyMany.measure M cat (List.replicate n 97#8) = some μ ∧ μ.result.matched = false ∧ 2 ^ n ≤ μ.calls := by
  have hL : Letters (manyMany.env cat (List.replicate n 97#8)) n := letters_of rfl (by decide)
  obtain ⟨i1, i2, i3, i4⟩ := init_readings manyMany.names
  have hn : manyMany.names.length = 1 := by decide
  rw [hn] at i1 i3
  have hfuel : fuelFor manyMany.ast (List.replicate n 97#8) = n + 5 := by
    simp [fuelFor, manyMany, manyA, Ast.depth, Ast.depthAll]; omega
  have : Burns (2 ^ n) (initCtx manyMany.names ++ [some (0, 0), some (0, 0)])
      (M.invokeWith (manyMany.env cat (List.replicate n 97#8)) (mtchM (manyMany.env cat (List.replicate n 97#8)) (n + 5) manyMany.ast 0) 0
        (initCtx manyMany.names ++ [some (0, 0), some (0, 0)])) := by
    cases M with
    | «match» =>
      obtain ⟨q, c', h1, h2, h3⟩ := hL.root_burns hcat (Nat.zero_le n) i1 (equals (manyMany.env cat (List.replicate n 97#8)).inp.length)
      simp only [Method.invokeWith]
      rw [h1]
      exact ⟨q, c'.set 0 _, rfl, by simpa using h2, by rw [(same_set (N := 1) (by omega)).2.1]; exact h3⟩
    | matchPrefix =>
      obtain ⟨q, c', h1, h2, h3⟩ := hL.root_burns hcat (Nat.zero_le n) i1 success
      simp only [Method.invokeWith]
      rw [h1]
      exact ⟨q, c'.set 0 _, rfl, by simpa using h2, by rw [(same_set (N := 1) (by omega)).2.1]; exact h3⟩
    | search =>
      have := hL.search_burns hcat n 0 _ (by omega) i1
      simpa [Method.invokeWith, Regex.env] using this
  obtain ⟨q, c', h1, h2, h3⟩ := this
  refine ⟨⟨⟨c'.take 1, false⟩, calls 1 c', peak 1 c'⟩, ?_, rfl, ?_⟩
  · unfold Regex.measure
    rw [hfuel, h1, hn]
    rfl
  · dsimp only
    omega

/-- `aa` -/
def pairA : Ast := .seq [.lit 97#8, .lit 97#8]

/-- `(?:aa)*` -/
def pairs : Regex := ⟨.rep .greedy 0 .inf pairA, []⟩

theorem Letters.pair_step (h : Letters E (2 * n)) {i : Nat} (hi : i < n) (c : Ctx) (cont : Cont) :
    seqTriv E 0 [.lit 97#8, .lit 97#8] (2 * i) c cont = cont (2 * (i + 1)) c := by
  have hlen : E.inp.length = 2 * n := by rw [h.inp]; simp
  have h1 : E.inp[2 * i]? = some 97#8 := by rw [h.inp, List.getElem?_replicate, if_pos (by omega)]
  have h2 : E.inp[2 * i + 1]? = some 97#8 := by rw [h.inp, List.getElem?_replicate, if_pos (by omega)]
  unfold seqTriv
  rw [Env.distanceLessThan_eq _ (by omega)]
  have h3 : ¬ (2 * n - 2 * i < 2) := by omega
  simp [Env.remaining, hlen, h3, runTriv, Env.deref, h1, h2, matchOne, Env.next]
  rfl

theorem Letters.pair_end (h : Letters E (2 * n)) (c : Ctx) (cont : Cont) :
    seqTriv E 0 [.lit 97#8, .lit 97#8] (2 * n) c cont = nonMatch (2 * n) c := by
  have hlen : E.inp.length = 2 * n := by rw [h.inp]; simp
  unfold seqTriv
  rw [Env.distanceLessThan_eq _ (by omega)]
  simp [Env.remaining, hlen]

/-- The run matches, and at least `l` calls were active at some time. -/
def Climbs (l : Nat) (o : Out) : Prop := ∃ q c', o = .ok ⟨q, true⟩ c' ∧ c'.length = 3 ∧ l ≤ peak 1 c'

theorem Letters.pairs_climb (h : Letters E (2 * n)) {cont : Cont} (hcont : ∀ c, cont (2 * n) c = .ok ⟨2 * n, true⟩ c) (j : Nat) :
    ∀ i c, i ≤ n → n < i + j → c.length = 3 → level 1 c ≤ peak 1 c →
      Climbs (level 1 c + (n - i)) (greedyLoop (counted 1 (seqTriv E 0 [.lit 97#8, .lit 97#8])) false true j (2 * i) c cont) := by
  induction j with
  | zero => intro i c h1 h2; omega
  | succ j ih =>
    intro i c hi hj hc hl
    obtain ⟨e1, e2, e3, e4⟩ := readings_enter (N := 1) hc
    unfold greedyLoop counted
    by_cases hn : i = n
    · subst hn
      rw [h.pair_end]
      obtain ⟨l1, l2, l3, l4⟩ := readings_leave (N := 1) e1
      simp only [nonMatch, Out.mapCtx, Out.orElse, Bool.false_eq_true, if_false]
      rw [hcont]
      exact ⟨_, _, rfl, l1, by omega⟩
    · rw [h.pair_step (by omega)]
      obtain ⟨q, c', h1, h2, h3⟩ := ih (i + 1) (enter 1 c) (by omega) (by omega) e1 (by omega)
      obtain ⟨l1, l2, l3, l4⟩ := readings_leave (N := 1) h2
      simp only [guardCont, Bool.false_and, Bool.false_eq_true, if_false]
      unfold counted at h1
      rw [h1]
      exact ⟨q, leave 1 c', rfl, l1, by omega⟩

theorem Letters.pairs_root (h : Letters E (2 * n)) {c : Ctx} (hc : c.length = 3) (hl : level 1 c ≤ peak 1 c) {cont : Cont}
    (hcont : ∀ c, cont (2 * n) c = .ok ⟨2 * n, true⟩ c) : Climbs (level 1 c + n) (mtchM E (2 * n + 4) pairs.ast 0 0 c cont) := by
  have hroot : mtchM E (2 * n + 4) pairs.ast 0 0 c cont =
      counted 1 (greedyLoop (counted 1 (seqTriv E 0 [.lit 97#8, .lit 97#8])) false true (2 * n + 3)) 0 c cont := by
    have h1 : mtchM E (2 * n + 3) pairA 0 = counted 1 (seqTriv E 0 [.lit 97#8, .lit 97#8]) := by
      simp [mtchM, pairA, inherits, h.names, nodeMatch, seqMatch, areTriv, triv]
    conv => lhs; unfold mtchM
    have h2 : pairA.triv = false := by decide
    have h3 : zlm pairA = false := by decide
    simp [pairs, inherits, h.names, nodeMatch, repMatch, betweenBounds, h.flags, h1, h2, h3]
  rw [hroot]
  obtain ⟨e1, e2, e3, e4⟩ := readings_enter (N := 1) hc
  obtain ⟨q, c', h1, h2, h3⟩ := h.pairs_climb hcont (2 * n + 3) 0 (enter 1 c) (by omega) (by omega) e1 (by omega)
  obtain ⟨l1, l2, l3, l4⟩ := readings_leave (N := 1) h2
  refine ⟨q, leave 1 c', ?_, l1, by omega⟩
  simp only [Nat.mul_zero] at h1
  unfold counted
  unfold counted at h1
  rw [h1]
  rfl

theorem pairs_depth (M : Method) (cat : Cat) (n : Nat) :
    ∃ μ, pairs.measure M cat (List.replicate (2 * n) 97#8) = some μ ∧ μ.result.matched = true ∧ n ≤ μ.depth := by
  have hL : Letters (pairs.env cat (List.replicate (2 * n) 97#8)) (2 * n) := letters_of rfl (by decide)
  obtain ⟨i1, i2, i3, i4⟩ := init_readings pairs.names
  have hn : pairs.names.length = 1 := by decide
  rw [hn] at i1 i2 i4
  have hfuel : fuelFor pairs.ast (List.replicate (2 * n) 97#8) = 2 * n + 4 := by
    simp [fuelFor, pairs, pairA, Ast.depth, Ast.depthAll]; omega
  have : Climbs n
      (M.invokeWith (pairs.env cat (List.replicate (2 * n) 97#8)) (mtchM (pairs.env cat (List.replicate (2 * n) 97#8)) (2 * n + 4) pairs.ast 0) 0
        (initCtx pairs.names ++ [some (0, 0), some (0, 0)])) := by
    cases M with
    | «match» =>
      obtain ⟨q, c', h1, h2, h3⟩ := hL.pairs_root i1 (by omega)
        (cont := equals (pairs.env cat (List.replicate (2 * n) 97#8)).inp.length) (fun c => by simp [equals, Regex.env])
      simp only [Method.invokeWith]
      rw [h1]
      exact ⟨q, c'.set 0 _, rfl, by simpa using h2, by rw [(same_set (N := 1) (by omega)).2.2]; omega⟩
    | matchPrefix =>
      obtain ⟨q, c', h1, h2, h3⟩ := hL.pairs_root i1 (by omega) (cont := success) (fun c => rfl)
      simp only [Method.invokeWith]
      rw [h1]
      exact ⟨q, c'.set 0 _, rfl, by simpa using h2, by rw [(same_set (N := 1) (by omega)).2.2]; omega⟩
    | search =>
      obtain ⟨q, c', h1, h2, h3⟩ := hL.pairs_root i1 (by omega) (cont := success) (fun c => rfl)
      simp only [Method.invokeWith]
      unfold searchBy
      rw [h1]
      exact ⟨q, c'.set 0 _, rfl, by simpa using h2, by rw [(same_set (N := 1) (by omega)).2.2]; omega⟩
  obtain ⟨q, c', h1, h2, h3⟩ := this
  refine ⟨⟨⟨c'.take 1, true⟩, calls 1 c', peak 1 c'⟩, ?_, rfl, h3⟩
  unfold Regex.measure
  rw [hfuel, h1, hn]

end

end Mregex
