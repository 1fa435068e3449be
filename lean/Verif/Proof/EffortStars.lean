import Verif.Proof.EffortSharp

/-!
# Exponents that are reached
-/

namespace Mregex
open Ast

/-- The number of ways to give away at most `m` letters to `k` parts. -/
def shares : Nat → Nat → Nat
  | 0, _ => 1
  | _ + 1, 0 => 1
  | k + 1, m + 1 => shares k (m + 1) + shares (k + 1) m

theorem shares_zero (k : Nat) : shares k 0 = 1 := by cases k <;> simp [shares]

theorem shares_pos (k m : Nat) : 1 ≤ shares k m := by
  induction m with
  | zero => rw [shares_zero]; omega
  | succ m ih =>
    cases k with
    | zero => simp [shares]
    | succ k => simp only [shares]; omega

theorem shares_mono (k m : Nat) : shares k m ≤ shares (k + 1) m := by
  cases m with
  | zero => simp [shares_zero]
  | succ m => simp only [shares]; omega

/-- `shares k m + … + shares k (m + j)`. -/
def sharesFrom (k : Nat) : Nat → Nat → Nat
  | m, 0 => shares k m
  | m, j + 1 => shares k m + sharesFrom k (m + 1) j

theorem sharesFrom_eq (k j : Nat) : ∀ m, sharesFrom k m j + shares (k + 1) m = shares (k + 1) (m + j) + shares k m := by
  induction j with
  | zero => intro m; simp only [sharesFrom, Nat.add_zero]; omega
  | succ j ih =>
    intro m
    have h1 := ih (m + 1)
    have h2 : shares (k + 1) (m + 1) = shares k (m + 1) + shares (k + 1) m := by simp only [shares]
    rw [show m + 1 + j = m + (j + 1) by omega] at h1
    simp only [sharesFrom]
    omega

theorem sharesFrom_zero (k j : Nat) : sharesFrom k 0 j = shares (k + 1) j := by
  have := sharesFrom_eq k j 0
  simp only [shares_zero, Nat.zero_add] at this
  omega

def fact : Nat → Nat
  | 0 => 1
  | k + 1 => (k + 1) * fact k

theorem pow_step (m k : Nat) : (m + 1) ^ (k + 1) ≤ m ^ (k + 1) + (k + 1) * (m + 1) ^ k := by
  induction k with
  | zero => simp
  | succ k ih =>
    have h1 : (m + 1) ^ (k + 1 + 1) = m * (m + 1) ^ (k + 1) + (m + 1) ^ (k + 1) := by rw [Nat.pow_succ (n := m + 1), Nat.mul_comm, Nat.add_mul]; omega
    have h2 : m * (m + 1) ^ (k + 1) ≤ m * m ^ (k + 1) + m * ((k + 1) * (m + 1) ^ k) := by rw [← Nat.mul_add]; exact Nat.mul_le_mul_left _ ih
    have h3 : m * m ^ (k + 1) = m ^ (k + 1 + 1) := by rw [Nat.pow_succ (m := k + 1), Nat.mul_comm]
    have h4 : m * ((k + 1) * (m + 1) ^ k) ≤ (k + 1) * (m + 1) ^ (k + 1) := by
      rw [Nat.mul_left_comm, Nat.pow_succ, Nat.mul_comm ((m + 1) ^ k)]
      exact Nat.mul_le_mul_left _ (Nat.mul_le_mul_right _ (by omega))
    have h5 : (k + 1 + 1) * (m + 1) ^ (k + 1) = (k + 1) * (m + 1) ^ (k + 1) + (m + 1) ^ (k + 1) := Nat.succ_mul _ _
    omega

theorem pow_shares (k m : Nat) : m ^ k ≤ fact k * shares k m := by
  induction k generalizing m with
  | zero => simp [fact, shares]
  | succ k ih =>
    induction m with
    | zero => simp
    | succ m ihm =>
      have h1 := pow_step m k
      have h2 := ih (m + 1)
      have h3 : (k + 1) * (m + 1) ^ k ≤ (k + 1) * (fact k * shares k (m + 1)) := Nat.mul_le_mul_left _ h2
      have h4 : fact (k + 1) * shares (k + 1) (m + 1) = (k + 1) * (fact k * shares k (m + 1)) + fact (k + 1) * shares (k + 1) m := by
        simp only [shares, fact, Nat.mul_add, Nat.mul_assoc]
      omega

section
variable {E : Env} {n : Nat}

theorem shares_backOff {k p : Nat} {cont : Cont} (hk : ∀ q c, p ≤ q → q ≤ n → c.length = 3 → Burns (shares k (n - q)) c (cont q c)) (j : Nat) :
    ∀ q c, q = p + j → q ≤ n → c.length = 3 → Burns (sharesFrom k (n - q) j) c (backOff 0 p cont j q c) := by
  induction j with
  | zero =>
    intro q c hq hn hc
    unfold backOff
    refine ((hk q c (by omega) hn hc).orElse (w' := 0) (fun c' hc' => ?_)).mono (by simp [sharesFrom])
    rw [if_pos (by omega)]; exact burns_fail hc'
  | succ j ih =>
    intro q c hq hn hc
    unfold backOff
    refine (hk q c (by omega) hn hc).orElse (fun c' hc' => ?_)
    rw [if_neg (by omega)]
    have h1 : Env.prev 0 q = q - 1 := rfl
    rw [h1, show n - q + 1 = n - (q - 1) by omega]
    exact ih _ c' (by omega) (by omega) hc'

/-- `a*` -/
def star : Ast := .rep .greedy 0 .inf (.lit 97#8)

/-- `a*…a*b` with `k` stars, as a list of parts. -/
def starParts : Nat → List Ast
  | 0 => [.lit 98#8]
  | k + 1 => star :: starParts k

theorem Letters.star_loop (h : Letters E n) {k : Nat} {cont : Cont} (hcont : ∀ q c, q ≤ n → c.length = 3 → Burns (shares k (n - q)) c (cont q c)) (j : Nat) :
    ∀ p c, p ≤ n → n < p + j → c.length = 3 → Burns (shares (k + 1) (n - p)) c (greedyLoop (counted 1 (trivMatch E 0 (.lit 97#8))) false true j p c cont) := by
  induction j with
  | zero => intro p c h1 h2; omega
  | succ j ih =>
    intro p c hp hj hc
    have e1 := (readings_enter (N := 1) hc).1
    unfold greedyLoop
    by_cases hn : p = n
    · subst hn
      have hb : Burns 0 c (counted 1 (trivMatch E 0 (.lit 97#8)) p c (guardCont false p fun q c' =>
          greedyLoop (counted 1 (trivMatch E 0 (.lit 97#8))) false true j q c' cont)) := by
        refine (Burns.counted hc (w := 0) ?_).mono (by omega)
        rw [h.triv_end]
        exact burns_fail e1
      refine (hb.orElse (fun c' hc' => hcont p c' hp hc')).mono ?_
      simp [shares_zero]
    · have hb : Burns (shares (k + 1) (n - (p + 1))) c (counted 1 (trivMatch E 0 (.lit 97#8)) p c (guardCont false p fun q c' =>
          greedyLoop (counted 1 (trivMatch E 0 (.lit 97#8))) false true j q c' cont)) := by
        refine (Burns.counted hc (w := shares (k + 1) (n - (p + 1))) ?_).mono (by omega)
        rw [h.triv_a (by omega)]
        simp only [guardCont, Bool.false_and, Bool.false_eq_true, if_false]
        exact ih (p + 1) _ (by omega) (by omega) e1
      refine (hb.orElse (fun c' hc' => hcont p c' hp hc')).mono ?_
      obtain ⟨i, hi⟩ : ∃ i, n - p = i + 1 := ⟨n - p - 1, by omega⟩
      rw [hi, show n - (p + 1) = i by omega]
      simp only [shares]
      omega

theorem Letters.star_burns (h : Letters E n) {k f : Nat} (hf : n ≤ f) {p : Nat} (hp : p ≤ n) {c : Ctx} (hc : c.length = 3) {cont : Cont}
    (hcont : ∀ q c, q ≤ n → c.length = 3 → Burns (shares k (n - q)) c (cont q c)) : Burns (shares (k + 1) (n - p) + 1) c (mtchM E (f + 3) star 0 p c cont) := by
  have e1 := (readings_enter (N := 1) hc).1
  by_cases hcat : E.cat = .forward
  · have : mtchM E (f + 3) star 0 p c cont = counted 1 (greedyLoop (counted 1 (trivMatch E 0 (.lit 97#8))) false true (f + 2)) p c cont := by
      simp [mtchM, star, inherits, h.names, nodeMatch, repMatch, betweenBounds, h.flags, hcat, zlm]
    rw [this]
    exact Burns.counted hc (h.star_loop hcont _ p _ hp (by omega) e1)
  · have hcb : (E.cat != .forward) = true := by cases hx : E.cat <;> simp_all
    have : mtchM E (f + 3) star 0 p c cont = counted 1 (greedyTriv E 0 (.lit 97#8) true (f + 2)) p c cont := by
      simp [mtchM, star, inherits, h.names, nodeMatch, repMatch, betweenBounds, h.flags, hcb, triv]
    rw [this]
    refine Burns.counted hc ?_
    unfold greedyTriv
    rw [h.possTriv (f + 2) p hp (by omega)]
    have := shares_backOff (n := n) (k := k) (p := p) (cont := cont) (fun q c _ hqn hc => hcont q c hqn hc) (n - p) n (enter 1 c) (by omega) (Nat.le_refl _) e1
    rw [Nat.sub_self, sharesFrom_zero] at this
    have hd : Env.dist 0 p n = n - p := rfl
    rw [hd]
    exact this

theorem starParts_triv (k : Nat) : areTriv (starParts (k + 1)) = false := by simp [starParts, areTriv, star, triv]

theorem Letters.parts_burn (h : Letters E n) {f : Nat} (hf : n ≤ f) {cont : Cont} (k : Nat) : ∀ {p : Nat} {c : Ctx}, p ≤ n → c.length = 3 →
    Burns (shares k (n - p)) c (seqMatch E 0 (fun a => mtchM E (f + 3) a 0) (starParts k) p c cont) := by
  induction k with
  | zero =>
    intro p c hp hc
    have e1 := (readings_enter (N := 1) hc).1
    have h2 : mtchM E (f + 3) (.lit 98#8) 0 = counted 1 (trivMatch E 0 (.lit 98#8)) := by simp [mtchM, inherits, h.names, nodeMatch]
    simp only [starParts, seqMatch, h2, shares]
    refine Burns.counted hc (w := 0) ?_
    rw [h.triv_b hp]
    exact burns_fail e1
  | succ k ih =>
    intro p c hp hc
    have hs : seqMatch E 0 (fun a => mtchM E (f + 3) a 0) (starParts (k + 1)) p c cont =
        mtchM E (f + 3) star 0 p c (fun q c' => seqMatch E 0 (fun a => mtchM E (f + 3) a 0) (starParts k) q c' cont) := by
      have ht := starParts_triv k
      obtain ⟨b, l, hl⟩ : ∃ b l, starParts k = b :: l := by cases k <;> exact ⟨_, _, rfl⟩
      rw [starParts, hl] at ht ⊢
      simp only [seqMatch, ht]
      rfl
    rw [hs]
    exact (h.star_burns hf hp hc (fun q c' hq hc' => ih hq hc')).mono (by omega)

/-- `a*…a*b` with `k` stars. -/
def stars (k : Nat) : Regex := ⟨.seq (starParts k), []⟩

theorem Letters.stars_burn (h : Letters E n) {k : Nat} (hk : 0 < k) {p : Nat} (hp : p ≤ n) {c : Ctx} (hc : c.length = 3) (cont : Cont) :
    Burns (shares k (n - p)) c (mtchM E (n + 4) (stars k).ast 0 p c cont) := by
  obtain ⟨k, rfl⟩ : ∃ j, k = j + 1 := ⟨k - 1, by omega⟩
  have hi : inherits (.seq (starParts (k + 1))) = false := by
    obtain ⟨b, l, hl⟩ : ∃ b l, starParts k = b :: l := by cases k <;> exact ⟨_, _, rfl⟩
    simp [starParts, hl, inherits]
  have : mtchM E (n + 4) (stars (k + 1)).ast 0 p c cont = counted 1 (seqMatch E 0 (fun a => mtchM E (n + 3) a 0) (starParts (k + 1))) p c cont := by
    conv => lhs; unfold mtchM
    simp [stars, hi, h.names, nodeMatch]
  rw [this]
  exact (Burns.counted hc (h.parts_burn (Nat.le_refl n) (k + 1) hp (readings_enter (N := 1) hc).1)).mono (by omega)

theorem Letters.stars_search (h : Letters E n) {k : Nat} (hk : 0 < k) (j : Nat) :
    ∀ p c, p + j = n → c.length = 3 → Burns (shares (k + 1) (n - p)) c (searchBy E (mtchM E (n + 4) (stars k).ast 0) (j + 1) p c) := by
  have hlen : E.inp.length = n := by rw [h.inp]; simp
  induction j with
  | zero =>
    intro p c hp hc
    obtain ⟨q, c', h1, h2, h3⟩ := h.stars_burn hk (by omega : p ≤ n) hc success
    unfold searchBy
    rw [h1]
    simp only [nonMatch, Bool.false_eq_true, if_false]
    rw [if_pos (by omega)]
    rw [show n - p = 0 by omega, shares_zero] at h3 ⊢
    exact ⟨_, _, rfl, h2, h3⟩
  | succ j ih =>
    intro p c hp hc
    obtain ⟨q, c', h1, h2, h3⟩ := h.stars_burn hk (by omega : p ≤ n) hc success
    unfold searchBy
    rw [h1]
    simp only [nonMatch, Bool.false_eq_true, if_false]
    rw [if_neg (by omega)]
    obtain ⟨q', c'', h4, h5, h6⟩ := ih (p + 1) c' (by omega) h2
    refine ⟨q', c'', h4, h5, ?_⟩
    rw [show n - (p + 1) = j by omega] at h6
    rw [show n - p = j + 1 by omega] at h3 ⊢
    simp only [shares] at h3 ⊢
    omega

theorem starParts_mem (k : Nat) : ∀ a ∈ starParts k, a = star ∨ a = .lit 98#8 := by
  induction k with
  | zero => intro a ha; exact .inr (by simpa [starParts] using ha)
  | succ k ih =>
    intro a ha
    rcases List.mem_cons.1 ha with rfl | ha
    · exact .inl rfl
    · exact ih a ha

theorem starParts_depth (k : Nat) : Ast.depthAll (starParts (k + 1)) = 2 := by
  induction k with
  | zero => decide
  | succ k ih => rw [starParts, Ast.depthAll, ih]; decide

theorem stars_ok (cat : Cat) (k : Nat) : (stars k).Ok cat := by
  intro s
  refine .seq (by cases k <;> simp [starParts]) (fun a ha => ?_)
  rcases starParts_mem k a ha with rfl | rfl
  · exact .repInf .lit
  · exact .lit

theorem starParts_names (k : Nat) : Ast.nameSpecAll (starParts k) = [] := by
  induction k with
  | zero => rfl
  | succ k ih => rw [starParts, Ast.nameSpecAll, ih]; rfl

theorem stars_calls (M : Method) (cat : Cat) {k : Nat} (hk : 0 < k) (n : Nat) :
    ∃ μ, (stars k).measure M cat (List.replicate n 97#8) = some μ ∧ μ.result.matched = false ∧ shares (if M = .search then k + 1 else k) n ≤ μ.calls := by
  have hN : (stars k).names = [none] := by
    have : (stars k).ast.nameSpec = [] := by simp only [stars, Ast.nameSpec, starParts_names]
    simp [Regex.names, this]
  have hL : Letters ((stars k).env cat (List.replicate n 97#8)) n := letters_of rfl hN
  obtain ⟨i1, i2, i3, i4⟩ := init_readings (stars k).names
  have hn : (stars k).names.length = 1 := by rw [hN]; rfl
  rw [hn] at i1 i3
  have hfuel : fuelFor (stars k).ast (List.replicate n 97#8) = n + 4 := by
    obtain ⟨k, rfl⟩ : ∃ j, k = j + 1 := ⟨k - 1, by omega⟩
    simp only [fuelFor, stars, Ast.depth, starParts_depth, List.length_replicate]
    omega
  have : Burns (shares (if M = .search then k + 1 else k) n) (initCtx (stars k).names ++ [some (0, 0), some (0, 0)])
      (M.invokeWith ((stars k).env cat (List.replicate n 97#8)) (mtchM ((stars k).env cat (List.replicate n 97#8)) (n + 4) (stars k).ast 0) 0
        (initCtx (stars k).names ++ [some (0, 0), some (0, 0)])) := by
    cases M with
    | «match» =>
      obtain ⟨q, c', h1, h2, h3⟩ := hL.stars_burn hk (Nat.zero_le n) i1 (equals ((stars k).env cat (List.replicate n 97#8)).inp.length)
      simp only [Method.invokeWith]
      rw [h1]
      exact ⟨q, c'.set 0 _, rfl, by simpa using h2, by rw [(same_set (N := 1) (by omega)).2.1]; exact h3⟩
    | matchPrefix =>
      obtain ⟨q, c', h1, h2, h3⟩ := hL.stars_burn hk (Nat.zero_le n) i1 success
      simp only [Method.invokeWith]
      rw [h1]
      exact ⟨q, c'.set 0 _, rfl, by simpa using h2, by rw [(same_set (N := 1) (by omega)).2.1]; exact h3⟩
    | search =>
      have := hL.stars_search hk n 0 _ (by omega) i1
      simpa [Method.invokeWith, Regex.env] using this
  obtain ⟨q, c', h1, h2, h3⟩ := this
  refine ⟨⟨⟨c'.take 1, false⟩, calls 1 c', peak 1 c'⟩, ?_, rfl, ?_⟩
  · unfold Regex.measure
    rw [hfuel, h1, hn]
    rfl
  · dsimp only
    omega

theorem stars_steady (k : Nat) : Spec.steady (stars k).ast = true := by
  simp only [stars, Spec.steady, steadyAll_eq, List.all_eq_true]
  intro a ha
  rcases starParts_mem k a ha with rfl | rfl <;> rfl

theorem stars_degree {k : Nat} (hk : 0 < k) : Spec.degree (stars k).ast = k := by
  obtain ⟨k, rfl⟩ : ∃ j, k = j + 1 := ⟨k - 1, by omega⟩
  simp only [stars, Spec.degree, Spec.degreeDir, Bool.false_eq_true, if_false]
  induction k with
  | zero => decide
  | succ k ih =>
    rw [starParts, show starParts (k + 1) = star :: starParts k from rfl, Spec.degreeParts, ← show starParts (k + 1) = star :: starParts k from rfl, ih (by omega)]
    simp only [star, Spec.degreeDir, Spec.choices]
    omega

end

end Mregex
