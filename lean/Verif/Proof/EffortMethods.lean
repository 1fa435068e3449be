import Verif.Proof.EffortMain
import Verif.Spec.Effort

/-!
# Bounds for the methods
-/

namespace Mregex
open Ast Spec

section
variable {E : Env} {N : Nat}

theorem spent_set0 {S : Nat → Prop} {w Z cur : Nat} {c : Ctx} {o : Out} (hN : 0 < N) (h : Spent N S w Z c o) :
    Spent N S w Z c (setGroup0 cur o) := by
  intro res c' ho
  match o, h with
  | .ok res1 c1, h =>
    obtain ⟨h1, h2, h3, h4, h5⟩ := h _ _ rfl
    simp only [setGroup0] at ho
    cases ho
    obtain ⟨g1, g2, g3⟩ := same_set (N := N) (c := c1) (v := some (cur, res.pos)) hN
    exact ⟨by simpa using h1, by omega, by omega, by omega, h5⟩

theorem spent_equals {t w Z p : Nat} {c : Ctx} (hc : c.length = N + 2) : Spent N (fun _ => True) w Z c (equals t p c) := by
  intro res c' ho
  cases ho
  exact ⟨hc, rfl, by omega, by omega, fun _ => trivial⟩

theorem spent_search {m : Matcher} {B A H T W : Nat} {adv : Bool} (hN : 0 < N) (h : Cost E N B 0 m adv A H T W) (k : Nat) :
    ∀ cur c, cur ≤ E.inp.length → c.length = N + 2 →
      Spent N (fun _ => True) (k * W) (level N c + B * E.inp.length + H) c (searchBy E m k cur c) := by
  induction k with
  | zero => exact fun _ _ _ _ => spent_diverge
  | succ k ih =>
    intro cur c hcur hc
    have h1 := h.alone hcur hc
    have hb := Nat.mul_le_mul_left B (Env.remaining_le (E := E) (r := 0) hcur)
    intro res c' ho
    unfold searchBy at ho
    generalize m cur c success = o at h1 ho
    have hk : (k + 1) * W = k * W + W := Nat.succ_mul k W
    match o, h1 with
    | .ok res1 c1, h1 =>
      obtain ⟨hlen, h2, h3, h4, h5⟩ := h1 _ _ rfl
      clear h1
      have h1 := hlen
      dsimp only at ho
      split at ho
      · cases ho
        obtain ⟨g1, g2, g3⟩ := same_set (N := N) (c := c1) (v := some (cur, res.pos)) hN
        exact ⟨by simpa using h1, by omega, by omega, by omega, fun _ => trivial⟩
      · split at ho
        · cases ho
          exact ⟨h1, h2, by omega, by omega, fun _ => trivial⟩
        · obtain ⟨g1, g2, g3, g4, _⟩ := ih (cur + 1) c1 (by omega) h1 _ _ ho
          exact ⟨g1, by omega, by omega, by omega, fun _ => trivial⟩

theorem spent_invoke {m : Matcher} {B A H T W : Nat} {adv : Bool} (hN : 0 < N) (h : Cost E N B 0 m adv A H T W) (M : Method)
    {c : Ctx} (hc : c.length = N + 2) :
    Spent N (fun _ => True) ((E.inp.length + 1) * W) (level N c + B * E.inp.length + H) c (M.invokeWith E m 0 c) := by
  have hw : W ≤ (E.inp.length + 1) * W := Nat.le_mul_of_pos_left _ (by omega)
  have hb := Nat.mul_le_mul_left B (Env.remaining_le (E := E) (r := 0) (p := 0) (by omega))
  cases M with
  | «match» =>
    refine spent_set0 hN ((h _ 0 c (equals E.inp.length) 0 0 (by omega) hc (fun q c' _ _ hc' _ => ?_)).mono' (by omega) (by omega))
    exact spent_equals hc'
  | matchPrefix =>
    exact spent_set0 hN ((h.alone (by omega) hc).mono (fun _ _ => trivial) hw (by omega))
  | search => exact (spent_search hN h _ 0 c (by omega) hc).mono' (by simp) (Nat.le_refl _)

end

theorem init_readings (names : List GroupName) :
    (initCtx names ++ [some (0, 0), some (0, 0)]).length = names.length + 2 ∧
    level names.length (initCtx names ++ [some (0, 0), some (0, 0)]) = 0 ∧
    calls names.length (initCtx names ++ [some (0, 0), some (0, 0)]) = 0 ∧
    peak names.length (initCtx names ++ [some (0, 0), some (0, 0)]) = 0 := by
  refine ⟨by simp [initCtx], ?_, ?_, ?_⟩
  · simp [level, initCtx, List.getD_eq_getElem?_getD]
  · simp [calls, meter, initCtx, List.getD_eq_getElem?_getD]
  · simp [peak, meter, initCtx, List.getD_eq_getElem?_getD]

theorem measure_bounds {R : Regex} {cat : Cat} (hR : R.Ok cat) {M : Method} {s : List Byte} {μ : Measured}
    (h : R.measure M cat s = some μ) :
    μ.calls ≤ (s.length + 1) * effort s.length false R.ast ∧ μ.depth ≤ climb cat R.ast * s.length + high cat s.length R.ast := by
  obtain ⟨i1, i2, i3, i4⟩ := init_readings R.names
  have hs := spent_invoke (E := R.env cat s) (N := R.names.length) (by simp [Regex.names])
    (mtchM_cost (E := R.env cat s) rfl (fuelFor R.ast s) R.ast 0 (hR s)) M i1
  unfold Regex.measure at h
  dsimp only at h
  split at h
  · next res c ho =>
    obtain ⟨h1, h2, h3, h4, _⟩ := hs _ _ ho
    cases h
    dsimp only
    rw [i3] at h3
    rw [i4, i2] at h4
    simp only [Regex.env] at h3 h4
    exact ⟨by omega, by omega⟩
  · cases h

/-- The methods that begin at one position only. -/
theorem measure_bounds_once {R : Regex} {cat : Cat} (hR : R.Ok cat) {M : Method} (hM : M ≠ .search) {s : List Byte} {μ : Measured}
    (h : R.measure M cat s = some μ) : μ.calls ≤ effort s.length false R.ast := by
  obtain ⟨i1, i2, i3, i4⟩ := init_readings R.names
  have hc := mtchM_cost (E := R.env cat s) rfl (fuelFor R.ast s) R.ast 0 (hR s)
  have hN : 0 < R.names.length := by simp [Regex.names]
  have hs : ∃ Z, Spent R.names.length (fun _ => True) (effort s.length false R.ast) Z (initCtx R.names ++ [some (0, 0), some (0, 0)])
      (M.invokeWith (R.env cat s) (mtchM (R.env cat s) (fuelFor R.ast s) R.ast 0) 0 (initCtx R.names ++ [some (0, 0), some (0, 0)])) := by
    cases M with
    | «match» =>
      refine ⟨_, spent_set0 hN ((hc _ 0 _ (equals s.length) 0 0 (by omega) i1 (fun q c' _ _ hc' _ => ?_)).mono' (w' := effort s.length false R.ast) ?_ (Nat.le_refl _))⟩
      · exact spent_equals hc'
      · simp [Regex.env]
    | matchPrefix => exact ⟨_, spent_set0 hN ((hc.alone (by omega) i1).mono (fun _ _ => trivial) (Nat.le_refl _) (Nat.le_refl _))⟩
    | search => exact absurd rfl hM
  obtain ⟨Z, hs⟩ := hs
  unfold Regex.measure at h
  dsimp only at h
  split at h
  · next res c ho =>
    obtain ⟨h1, h2, h3, h4, _⟩ := hs _ _ ho
    cases h
    dsimp only
    omega
  · cases h

/-! ### Depth -/

theorem sum_le_mul {l : List Ast} {f g : Ast → Nat} {k : Nat} (h : ∀ a ∈ l, f a ≤ g a * k) :
    (l.map f).sum ≤ (l.map g).sum * k := by
  induction l with
  | nil => simp
  | cons a l ih =>
    have h1 := h a (by simp)
    have h2 := ih (fun b hb => h b (by simp [hb]))
    simp only [List.map_cons, List.sum_cons, Nat.add_mul]
    omega

theorem high_linear (cat : Cat) (n : Nat) (a : Ast) : high cat n a ≤ high cat 1 a * (n + 1) := by
  have hall : ∀ l : List Ast, (∀ a ∈ l, high cat n a ≤ high cat 1 a * (n + 1)) →
      highAll cat n l ≤ highAll cat 1 l * (n + 1) := by
    intro l ih
    rw [highAll_eq, highAll_eq]
    refine sum_le_mul (fun a ha => ?_)
    have := ih a ha
    rw [Nat.add_mul]
    have : holding a ≤ holding a * (n + 1) := Nat.le_mul_of_pos_right _ (by omega)
    omega
  induction a using ind with
  | seq l ih =>
    have := hall l ih
    simp only [high, Nat.add_mul]
    omega
  | alt l ih =>
    have := hall l ih
    simp only [high, Nat.add_mul]
    omega
  | look d a ih =>
    have : climb cat a * n ≤ climb cat a * (n + 1) := Nat.mul_le_mul_left _ (by omega)
    simp only [high, Nat.add_mul, Nat.mul_one]
    omega
  | neg a ih =>
    have : climb cat a * n ≤ climb cat a * (n + 1) := Nat.mul_le_mul_left _ (by omega)
    simp only [high, Nat.add_mul, Nat.mul_one]
    omega
  | rep m lo hi a ih =>
    have : kept lo hi * holding a ≤ kept lo hi * holding a * (n + 1) := Nat.le_mul_of_pos_right _ (by omega)
    simp only [high, Nat.add_mul]
    omega
  | cap id name a ih =>
    simp only [high, Nat.add_mul]
    omega
  | _ => simp [high]

theorem flatAll_eq (cat : Cat) (l : List Ast) : flatAll cat l = l.all (flat cat) := by
  induction l with
  | nil => rfl
  | cons a l ih => simp [flatAll, ih]

theorem sum_zero {l : List Ast} {f : Ast → Nat} (h : ∀ a ∈ l, f a = 0) : (l.map f).sum = 0 := by
  induction l with
  | nil => rfl
  | cons a l ih => simp [h a (by simp), ih (fun b hb => h b (by simp [hb]))]

theorem flat_climb {cat : Cat} {a : Ast} (h : flat cat a = true) : climb cat a = 0 := by
  induction a using ind with
  | seq l ih =>
    simp only [flat, flatAll_eq, List.all_eq_true] at h
    simp only [climb, climbAll_eq]
    exact sum_zero (fun a ha => ih a ha (h a ha))
  | alt l ih =>
    simp only [flat, flatAll_eq, List.all_eq_true] at h
    simp only [climb, climbAll_eq]
    exact sum_zero (fun a ha => ih a ha (h a ha))
  | cap id name a ih => simpa only [climb] using ih (by simpa only [flat] using h)
  | rep m lo hi a ih =>
    simp only [flat, Bool.and_eq_true] at h
    simp only [climb, ih h.1, Nat.zero_add, descent]
    rw [if_neg]
    have := h.2
    cases m <;> cases hi <;> cases ht : triv a <;> cases cat <;> simp_all
  | _ => simp [climb]

theorem flat_high {cat : Cat} {a : Ast} (h : flat cat a = true) (n : Nat) : high cat n a = high cat 0 a := by
  have hall : ∀ l : List Ast, (∀ a ∈ l, flat cat a = true → high cat n a = high cat 0 a) → l.all (flat cat) = true →
      highAll cat n l = highAll cat 0 l := by
    intro l ih hl
    rw [highAll_eq, highAll_eq]
    congr 1
    simp only [List.all_eq_true] at hl
    exact map_congr'' (fun a ha => by rw [ih a ha (hl a ha)])
  induction a using ind with
  | seq l ih =>
    simp only [flat, flatAll_eq] at h
    simp only [high, hall l ih h]
  | alt l ih =>
    simp only [flat, flatAll_eq] at h
    simp only [high, hall l ih h]
  | look d a ih =>
    simp only [flat] at h
    simp only [high, ih h, flat_climb h, Nat.zero_mul]
  | neg a ih =>
    simp only [flat] at h
    simp only [high, ih h, flat_climb h, Nat.zero_mul]
  | rep m lo hi a ih =>
    simp only [flat, Bool.and_eq_true] at h
    simp only [high, ih h.1]
  | cap id name a ih =>
    simp only [flat] at h
    simp only [high, ih h]
  | _ => simp [high]

/-! ### Effort -/

/-- Bounded by a polynomial. -/
def Poly (f : Nat → Nat) : Prop := ∃ K d, ∀ n, f n ≤ K * (n + 1) ^ d

theorem Poly.mono {f g : Nat → Nat} (hg : Poly g) (h : ∀ n, f n ≤ g n) : Poly f := by
  obtain ⟨K, d, hg⟩ := hg
  exact ⟨K, d, fun n => Nat.le_trans (h n) (hg n)⟩

theorem poly_const (k : Nat) : Poly (fun _ => k) := ⟨k, 0, fun n => by simp⟩

theorem poly_succ : Poly (fun n => n + 1) := ⟨1, 1, fun n => by simp⟩

theorem Poly.add {f g : Nat → Nat} (hf : Poly f) (hg : Poly g) : Poly (fun n => f n + g n) := by
  obtain ⟨K, d, hf⟩ := hf
  obtain ⟨L, e, hg⟩ := hg
  refine ⟨K + L, d + e, fun n => ?_⟩
  rw [Nat.add_mul]
  refine Nat.add_le_add (Nat.le_trans (hf n) (Nat.mul_le_mul_left _ ?_)) (Nat.le_trans (hg n) (Nat.mul_le_mul_left _ ?_))
  · exact Nat.pow_le_pow_right (by omega) (by omega)
  · exact Nat.pow_le_pow_right (by omega) (by omega)

theorem Poly.mul {f g : Nat → Nat} (hf : Poly f) (hg : Poly g) : Poly (fun n => f n * g n) := by
  obtain ⟨K, d, hf⟩ := hf
  obtain ⟨L, e, hg⟩ := hg
  refine ⟨K * L, d + e, fun n => ?_⟩
  refine Nat.le_trans (Nat.mul_le_mul (hf n) (hg n)) ?_
  rw [Nat.pow_add]
  exact Nat.le_of_eq (by ac_rfl)

theorem Poly.pow {f : Nat → Nat} (hf : Poly f) (k : Nat) : Poly (fun n => f n ^ k) := by
  induction k with
  | zero => simpa using poly_const 1
  | succ k ih => simpa [Nat.pow_succ] using ih.mul hf

theorem Poly.rounds {f : Nat → Nat} (hf : Poly f) (k : Nat) : Poly (fun n => rounds (f n) k) := by
  induction k with
  | zero => exact poly_const 1
  | succ k ih => exact (hf.mul ih).add (poly_const 1)

theorem Poly.toil {f g : Nat → Nat} (hf : Poly f) (hg : Poly g) (k : Nat) : Poly (fun n => toil (f n) (g n) k) := by
  induction k with
  | zero => exact poly_const 0
  | succ k ih => exact hg.add (hf.mul ih)

theorem rounds_one (k : Nat) : rounds 1 k = k + 1 := by
  induction k with
  | zero => rfl
  | succ k ih => simp [rounds, ih]

theorem toil_one (W k : Nat) : toil 1 W k = k * W := by
  induction k with
  | zero => simp [toil]
  | succ k ih => simp only [toil, ih, Nat.succ_mul]; omega

theorem onceAll_eq (l : List Ast) : onceAll l = l.all once := by
  induction l with
  | nil => rfl
  | cons a l ih => simp [onceAll, ih]

theorem steadyAll_eq (l : List Ast) : steadyAll l = l.all steady := by
  induction l with
  | nil => rfl
  | cons a l ih => simp [steadyAll, ih]

theorem triesMul_one {n : Nat} {l : List Ast} (h : ∀ a ∈ l, attempts n a = 1) : triesMul n l = 1 := by
  induction l with
  | nil => rfl
  | cons a l ih => simp [triesMul, h a (by simp), ih (fun b hb => h b (by simp [hb]))]

theorem once_tries {a : Ast} (h : once a = true) (n : Nat) : attempts n a = 1 := by
  induction a using ind with
  | seq l ih =>
    simp only [once, onceAll_eq, List.all_eq_true] at h
    simp only [attempts]
    exact triesMul_one (fun a ha => ih a ha (h a ha))
  | alt l ih =>
    simp only [once, Bool.or_eq_true] at h
    simp only [attempts]
    split
    · rfl
    · next hl =>
      rcases h with h | h
      · exact absurd h hl
      · match l with
        | [] => simp [onceSingle] at h
        | [a] => simp only [triesSum, Nat.add_zero]; exact ih a (by simp) (by simpa [onceSingle] using h)
        | _ :: _ :: _ => simp [onceSingle] at h
  | cap id name a ih => simpa only [attempts] using ih (by simpa only [once] using h)
  | rep m lo hi a ih =>
    simp only [once, Bool.or_eq_true, Bool.and_eq_true, beq_iff_eq] at h
    simp only [attempts]
    split
    · rfl
    · next hm =>
      rcases h with h | ⟨rfl, h⟩
      · exact absurd h hm
      · simp [ih h, spare, rounds]
  | _ => simp [attempts]

theorem poly_triesMul {l : List Ast} (h : ∀ a ∈ l, Poly (fun n => attempts n a)) : Poly (fun n => triesMul n l) := by
  induction l with
  | nil => exact poly_const 1
  | cons a l ih => exact (h a (by simp)).mul (ih (fun b hb => h b (by simp [hb])))

theorem poly_triesSum {l : List Ast} (h : ∀ a ∈ l, Poly (fun n => attempts n a)) : Poly (fun n => triesSum n l) := by
  induction l with
  | nil => exact poly_const 0
  | cons a l ih => exact (h a (by simp)).add (ih (fun b hb => h b (by simp [hb])))

theorem poly_effortAll {rev : Bool} {l : List Ast} (h : ∀ a ∈ l, Poly (fun n => effort n rev a)) : Poly (fun n => effortAll n rev l) := by
  induction l with
  | nil => exact poly_const 0
  | cons a l ih => exact (h a (by simp)).add (ih (fun b hb => h b (by simp [hb])))

theorem poly_effortParts {rev : Bool} {l : List Ast} (ht : ∀ a ∈ l, Poly (fun n => attempts n a)) (h : ∀ a ∈ l, Poly (fun n => effort n rev a)) :
    Poly (fun n => effortParts n rev l) := by
  induction l with
  | nil => exact poly_const 0
  | cons a l ih => exact (h a (by simp)).add ((ht a (by simp)).mul (ih (fun b hb => ht b (by simp [hb])) (fun b hb => h b (by simp [hb]))))

theorem poly_effortBack {rev : Bool} {l : List Ast} (ht : ∀ a ∈ l, Poly (fun n => attempts n a)) (h : ∀ a ∈ l, Poly (fun n => effort n rev a)) :
    Poly (fun n => effortBack n rev l) := by
  induction l with
  | nil => exact poly_const 0
  | cons a l ih =>
    exact (ih (fun b hb => ht b (by simp [hb])) (fun b hb => h b (by simp [hb]))).add ((poly_triesMul (fun b hb => ht b (by simp [hb]))).mul (h a (by simp)))

theorem steady_tries {a : Ast} (h : steady a = true) : Poly (fun n => attempts n a) := by
  induction a using ind with
  | seq l ih =>
    simp only [steady, steadyAll_eq, List.all_eq_true] at h
    exact poly_triesMul (fun a ha => ih a ha (h a ha))
  | alt l ih =>
    simp only [steady, steadyAll_eq, List.all_eq_true] at h
    simp only [attempts]
    split
    · exact poly_const 1
    · exact poly_triesSum (fun a ha => ih a ha (h a ha))
  | cap id name a ih => simpa only [attempts] using ih (by simpa only [steady] using h)
  | rep m lo hi a ih =>
    simp only [steady, Bool.and_eq_true, Bool.or_eq_true, beq_iff_eq, bne_iff_ne] at h
    simp only [attempts]
    split
    · exact poly_const 1
    · next hm =>
      cases hi with
      | fin j => exact ((ih h.1).pow lo).mul ((ih h.1).rounds _)
      | inf =>
        rcases h.2 with (h' | h') | h'
        · exact absurd h' hm
        · exact absurd rfl h'
        · refine Poly.mono (poly_succ.add (poly_const 1)) (fun n => ?_)
          simp [once_tries h', spare, rounds_one]
  | _ => simpa [attempts] using poly_const 1

theorem steady_effort {a : Ast} (h : steady a = true) (rev : Bool) : Poly (fun n => effort n rev a) := by
  induction a using ind generalizing rev with
  | seq l ih =>
    simp only [steady, steadyAll_eq, List.all_eq_true] at h
    cases rev with
    | false => exact (poly_effortParts (fun a ha => steady_tries (h a ha)) (fun a ha => ih a ha (h a ha) _)).add (poly_const 1)
    | true => exact (poly_effortBack (fun a ha => steady_tries (h a ha)) (fun a ha => ih a ha (h a ha) _)).add (poly_const 1)
  | alt l ih =>
    simp only [steady, steadyAll_eq, List.all_eq_true] at h
    exact (poly_effortAll (fun a ha => ih a ha (h a ha) rev)).add (poly_const 1)
  | cap id name a ih => exact (ih (by simpa only [steady] using h) rev).add (poly_const 1)
  | neg a ih => exact (ih (by simpa only [steady] using h) rev).add (poly_const 1)
  | look d a ih => cases d <;> exact (ih (by simpa only [steady] using h) _).add (poly_const 1)
  | rep m lo hi a ih =>
    have ht : Poly (fun n => attempts n a) := by
      refine steady_tries ?_
      simp only [steady, Bool.and_eq_true] at h
      exact h.1
    simp only [steady, Bool.and_eq_true, Bool.or_eq_true, beq_iff_eq, bne_iff_ne] at h
    have he := ih h.1 rev
    simp only [effort]
    refine ((ht.toil he lo).add ((ht.pow lo).mul ?_)).add (poly_const 1)
    by_cases hm : m = .possessive
    · simp only [hm, if_true, toil_one]
      cases hi with
      | fin j => exact (poly_const _).mul he
      | inf => exact poly_succ.mul he
    · simp only [hm, if_false]
      cases hi with
      | fin j => exact ht.toil he _
      | inf =>
        rcases h.2 with (h' | h') | h'
        · exact absurd h' hm
        · exact absurd rfl h'
        · simp only [once_tries h', toil_one]
          exact poly_succ.mul he
  | _ => simpa [effort] using poly_const 1

/-- Powers of two grow faster than polynomials. -/
theorem exp_gt (K d : Nat) : ∃ n, K * (n + 1) ^ d < 2 ^ n := by
  have hlt : ∀ j : Nat, j + 1 ≤ 2 ^ j := fun j => Nat.lt_two_pow_self
  obtain ⟨j, hj⟩ : ∃ j, j = K + 2 * d + 2 := ⟨_, rfl⟩
  refine ⟨2 ^ (2 * j) - 1, ?_⟩
  have h1 : 1 ≤ 2 ^ (2 * j) := Nat.one_le_pow _ _ (by omega)
  have h2 : 2 ^ (2 * j) - 1 + 1 = 2 ^ (2 * j) := by omega
  rw [h2, ← Nat.pow_mul]
  have h3 : K < 2 ^ K := Nat.lt_two_pow_self
  refine Nat.lt_of_lt_of_le (Nat.mul_lt_mul_of_pos_right h3 (Nat.one_le_pow _ _ (by omega))) ?_
  rw [← Nat.pow_add]
  refine Nat.pow_le_pow_right (by omega) ?_
  have h4 : 2 ^ (2 * j) = 2 ^ j * 2 ^ j := by rw [← Nat.pow_add]; congr 1; omega
  have h5 : (K + 2 * d + 2) * (j + 1) ≤ 2 ^ j * 2 ^ j := Nat.mul_le_mul (by have := hlt j; omega) (hlt j)
  have h6 : (K + 2 * d + 2) * (j + 1) = K * j + K + 2 * j * d + 2 * d + 2 * j + 2 := by
    rw [Nat.mul_succ, Nat.add_mul, Nat.add_mul, Nat.mul_assoc 2 d j, Nat.mul_assoc 2 j d, Nat.mul_comm j d]
    omega
  have h7 := Nat.zero_le (K * j)
  omega

/-! ### Degrees -/

/-- Bounded by a polynomial of degree `d`. -/
def PolyDeg (d : Nat) (f : Nat → Nat) : Prop := ∃ K, ∀ n, f n ≤ K * (n + 1) ^ d

theorem PolyDeg.up {d e : Nat} {f : Nat → Nat} (h : PolyDeg d f) (hd : d ≤ e) : PolyDeg e f := by
  obtain ⟨K, h⟩ := h
  exact ⟨K, fun n => Nat.le_trans (h n) (Nat.mul_le_mul_left _ (Nat.pow_le_pow_right (by omega) hd))⟩

theorem polyDeg_const (k d : Nat) : PolyDeg d (fun _ => k) := ⟨k, fun n => Nat.le_mul_of_pos_right _ (Nat.pow_pos (by omega))⟩

theorem polyDeg_succ : PolyDeg 1 (fun n => n + 1) := ⟨1, fun n => by simp⟩

theorem PolyDeg.add {d : Nat} {f g : Nat → Nat} (hf : PolyDeg d f) (hg : PolyDeg d g) : PolyDeg d (fun n => f n + g n) := by
  obtain ⟨K, hf⟩ := hf
  obtain ⟨L, hg⟩ := hg
  exact ⟨K + L, fun n => by rw [Nat.add_mul]; exact Nat.add_le_add (hf n) (hg n)⟩

theorem PolyDeg.mul {d e : Nat} {f g : Nat → Nat} (hf : PolyDeg d f) (hg : PolyDeg e g) : PolyDeg (d + e) (fun n => f n * g n) := by
  obtain ⟨K, hf⟩ := hf
  obtain ⟨L, hg⟩ := hg
  refine ⟨K * L, fun n => Nat.le_trans (Nat.mul_le_mul (hf n) (hg n)) ?_⟩
  rw [Nat.pow_add]
  exact Nat.le_of_eq (by ac_rfl)

theorem PolyDeg.pow {d : Nat} {f : Nat → Nat} (hf : PolyDeg d f) (k : Nat) : PolyDeg (k * d) (fun n => f n ^ k) := by
  induction k with
  | zero => simpa using polyDeg_const 1 0
  | succ k ih =>
    simp only [Nat.pow_succ]
    exact (ih.mul hf).up (by rw [Nat.succ_mul]; omega)

theorem PolyDeg.rounds {d : Nat} {f : Nat → Nat} (hf : PolyDeg d f) (k : Nat) : PolyDeg (k * d) (fun n => rounds (f n) k) := by
  induction k with
  | zero => exact polyDeg_const 1 _
  | succ k ih => exact ((hf.mul ih).up (by rw [Nat.succ_mul]; omega)).add (polyDeg_const 1 _)

theorem PolyDeg.toil {d e : Nat} {f g : Nat → Nat} (hf : PolyDeg d f) (hg : PolyDeg e g) (k : Nat) : PolyDeg (e + k * d) (fun n => toil (f n) (g n) k) := by
  induction k with
  | zero => exact polyDeg_const 0 _
  | succ k ih => exact (hg.up (by omega)).add ((hf.mul ih).up (by rw [Nat.succ_mul]; omega))

theorem PolyDeg.toil_sharp {d e : Nat} {f g : Nat → Nat} (hf : PolyDeg d f) (hg : PolyDeg e g) (k : Nat) : PolyDeg (e + (k - 1) * d) (fun n => Mregex.toil (f n) (g n) k) := by
  induction k with
  | zero => exact polyDeg_const 0 _
  | succ k ih =>
    match k, ih with
    | 0, _ =>
      refine hg.imp fun K hK n => ?_
      simpa [Mregex.toil] using hK n
    | k + 1, ih => exact (hg.up (by omega)).add ((hf.mul ih).up (by simp only [Nat.add_sub_cancel, Nat.succ_mul]; omega))

theorem degree_triesMul {l : List Ast} (h : ∀ a ∈ l, PolyDeg (choices a) (fun n => attempts n a)) : PolyDeg (choicesSum l) (fun n => triesMul n l) := by
  induction l with
  | nil => exact polyDeg_const 1 _
  | cons a l ih => exact (h a (by simp)).mul (ih (fun b hb => h b (by simp [hb])))

theorem degree_triesSum {l : List Ast} (h : ∀ a ∈ l, PolyDeg (choices a) (fun n => attempts n a)) : PolyDeg (choicesMax l) (fun n => triesSum n l) := by
  induction l with
  | nil => exact polyDeg_const 0 _
  | cons a l ih => exact ((h a (by simp)).up (Nat.le_max_left _ _)).add ((ih (fun b hb => h b (by simp [hb]))).up (Nat.le_max_right _ _))

theorem degree_effortAll {rev : Bool} {l : List Ast} (h : ∀ a ∈ l, PolyDeg (degreeDir rev a) (fun n => effort n rev a)) : PolyDeg (degreeMax rev l) (fun n => effortAll n rev l) := by
  induction l with
  | nil => exact polyDeg_const 0 _
  | cons a l ih => exact ((h a (by simp)).up (Nat.le_max_left _ _)).add ((ih (fun b hb => h b (by simp [hb]))).up (Nat.le_max_right _ _))

theorem degree_effortParts {rev : Bool} {l : List Ast} (ht : ∀ a ∈ l, PolyDeg (choices a) (fun n => attempts n a))
    (h : ∀ a ∈ l, PolyDeg (degreeDir rev a) (fun n => effort n rev a)) : PolyDeg (degreeParts rev l) (fun n => effortParts n rev l) := by
  match l with
  | [] => exact polyDeg_const 0 _
  | [a] =>
    refine (h a (by simp)).imp fun K hK n => ?_
    simpa [effortParts, degreeParts] using hK n
  | a :: b :: l =>
    simp only [degreeParts]
    have hl := degree_effortParts (l := b :: l) (fun x hx => ht x (List.mem_cons_of_mem _ hx)) (fun x hx => h x (List.mem_cons_of_mem _ hx))
    exact ((h a (by simp)).up (Nat.le_max_left _ _)).add (((ht a (by simp)).mul hl).up (Nat.le_max_right _ _))

theorem degree_effortBack {rev : Bool} {l : List Ast} (ht : ∀ a ∈ l, PolyDeg (choices a) (fun n => attempts n a))
    (h : ∀ a ∈ l, PolyDeg (degreeDir rev a) (fun n => effort n rev a)) : PolyDeg (degreeBack rev l) (fun n => effortBack n rev l) := by
  induction l with
  | nil => exact polyDeg_const 0 _
  | cons a l ih =>
    exact ((ih (fun b hb => ht b (by simp [hb])) (fun b hb => h b (by simp [hb]))).up (Nat.le_max_left _ _)).add
      (((degree_triesMul (fun b hb => ht b (by simp [hb]))).mul (h a (by simp))).up (Nat.le_max_right _ _))

theorem degree_tries {a : Ast} (h : steady a = true) : PolyDeg (choices a) (fun n => attempts n a) := by
  induction a using ind with
  | seq l ih =>
    simp only [steady, steadyAll_eq, List.all_eq_true] at h
    simp only [choices]
    exact degree_triesMul (fun a ha => ih a ha (h a ha))
  | alt l ih =>
    simp only [steady, steadyAll_eq, List.all_eq_true] at h
    simp only [attempts, choices]
    split
    · exact polyDeg_const 1 _
    · exact degree_triesSum (fun a ha => ih a ha (h a ha))
  | cap id name a ih => simpa only [attempts, choices] using ih (by simpa only [steady] using h)
  | rep m lo hi a ih =>
    simp only [steady, Bool.and_eq_true, Bool.or_eq_true, beq_iff_eq, bne_iff_ne] at h
    simp only [attempts]
    split
    · exact polyDeg_const 1 _
    · next hm =>
      cases hi with
      | fin j =>
        have hch : choices (.rep m lo (.fin j) a) = max lo j * choices a := by cases m <;> first | exact absurd rfl hm | simp only [choices]
        rw [hch]
        have := ((ih h.1).pow lo).mul ((ih h.1).rounds (j - lo))
        rw [← Nat.add_mul] at this
        exact this.up (Nat.mul_le_mul_right _ (by omega))
      | inf =>
        have hch : choices (.rep m lo .inf a) = 1 := by cases m <;> first | exact absurd rfl hm | simp only [choices]
        rw [hch]
        rcases h.2 with (h' | h') | h'
        · exact absurd h' hm
        · exact absurd rfl h'
        · refine (polyDeg_succ.add (polyDeg_const 1 1)).imp fun K hK n => ?_
          simpa [once_tries h', spare, rounds_one] using hK n
  | _ => simpa [attempts] using polyDeg_const 1 _

theorem degree_effort {a : Ast} (h : steady a = true) (rev : Bool) : PolyDeg (degreeDir rev a) (fun n => effort n rev a) := by
  induction a using ind generalizing rev with
  | seq l ih =>
    simp only [steady, steadyAll_eq, List.all_eq_true] at h
    cases rev with
    | false => exact (degree_effortParts (fun a ha => degree_tries (h a ha)) (fun a ha => ih a ha (h a ha) _)).add (polyDeg_const 1 _)
    | true => exact (degree_effortBack (fun a ha => degree_tries (h a ha)) (fun a ha => ih a ha (h a ha) _)).add (polyDeg_const 1 _)
  | alt l ih =>
    simp only [steady, steadyAll_eq, List.all_eq_true] at h
    simp only [degreeDir]
    exact (degree_effortAll (fun a ha => ih a ha (h a ha) rev)).add (polyDeg_const 1 _)
  | cap id name a ih => simp only [degreeDir]; exact (ih (by simpa only [steady] using h) rev).add (polyDeg_const 1 _)
  | neg a ih => simp only [degreeDir]; exact (ih (by simpa only [steady] using h) rev).add (polyDeg_const 1 _)
  | look d a ih => cases d <;> (simp only [degreeDir]; exact (ih (by simpa only [steady] using h) _).add (polyDeg_const 1 _))
  | rep m lo hi a ih =>
    have ht : PolyDeg (choices a) (fun n => attempts n a) := by
      refine degree_tries ?_
      simp only [steady, Bool.and_eq_true] at h
      exact h.1
    simp only [steady, Bool.and_eq_true, Bool.or_eq_true, beq_iff_eq, bne_iff_ne] at h
    have he := ih h.1 rev
    simp only [effort]
    cases hi with
    | fin j =>
      simp only [degreeDir]
      refine (((ht.toil_sharp he lo).up (Nat.add_le_add_left (Nat.mul_le_mul_right _ (by omega)) _)).add ?_).add (polyDeg_const 1 _)
      simp only [spare]
      by_cases hj : j ≤ lo
      · simp only [show j - lo = 0 by omega, toil, Nat.mul_zero]
        exact polyDeg_const 0 _
      · have e1 : max lo j - 1 = lo + (j - lo - 1) := by omega
        rw [e1, Nat.add_mul]
        refine ((ht.pow lo).mul (e := degreeDir rev a + (j - lo - 1) * choices a) ?_).up (by omega)
        by_cases hm : m = .possessive
        · simp only [hm, if_true]
          exact (((polyDeg_const 1 0).toil he (j - lo)).up (by simp))
        · simp only [hm, if_false]
          exact ht.toil_sharp he _
    | inf =>
      simp only [degreeDir]
      refine (((ht.toil he lo).up (by omega)).add (((ht.pow lo).mul (e := 1 + degreeDir rev a) ?_).up (by omega))).add (polyDeg_const 1 _)
      by_cases hm : m = .possessive
      · simp only [hm, if_true, toil_one]
        exact polyDeg_succ.mul he
      · simp only [hm, if_false]
        rcases h.2 with (h' | h') | h'
        · exact absurd h' hm
        · exact absurd rfl h'
        · simp only [once_tries h', toil_one]
          exact polyDeg_succ.mul he
  | _ => simpa [effort] using polyDeg_const 1 _

end Mregex
