import Verif.Spec.Halt

/-!
# The rules of `Spec/Halt` are the steps
-/

namespace Mregex
open Spec Turing.ToPartrec

/-! ### Instances of rules -/

theorem leftSide_lits (u : List Byte) (l : List Given) (σ : List (List Byte)) : leftSide (u.map .lit ++ l) σ = u ++ leftSide l σ := by
  induction u with
  | nil => rfl
  | cons c u ih => simp [leftSide, ih]

theorem rightSide_lits (u : List Byte) (r : List Made) (σ : List (List Byte)) : rightSide (u.map .lit ++ r) σ = u ++ rightSide r σ := by
  induction u with
  | nil => rfl
  | cons c u ih => simp [rightSide, ih]

theorem fits_lits (u : List Byte) (l : List Given) (σ : List (List Byte)) : FitsVars (u.map .lit ++ l) σ ↔ FitsVars l σ := by
  induction u with
  | nil => rfl
  | cons c u ih => simpa [FitsVars] using ih

theorem leftSide_job (q : Job) (l : List Given) (σ : List (List Byte)) : leftSide (jobL q ++ l) σ = jobWord q ++ commaB :: leftSide l σ := by
  rw [jobL, leftSide_lits]; simp

theorem rightSide_job (q : Job) (r : List Made) (σ : List (List Byte)) : rightSide (jobR q ++ r) σ = jobWord q ++ commaB :: rightSide r σ := by
  rw [jobR, rightSide_lits]; simp

theorem fits_job (q : Job) (l : List Given) (σ : List (List Byte)) : FitsVars (jobL q ++ l) σ ↔ FitsVars l σ := fits_lits _ _ _

theorem fits_var {k : List Byte} {l : List Given} {σ : List (List Byte)} (h : FitsVars (.var k :: l) σ) :
    ∃ x τ, σ = x :: τ ∧ (∀ b ∈ x, b ∈ k) ∧ FitsVars l τ := by
  cases σ with
  | nil => exact h.elim
  | cons x τ => exact ⟨x, τ, rfl, h⟩

/-! ### Reading words -/

theorem code_unique : ∀ {c d : Code} {x y : List Byte}, codeWord c ++ x = codeWord d ++ y → c = d ∧ x = y
  | .zero', d, x, y, h => by cases d <;> simp_all [codeWord, ch]
  | .succ, d, x, y, h => by cases d <;> simp_all [codeWord, ch]
  | .tail, d, x, y, h => by cases d <;> simp_all [codeWord, ch]
  | .cons f g, d, x, y, h => by
    cases d with
    | cons f' g' =>
      simp only [codeWord, List.cons_append, List.append_assoc, List.cons.injEq, true_and] at h
      obtain ⟨rfl, h_1⟩ := code_unique h
      obtain ⟨rfl, h_2⟩ := code_unique h_1
      exact ⟨rfl, h_2⟩
    | _ => simp [codeWord, ch] at h
  | .comp f g, d, x, y, h => by
    cases d with
    | comp f' g' =>
      simp only [codeWord, List.cons_append, List.append_assoc, List.cons.injEq, true_and] at h
      obtain ⟨rfl, h_3⟩ := code_unique h
      obtain ⟨rfl, h_4⟩ := code_unique h_3
      exact ⟨rfl, h_4⟩
    | _ => simp [codeWord, ch] at h
  | .case f g, d, x, y, h => by
    cases d with
    | case f' g' =>
      simp only [codeWord, List.cons_append, List.append_assoc, List.cons.injEq, true_and] at h
      obtain ⟨rfl, h_5⟩ := code_unique h
      obtain ⟨rfl, h_6⟩ := code_unique h_5
      exact ⟨rfl, h_6⟩
    | _ => simp [codeWord, ch] at h
  | .fix f, d, x, y, h => by
    cases d with
    | fix f' =>
      simp only [codeWord, List.cons_append, List.cons.injEq, true_and] at h
      obtain ⟨rfl, h_7⟩ := code_unique h
      exact ⟨rfl, h_7⟩
    | _ => simp [codeWord, ch] at h

theorem job_unique {q q' : Job} {x y : List Byte} (h : jobWord q ++ x = jobWord q' ++ y) : q = q' ∧ x = y := by
  cases q <;> cases q' <;>
    simp only [jobWord, List.cons_append, List.cons.injEq, true_and, List.nil_append] at h <;>
    first
      | exact ⟨rfl, h⟩
      | (obtain ⟨rfl, h'⟩ := code_unique h; exact ⟨rfl, h'⟩)
      | (exact absurd h.1 (by decide))

theorem frames_read {F : Frames} {q : Job} {X : List Byte} (h : framesWord F = jobWord q ++ commaB :: X) :
    ∃ v F', F = (q, v) :: F' ∧ X = numsWord v ++ commaB :: framesWord F' := by
  match F, h with
  | [], h => cases q <;> simp [framesWord, jobWord] at h
  | (q', v) :: F', h =>
    obtain ⟨rfl, h_8⟩ := job_unique h
    simp only [List.cons.injEq, true_and] at h_8
    exact ⟨v, F', rfl, h_8.symm⟩

theorem comma_unique {x x' y y' : List Byte} (hx : ∀ b ∈ x, b ≠ commaB) (hx' : ∀ b ∈ x', b ≠ commaB) (h : x ++ commaB :: y = x' ++ commaB :: y') :
    x = x' ∧ y = y' := by
  induction x generalizing x' with
  | nil =>
    cases x' with
    | nil => simpa using h
    | cons c x' =>
      simp only [List.nil_append, List.cons_append, List.cons.injEq] at h
      exact absurd h.1.symm (hx' c (by simp))
  | cons c x ih =>
    cases x' with
    | nil =>
      simp only [List.nil_append, List.cons_append, List.cons.injEq] at h
      exact absurd h.1 (hx c (by simp))
    | cons d x' =>
      simp only [List.cons_append, List.cons.injEq] at h
      obtain ⟨rfl, h_9⟩ := h
      obtain ⟨rfl, h_10⟩ := ih (fun b hb => hx b (by simp [hb])) (fun b hb => hx' b (by simp [hb])) h_9
      exact ⟨rfl, h_10⟩

theorem nums_over : ∀ (v : List Nat), ∀ b ∈ numsWord v, b ∈ [unitB, endB]
  | [], b, hb => by simp [numsWord] at hb
  | n :: v, b, hb => by
    simp only [numsWord, List.mem_append, List.mem_replicate, List.mem_cons] at hb
    rcases hb with ⟨_, rfl⟩ | rfl | hb
    · simp
    · simp
    · exact nums_over v b hb

theorem over_comma {k x : List Byte} (hk : commaB ∉ k) (h : ∀ b ∈ x, b ∈ k) : ∀ b ∈ x, b ≠ commaB :=
  fun b hb e => hk (e ▸ h b hb)

theorem nums_comma {x : List Byte} (h : ∀ b ∈ x, b ∈ [unitB, endB]) : ∀ b ∈ x, b ≠ commaB := over_comma (by decide) h

/-- The numbers and what follows. -/
theorem nums_read {v : List Nat} {x W W' : List Byte} (hx : ∀ b ∈ x, b ∈ [unitB, endB]) (h : x ++ commaB :: W' = numsWord v ++ commaB :: W) :
    x = numsWord v ∧ W' = W := comma_unique (nums_comma hx) (nums_comma (nums_over v)) h

theorem nums_none {v : List Nat} (h : [] = numsWord v) : v = [] := by
  cases v with
  | nil => rfl
  | cons n v => simp [numsWord] at h

theorem ones_eq {x : List Byte} (h : ∀ b ∈ x, b ∈ [unitB]) : x = List.replicate x.length unitB :=
  List.eq_replicate_iff.2 ⟨rfl, fun b hb => by simpa using h b hb⟩

theorem ones_unique : ∀ {m n : Nat} {x y : List Byte}, List.replicate m unitB ++ endB :: x = List.replicate n unitB ++ endB :: y → m = n ∧ x = y
  | 0, 0, x, y, h => by simpa using h
  | 0, n + 1, x, y, h => by
    simp only [List.replicate_zero, List.nil_append, List.replicate_succ, List.cons_append, List.cons.injEq] at h
    exact absurd h.1 (by decide)
  | m + 1, 0, x, y, h => by
    simp only [List.replicate_zero, List.nil_append, List.replicate_succ, List.cons_append, List.cons.injEq] at h
    exact absurd h.1 (by decide)
  | m + 1, n + 1, x, y, h => by
    simp only [List.replicate_succ, List.cons_append, List.cons.injEq, true_and] at h
    obtain ⟨rfl, h_11⟩ := ones_unique h
    exact ⟨rfl, h_11⟩

theorem nums_first {v : List Nat} {x y : List Byte} (hx : ∀ b ∈ x, b ∈ [unitB]) (h : x ++ endB :: y = numsWord v) :
    ∃ v', v = x.length :: v' ∧ y = numsWord v' := by
  cases v with
  | nil => simp [numsWord] at h
  | cons n v =>
    rw [ones_eq hx, numsWord] at h
    obtain ⟨rfl, h_12⟩ := ones_unique h
    exact ⟨v, rfl, h_12⟩

theorem nums_zero {v : List Nat} {y : List Byte} (h : endB :: y = numsWord v) : ∃ v', v = 0 :: v' ∧ y = numsWord v' :=
  nums_first (x := []) (by simp) h

theorem nums_succ {v : List Nat} {y : List Byte} (h : unitB :: y = numsWord v) : ∃ n v', v = (n + 1) :: v' ∧ y = numsWord (n :: v') := by
  cases v with
  | nil => simp [numsWord] at h
  | cons n v =>
    cases n with
    | zero =>
      simp only [numsWord, List.replicate_zero, List.nil_append, List.cons.injEq] at h
      exact absurd h.1 (by decide)
    | succ n =>
      simp only [numsWord, List.replicate_succ, List.cons_append, List.cons.injEq, true_and] at h
      exact ⟨n, v, rfl, h⟩

theorem ones_nums {x : List Byte} (h : ∀ b ∈ x, b ∈ [unitB]) : ∀ b ∈ x, b ∈ [unitB, endB] := fun b hb => by
  have := h b hb
  simp only [List.mem_singleton] at this
  simp [this]

theorem over_append {k x y : List Byte} (hx : ∀ b ∈ x, b ∈ k) (hy : ∀ b ∈ y, b ∈ k) : ∀ b ∈ x ++ y, b ∈ k := fun b hb => by
  rcases List.mem_append.1 hb with h | h
  · exact hx b h
  · exact hy b h

theorem over_cons {k x : List Byte} {c : Byte} (hc : c ∈ k) (hx : ∀ b ∈ x, b ∈ k) : ∀ b ∈ c :: x, b ∈ k := fun b hb => by
  rcases List.mem_cons.1 hb with rfl | h
  · exact hc
  · exact hx b h

/-! ### Every rule is a step -/

/-- The rule makes the word of the next state out of the word of a state. -/
def IsStep (r : WordRule) : Prop :=
  ∀ σ F, FitsVars r.1 σ → framesWord F = leftSide r.1 σ → ∃ F', advance F = some F' ∧ framesWord F' = rightSide r.2 σ

/-- Rules that look at the first frame only: its numbers are read by `l`. -/
theorem isStep_one {q : Job} {l : List Given} {r : List Made}
    (h : ∀ σ v F, FitsVars l σ → leftSide l σ = numsWord v ++ commaB :: framesWord F →
      ∃ F', advance ((q, v) :: F) = some F' ∧ framesWord F' = rightSide r σ) : IsStep (jobL q ++ l, r) := by
  intro σ F h1 h2
  rw [fits_job] at h1
  rw [leftSide_job] at h2
  obtain ⟨v, F, rfl, h2_13⟩ := frames_read h2
  exact h σ v F h1 h2_13

variable {l : List Given} {q : Job} {r : List Made}

/-- Any numbers. -/
theorem reads_nums {σ : List (List Byte)} {v : List Nat} {W : List Byte} (h1 : FitsVars (numsL :: commaL :: l) σ)
    (h2 : leftSide (numsL :: commaL :: l) σ = numsWord v ++ commaB :: W) : ∃ τ, σ = numsWord v :: τ ∧ FitsVars l τ ∧ leftSide l τ = W := by
  obtain ⟨x, τ, rfl, hx, h1_14⟩ := fits_var h1
  obtain ⟨rfl, h3⟩ := nums_read hx h2
  exact ⟨τ, rfl, h1_14, h3⟩

/-- No numbers. -/
theorem reads_none {σ : List (List Byte)} {v : List Nat} {W : List Byte} (h1 : FitsVars (commaL :: l) σ)
    (h2 : leftSide (commaL :: l) σ = numsWord v ++ commaB :: W) : v = [] ∧ FitsVars l σ ∧ leftSide l σ = W := by
  obtain ⟨h3, h4⟩ := nums_read (x := []) (by simp) h2
  exact ⟨nums_none h3, h1, h4⟩

/-- A first number and others. -/
theorem reads_first {σ : List (List Byte)} {v : List Nat} {W : List Byte} (h1 : FitsVars (onesL :: .lit endB :: numsL :: commaL :: l) σ)
    (h2 : leftSide (onesL :: .lit endB :: numsL :: commaL :: l) σ = numsWord v ++ commaB :: W) :
    ∃ n v' τ, v = n :: v' ∧ σ = List.replicate n unitB :: numsWord v' :: τ ∧ FitsVars l τ ∧ leftSide l τ = W := by
  obtain ⟨x, _, rfl, hx, h1_17⟩ := fits_var h1
  obtain ⟨y, τ, rfl, hy, h1_18⟩ := fits_var (k := [unitB, endB]) h1_17
  have h2 : (x ++ endB :: y) ++ commaB :: leftSide l τ = numsWord v ++ commaB :: W := by
    rw [← h2]; simp [leftSide, onesL, numsL, commaL]
  obtain ⟨h3, h4⟩ := nums_read (over_append (ones_nums hx) (over_cons (by simp) hy)) h2
  obtain ⟨v', rfl, rfl⟩ := nums_first hx h3
  exact ⟨_, v', τ, rfl, by rw [← ones_eq hx], h1_18, h4⟩

/-- The number 0 and others. -/
theorem reads_zero {σ : List (List Byte)} {v : List Nat} {W : List Byte} (h1 : FitsVars (.lit endB :: numsL :: commaL :: l) σ)
    (h2 : leftSide (.lit endB :: numsL :: commaL :: l) σ = numsWord v ++ commaB :: W) :
    ∃ v' τ, v = 0 :: v' ∧ σ = numsWord v' :: τ ∧ FitsVars l τ ∧ leftSide l τ = W := by
  obtain ⟨y, τ, rfl, hy, h1_20⟩ := fits_var (k := [unitB, endB]) h1
  obtain ⟨h3, h4⟩ := nums_read (x := endB :: y) (over_cons (by simp) hy) h2
  obtain ⟨v', rfl, rfl⟩ := nums_zero h3
  exact ⟨v', τ, rfl, rfl, h1_20, h4⟩

/-- A greater number and others. -/
theorem reads_succ {σ : List (List Byte)} {v : List Nat} {W : List Byte} (h1 : FitsVars (.lit unitB :: numsL :: commaL :: l) σ)
    (h2 : leftSide (.lit unitB :: numsL :: commaL :: l) σ = numsWord v ++ commaB :: W) :
    ∃ n v' τ, v = (n + 1) :: v' ∧ σ = numsWord (n :: v') :: τ ∧ FitsVars l τ ∧ leftSide l τ = W := by
  obtain ⟨y, τ, rfl, hy, h1_23⟩ := fits_var (k := [unitB, endB]) h1
  obtain ⟨h3, h4⟩ := nums_read (x := unitB :: y) (over_cons (by simp) hy) h2
  obtain ⟨n, v', rfl, rfl⟩ := nums_succ h3
  exact ⟨n, v', τ, rfl, rfl, h1_23, h4⟩

/-- A greater number, without which the others are read. -/
theorem reads_greater {σ : List (List Byte)} {v : List Nat} {W : List Byte} (h1 : FitsVars (.lit unitB :: onesL :: .lit endB :: numsL :: commaL :: l) σ)
    (h2 : leftSide (.lit unitB :: onesL :: .lit endB :: numsL :: commaL :: l) σ = numsWord v ++ commaB :: W) :
    ∃ n v' τ, v = (n + 1) :: v' ∧ σ = List.replicate n unitB :: numsWord v' :: τ ∧ FitsVars l τ ∧ leftSide l τ = W := by
  obtain ⟨x, _, rfl, hx, h1_26⟩ := fits_var (k := [unitB]) h1
  obtain ⟨y, τ, rfl, hy, h1_27⟩ := fits_var (k := [unitB, endB]) h1_26
  have h2 : (unitB :: x ++ endB :: y) ++ commaB :: leftSide l τ = numsWord v ++ commaB :: W := by
    rw [← h2]; simp [leftSide, onesL, numsL, commaL]
  obtain ⟨h3, h4⟩ := nums_read (over_append (ones_nums (over_cons (by simp) hx)) (over_cons (by simp) hy)) h2
  obtain ⟨v', rfl, rfl⟩ := nums_first (over_cons (by simp) hx) h3
  exact ⟨x.length, v', τ, rfl, by rw [← ones_eq hx], h1_27, h4⟩

/-- The rest of a word. -/
theorem reads_rest {σ : List (List Byte)} {W : List Byte} (h1 : FitsVars [restL] σ) (h2 : leftSide [restL] σ = W) : σ = [W] := by
  obtain ⟨x, τ, rfl, hx, h1_29⟩ := fits_var h1
  obtain rfl : τ = [] := h1_29
  simp [leftSide, restL] at h2
  rw [h2]

/-- The next frame. -/
theorem reads_job {σ : List (List Byte)} {F : Frames} (h1 : FitsVars (jobL q ++ l) σ) (h2 : leftSide (jobL q ++ l) σ = framesWord F) :
    ∃ v F', F = (q, v) :: F' ∧ FitsVars l σ ∧ leftSide l σ = numsWord v ++ commaB :: framesWord F' := by
  rw [leftSide_job] at h2
  obtain ⟨v, F', rfl, h_30⟩ := frames_read h2.symm
  exact ⟨v, F', rfl, (fits_job _ _ _).1 h1, h_30⟩

theorem runRules_step : ∀ (c : Code), ∀ r ∈ runRules c, IsStep r
  | .zero', r, hr => by
    simp only [runRules, List.mem_singleton] at hr
    subst hr
    refine isStep_one fun σ v F h1 h2 => ?_
    obtain ⟨τ, rfl, h1_31, h2_31⟩ := reads_nums h1 h2
    obtain rfl := reads_rest h1_31 h2_31
    exact ⟨_, rfl, by simp [rightSide_job, rightSide, framesWord, numsWord, commaR]⟩
  | .succ, r, hr => by
    simp only [runRules, List.mem_cons, List.not_mem_nil, or_false] at hr
    rcases hr with rfl | rfl
    · refine isStep_one fun σ v F h1 h2 => ?_
      obtain ⟨n, v, τ, rfl, rfl, h1, h2⟩ := reads_first h1 h2
      obtain rfl := reads_rest h1 h2
      exact ⟨_, rfl, by simp [rightSide_job, rightSide, framesWord, numsWord, commaR, List.replicate_succ]⟩
    · refine isStep_one fun σ v F h1 h2 => ?_
      obtain ⟨rfl, h1_34, h2_34⟩ := reads_none h1 h2
      obtain rfl := reads_rest h1_34 h2_34
      exact ⟨_, rfl, by simp [rightSide_job, rightSide, framesWord, numsWord, commaR]⟩
  | .tail, r, hr => by
    simp only [runRules, List.mem_cons, List.not_mem_nil, or_false] at hr
    rcases hr with rfl | rfl
    · refine isStep_one fun σ v F h1 h2 => ?_
      obtain ⟨n, v, τ, rfl, rfl, h1, h2⟩ := reads_first h1 h2
      obtain rfl := reads_rest h1 h2
      exact ⟨_, rfl, by simp [rightSide_job, rightSide, framesWord, commaR]⟩
    · refine isStep_one fun σ v F h1 h2 => ?_
      obtain ⟨rfl, h1_37, h2_37⟩ := reads_none h1 h2
      obtain rfl := reads_rest h1_37 h2_37
      exact ⟨_, rfl, by simp [rightSide_job, rightSide, framesWord, numsWord, commaR]⟩
  | .cons f g, r, hr => by
    simp only [runRules, List.mem_singleton] at hr
    subst hr
    refine isStep_one fun σ v F h1 h2 => ?_
    obtain ⟨τ, rfl, h1_39, h2_39⟩ := reads_nums h1 h2
    obtain rfl := reads_rest h1_39 h2_39
    exact ⟨_, rfl, by simp [rightSide_job, rightSide, framesWord, commaR]⟩
  | .comp f g, r, hr => by
    simp only [runRules, List.mem_singleton] at hr
    subst hr
    refine isStep_one fun σ v F h1 h2 => ?_
    obtain ⟨τ, rfl, h1_41, h2_41⟩ := reads_nums h1 h2
    obtain rfl := reads_rest h1_41 h2_41
    exact ⟨_, rfl, by simp [rightSide_job, rightSide, framesWord, numsWord, commaR]⟩
  | .case f g, r, hr => by
    simp only [runRules, List.mem_cons, List.not_mem_nil, or_false] at hr
    rcases hr with rfl | rfl | rfl
    · refine isStep_one fun σ v F h1 h2 => ?_
      obtain ⟨rfl, h1_43, h2_43⟩ := reads_none h1 h2
      obtain rfl := reads_rest h1_43 h2_43
      exact ⟨_, rfl, by simp [rightSide_job, rightSide, framesWord, numsWord, commaR]⟩
    · refine isStep_one fun σ v F h1 h2 => ?_
      obtain ⟨v, τ, rfl, rfl, h1_45, h2_45⟩ := reads_zero h1 h2
      obtain rfl := reads_rest h1_45 h2_45
      exact ⟨_, rfl, by simp [rightSide_job, rightSide, framesWord, commaR]⟩
    · refine isStep_one fun σ v F h1 h2 => ?_
      obtain ⟨n, v, τ, rfl, rfl, h1_47, h2_47⟩ := reads_succ h1 h2
      obtain rfl := reads_rest h1_47 h2_47
      exact ⟨_, rfl, by simp [rightSide_job, rightSide, framesWord, commaR]⟩
  | .fix f, r, hr => by
    simp only [runRules, List.mem_singleton] at hr
    subst hr
    refine isStep_one fun σ v F h1 h2 => ?_
    obtain ⟨τ, rfl, h1_49, h2_49⟩ := reads_nums h1 h2
    obtain rfl := reads_rest h1_49 h2_49
    exact ⟨_, rfl, by simp [rightSide_job, rightSide, framesWord, numsWord, commaR]⟩

theorem goOnRules_step (f : Code) : ∀ r ∈ goOnRules f, IsStep r := by
  intro r hr
  simp only [goOnRules, List.mem_cons, List.not_mem_nil, or_false] at hr
  rcases hr with rfl | rfl | rfl | rfl | rfl
  · refine isStep_one fun σ v F h1 h2 => ?_
    obtain ⟨τ, rfl, h1_51, h2_51⟩ := reads_nums h1 h2
    obtain ⟨w, F, rfl, h1_52, h2_52⟩ := reads_job h1_51 h2_51
    obtain ⟨τ, rfl, h1_53, h2_53⟩ := reads_nums h1_52 h2_52
    obtain rfl := reads_rest h1_53 h2_53
    exact ⟨_, rfl, by simp [rightSide_job, rightSide, framesWord, commaR]⟩
  · refine isStep_one fun σ v F h1 h2 => ?_
    obtain ⟨τ, rfl, h1_55, h2_55⟩ := reads_nums h1 h2
    obtain ⟨w, F, rfl, h1_56, h2_56⟩ := reads_job h1_55 h2_55
    obtain ⟨rfl, h1_57, h2_57⟩ := reads_none h1_56 h2_56
    obtain rfl := reads_rest h1_57 h2_57
    exact ⟨_, rfl, by simp [rightSide_job, rightSide, framesWord, commaR]⟩
  · refine isStep_one fun σ v F h1 h2 => ?_
    obtain ⟨rfl, h1_59, h2_59⟩ := reads_none h1 h2
    obtain ⟨w, F, rfl, h1_60, h2_60⟩ := reads_job h1_59 h2_59
    obtain ⟨rfl, h1_61, h2_61⟩ := reads_none h1_60 h2_60
    obtain rfl := reads_rest h1_61 h2_61
    exact ⟨_, rfl, by simp [rightSide_job, rightSide, framesWord, numsWord, commaR]⟩
  · refine isStep_one fun σ v F h1 h2 => ?_
    obtain ⟨v, τ, rfl, rfl, h1_63, h2_63⟩ := reads_zero h1 h2
    obtain ⟨w, F, rfl, h1_64, h2_64⟩ := reads_job h1_63 h2_63
    obtain ⟨rfl, h1_65, h2_65⟩ := reads_none h1_64 h2_64
    obtain rfl := reads_rest h1_65 h2_65
    exact ⟨_, rfl, by simp [rightSide_job, rightSide, framesWord, commaR]⟩
  · refine isStep_one fun σ v F h1 h2 => ?_
    obtain ⟨n, v, τ, rfl, rfl, h1_67, h2_67⟩ := reads_greater h1 h2
    obtain ⟨w, F, rfl, h1_68, h2_68⟩ := reads_job h1_67 h2_67
    obtain ⟨rfl, h1_69, h2_69⟩ := reads_none h1_68 h2_68
    obtain rfl := reads_rest h1_69 h2_69
    exact ⟨_, rfl, by simp [rightSide_job, rightSide, framesWord, numsWord, commaR]⟩

theorem otherRules_step : ∀ r ∈ otherRules, IsStep r := by
  intro r hr
  simp only [otherRules, List.mem_cons, List.not_mem_nil, or_false] at hr
  rcases hr with rfl | rfl | rfl
  · refine isStep_one fun σ v F h1 h2 => ?_
    obtain ⟨τ, rfl, h1_71, h2_71⟩ := reads_nums h1 h2
    obtain ⟨w, F, rfl, h1_72, h2_72⟩ := reads_job h1_71 h2_71
    obtain ⟨n, w, τ, rfl, rfl, h1_72, h2_72⟩ := reads_first h1_72 h2_72
    obtain rfl := reads_rest h1_72 h2_72
    exact ⟨_, rfl, by simp [rightSide_job, rightSide, framesWord, numsWord, commaR]⟩
  · refine isStep_one fun σ v F h1 h2 => ?_
    obtain ⟨τ, rfl, h1_74, h2_74⟩ := reads_nums h1 h2
    obtain ⟨w, F, rfl, h1_75, h2_75⟩ := reads_job h1_74 h2_74
    obtain ⟨rfl, h1_76, h2_76⟩ := reads_none h1_75 h2_75
    obtain rfl := reads_rest h1_76 h2_76
    exact ⟨_, rfl, by simp [rightSide_job, rightSide, framesWord, numsWord, commaR]⟩
  · refine isStep_one fun σ v F h1 h2 => ?_
    obtain ⟨τ, rfl, h1_78, h2_78⟩ := reads_nums h1 h2
    obtain ⟨w, F, rfl, h1_79, h2_79⟩ := reads_job h1_78 h2_78
    obtain ⟨rfl, h1_80, h2_80⟩ := reads_none h1_79 h2_79
    cases F with
    | nil => exact ⟨_, rfl, rfl⟩
    | cons j F =>
      obtain ⟨q, v⟩ := j
      cases q <;> simp [leftSide, framesWord, jobWord] at h2_80

theorem rules_step {c : Code} {r : WordRule} (hr : r ∈ rulesOf c) : IsStep r := by
  simp only [rulesOf, List.mem_append, List.mem_flatMap] at hr
  rcases hr with h | ⟨d, _, h | h⟩
  · exact otherRules_step r h
  · exact runRules_step d r h
  · exact goOnRules_step d r h

/-! ### Every step is a rule -/

theorem parts_self (c : Code) : c ∈ codeParts c := by cases c <;> simp [codeParts]

theorem parts_trans {d : Code} : ∀ {c : Code}, d ∈ codeParts c → ∀ x ∈ codeParts d, x ∈ codeParts c
  | .zero', h, x, hx | .succ, h, x, hx | .tail, h, x, hx => by
    simp only [codeParts, List.mem_singleton] at h
    subst h
    exact hx
  | .cons f g, h, x, hx | .comp f g, h, x, hx | .case f g, h, x, hx => by
    simp only [codeParts, List.mem_cons, List.mem_append] at h ⊢
    rcases h with rfl | h | h
    · simpa only [codeParts, List.mem_cons, List.mem_append] using hx
    · exact .inr (.inl (parts_trans h x hx))
    · exact .inr (.inr (parts_trans h x hx))
  | .fix f, h, x, hx => by
    simp only [codeParts, List.mem_cons] at h ⊢
    rcases h with rfl | h
    · simpa only [codeParts, List.mem_cons] using hx
    · exact .inr (parts_trans h x hx)

/-- The job concerns parts of `c`. -/
def JobIn (c : Code) : Job → Prop
  | .run d | .first d | .after d | .again d => d ∈ codeParts c
  | _ => True

def Covered (c : Code) (F : Frames) : Prop := ∀ j ∈ F, JobIn c j.1

theorem covered_cons {c : Code} {q : Job} {v : List Nat} {F : Frames} : Covered c ((q, v) :: F) ↔ JobIn c q ∧ Covered c F := by
  simp [Covered]

theorem alphabet_code : ∀ (c : Code), ∀ b ∈ codeWord c, b ∈ alphabet
  | .zero', b, hb | .succ, b, hb | .tail, b, hb => by
    simp only [codeWord, List.mem_singleton] at hb
    subst hb
    decide
  | .cons f g, b, hb | .comp f g, b, hb | .case f g, b, hb => by
    simp only [codeWord, List.mem_cons, List.mem_append] at hb
    rcases hb with rfl | hb | hb
    · decide
    · exact alphabet_code f b hb
    · exact alphabet_code g b hb
  | .fix f, b, hb => by
    simp only [codeWord, List.mem_cons] at hb
    rcases hb with rfl | hb
    · decide
    · exact alphabet_code f b hb

theorem alphabet_job (q : Job) : ∀ b ∈ jobWord q, b ∈ alphabet := by
  cases q <;> simp only [jobWord] <;> first
    | exact over_cons (by decide) (alphabet_code _)
    | exact over_cons (by decide) (by simp)

theorem alphabet_nums (v : List Nat) : ∀ b ∈ numsWord v, b ∈ alphabet := fun b hb => by
  have := nums_over v b hb
  simp only [List.mem_cons, List.not_mem_nil, or_false] at this
  rcases this with rfl | rfl <;> decide

theorem alphabet_frames : ∀ (F : Frames), ∀ b ∈ framesWord F, b ∈ alphabet
  | [], b, hb => by simp [framesWord] at hb
  | (q, v) :: F, b, hb =>
    over_append (alphabet_job q) (over_cons (by decide) (over_append (alphabet_nums v) (over_cons (by decide) (alphabet_frames F)))) b hb

theorem fits_rest (F : Frames) : FitsVars [restL] [framesWord F] := ⟨alphabet_frames F, rfl⟩
theorem fits_lit {b : Byte} {τ : List (List Byte)} (h : FitsVars l τ) : FitsVars (.lit b :: l) τ := h
theorem fits_nums {v : List Nat} {τ : List (List Byte)} (h : FitsVars l τ) : FitsVars (numsL :: commaL :: l) (numsWord v :: τ) := ⟨nums_over v, h⟩
theorem fits_first {n : Nat} {v : List Nat} {τ : List (List Byte)} (h : FitsVars l τ) :
    FitsVars (onesL :: .lit endB :: numsL :: commaL :: l) (List.replicate n unitB :: numsWord v :: τ) :=
  ⟨fun b hb => by simp [(List.mem_replicate.1 hb).2], nums_over v, h⟩

/-- The rule does this step. -/
def Does (r : WordRule) (F F' : Frames) : Prop := ∃ σ, FitsVars r.1 σ ∧ leftSide r.1 σ = framesWord F ∧ rightSide r.2 σ = framesWord F'

theorem mem_runRules {c d : Code} {r : WordRule} (hd : d ∈ codeParts c) (h : r ∈ runRules d) : r ∈ rulesOf c := by
  simp only [rulesOf, List.mem_append, List.mem_flatMap]
  exact .inr ⟨d, hd, .inl h⟩

theorem mem_goOn {c d : Code} {r : WordRule} (hd : d ∈ codeParts c) (h : r ∈ goOnRules d) : r ∈ rulesOf c := by
  simp only [rulesOf, List.mem_append, List.mem_flatMap]
  exact .inr ⟨d, hd, .inr h⟩

theorem mem_other {c : Code} {r : WordRule} (h : r ∈ otherRules) : r ∈ rulesOf c := by
  simp only [rulesOf, List.mem_append]
  exact .inl h

local macro "word_eq" : tactic =>
  `(tactic| simp [leftSide_job, rightSide_job, leftSide, rightSide, framesWord, numsWord, commaL, commaR, numsL, onesL, restL, List.replicate_succ])

/-- Every step stays within the parts of the program, and there is a rule for it. -/
theorem step_rule {c : Code} {F F' : Frames} (hF : Covered c F) (h : advance F = some F') :
    Covered c F' ∧ ∃ r ∈ rulesOf c, Does r F F' := by
  have hc : ∀ {d x : Code}, d ∈ codeParts c → x ∈ codeParts d → x ∈ codeParts c := fun h hx => parts_trans h _ hx
  unfold advance at h
  split at h <;> simp only [Option.some.injEq, reduceCtorEq] at h <;> subst h <;> simp only [covered_cons, JobIn, true_and] at hF ⊢
  next v F =>
    exact ⟨hF.2, _, mem_runRules hF.1 (List.mem_cons_self ..), _, (fits_job _ _ _).2 (fits_nums (v := v) (fits_rest F)), by word_eq, by word_eq⟩
  next v F =>
    refine ⟨hF.2, ?_⟩
    cases v with
    | nil => exact ⟨_, mem_runRules hF.1 (List.mem_cons_of_mem _ (List.mem_cons_self ..)), _, (fits_job _ _ _).2 (fits_lit (fits_rest F)), by word_eq, by word_eq⟩
    | cons n v => exact ⟨_, mem_runRules hF.1 (List.mem_cons_self ..), _, (fits_job _ _ _).2 (fits_first (n := n) (v := v) (fits_rest F)), by word_eq, by word_eq⟩
  next v F =>
    refine ⟨hF.2, ?_⟩
    cases v with
    | nil => exact ⟨_, mem_runRules hF.1 (List.mem_cons_of_mem _ (List.mem_cons_self ..)), _, (fits_job _ _ _).2 (fits_lit (fits_rest F)), by word_eq, by word_eq⟩
    | cons n v => exact ⟨_, mem_runRules hF.1 (List.mem_cons_self ..), _, (fits_job _ _ _).2 (fits_first (n := n) (v := v) (fits_rest F)), by word_eq, by word_eq⟩
  next f g v F =>
    exact ⟨⟨hc hF.1 (by simp [codeParts, parts_self]), hc hF.1 (by simp [codeParts, parts_self]), hF.2⟩, _, mem_runRules hF.1 (List.mem_cons_self ..), _,
      (fits_job _ _ _).2 (fits_nums (v := v) (fits_rest F)), by word_eq, by word_eq⟩
  next f g v F =>
    exact ⟨⟨hc hF.1 (by simp [codeParts, parts_self]), hc hF.1 (by simp [codeParts, parts_self]), hF.2⟩, _, mem_runRules hF.1 (List.mem_cons_self ..), _,
      (fits_job _ _ _).2 (fits_nums (v := v) (fits_rest F)), by word_eq, by word_eq⟩
  next f g F =>
    exact ⟨⟨hc hF.1 (by simp [codeParts, parts_self]), hF.2⟩, _, mem_runRules hF.1 (List.mem_cons_self ..), _, (fits_job _ _ _).2 (fits_lit (fits_rest F)),
      by word_eq, by word_eq⟩
  next f g v F =>
    exact ⟨⟨hc hF.1 (by simp [codeParts, parts_self]), hF.2⟩, _, mem_runRules hF.1 (List.mem_cons_of_mem _ (List.mem_cons_self ..)), _,
      (fits_job _ _ _).2 (fits_lit (fits_nums (v := v) (fits_rest F))), by word_eq, by word_eq⟩
  next f g n v F =>
    exact ⟨⟨hc hF.1 (by simp [codeParts, parts_self]), hF.2⟩, _,
      mem_runRules hF.1 (List.mem_cons_of_mem _ (List.mem_cons_of_mem _ (List.mem_cons_self ..))), _,
      (fits_job _ _ _).2 (fits_lit (fits_nums (v := n :: v) (fits_rest F))), by word_eq, by word_eq⟩
  next f v F =>
    exact ⟨⟨hc hF.1 (by simp [codeParts, parts_self]), hc hF.1 (by simp [codeParts, parts_self]), hF.2⟩, _, mem_runRules hF.1 (List.mem_cons_self ..), _,
      (fits_job _ _ _).2 (fits_nums (v := v) (fits_rest F)), by word_eq, by word_eq⟩
  next v g w F =>
    exact ⟨hF, _, mem_goOn hF.1 (List.mem_cons_self ..), _,
      (fits_job _ _ _).2 (fits_nums (v := v) ((fits_job _ _ _).2 (fits_nums (v := w) (fits_rest F)))), by word_eq, by word_eq⟩
  next v w F =>
    refine ⟨hF, ?_⟩
    cases w with
    | nil =>
      exact ⟨_, mem_other (List.mem_cons_of_mem _ (List.mem_cons_self ..)), _,
        (fits_job _ _ _).2 (fits_nums (v := v) ((fits_job _ _ _).2 (fits_lit (fits_rest F)))), by word_eq, by word_eq⟩
    | cons n w =>
      exact ⟨_, mem_other (List.mem_cons_self ..), _,
        (fits_job _ _ _).2 (fits_nums (v := v) ((fits_job _ _ _).2 (fits_first (n := n) (v := w) (fits_rest F)))), by word_eq, by word_eq⟩
  next v f F =>
    exact ⟨hF, _, mem_goOn hF.1 (List.mem_cons_of_mem _ (List.mem_cons_self ..)), _,
      (fits_job _ _ _).2 (fits_nums (v := v) ((fits_job _ _ _).2 (fits_lit (fits_rest F)))), by word_eq, by word_eq⟩
  next f F =>
    exact ⟨hF.2, _, mem_goOn hF.1 (List.mem_cons_of_mem _ (List.mem_cons_of_mem _ (List.mem_cons_self ..))), _,
      (fits_job _ _ _).2 (fits_lit ((fits_job _ _ _).2 (fits_lit (fits_rest F)))), by word_eq, by word_eq⟩
  next v f F =>
    exact ⟨hF.2, _, mem_goOn hF.1 (List.mem_cons_of_mem _ (List.mem_cons_of_mem _ (List.mem_cons_of_mem _ (List.mem_cons_self ..)))), _,
      (fits_job _ _ _).2 (fits_lit (fits_nums (v := v) ((fits_job _ _ _).2 (fits_lit (fits_rest F))))), by word_eq, by word_eq⟩
  next n v f F =>
    exact ⟨⟨hF.1, hF⟩, _,
      mem_goOn hF.1 (List.mem_cons_of_mem _ (List.mem_cons_of_mem _ (List.mem_cons_of_mem _ (List.mem_cons_of_mem _ (List.mem_cons_self ..))))), _,
      (fits_job _ _ _).2 (fits_lit (fits_first (n := n) (v := v) ((fits_job _ _ _).2 (fits_lit (fits_rest F))))), by word_eq, by word_eq⟩
  next v =>
    exact ⟨by simp [Covered], _, mem_other (List.mem_cons_of_mem _ (List.mem_cons_of_mem _ (List.mem_cons_self ..))), _,
      (fits_job _ _ _).2 (fits_nums (v := v) ((fits_job _ _ _).2 (show FitsVars [commaL] [] from rfl))), by word_eq, by word_eq⟩

theorem covered_start (c : Code) (n : Nat) : Covered c (startFrames c n) := by
  simp [startFrames, JobIn, parts_self, Covered]

end Mregex
