import Verif.Proof.HaltSays
import Verif.Proof.HaltSlips
import Verif.Proof.HaltRun
import Verif.Proof.HaltRules

/-!
# The texts that are not doubted are the records of runs that end
-/

namespace Mregex
open Spec Turing.ToPartrec StateTransition Relation

local notation "f₀" => (Flags.ofList [])

/-! ### What is not doubted -/

/-- The record of the start, and what is made of every state is as it should be, to the end. -/
structure GoodText (c : Code) (k : Nat) (s : List Byte) : Prop where
  start : AgreeWords (bar :: (framesWord (startFrames c (k + 1)) ++ [bar])) s
  ends : ∃ t, s = t ++ [bar, bar]
  steps : ∀ t r σ T, r ∈ rulesOf c → FitsVars r.1 σ → s = t ++ bar :: (leftSide r.1 σ ++ bar :: T) → AgreeWords (rightSide r.2 σ ++ [bar]) T

theorem saysAny_iff {l : List Ast} {e : Memory} {w : List Byte} {e' : Memory} : SaysAny f₀ l e w e' ↔ ∃ a ∈ l, Says f₀ a e w e' := by
  induction l with
  | nil => simp [SaysAny]
  | cons a l ih => simp [SaysAny, ih]

theorem start_word (c : Code) (n : Nat) :
    bar :: (framesWord (startFrames c n) ++ [bar]) = beforeNumber c ++ (List.replicate n unitB ++ afterNumber) := by
  simp [startFrames, framesWord, beforeNumber, afterNumber, numsWord]

theorem says_differ_any {u s : List Byte} (hu : u ≠ []) : (∃ e, SaysAll f₀ [differA u, anythingA] [] s e) ↔ Differ u s := by
  simp only [SaysAll, says_differ hu, says_anything]
  constructor
  · rintro ⟨e, _, v, _, rfl, ⟨⟨p, a, b, q, rfl, rfl, h⟩, rfl⟩, _⟩
    exact ⟨p, a, b, q, v, rfl, by simp, h⟩
  · rintro ⟨p, a, b, q, q', rfl, rfl, h⟩
    exact ⟨[], p ++ [b], q', [], by simp, ⟨⟨p, a, b, q, rfl, rfl, h⟩, rfl⟩, q', [], _, by simp, rfl, rfl, rfl⟩

theorem saysAll_after {u : List Byte} {l : List Ast} {s : List Byte} :
    (∃ e, SaysAll f₀ (u.map .lit ++ l) [] s e) ↔ ∃ s', s = u ++ s' ∧ ∃ e, SaysAll f₀ l [] s' e := by
  simp only [saysAll_append, saysAll_lits]
  constructor
  · rintro ⟨e, _, v, _, rfl, ⟨rfl, rfl⟩, h⟩; exact ⟨v, rfl, e, h⟩
  · rintro ⟨s', rfl, e, h⟩; exact ⟨e, u, s', _, rfl, ⟨rfl, rfl⟩, h⟩

theorem says_maybe_unit {e : Memory} {w : List Byte} {e' : Memory} :
    Says f₀ (.rep .greedy 0 (.fin 1) (.lit unitB)) e w e' ↔ (w = [] ∨ w = [unitB]) ∧ e' = e := by
  rw [says_maybe (P := fun b => b = unitB) (fun e w e' => by
    rw [says_lit]
    refine and_congr_left fun _ => ⟨fun h => ⟨_, h, rfl⟩, fun ⟨b, h, h'⟩ => by rw [h, h']⟩)]
  simp

/-- Fewer than `k + 1` units, and then something else. -/
theorem says_units : ∀ {k : Nat} {s : List Byte},
    (∃ e, SaysAll f₀ (List.replicate k (.rep .greedy 0 (.fin 1) (.lit unitB)) ++ [otherA unitB, anythingA]) [] s e) ↔
      ∃ i b v, i ≤ k ∧ s = List.replicate i unitB ++ b :: v ∧ unitB ≠ b
  | 0, s => by
    simp only [List.replicate_zero, List.nil_append, SaysAll, says_other, says_anything]
    constructor
    · rintro ⟨e, _, _, _, rfl, ⟨⟨b, rfl, h⟩, rfl⟩, v, _, _, rfl, rfl, rfl, rfl⟩
      exact ⟨0, b, v, Nat.le_refl _, by simp, h⟩
    · rintro ⟨i, b, v, hi, rfl, h⟩
      obtain rfl : i = 0 := by omega
      exact ⟨[], [b], v, _, rfl, ⟨⟨b, rfl, h⟩, rfl⟩, v, [], _, by simp, rfl, rfl, rfl⟩
  | k + 1, s => by
    have ih := @says_units k
    rw [List.replicate_succ, List.cons_append]
    simp only [SaysAll, says_maybe_unit]
    constructor
    · rintro ⟨e, _, v, _, rfl, ⟨h1, rfl⟩, h2⟩
      obtain ⟨i, b, v, hi, rfl, h⟩ := ih.1 ⟨e, h2⟩
      rcases h1 with rfl | rfl
      · exact ⟨i, b, v, by omega, rfl, h⟩
      · exact ⟨i + 1, b, v, by omega, by simp [List.replicate_succ], h⟩
    · rintro ⟨i, b, v, hi, rfl, h⟩
      cases i with
      | zero =>
        obtain ⟨e, h2⟩ := ih.2 ⟨0, b, v, Nat.zero_le _, rfl, h⟩
        exact ⟨e, [], _, _, rfl, ⟨.inl rfl, rfl⟩, h2⟩
      | succ i =>
        obtain ⟨e, h2⟩ := ih.2 ⟨i, b, v, by omega, rfl, h⟩
        exact ⟨e, [unitB], _, _, by simp [List.replicate_succ], ⟨.inr rfl, rfl⟩, h2⟩

theorem split_replicate {n : Nat} {p q : List Byte} {a : Byte} (h : List.replicate n unitB = p ++ a :: q) :
    p = List.replicate p.length unitB ∧ a = unitB ∧ p.length < n := by
  have h1 := congrArg List.length h
  have h2 : ∀ b ∈ p ++ a :: q, b = unitB := fun b hb => List.eq_of_mem_replicate (h ▸ hb)
  simp only [List.length_replicate, List.length_append, List.length_cons] at h1
  exact ⟨List.eq_replicate_iff.2 ⟨rfl, fun b hb => h2 b (by simp [hb])⟩, h2 a (by simp), by omega⟩

theorem differ_parts {x u s : List Byte} : Differ (x ++ u) s ↔ Differ x s ∨ ∃ s', s = x ++ s' ∧ Differ u s' := by
  rw [differ_append]
  refine or_congr_left ⟨?_, ?_⟩
  · rintro ⟨p, a, q, b, v, h⟩; exact ⟨p, a, b, q, v, h⟩
  · rintro ⟨p, a, b, q, v, h⟩; exact ⟨p, a, q, b, v, h⟩

theorem differ_units {k : Nat} {s : List Byte} :
    Differ (List.replicate (k + 1) unitB) s ↔ ∃ i b v, i ≤ k ∧ s = List.replicate i unitB ++ b :: v ∧ unitB ≠ b := by
  constructor
  · rintro ⟨p, a, b, q, v, h1, h2, h3⟩
    obtain ⟨h4, rfl, h5⟩ := split_replicate h1
    exact ⟨p.length, b, v, by omega, by rw [← h4]; exact h2, h3⟩
  · rintro ⟨i, b, v, hi, rfl, h⟩
    refine ⟨List.replicate i unitB, unitB, b, List.replicate (k - i) unitB, v, ?_, rfl, h⟩
    rw [← List.replicate_succ, List.replicate_append_replicate]
    congr 1
    omega

theorem startDoubts_iff {c : Code} {k : Nat} {s : List Byte} :
    (∃ e, ∃ a ∈ startDoubts c k, Says f₀ a [] s e) ↔ ¬ AgreeWords (bar :: (framesWord (startFrames c (k + 1)) ++ [bar])) s := by
  have h1 : beforeNumber c ≠ [] := by simp [beforeNumber]
  have h2 : afterNumber ≠ [] := by simp [afterNumber]
  have e0 : List.replicate (k + 1) (Ast.lit unitB) = (List.replicate (k + 1) unitB).map .lit := by simp
  rw [agree_iff, Classical.not_not, start_word, differ_parts]
  simp only [differ_parts (x := List.replicate (k + 1) unitB), differ_units]
  simp only [← says_differ_any h1, ← says_differ_any h2, ← says_units, and_or_left, exists_or, ← saysAll_after, ← e0]
  simp only [startDoubts, List.mem_cons, List.not_mem_nil, or_false, exists_eq_or_imp, exists_eq_left, says_seq, exists_or]

theorem endDoubts_iff {s : List Byte} : (∃ e, ∃ a ∈ endDoubts, Says f₀ a [] s e) ↔ ¬ ∃ t, s = t ++ [bar, bar] := by
  have h1 : ∀ e : Memory, (∃ a ∈ endDoubts, Says f₀ a [] s e) ↔
      ((∃ t b, s = t ++ [b] ∧ bar ≠ b) ∨ (∃ t b x, s = t ++ [b, x] ∧ bar ≠ b) ∨ s = [] ∨ ∃ b, s = [b]) ∧ e = [] := fun e => by
    simp only [endDoubts, List.mem_cons, List.not_mem_nil, or_false, exists_eq_or_imp, exists_eq_left, says_seq, SaysAll, says_anything, says_other, says_any,
      says_maybe (P := fun _ => True) (a := anyA) (fun e w e' => by simp [says_any])]
    constructor
    · rintro (⟨t, _, _, rfl, rfl, _, _, _, rfl, ⟨⟨b, rfl, h⟩, rfl⟩, rfl, rfl⟩ |
        ⟨t, _, _, rfl, rfl, _, _, _, rfl, ⟨⟨b, rfl, h⟩, rfl⟩, _, _, _, rfl, ⟨⟨x, rfl⟩, rfl⟩, rfl, rfl⟩ | ⟨h, rfl⟩)
      · exact ⟨.inl ⟨t, b, by simp, h⟩, rfl⟩
      · exact ⟨.inr (.inl ⟨t, b, x, by simp, h⟩), rfl⟩
      · exact ⟨.inr (.inr (by simpa using h)), rfl⟩
    · rintro ⟨⟨t, b, rfl, h⟩ | ⟨t, b, x, rfl, h⟩ | h, rfl⟩
      · exact .inl ⟨t, [b], [], rfl, rfl, [b], [], [], rfl, ⟨⟨b, rfl, h⟩, rfl⟩, rfl, rfl⟩
      · exact .inr (.inl ⟨t, [b, x], [], rfl, rfl, [b], [x], [], rfl, ⟨⟨b, rfl, h⟩, rfl⟩, [x], [], [], rfl, ⟨⟨x, rfl⟩, rfl⟩, rfl, rfl⟩)
      · exact .inr (.inr ⟨by simpa using h, rfl⟩)
  simp only [h1, exists_eq_right]
  constructor
  · rintro h ⟨t, rfl⟩
    rcases h with ⟨t', b, h, h'⟩ | ⟨t', b, x, h, h'⟩ | h | ⟨b, h⟩
    · have := congrArg List.getLast? h
      simp at this
      exact h' this
    · have h2 : (t ++ [bar]) ++ [bar] = (t' ++ [b]) ++ [x] := by simpa using h
      have := congrArg List.getLast? (List.append_inj' h2 rfl).1
      simp at this
      exact h' this
    · simp at h
    · have := congrArg List.length h
      simp at this
  · intro h
    rcases List.eq_nil_or_concat s with rfl | ⟨t, x, rfl⟩
    · exact .inr (.inr (.inl rfl))
    · rcases List.eq_nil_or_concat t with rfl | ⟨t, b, rfl⟩
      · exact .inr (.inr (.inr ⟨x, by simp⟩))
      · by_cases hx : bar = x
        · by_cases hb : bar = b
          · subst hx hb
            exact absurd ⟨t, by simp⟩ h
          · exact .inr (.inl ⟨t, b, x, by simp, hb⟩)
        · exact .inl ⟨t ++ [b], x, by simp, hx⟩

theorem slips_iff {c : Code} {s : List Byte} :
    (∃ e, ∃ a ∈ ((rulesOf c).flatMap fun r => slipsFrom r.1 [] r.2).map slipA, Says f₀ a [] s e) ↔
      ¬ ∀ t r σ T, r ∈ rulesOf c → FitsVars r.1 σ → s = t ++ bar :: (leftSide r.1 σ ++ bar :: T) → AgreeWords (rightSide r.2 σ ++ [bar]) T := by
  constructor
  · rintro ⟨e, _, ha, h⟩ h'
    obtain ⟨m, hm, rfl⟩ := List.mem_map.1 ha
    obtain ⟨r, hr, hm⟩ := List.mem_flatMap.1 hm
    obtain ⟨t, σ, b, v, h1, h2, h3⟩ := says_slip.1 ⟨e, h⟩
    obtain ⟨τ, h4, h5, s', h6, h7⟩ := has_slip.1 ⟨m, hm, σ, b, v, h1, h2, rfl, rfl⟩
    rw [h5, h6] at h3
    exact agree_iff.1 (h' t r τ _ hr h4 h3) h7
  · intro h
    apply Classical.byContradiction
    intro h'
    refine h fun t r σ T hr h1 h2 => agree_iff.2 fun h3 => h' ?_
    obtain ⟨m, hm, τ, b, v, h4, h5, h6, h7⟩ := (has_slip (done := [])).2 ⟨σ, h1, rfl, T, rfl, h3⟩
    obtain ⟨e, he⟩ := (says_slip (w := s)).2 ⟨t, τ, b, v, h4, h5, by rw [h2, h6, show T = _ from h7]⟩
    exact ⟨e, _, List.mem_map_of_mem (List.mem_flatMap.2 ⟨r, hr, hm⟩), he⟩

theorem doubt_iff {c : Code} {k : Nat} {s : List Byte} : (∃ e, Says f₀ (doubtA c k) [] s e) ↔ ¬ GoodText c k s := by
  have h : GoodText c k s ↔ AgreeWords (bar :: (framesWord (startFrames c (k + 1)) ++ [bar])) s ∧ (∃ t, s = t ++ [bar, bar]) ∧
      ∀ t r σ T, r ∈ rulesOf c → FitsVars r.1 σ → s = t ++ bar :: (leftSide r.1 σ ++ bar :: T) → AgreeWords (rightSide r.2 σ ++ [bar]) T :=
    ⟨fun h => ⟨h.1, h.2, h.3⟩, fun h => ⟨h.1, h.2.1, h.2.2⟩⟩
  rw [h, Classical.not_and_iff_not_or_not, Classical.not_and_iff_not_or_not, ← startDoubts_iff, ← endDoubts_iff, ← slips_iff]
  simp only [doubtA, says_alt, saysAny_iff, List.mem_append, or_and_right, exists_or]

/-! ### Words without separators -/

theorem free_frames (F : Frames) : bar ∉ framesWord F := fun h => absurd (alphabet_frames F _ h) (by decide)

theorem bar_unique {x x' y y' : List Byte} (hx : bar ∉ x) (hx' : bar ∉ x') (h : x ++ bar :: y = x' ++ bar :: y') : x = x' ∧ y = y' := by
  induction x generalizing x' with
  | nil =>
    cases x' with
    | nil => simpa using h
    | cons c x' =>
      simp only [List.nil_append, List.cons_append, List.cons.injEq] at h
      exact absurd (by simp [h.1]) hx'
  | cons c x ih =>
    cases x' with
    | nil =>
      simp only [List.nil_append, List.cons_append, List.cons.injEq] at h
      exact absurd (by simp [h.1]) hx
    | cons d x' =>
      simp only [List.cons_append, List.cons.injEq] at h
      obtain ⟨rfl, h1⟩ := h
      obtain ⟨rfl, h2⟩ := ih (fun hb => hx (by simp [hb])) (fun hb => hx' (by simp [hb])) h1
      exact ⟨rfl, h2⟩

theorem bar_later : ∀ {w T t Y : List Byte}, bar ∉ w → w ++ bar :: T = t ++ bar :: Y → ∃ t', t = w ++ t' ∧ bar :: T = t' ++ bar :: Y
  | [], T, t, Y, _, h => ⟨t, rfl, h⟩
  | c :: w, T, [], Y, hw, h => by
    simp only [List.cons_append, List.nil_append, List.cons.injEq] at h
    exact absurd (by simp [h.1]) hw
  | c :: w, T, d :: t, Y, hw, h => by
    simp only [List.cons_append, List.cons.injEq] at h
    obtain ⟨rfl, h1⟩ := h
    obtain ⟨t', rfl, h2⟩ := bar_later (fun hb => hw (by simp [hb])) h1
    exact ⟨t', rfl, h2⟩

/-- Left sides have no separators. -/
def CleanLeft : List Given → Prop
  | [] => True
  | .lit c :: l => c ≠ bar ∧ CleanLeft l
  | .var k :: l => bar ∉ k ∧ CleanLeft l

theorem clean_left : ∀ {l : List Given} {σ : List (List Byte)}, CleanLeft l → FitsVars l σ → bar ∉ leftSide l σ
  | [], _, _, _ => by simp [leftSide]
  | .lit c :: l, σ, h, h' => by
    simp only [leftSide, List.mem_cons, not_or]
    exact ⟨fun e => h.1 e.symm, clean_left h.2 h'⟩
  | .var k :: l, [], _, h' => h'.elim
  | .var k :: l, x :: σ, h, h' => by
    simp only [leftSide, List.headD_cons, List.tail_cons, List.mem_append, not_or]
    exact ⟨fun e => h.1 (h'.1 _ e), clean_left h.2 h'.2⟩

theorem clean_lits {u : List Byte} {l : List Given} (hu : bar ∉ u) : CleanLeft (u.map .lit ++ l) ↔ CleanLeft l := by
  induction u with
  | nil => rfl
  | cons c u ih =>
    simp only [List.mem_cons, not_or] at hu
    simp only [List.map_cons, List.cons_append, CleanLeft, ih hu.2, and_iff_right_iff_imp]
    exact fun _ e => hu.1 e.symm

theorem clean_job {q : Job} {l : List Given} : CleanLeft (jobL q ++ l) ↔ CleanLeft l := by
  refine clean_lits fun h => ?_
  rcases List.mem_append.1 h with h | h
  · exact absurd (alphabet_job q _ h) (by decide)
  · simp only [List.mem_singleton] at h
    exact absurd h (by decide)

theorem clean_rules {c : Code} {r : WordRule} (hr : r ∈ rulesOf c) : CleanLeft r.1 := by
  have h1 : CleanLeft [numsL, commaL, restL] := by simp only [CleanLeft, numsL, commaL, restL]; decide
  have h2 : CleanLeft [commaL, restL] := by simp only [CleanLeft, commaL, restL]; decide
  have h3 : CleanLeft [onesL, .lit endB, numsL, commaL, restL] := by simp only [CleanLeft, onesL, numsL, commaL, restL]; decide
  have h4 : CleanLeft [.lit endB, numsL, commaL, restL] := by simp only [CleanLeft, numsL, commaL, restL]; decide
  have h5 : CleanLeft [.lit unitB, numsL, commaL, restL] := by simp only [CleanLeft, numsL, commaL, restL]; decide
  have h6 : ∀ {l}, CleanLeft l → CleanLeft (numsL :: commaL :: l) := fun h => ⟨by decide, by decide, h⟩
  have h7 : ∀ {l}, CleanLeft l → CleanLeft (commaL :: l) := fun h => ⟨by decide, h⟩
  have h8 : ∀ {l}, CleanLeft l → CleanLeft (.lit endB :: l) := fun h => ⟨by decide, h⟩
  have h9 : ∀ {l}, CleanLeft l → CleanLeft (.lit unitB :: onesL :: l) := fun h => ⟨by decide, by decide, h⟩
  simp only [rulesOf, List.mem_append, List.mem_flatMap] at hr
  rcases hr with h | ⟨d, _, h | h⟩
  · simp only [otherRules, List.mem_cons, List.not_mem_nil, or_false] at h
    rcases h with rfl | rfl | rfl
    · exact clean_job.2 (h6 (clean_job.2 h3))
    · exact clean_job.2 (h6 (clean_job.2 h2))
    · exact clean_job.2 (h6 (clean_job.2 (h7 (l := []) trivial)))
  · cases d <;> simp only [runRules, List.mem_cons, List.not_mem_nil, or_false] at h
    · subst h; exact clean_job.2 h1
    · rcases h with rfl | rfl
      · exact clean_job.2 h3
      · exact clean_job.2 h2
    · rcases h with rfl | rfl
      · exact clean_job.2 h3
      · exact clean_job.2 h2
    · subst h; exact clean_job.2 h1
    · subst h; exact clean_job.2 h1
    · rcases h with rfl | rfl | rfl
      · exact clean_job.2 h2
      · exact clean_job.2 h4
      · exact clean_job.2 h5
    · subst h; exact clean_job.2 h1
  · simp only [goOnRules, List.mem_cons, List.not_mem_nil, or_false] at h
    rcases h with rfl | rfl | rfl | rfl | rfl
    · exact clean_job.2 (h6 (clean_job.2 h1))
    · exact clean_job.2 (h6 (clean_job.2 h2))
    · exact clean_job.2 (h7 (clean_job.2 h2))
    · exact clean_job.2 (h8 (h6 (clean_job.2 h2)))
    · exact clean_job.2 (h9 (h8 (h6 (clean_job.2 h2))))

/-! ### Good texts come from runs that end -/

theorem frames_last {F : Frames} {t T : List Byte} (h : t ++ bar :: framesWord F ++ [bar] = T ++ [bar, bar]) : F = [] := by
  have h1 : (t ++ bar :: framesWord F) = T ++ [bar] := by
    have : (t ++ bar :: framesWord F) ++ [bar] = (T ++ [bar]) ++ [bar] := by simpa using h
    exact (List.append_inj' this rfl).1
  cases F with
  | nil => rfl
  | cons j F =>
    obtain ⟨q, v⟩ := j
    have h2 : bar ∈ framesWord ((q, v) :: F) := by
      have h3 := congrArg List.getLast? h1
      rw [List.getLast?_append_cons, List.getLast?_cons, List.getLast?_append] at h3
      have h4 : framesWord ((q, v) :: F) ≠ [] := by simp [framesWord]
      rw [List.getLast?_eq_some_getLast h4] at h3
      simp at h3
      have := List.getLast_mem h4
      rwa [h3] at this
    exact absurd h2 (free_frames _)

/-- What follows a state is the next state. -/
theorem good_next {c : Code} {k : Nat} {s : List Byte} (hs : GoodText c k s) {F F' : Frames} {t T : List Byte} (hF : Covered c F)
    (h : s = t ++ bar :: (framesWord F ++ bar :: T)) (hA : advance F = some F') : Covered c F' ∧ framesWord F' ++ [bar] <+: T := by
  obtain ⟨hF', r, hr, σ, h1, h2, h3⟩ := step_rule hF hA
  refine ⟨hF', ?_⟩
  have := hs.steps t r σ T hr h1 (by rw [h2]; exact h)
  rw [h3] at this
  rcases this with h4 | h4
  · exact h4
  · rcases List.prefix_concat_iff.1 h4 with h5 | h5
    · rw [h5]
    · exfalso
      have hb : bar ∉ T := fun hb => free_frames F' (h5.subset hb)
      obtain ⟨t', h6⟩ := hs.ends
      rw [h] at h6
      rcases List.eq_nil_or_concat T with rfl | ⟨T', x, rfl⟩
      · have : F = [] := frames_last (t := t) (T := t') (by simpa using h6)
        rw [this] at hA
        cases hA
      · have h7 : (t ++ bar :: (framesWord F ++ bar :: T')) ++ [x] = (t' ++ [bar]) ++ [bar] := by simpa using h6
        have := (List.append_inj' h7 rfl).2
        simp only [List.cons.injEq, and_true] at this
        exact hb (by simp [this])

theorem run_of_good {c : Code} {k : Nat} {s : List Byte} (hs : GoodText c k s) : ∀ (n : Nat) (F : Frames) (t T : List Byte), T.length = n →
    Covered c F → s = t ++ bar :: (framesWord F ++ bar :: T) → ∃ F', Reaches advance F F' ∧ advance F' = none := by
  intro n
  induction n using Nat.strongRecOn with
  | _ n ih =>
    intro F t T hn hF h
    cases hA : advance F with
    | none => exact ⟨F, .refl, hA⟩
    | some F' =>
      obtain ⟨hF', T', rfl⟩ := good_next hs hF h hA
      obtain ⟨G, h4, h5⟩ := ih T'.length (by rw [← hn]; simp; omega) F' (t ++ bar :: framesWord F) T' rfl hF' (by rw [h]; simp)
      exact ⟨G, .head hA h4, h5⟩

/-- The text begins with the start. -/
theorem good_begins {c : Code} {k : Nat} {s : List Byte} (hs : GoodText c k s) : bar :: (framesWord (startFrames c (k + 1)) ++ [bar]) <+: s := by
  rcases hs.start with h | h
  · exact h
  · rw [← List.cons_append] at h
    rcases List.prefix_concat_iff.1 h with h1 | h1
    · rw [h1]; simp
    · exfalso
      obtain ⟨t, rfl⟩ := hs.ends
      obtain ⟨z, h2⟩ := h1
      apply free_frames (startFrames c (k + 1))
      cases t with
      | nil =>
        simp only [List.nil_append, List.cons_append, List.cons.injEq, true_and] at h2
        rw [← h2]; simp
      | cons x t =>
        simp only [List.cons_append, List.cons.injEq] at h2
        rw [← h2.2]; simp

theorem halts_of_good {c : Code} {k : Nat} {s : List Byte} (hs : GoodText c k s) : (c.eval [k + 1]).Dom := by
  rw [← halts_iff]
  obtain ⟨T, rfl⟩ := good_begins hs
  exact run_of_good hs _ (startFrames c (k + 1)) [] T rfl (covered_start _ _) (by simp)

/-- Every state of the run is in the text. -/
theorem good_visits {c : Code} {k : Nat} {s : List Byte} (hs : GoodText c k s) {F : Frames} (h : Reaches advance (startFrames c (k + 1)) F) :
    Covered c F ∧ ∃ t T, s = t ++ bar :: (framesWord F ++ bar :: T) := by
  induction h with
  | refl =>
    obtain ⟨T, rfl⟩ := good_begins hs
    exact ⟨covered_start _ _, [], T, by simp⟩
  | @tail F G _ hA ih =>
    obtain ⟨hF, t, T, h⟩ := ih
    obtain ⟨hG, T', rfl⟩ := good_next hs hF h hA
    exact ⟨hG, t ++ bar :: framesWord F, T', by rw [h]; simp⟩

theorem mem_numsWord {n : Nat} {v : List Nat} (h : n ∈ v) : n ≤ (numsWord v).length := by
  induction v with
  | nil => simp at h
  | cons m v ih =>
    simp only [numsWord, List.length_append, List.length_replicate, List.length_cons]
    rcases List.mem_cons.1 h with rfl | h
    · omega
    · have := ih h; omega

/-- The text is longer than every number in the result. -/
theorem result_lt_good {c : Code} {k : Nat} {s : List Byte} (hs : GoodText c k s) {v : List Nat} (hv : v ∈ c.eval [k + 1]) {n : Nat} (hn : n ∈ v) : n < s.length := by
  obtain ⟨_, t, T, h⟩ := good_visits hs (reaches_result hv)
  have := mem_numsWord hn
  rw [h]
  simp [framesWord]
  omega

/-! ### Runs that end have good texts -/

theorem record_exists {F G : Frames} (h : Reaches advance F G) (hG : G = []) : ∃ T, RecordFrom F T := by
  subst hG
  induction h using Relation.ReflTransGen.head_induction_on with
  | refl => exact ⟨_, .done⟩
  | head h _ ih =>
    obtain ⟨T, hT⟩ := ih
    exact ⟨_, .step h hT⟩

theorem record_begins {F : Frames} {T : List Byte} (h : RecordFrom F T) : framesWord F ++ [bar] <+: T := by
  cases h with
  | done => simp [framesWord]
  | @step _ _ T _ _ => exact ⟨T, by simp⟩

theorem record_ends {F : Frames} {T : List Byte} (h : RecordFrom F T) : ∃ t, bar :: T = t ++ [bar, bar] := by
  induction h with
  | done => exact ⟨[], rfl⟩
  | @step F _ _ _ _ ih =>
    obtain ⟨t, ht⟩ := ih
    exact ⟨bar :: framesWord F ++ t, by rw [ht]; simp⟩

theorem record_steps {c : Code} {F : Frames} {T₀ : List Byte} (h : RecordFrom F T₀) : ∀ t r σ T, r ∈ rulesOf c → FitsVars r.1 σ →
    bar :: T₀ = t ++ bar :: (leftSide r.1 σ ++ bar :: T) → AgreeWords (rightSide r.2 σ ++ [bar]) T := by
  induction h with
  | done =>
    intro t r σ T hr h1 h2
    exfalso
    have hl := congrArg List.length h2
    simp at hl
    obtain rfl : t = [] := List.length_eq_zero_iff.1 (by omega)
    have h3 : leftSide r.1 σ = [] := List.length_eq_zero_iff.1 (by omega)
    obtain ⟨F', h4, _⟩ := rules_step hr σ [] h1 (by rw [h3]; rfl)
    cases h4
  | @step F F' T₁ hA hR ih =>
    intro t r σ T hr h1 h2
    cases t with
    | nil =>
      simp only [List.nil_append, List.cons.injEq, true_and] at h2
      obtain ⟨h3, rfl⟩ := bar_unique (free_frames F) (clean_left (clean_rules hr) h1) h2
      obtain ⟨F'', h4, h5⟩ := rules_step hr σ F h1 h3
      rw [hA] at h4
      cases h4
      rw [← h5]
      exact .inl (record_begins hR)
    | cons x t =>
      simp only [List.cons_append, List.cons.injEq] at h2
      obtain ⟨t', _, h3⟩ := bar_later (free_frames F) h2.2
      exact ih t' r σ T hr h1 h3

theorem good_record {c : Code} {k : Nat} {T : List Byte} (hT : RecordFrom (startFrames c (k + 1)) T) : GoodText c k (bar :: T) :=
  ⟨.inl (by simpa using record_begins hT), record_ends hT, record_steps hT⟩

theorem good_of_halts {c : Code} {k : Nat} (h : (c.eval [k + 1]).Dom) : ∃ s, GoodText c k s := by
  have h0 : Reaches advance (startFrames c (k + 1)) [] := by
    obtain ⟨v, hv⟩ := Part.dom_iff_mem.1 h
    have h1 : Cfg.halt v ∈ eval step (stepNormal c .halt [k + 1]) := by
      rw [stepNormal_eval]
      exact Part.mem_map _ hv
    obtain ⟨b, hb, h2⟩ := tr_eval respects rfl h1
    subst hb
    exact (reaches_run c .halt [k + 1]).to_reflTransGen.trans (mem_eval.1 h2).1
  obtain ⟨T, hT⟩ := record_exists h0 rfl
  exact ⟨bar :: T, good_record hT⟩

/-- The expression accepts every text iff the program does not halt. -/
theorem doubt_all {c : Code} {k : Nat} : (∀ s, ∃ e, Says f₀ (doubtA c k) [] s e) ↔ ¬ (c.eval [k + 1]).Dom := by
  simp only [doubt_iff]
  exact ⟨fun h h' => (good_of_halts h').elim h, fun h s hs => h (halts_of_good hs)⟩

end Mregex
