import Verif.Proof.HaltSays

/-!
# The mistakes are all mistakes
-/

namespace Mregex
open Ast Spec

theorem unsplit : ∀ {l : List Given} {i : Nat} {a : Byte} {τ : List (List Byte)}, a ∈ charsOf i l → FitsVars (splitGiven i a l) τ →
    ∃ σ₁ p q σ₂, τ = σ₁ ++ p :: q :: σ₂ ∧ σ₁.length = i ∧ FitsVars l (σ₁ ++ (p ++ a :: q) :: σ₂) ∧
      leftSide (splitGiven i a l) τ = leftSide l (σ₁ ++ (p ++ a :: q) :: σ₂)
  | [], _, _, _, h, _ => by simp [charsOf] at h
  | .lit c :: l, i, a, τ, h, h' => by
    obtain ⟨σ₁, p, q, σ₂, h1, h2, h3, h4⟩ := unsplit (l := l) (i := i) h h'
    exact ⟨σ₁, p, q, σ₂, h1, h2, h3, by simp only [splitGiven, leftSide, h4]⟩
  | .var k :: l, 0, a, τ, h, h' => by
    match τ, h' with
    | [], h' => exact h'.elim
    | [_], h' => exact h'.2.elim
    | p :: q :: σ₂, h' =>
      have h1 : ∀ b ∈ p, b ∈ k := h'.1
      have h2 : ∀ b ∈ q, b ∈ k := h'.2.1
      refine ⟨[], p, q, σ₂, rfl, rfl, ⟨fun b hb => ?_, h'.2.2⟩, by simp [splitGiven, leftSide]⟩
      simp only [List.mem_append, List.mem_cons] at hb
      rcases hb with hb | rfl | hb
      · exact h1 b hb
      · exact h
      · exact h2 b hb
  | .var k :: l, i + 1, a, τ, h, h' => by
    match τ, h' with
    | [], h' => exact h'.elim
    | x :: τ, h' =>
      obtain ⟨σ₁, p, q, σ₂, rfl, h2, h3, h4⟩ := unsplit (l := l) (i := i) h h'.2
      refine ⟨x :: σ₁, p, q, σ₂, rfl, by simp [h2], ⟨h'.1, h3⟩, ?_⟩
      simp only [splitGiven, leftSide, List.headD_cons, List.tail_cons, List.cons_append, h4]

theorem resplit : ∀ {l : List Given} {σ₁ : List (List Byte)} {a : Byte} {p q : List Byte} {σ₂ : List (List Byte)},
    FitsVars l (σ₁ ++ (p ++ a :: q) :: σ₂) → a ∈ charsOf σ₁.length l ∧ FitsVars (splitGiven σ₁.length a l) (σ₁ ++ p :: q :: σ₂) ∧
      leftSide (splitGiven σ₁.length a l) (σ₁ ++ p :: q :: σ₂) = leftSide l (σ₁ ++ (p ++ a :: q) :: σ₂)
  | [], σ₁, _, _, _, _, h => by simp [FitsVars] at h
  | .lit c :: l, σ₁, a, p, q, σ₂, h => by
    obtain ⟨h1, h2, h3⟩ := resplit (l := l) h
    exact ⟨h1, h2, by simp only [splitGiven, leftSide, h3]⟩
  | .var k :: l, [], a, p, q, σ₂, h => by
    have h1 : ∀ b ∈ p ++ a :: q, b ∈ k := h.1
    refine ⟨h1 a (by simp), ⟨fun b hb => h1 b (by simp [hb]), fun b hb => h1 b (by simp [hb]), h.2⟩, ?_⟩
    simp [splitGiven, leftSide]
  | .var k :: l, x :: σ₁, a, p, q, σ₂, h => by
    obtain ⟨h1, h2, h3⟩ := resplit (l := l) h.2
    refine ⟨h1, ⟨h.1, h2⟩, ?_⟩
    simp only [List.length_cons, splitGiven, leftSide, List.cons_append, List.headD_cons, List.tail_cons, h3]

theorem rightSide_append (r r' : List Made) (σ : List (List Byte)) : rightSide (r ++ r') σ = rightSide r σ ++ rightSide r' σ := by
  induction r with
  | nil => rfl
  | cons m r ih => cases m <;> simp [rightSide, ih]

theorem getD_split {σ₁ : List (List Byte)} {x : List Byte} {σ₂ : List (List Byte)} : (σ₁ ++ x :: σ₂).getD σ₁.length [] = x := by
  simp [List.getD]

theorem rightSide_split (r : List Made) {σ₁ : List (List Byte)} {a : Byte} {p q : List Byte} {σ₂ : List (List Byte)} :
    rightSide (splitMade σ₁.length a r) (σ₁ ++ p :: q :: σ₂) = rightSide r (σ₁ ++ (p ++ a :: q) :: σ₂) := by
  induction r with
  | nil => rfl
  | cons m r ih =>
    cases m with
    | lit c => simp [splitMade, rightSide, ih]
    | copy j =>
      rw [splitMade, rightSide_append, ih, rightSide]
      congr 1
      by_cases h1 : j < σ₁.length
      · rw [if_pos h1]
        simp [rightSide, List.getD, List.getElem?_append_left h1]
      · rw [if_neg h1]
        by_cases h2 : j = σ₁.length
        · rw [if_pos h2, h2]
          simp [rightSide, List.getD, List.getElem?_append_right]
        · rw [if_neg h2]
          simp only [rightSide, List.append_nil, List.getD]
          rw [List.getElem?_append_right (by omega), List.getElem?_append_right (by omega), show j + 1 - σ₁.length = (j - σ₁.length - 1) + 1 + 1 by omega,
            show j - σ₁.length = (j - σ₁.length - 1) + 1 by omega]
          simp

theorem differ_append : ∀ {x u s : List Byte},
    Differ (x ++ u) s ↔ (∃ p a q b v, x = p ++ a :: q ∧ s = p ++ b :: v ∧ a ≠ b) ∨ ∃ s', s = x ++ s' ∧ Differ u s'
  | [], u, s => by simp
  | c :: x, u, [] => by
    simp only [List.cons_append]
    constructor
    · rintro ⟨p, a, b, q, q', _, h, _⟩; simp at h
    · rintro (⟨p, a, q, b, v, _, h, _⟩ | ⟨s', h, _⟩) <;> simp at h
  | c :: x, u, d :: s => by
    rw [List.cons_append, differ_cons, differ_append]
    constructor
    · rintro (h | ⟨rfl, ⟨p, a, q, b, v, rfl, rfl, h⟩ | ⟨s', rfl, h⟩⟩)
      · exact .inl ⟨[], c, x, d, s, rfl, rfl, h⟩
      · exact .inl ⟨c :: p, a, q, b, v, rfl, rfl, h⟩
      · exact .inr ⟨s', rfl, h⟩
    · rintro (⟨p, a, q, b, v, h1, h2, h⟩ | ⟨s', h1, h⟩)
      · cases p with
        | nil =>
          simp only [List.nil_append, List.cons.injEq] at h1 h2
          exact .inl (by rw [h1.1, h2.1]; exact h)
        | cons y p =>
          simp only [List.cons_append, List.cons.injEq] at h1 h2
          exact .inr ⟨h1.1.trans h2.1.symm, .inl ⟨p, a, q, b, v, h1.2, h2.2, h⟩⟩
      · simp only [List.cons_append, List.cons.injEq] at h1
        exact .inr ⟨h1.1.symm, .inr ⟨s', h1.2, h⟩⟩

/-- The text `T` after an instance `X` of the left side has the mistake. -/
def HasSlip (m : Slip) (X T : List Byte) : Prop :=
  ∃ σ b v, FitsVars m.given σ ∧ m.due ≠ b ∧ X = leftSide m.given σ ∧ T = rightSide m.made σ ++ b :: v

theorem has_slip : ∀ {todo : List Made} {l : List Given} {done : List Made} {X T : List Byte},
    (∃ m ∈ slipsFrom l done todo, HasSlip m X T) ↔
      ∃ σ, FitsVars l σ ∧ X = leftSide l σ ∧ ∃ s, T = rightSide done σ ++ s ∧ Differ (rightSide todo σ ++ [bar]) s
  | [], l, done, X, T => by
    simp only [slipsFrom, List.mem_singleton, exists_eq_left, HasSlip, rightSide, List.nil_append]
    constructor
    · rintro ⟨σ, b, v, h1, h2, h3, rfl⟩
      exact ⟨σ, h1, h3, b :: v, rfl, [], bar, b, [], v, rfl, rfl, h2⟩
    · rintro ⟨σ, h1, h3, s, rfl, p, a, b, q, q', h4, rfl, h5⟩
      cases p with
      | nil =>
        simp only [List.nil_append, List.cons.injEq] at h4
        exact ⟨σ, b, q', h1, by rw [h4.1]; exact h5, h3, rfl⟩
      | cons x p => simp at h4
  | .lit c :: t, l, done, X, T => by
    simp only [slipsFrom, List.mem_cons, exists_eq_or_imp, has_slip (todo := t), rightSide_append]
    rw [HasSlip]
    constructor
    · rintro (⟨σ, b, v, h1, h2, h3, rfl⟩ | ⟨σ, h1, h3, s, rfl, h4⟩)
      · exact ⟨σ, h1, h3, b :: v, rfl, differ_cons.2 (.inl h2)⟩
      · exact ⟨σ, h1, h3, c :: s, by simp [rightSide], differ_cons.2 (.inr ⟨rfl, h4⟩)⟩
    · rintro ⟨σ, h1, h3, s, rfl, h4⟩
      cases s with
      | nil => obtain ⟨p, a, b, q, q', _, h, _⟩ := h4; simp at h
      | cons b v =>
        rcases differ_cons.1 h4 with h5 | ⟨rfl, h5⟩
        · exact .inl ⟨σ, b, v, h1, h5, h3, rfl⟩
        · exact .inr ⟨σ, h1, h3, v, by simp [rightSide], h5⟩
  | .copy i :: t, l, done, X, T => by
    simp only [slipsFrom, List.mem_append, or_and_right, exists_or, has_slip (todo := t), rightSide_append, rightSide, List.append_assoc, differ_append,
      List.append_nil, List.mem_map]
    constructor
    · rintro (⟨_, ⟨a, ha, rfl⟩, τ, b, v, h1, h2, rfl, rfl⟩ | ⟨σ, h1, h3, s, rfl, h4⟩)
      · obtain ⟨σ₁, p, q, σ₂, rfl, rfl, h3, h4⟩ := unsplit ha h1
        refine ⟨_, h3, h4, p ++ b :: v, ?_, .inl ⟨p, a, q, b, v, getD_split, rfl, h2⟩⟩
        rw [rightSide_append, rightSide_split]
        simp [rightSide, List.getElem?_append_right]
      · exact ⟨σ, h1, h3, _, rfl, .inr ⟨s, rfl, h4⟩⟩
    · rintro ⟨σ, h1, h3, s, rfl, ⟨p, a, q, b, v, h4, rfl, h5⟩ | ⟨s', rfl, h4⟩⟩
      · by_cases hi : i < σ.length
        · obtain ⟨σ₁, x, σ₂, rfl, rfl⟩ : ∃ σ₁ x σ₂, σ = σ₁ ++ x :: σ₂ ∧ σ₁.length = i :=
            ⟨σ.take i, σ[i], σ.drop (i + 1), by simp, by simp; omega⟩
          rw [getD_split] at h4
          subst h4
          obtain ⟨h6, h7, h8⟩ := resplit h1
          refine .inl ⟨_, ⟨a, h6, rfl⟩, _, b, v, h7, h5, h3.trans h8.symm, ?_⟩
          rw [rightSide_append, rightSide_split]
          simp [rightSide, List.getElem?_append_right]
        · rw [List.getD_eq_default _ _ (Nat.le_of_not_lt hi)] at h4
          simp at h4
      · exact .inr ⟨σ, h1, h3, s', rfl, h4⟩

end Mregex
