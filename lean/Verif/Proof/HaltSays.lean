import Verif.Spec.Halt
import Verif.Proof.Says

/-!
# What the expressions of `Spec/Halt` say
-/

namespace Mregex
open Ast Spec

/-- The flags of all these expressions: none. -/
local notation "f₀" => (Flags.ofList [])

theorem says_lit {c : Byte} {e : Memory} {w : List Byte} {e' : Memory} : Says f₀ (.lit c) e w e' ↔ w = [c] ∧ e' = e := by
  simp only [Says, accepts]
  constructor
  · rintro ⟨⟨x, rfl, h⟩, rfl⟩
    simp [Flags.ofList] at h
    simp [h]
  · rintro ⟨rfl, rfl⟩
    simp

theorem acceptsAny_lits {k : List Byte} {x : Byte} : acceptsAny f₀ (k.map .lit) x = true ↔ x ∈ k := by
  induction k with
  | nil => simp [acceptsAny]
  | cons c k ih =>
    simp only [List.map_cons, acceptsAny, accepts, Bool.or_eq_true, ih, List.mem_cons, beq_iff_eq]
    simp [Flags.ofList, eq_comm (a := c)]

theorem says_other {c : Byte} {e : Memory} {w : List Byte} {e' : Memory} : Says f₀ (otherA c) e w e' ↔ (∃ b, w = [b] ∧ c ≠ b) ∧ e' = e := by
  simp [otherA, Says, accepts, acceptsAny, Flags.ofList]

theorem says_any {e : Memory} {w : List Byte} {e' : Memory} : Says f₀ anyA e w e' ↔ (∃ b, w = [b]) ∧ e' = e := by
  simp [anyA, Says, accepts, acceptsAny]

theorem repeats_one {P : Byte → Prop} : ∀ {n : Nat} {e : Memory} {w : List Byte} {e' : Memory},
    Repeats (fun e w e' => (∃ b, w = [b] ∧ P b) ∧ e' = e) n e w e' ↔ (w.length = n ∧ ∀ b ∈ w, P b) ∧ e' = e
  | 0, e, w, e' => by
    simp only [Repeats, List.length_eq_zero_iff]
    constructor
    · rintro ⟨rfl, rfl⟩; simp
    · rintro ⟨⟨rfl, _⟩, rfl⟩; simp
  | n + 1, e, w, e' => by
    simp only [Repeats, repeats_one]
    constructor
    · rintro ⟨u, v, t, rfl, ⟨⟨b, rfl, hb⟩, rfl⟩, ⟨rfl, hv⟩, rfl⟩
      refine ⟨⟨by simp, fun x hx => ?_⟩, rfl⟩
      simp only [List.cons_append, List.nil_append, List.mem_cons] at hx
      rcases hx with rfl | hx
      · exact hb
      · exact hv x hx
    · rintro ⟨⟨h, hw⟩, rfl⟩
      cases w with
      | nil => simp at h
      | cons b w =>
        exact ⟨[b], w, _, rfl, ⟨⟨b, rfl, hw b (by simp)⟩, rfl⟩, ⟨by simpa using h, fun x hx => hw x (by simp [hx])⟩, rfl⟩

theorem repeats_congr {P Q : Memory → List Byte → Memory → Prop} (h : ∀ e w e', P e w e' ↔ Q e w e') :
    ∀ {n : Nat} {e : Memory} {w : List Byte} {e' : Memory}, Repeats P n e w e' ↔ Repeats Q n e w e' := by
  have : P = Q := by funext e w e'; exact propext (h e w e')
  subst this
  intros
  exact Iff.rfl

theorem says_anything {e : Memory} {w : List Byte} {e' : Memory} : Says f₀ anythingA e w e' ↔ e' = e := by
  have h : ∀ e w e', Says f₀ anyA e w e' ↔ (∃ b, w = [b] ∧ True) ∧ e' = e := fun _ _ _ => by simp [says_any]
  simp only [anythingA, Says, AtMost]
  constructor
  · rintro ⟨n, _, _, h1⟩
    exact ((repeats_one (P := fun _ => True)).1 ((repeats_congr h).1 h1)).2
  · rintro rfl
    exact ⟨w.length, Nat.zero_le _, trivial, (repeats_congr h).2 ((repeats_one (P := fun _ => True)).2 ⟨⟨rfl, fun _ _ => trivial⟩, rfl⟩)⟩

theorem says_over {k : List Byte} {e : Memory} {w : List Byte} {e' : Memory} :
    Says f₀ (.rep .greedy 0 .inf (.set (k.map .lit))) e w e' ↔ (∀ b ∈ w, b ∈ k) ∧ e' = e := by
  have h : ∀ e w e', Says f₀ (.set (k.map .lit)) e w e' ↔ (∃ b, w = [b] ∧ b ∈ k) ∧ e' = e := fun _ _ _ => by
    simp [Says, accepts, acceptsAny_lits]
  simp only [Says, AtMost]
  constructor
  · rintro ⟨n, _, _, h1⟩
    have := (repeats_one (P := (· ∈ k))).1 ((repeats_congr h).1 h1)
    exact ⟨this.1.2, this.2⟩
  · rintro ⟨h1, rfl⟩
    exact ⟨w.length, Nat.zero_le _, trivial, (repeats_congr h).2 (repeats_one.2 ⟨⟨rfl, h1⟩, rfl⟩)⟩

/-- At most one character that satisfies `P`. -/
theorem says_maybe {a : Ast} {P : Byte → Prop} (h : ∀ e w e', Says f₀ a e w e' ↔ (∃ b, w = [b] ∧ P b) ∧ e' = e)
    {e : Memory} {w : List Byte} {e' : Memory} :
    Says f₀ (.rep .greedy 0 (.fin 1) a) e w e' ↔ (w = [] ∨ ∃ b, w = [b] ∧ P b) ∧ e' = e := by
  simp only [Says, AtMost]
  constructor
  · rintro ⟨n, _, hn, h1⟩
    obtain ⟨⟨h2, h3⟩, rfl⟩ := repeats_one.1 ((repeats_congr h).1 h1)
    match w, h2, h3 with
    | [], _, _ => exact ⟨.inl rfl, rfl⟩
    | [b], _, h3 => exact ⟨.inr ⟨b, rfl, h3 b (by simp)⟩, rfl⟩
    | _ :: _ :: _, h2, _ => simp at h2; omega
  · rintro ⟨h1 | ⟨b, rfl, hb⟩, rfl⟩
    · subst h1
      exact ⟨0, Nat.le_refl _, Nat.zero_le _, rfl, rfl⟩
    · exact ⟨1, Nat.zero_le _, Nat.le_refl _, (repeats_congr h).2 (repeats_one.2 ⟨⟨rfl, by simpa using hb⟩, rfl⟩)⟩

/-! ### Sequences -/

theorem says_seq {l : List Ast} {e : Memory} {w : List Byte} {e' : Memory} : Says f₀ (.seq l) e w e' ↔ SaysAll f₀ l e w e' := by rw [Says]
theorem says_alt {l : List Ast} {e : Memory} {w : List Byte} {e' : Memory} : Says f₀ (.alt l) e w e' ↔ SaysAny f₀ l e w e' := by rw [Says]

theorem saysAll_append : ∀ {l l' : List Ast} {e : Memory} {w : List Byte} {e' : Memory},
    SaysAll f₀ (l ++ l') e w e' ↔ ∃ u v t, w = u ++ v ∧ SaysAll f₀ l e u t ∧ SaysAll f₀ l' t v e'
  | [], l', e, w, e' => by
    simp only [List.nil_append, SaysAll]
    constructor
    · intro h; exact ⟨[], w, e, rfl, ⟨rfl, rfl⟩, h⟩
    · rintro ⟨u, v, t, rfl, ⟨rfl, rfl⟩, h⟩; exact h
  | a :: l, l', e, w, e' => by
    simp only [List.cons_append, SaysAll, saysAll_append]
    constructor
    · rintro ⟨u, _, t, rfl, h1, u', v', t', rfl, h2, h3⟩
      exact ⟨u ++ u', v', t', by simp, ⟨u, u', t, rfl, h1, h2⟩, h3⟩
    · rintro ⟨_, v', t', rfl, ⟨u, u', t, rfl, h1, h2⟩, h3⟩
      exact ⟨u, u' ++ v', t, by simp, h1, u', v', t', rfl, h2, h3⟩

theorem saysAll_lits : ∀ {u : List Byte} {e : Memory} {w : List Byte} {e' : Memory}, SaysAll f₀ (u.map .lit) e w e' ↔ w = u ∧ e' = e
  | [], e, w, e' => by simp [SaysAll]
  | c :: u, e, w, e' => by
    simp only [List.map_cons, SaysAll, says_lit, saysAll_lits]
    constructor
    · rintro ⟨_, _, _, rfl, ⟨rfl, rfl⟩, rfl, rfl⟩; exact ⟨rfl, rfl⟩
    · rintro ⟨rfl, rfl⟩; exact ⟨[c], u, _, rfl, ⟨rfl, rfl⟩, rfl, rfl⟩

/-- What the groups have said, the latest first; the first of them has the number `i`. -/
def groupsSaid (i : Nat) (σ : List (List Byte)) (e : Memory) : Memory :=
  match σ with
  | [] => e
  | x :: σ => groupsSaid (i + 1) σ ((i, x) :: e)

theorem recall_groupsSaid : ∀ (σ : List (List Byte)) (i j : Nat) (e : Memory),
    recall j (groupsSaid i σ e) = if j < i ∨ i + σ.length ≤ j then recall j e else σ.getD (j - i) []
  | [], i, j, e => by
    have : j < i ∨ i ≤ j := by omega
    simp [groupsSaid, this]
  | x :: σ, i, j, e => by
    rw [groupsSaid, recall_groupsSaid σ (i + 1) j]
    simp only [recall, List.length_cons]
    by_cases h1 : j < i
    · rw [if_pos (by omega), if_neg (by omega), if_pos (by omega)]
    · by_cases h2 : j = i
      · subst h2
        rw [if_pos (by omega), if_pos rfl, if_neg (by omega)]
        simp
      · by_cases h3 : i + 1 + σ.length ≤ j
        · rw [if_pos (by omega), if_neg (by omega), if_pos (by omega)]
        · rw [if_neg (by omega), if_neg (by omega), show j - i = j - (i + 1) + 1 by omega, List.getD_cons_succ]

theorem says_group {k : List Byte} {i : Nat} {e : Memory} {w : List Byte} {e' : Memory} :
    Says f₀ (.cap i none (.rep .greedy 0 .inf (.set (k.map .lit)))) e w e' ↔ (∀ b ∈ w, b ∈ k) ∧ e' = (i, w) :: e := by
  rw [Says]
  simp only [says_over]
  constructor
  · rintro ⟨t, ⟨h, rfl⟩, rfl⟩; exact ⟨h, rfl⟩
  · rintro ⟨h, rfl⟩; exact ⟨_, ⟨h, rfl⟩, rfl⟩

theorem saysAll_givens : ∀ {l : List Given} {i : Nat} {e : Memory} {w : List Byte} {e' : Memory},
    SaysAll f₀ (givensA i l) e w e' ↔ ∃ σ, FitsVars l σ ∧ w = leftSide l σ ∧ e' = groupsSaid i σ e
  | [], i, e, w, e' => by
    simp only [givensA, SaysAll, FitsVars, leftSide]
    constructor
    · rintro ⟨rfl, rfl⟩; exact ⟨[], rfl, rfl, rfl⟩
    · rintro ⟨σ, rfl, rfl, rfl⟩; exact ⟨rfl, rfl⟩
  | .lit c :: l, i, e, w, e' => by
    simp only [givensA, SaysAll, says_lit, saysAll_givens, FitsVars, leftSide]
    constructor
    · rintro ⟨_, _, _, rfl, ⟨rfl, rfl⟩, σ, h1, rfl, rfl⟩; exact ⟨σ, h1, rfl, rfl⟩
    · rintro ⟨σ, h1, rfl, rfl⟩; exact ⟨[c], _, _, rfl, ⟨rfl, rfl⟩, σ, h1, rfl, rfl⟩
  | .var k :: l, i, e, w, e' => by
    simp only [givensA, SaysAll, saysAll_givens, says_group]
    constructor
    · rintro ⟨u, _, _, rfl, ⟨h0, rfl⟩, σ, h1, rfl, rfl⟩; exact ⟨u :: σ, ⟨h0, h1⟩, rfl, rfl⟩
    · rintro ⟨σ, h1, rfl, rfl⟩
      cases σ with
      | nil => exact absurd h1 (by simp [FitsVars])
      | cons x σ => exact ⟨x, _, _, rfl, ⟨h1.1, rfl⟩, σ, h1.2, rfl, rfl⟩

theorem sameText_iff {w v : List Byte} : SameText (f₀).icase w v ↔ v = w := by
  induction w generalizing v with
  | nil => cases v <;> simp [SameText]
  | cons x w ih =>
    cases v with
    | nil => simp [SameText]
    | cons y v =>
      simp only [SameText, ih, CharEq]
      simp [Flags.ofList, eq_comm (a := x)]

theorem fitsVars_length : ∀ {l : List Given} {σ τ : List (List Byte)}, FitsVars l σ → FitsVars l τ → σ.length = τ.length
  | [], _, _, h, h' => by rw [h, h']
  | .lit _ :: l, σ, τ, h, h' => fitsVars_length (l := l) h h'
  | .var _ :: l, [], _, h, _ => h.elim
  | .var _ :: l, _ :: _, [], _, h => h.elim
  | .var _ :: l, _ :: _, _ :: _, h, h' => by simp [fitsVars_length h.2 h'.2]

theorem saysAll_mades : ∀ {r : List Made} {σ : List (List Byte)} {w : List Byte} {e' : Memory},
    SaysAll f₀ (madesA r) (groupsSaid 1 σ []) w e' ↔ w = rightSide r σ ∧ e' = groupsSaid 1 σ []
  | [], σ, w, e' => by simp [madesA, SaysAll, rightSide]
  | .lit c :: r, σ, w, e' => by
    simp only [madesA, SaysAll, says_lit, rightSide]
    constructor
    · rintro ⟨_, _, _, rfl, ⟨rfl, rfl⟩, h⟩
      obtain ⟨rfl, rfl⟩ := saysAll_mades.1 h
      exact ⟨rfl, rfl⟩
    · rintro ⟨rfl, rfl⟩; exact ⟨[c], _, _, rfl, ⟨rfl, rfl⟩, saysAll_mades.2 ⟨rfl, rfl⟩⟩
  | .copy i :: r, σ, w, e' => by
    have hr : recall (i + 1) (groupsSaid 1 σ []) = σ.getD i [] := by
      rw [recall_groupsSaid]
      by_cases h : i < σ.length
      · rw [if_neg (by omega)]; simp
      · rw [if_pos (by omega)]; rw [List.getD_eq_default _ _ (Nat.le_of_not_lt h)]; rfl
    simp only [madesA, SaysAll, Says, sameText_iff, hr, rightSide]
    constructor
    · rintro ⟨_, _, _, rfl, ⟨rfl, rfl⟩, h⟩
      obtain ⟨rfl, rfl⟩ := saysAll_mades.1 h
      exact ⟨rfl, rfl⟩
    · rintro ⟨rfl, rfl⟩; exact ⟨_, _, _, rfl, ⟨rfl, rfl⟩, saysAll_mades.2 ⟨rfl, rfl⟩⟩

/-- The texts with a given mistake. -/
theorem says_slip {m : Slip} {w : List Byte} : (∃ e, Says f₀ (slipA m) [] w e) ↔
    ∃ t σ b v, FitsVars m.given σ ∧ m.due ≠ b ∧ w = t ++ bar :: (leftSide m.given σ ++ bar :: (rightSide m.made σ ++ b :: v)) := by
  rw [slipA]
  simp only [says_seq, SaysAll, saysAll_append, says_anything, says_lit, saysAll_givens, says_other]
  constructor
  · rintro ⟨e, t, _, _, rfl, rfl, _, _, _, rfl, ⟨rfl, rfl⟩, _, _, _, rfl, ⟨σ, h1, rfl, rfl⟩, _, _, _, rfl, ⟨rfl, rfl⟩, _, _, _, rfl, h2,
      _, _, _, rfl, ⟨⟨b, rfl, h3⟩, rfl⟩, v, _, _, rfl, rfl, rfl, rfl⟩
    obtain ⟨rfl, rfl⟩ := saysAll_mades.1 h2
    exact ⟨t, σ, b, v, h1, h3, by simp⟩
  · rintro ⟨t, σ, b, v, h1, h2, rfl⟩
    exact ⟨_, t, _, _, rfl, rfl, [bar], _, _, rfl, ⟨rfl, rfl⟩, _, _, _, rfl, ⟨σ, h1, rfl, rfl⟩, [bar], _, _, rfl, ⟨rfl, rfl⟩, _, _, _, rfl,
      saysAll_mades.2 ⟨rfl, rfl⟩, [b], v, _, rfl, ⟨⟨b, rfl, h2⟩, rfl⟩, v, [], _, by simp, rfl, rfl, rfl⟩

/-! ### Beginnings and ends -/

/-- One of the words begins with the other. -/
def AgreeWords (u s : List Byte) : Prop := u <+: s ∨ s <+: u

/-- The words differ in the characters after `p`. -/
def Differ (u s : List Byte) : Prop := ∃ p a b q q', u = p ++ a :: q ∧ s = p ++ b :: q' ∧ a ≠ b

theorem differ_cons {a b : Byte} {u s : List Byte} : Differ (a :: u) (b :: s) ↔ a ≠ b ∨ (a = b ∧ Differ u s) := by
  constructor
  · rintro ⟨p, c, d, q, q', h1, h2, h3⟩
    cases p with
    | nil =>
      simp only [List.nil_append, List.cons.injEq] at h1 h2
      exact .inl (by rw [h1.1, h2.1]; exact h3)
    | cons x p =>
      simp only [List.cons_append, List.cons.injEq] at h1 h2
      exact .inr ⟨h1.1.trans h2.1.symm, p, c, d, q, q', h1.2, h2.2, h3⟩
  · rintro (h | ⟨rfl, p, c, d, q, q', rfl, rfl, h⟩)
    · exact ⟨[], a, b, u, s, rfl, rfl, h⟩
    · exact ⟨a :: p, c, d, q, q', rfl, rfl, h⟩

theorem agree_iff : ∀ {u s : List Byte}, AgreeWords u s ↔ ¬ Differ u s
  | [], s => by
    simp only [AgreeWords, List.nil_prefix, true_or, true_iff]
    rintro ⟨p, a, b, q, q', h, _⟩
    simp at h
  | a :: u, [] => by
    simp only [AgreeWords, List.nil_prefix, or_true, true_iff]
    rintro ⟨p, c, d, q, q', _, h, _⟩
    simp at h
  | a :: u, b :: s => by
    rw [differ_cons, not_or, not_and, ← agree_iff (u := u) (s := s)]
    simp only [AgreeWords, List.cons_prefix_cons, Decidable.not_not, eq_comm (a := b)]
    constructor
    · rintro (⟨h, h'⟩ | ⟨h, h'⟩)
      · exact ⟨h, fun _ => .inl h'⟩
      · exact ⟨h, fun _ => .inr h'⟩
    · rintro ⟨h, h'⟩
      exact (h' h).imp (⟨h, ·⟩) (⟨h, ·⟩)

theorem says_differ : ∀ {u : List Byte} {e : Memory} {w : List Byte} {e' : Memory}, u ≠ [] →
    (Says f₀ (differA u) e w e' ↔ (∃ p a b q, u = p ++ a :: q ∧ w = p ++ [b] ∧ a ≠ b) ∧ e' = e)
  | [], _, _, _, h => absurd rfl h
  | [c], e, w, e', _ => by
    simp only [differA, says_other]
    refine and_congr_left fun _ => ⟨?_, ?_⟩
    · rintro ⟨b, rfl, h⟩; exact ⟨[], c, b, [], rfl, rfl, h⟩
    · rintro ⟨p, a, b, q, h1, rfl, h2⟩
      cases p with
      | nil => simp only [List.nil_append, List.cons.injEq] at h1; exact ⟨b, rfl, by rw [h1.1]; exact h2⟩
      | cons x p => simp at h1
  | c :: d :: u, e, w, e', _ => by
    rw [differA]
    simp only [says_alt, says_seq, SaysAny, SaysAll, says_other, says_lit, or_false, says_differ (u := d :: u) (by simp)]
    constructor
    · rintro (⟨⟨b, rfl, h⟩, rfl⟩ | ⟨_, _, _, rfl, ⟨rfl, rfl⟩, _, _, _, rfl, ⟨⟨p, a, b, q, h1, rfl, h2⟩, rfl⟩, rfl, rfl⟩)
      · exact ⟨⟨[], c, b, _, rfl, rfl, h⟩, rfl⟩
      · exact ⟨⟨c :: p, a, b, q, by rw [h1]; rfl, by simp, h2⟩, rfl⟩
    · rintro ⟨⟨p, a, b, q, h1, rfl, h2⟩, rfl⟩
      cases p with
      | nil =>
        simp only [List.nil_append, List.cons.injEq] at h1
        exact .inl ⟨⟨b, rfl, by rw [h1.1]; exact h2⟩, rfl⟩
      | cons x p =>
        simp only [List.cons_append, List.cons.injEq] at h1
        obtain ⟨rfl, h1⟩ := h1
        exact .inr ⟨[c], p ++ [b], _, rfl, ⟨rfl, rfl⟩, p ++ [b], [], _, by simp, ⟨⟨p, a, b, q, h1, rfl, h2⟩, rfl⟩, rfl, rfl⟩

end Mregex
