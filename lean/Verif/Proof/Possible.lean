import Verif.Spec.Possible
import Verif.Proof.Says

/-!
# What is possible is said
-/

namespace Mregex
open Ast Spec

theorem someByte_some {P : Byte → Bool} {x : Byte} (h : someByte P = some x) : P x = true := List.find?_some h

theorem someByte_isSome {P : Byte → Bool} : (someByte P).isSome = true ↔ ∃ x, P x = true := by
  rw [someByte, List.find?_isSome]
  constructor
  · rintro ⟨x, _, h⟩; exact ⟨x, h⟩
  · rintro ⟨x, h⟩
    refine ⟨x, List.mem_map.2 ⟨x.toNat, List.mem_range.2 x.isLt, by simp⟩, h⟩

theorem within_iff {n : Nat} {hi : Bound} : within n hi = true ↔ AtMost n hi := by
  cases hi <;> simp [within, AtMost]

theorem within_mono {m n : Nat} {hi : Bound} (h : m ≤ n) (hn : AtMost n hi) : AtMost m hi := by
  cases hi with
  | inf => trivial
  | fin k => exact Nat.le_trans h hn

section
variable {f : Flags}

/-- Whatever the memory is, something is said only if it is possible. -/
theorem possible_of_repeats {P : Memory → List Byte → Memory → Prop} {b : Bool} (h : ∀ e w e', P e w e' → b = true) :
    ∀ {n : Nat} {e : Memory} {w : List Byte} {e' : Memory}, Repeats P n e w e' → n = 0 ∨ b = true
  | 0, _, _, _, _ => .inl rfl
  | _ + 1, _, _, _, ⟨_, _, _, _, h1, _⟩ => .inr (h _ _ _ h1)

mutual
theorem possible_of_says : ∀ (a : Ast) {e : Memory} {w : List Byte} {e' : Memory}, Says f a e w e' → possible f a = true
  | .empty, _, _, _, _ => rfl
  | .seq l, e, w, e', h => by
    rw [Says] at h
    rw [possible]
    exact possibleAll_of_says l h
  | .alt l, e, w, e', h => by
    rw [Says] at h
    rw [possible]
    exact possibleAny_of_says l h
  | .cap k n a, e, w, e', h => by
    rw [Says] at h
    obtain ⟨t, h, _⟩ := h
    rw [possible]
    exact possible_of_says a h
  | .rep m lo hi a, e, w, e', h => by
    rw [Says] at h
    obtain ⟨n, h1, h2, h3⟩ := h
    rw [possible, Bool.and_eq_true, Bool.or_eq_true, within_iff]
    refine ⟨within_mono h1 h2, ?_⟩
    rcases possible_of_repeats (fun e w e' h => possible_of_says a (e := e) (w := w) (e' := e') h) h3 with rfl | h4
    · exact .inl (by simpa using h1)
    · exact .inr h4
  | .backref _, _, _, _, _ => rfl
  | .lit _, _, _, _, ⟨⟨x, _, h⟩, _⟩ => someByte_isSome.2 ⟨x, h⟩
  | .range _ _, _, _, _, ⟨⟨x, _, h⟩, _⟩ => someByte_isSome.2 ⟨x, h⟩
  | .wildcard, _, _, _, ⟨⟨x, _, h⟩, _⟩ => someByte_isSome.2 ⟨x, h⟩
  | .set _, _, _, _, ⟨⟨x, _, h⟩, _⟩ => someByte_isSome.2 ⟨x, h⟩
  | .neg _, _, _, _, ⟨⟨x, _, h⟩, _⟩ => someByte_isSome.2 ⟨x, h⟩
  | .look _ _, _, _, _, ⟨⟨x, _, h⟩, _⟩ => someByte_isSome.2 ⟨x, h⟩
  | .bol, _, _, _, ⟨⟨x, _, h⟩, _⟩ => someByte_isSome.2 ⟨x, h⟩
  | .boi, _, _, _, ⟨⟨x, _, h⟩, _⟩ => someByte_isSome.2 ⟨x, h⟩
  | .eol, _, _, _, ⟨⟨x, _, h⟩, _⟩ => someByte_isSome.2 ⟨x, h⟩
  | .eoi, _, _, _, ⟨⟨x, _, h⟩, _⟩ => someByte_isSome.2 ⟨x, h⟩
  | .wordB, _, _, _, ⟨⟨x, _, h⟩, _⟩ => someByte_isSome.2 ⟨x, h⟩
  | .namedBackref _, _, _, _, ⟨⟨x, _, h⟩, _⟩ => someByte_isSome.2 ⟨x, h⟩
theorem possibleAll_of_says : ∀ (l : List Ast) {e : Memory} {w : List Byte} {e' : Memory}, SaysAll f l e w e' → possibleAll f l = true
  | [], _, _, _, _ => rfl
  | a :: l, e, w, e', h => by
    rw [SaysAll] at h
    obtain ⟨_, _, _, _, h1, h2⟩ := h
    rw [possibleAll, possible_of_says a h1, possibleAll_of_says l h2]
    rfl
theorem possibleAny_of_says : ∀ (l : List Ast) {e : Memory} {w : List Byte} {e' : Memory}, SaysAny f l e w e' → possibleAny f l = true
  | [], _, _, _, h => by rw [SaysAny] at h; exact h.elim
  | a :: l, e, w, e', h => by
    rw [SaysAny] at h
    rw [possibleAny, Bool.or_eq_true]
    exact h.imp (possible_of_says a) (possibleAny_of_says l)
end

theorem repeats_of_sample {P : Memory → List Byte → Memory → Prop} {g : Memory → Option (List Byte × Memory)}
    (h : ∀ e w e', g e = some (w, e') → P e w e') : ∀ {n : Nat} {e : Memory} {w : List Byte} {e' : Memory}, sampleTimes g n e = some (w, e') → Repeats P n e w e'
  | 0, e, w, e', h1 => by
    simp only [sampleTimes, Option.some.injEq, Prod.mk.injEq] at h1
    exact ⟨h1.1.symm, h1.2.symm⟩
  | n + 1, e, w, e', h1 => by
    simp only [sampleTimes, Option.bind_eq_bind, Option.pure_def, Option.bind_eq_some_iff] at h1
    obtain ⟨⟨u, t⟩, h2, ⟨v, t'⟩, h3, h4⟩ := h1
    simp only [Option.some.injEq, Prod.mk.injEq] at h4
    obtain ⟨rfl, rfl⟩ := h4
    exact ⟨u, v, t, rfl, h _ _ _ h2, repeats_of_sample h h3⟩

theorem times_isSome {g : Memory → Option (List Byte × Memory)} (h : ∀ e, (g e).isSome = true) : ∀ {n : Nat} {e : Memory}, (sampleTimes g n e).isSome = true
  | 0, _ => rfl
  | n + 1, e => by
    obtain ⟨⟨u, t⟩, h1⟩ := Option.isSome_iff_exists.1 (h e)
    obtain ⟨⟨v, t'⟩, h2⟩ := Option.isSome_iff_exists.1 (times_isSome h (n := n) (e := t))
    simp [sampleTimes, h1, h2]

theorem sample_byte {a : Ast} {e : Memory} {w : List Byte} {e' : Memory} (h : ((someByte (accepts f a)).map fun x => ([x], e)) = some (w, e')) :
    (∃ x, w = [x] ∧ accepts f a x = true) ∧ e' = e := by
  obtain ⟨x, h1, h2⟩ := Option.map_eq_some_iff.1 h
  simp only [Prod.mk.injEq] at h2
  exact ⟨⟨x, h2.1.symm, someByte_some h1⟩, h2.2.symm⟩

theorem sameText_refl (b : Bool) (w : List Byte) : SameText b w w := by
  induction w with
  | nil => trivial
  | cons x w ih => exact ⟨by simp [CharEq], ih⟩

mutual
/-- The text is said. -/
theorem says_sample : ∀ (a : Ast) {e : Memory} {w : List Byte} {e' : Memory}, sample f a e = some (w, e') → Says f a e w e'
  | .empty, e, w, e', h => by
    simp only [sample, Option.some.injEq, Prod.mk.injEq] at h
    rw [Says]
    exact ⟨h.1.symm, h.2.symm⟩
  | .seq l, e, w, e', h => by rw [sample] at h; rw [Says]; exact saysAll_sample l h
  | .alt l, e, w, e', h => by rw [sample] at h; rw [Says]; exact saysAny_sample l h
  | .cap k n a, e, w, e', h => by
    simp only [sample, Option.bind_eq_bind, Option.pure_def, Option.bind_eq_some_iff] at h
    obtain ⟨⟨u, t⟩, h2, h4⟩ := h
    simp only [Option.some.injEq, Prod.mk.injEq] at h4
    obtain ⟨rfl, rfl⟩ := h4
    rw [Says]
    exact ⟨t, says_sample a h2, rfl⟩
  | .rep m lo hi a, e, w, e', h => by
    rw [sample] at h
    split at h
    · next h1 =>
      rw [Says]
      exact ⟨lo, Nat.le_refl _, within_iff.1 h1, repeats_of_sample (fun e w e' h => says_sample a (e := e) (w := w) (e' := e') h) h⟩
    · cases h
  | .backref k, e, w, e', h => by
    simp only [sample, Option.some.injEq, Prod.mk.injEq] at h
    obtain ⟨rfl, rfl⟩ := h
    rw [Says]
    exact ⟨sameText_refl _ _, rfl⟩
  | .lit _, _, _, _, h => sample_byte h
  | .range _ _, _, _, _, h => sample_byte h
  | .wildcard, _, _, _, h => sample_byte h
  | .set _, _, _, _, h => sample_byte h
  | .neg _, _, _, _, h => sample_byte h
  | .look _ _, _, _, _, h => sample_byte h
  | .bol, _, _, _, h => sample_byte h
  | .boi, _, _, _, h => sample_byte h
  | .eol, _, _, _, h => sample_byte h
  | .eoi, _, _, _, h => sample_byte h
  | .wordB, _, _, _, h => sample_byte h
  | .namedBackref _, _, _, _, h => sample_byte h
theorem saysAll_sample : ∀ (l : List Ast) {e : Memory} {w : List Byte} {e' : Memory}, sampleAll f l e = some (w, e') → SaysAll f l e w e'
  | [], e, w, e', h => by
    simp only [sampleAll, Option.some.injEq, Prod.mk.injEq] at h
    rw [SaysAll]
    exact ⟨h.1.symm, h.2.symm⟩
  | a :: l, e, w, e', h => by
    simp only [sampleAll, Option.bind_eq_bind, Option.pure_def, Option.bind_eq_some_iff] at h
    obtain ⟨⟨u, t⟩, h2, ⟨v, t'⟩, h3, h4⟩ := h
    simp only [Option.some.injEq, Prod.mk.injEq] at h4
    obtain ⟨rfl, rfl⟩ := h4
    rw [SaysAll]
    exact ⟨u, v, t, rfl, says_sample a h2, saysAll_sample l h3⟩
theorem saysAny_sample : ∀ (l : List Ast) {e : Memory} {w : List Byte} {e' : Memory}, sampleAny f l e = some (w, e') → SaysAny f l e w e'
  | [], e, w, e', h => by simp [sampleAny] at h
  | a :: l, e, w, e', h => by
    rw [sampleAny, Option.or_eq_some_iff] at h
    rw [SaysAny]
    rcases h with h | ⟨_, h⟩
    · exact .inl (says_sample a h)
    · exact .inr (saysAny_sample l h)
end

mutual
/-- There is a text if it is possible. -/
theorem sample_isSome : ∀ (a : Ast), possible f a = true → ∀ e, (sample f a e).isSome = true
  | .empty, _, _ => rfl
  | .seq l, h, e => by rw [possible] at h; rw [sample]; exact sampleAll_isSome l h e
  | .alt l, h, e => by rw [possible] at h; rw [sample]; exact sampleAny_isSome l h e
  | .cap k n a, h, e => by
    rw [possible] at h
    obtain ⟨⟨u, t⟩, h1⟩ := Option.isSome_iff_exists.1 (sample_isSome a h e)
    simp [sample, h1]
  | .rep m lo hi a, h, e => by
    rw [possible, Bool.and_eq_true, Bool.or_eq_true] at h
    rw [sample, if_pos h.1]
    rcases h.2 with h2 | h2
    · rw [beq_iff_eq] at h2; subst h2; rfl
    · exact times_isSome (sample_isSome a h2)
  | .backref _, _, _ => rfl
  | .lit _, h, _ => by rw [sample.eq_def, Option.isSome_map]; exact h
  | .range _ _, h, _ => by rw [sample.eq_def, Option.isSome_map]; exact h
  | .wildcard, h, _ => by rw [sample.eq_def, Option.isSome_map]; exact h
  | .set _, h, _ => by rw [sample.eq_def, Option.isSome_map]; exact h
  | .neg _, h, _ => by rw [sample.eq_def, Option.isSome_map]; exact h
  | .look _ _, h, _ => by rw [sample.eq_def, Option.isSome_map]; exact h
  | .bol, h, _ => by rw [sample.eq_def, Option.isSome_map]; exact h
  | .boi, h, _ => by rw [sample.eq_def, Option.isSome_map]; exact h
  | .eol, h, _ => by rw [sample.eq_def, Option.isSome_map]; exact h
  | .eoi, h, _ => by rw [sample.eq_def, Option.isSome_map]; exact h
  | .wordB, h, _ => by rw [sample.eq_def, Option.isSome_map]; exact h
  | .namedBackref _, h, _ => by rw [sample.eq_def, Option.isSome_map]; exact h
theorem sampleAll_isSome : ∀ (l : List Ast), possibleAll f l = true → ∀ e, (sampleAll f l e).isSome = true
  | [], _, _ => rfl
  | a :: l, h, e => by
    rw [possibleAll, Bool.and_eq_true] at h
    obtain ⟨⟨u, t⟩, h1⟩ := Option.isSome_iff_exists.1 (sample_isSome a h.1 e)
    obtain ⟨⟨v, t'⟩, h2⟩ := Option.isSome_iff_exists.1 (sampleAll_isSome l h.2 t)
    simp [sampleAll, h1, h2]
theorem sampleAny_isSome : ∀ (l : List Ast), possibleAny f l = true → ∀ e, (sampleAny f l e).isSome = true
  | [], h, _ => by simp [possibleAny] at h
  | a :: l, h, e => by
    rw [possibleAny, Bool.or_eq_true] at h
    rw [sampleAny, Option.isSome_or, Bool.or_eq_true]
    exact h.imp (sample_isSome a · e) (sampleAny_isSome l · e)
end

end

end Mregex
