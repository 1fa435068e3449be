import Verif.Spec.Kleene
import Verif.Proof.Local

/-!
# `denote` and `Matches` describe the same texts
-/

namespace Mregex
open Ast Spec
open scoped Computability

variable {f : Flags}

theorem mem_oneOf {P : Byte → Prop} {w : List Byte} : w ∈ oneOf P ↔ w.length = 0 + 1 ∧ CharAt w 0 P := by
  constructor
  · rintro ⟨x, rfl, h⟩
    exact ⟨rfl, x, rfl, h⟩
  · rintro ⟨h, x, hx, hP⟩
    match w, h with
    | [y], _ =>
      have : y = x := by simpa using hx
      exact ⟨y, rfl, this ▸ hP⟩

/-- A stretch of a text on its own. -/
theorem matches_split {a : Ast} (hs : selfContained a = true) (u v : List Byte) :
    (Matches f (u ++ v) a 0 u.length ↔ Matches f u a 0 u.length) ∧
    (Matches f (u ++ v) a u.length (u ++ v).length ↔ Matches f v a 0 v.length) := by
  constructor
  · have := matches_window (f := f) hs (s := u ++ v) (s' := u) (i := 0) (i' := 0) (n := u.length) (fun k hk => by
      rw [List.getElem?_append_left (by omega)])
    simpa using this
  · have := matches_window (f := f) hs (s := u ++ v) (s' := v) (i := u.length) (i' := 0) (n := v.length) (fun k hk => by
      rw [List.getElem?_append_right (by omega)]; congr 1; omega)
    simpa using this

theorem mem_pow_iter {a : Ast} (hs : selfContained a = true) {L : Language Byte}
    (h : ∀ w, w ∈ L ↔ Matches f w a 0 w.length) (k : Nat) (w : List Byte) :
    w ∈ L ^ k ↔ Iter (Matches f w a) k 0 w.length := by
  -- the same relation on the rest of the text
  have hwin : ∀ (k : Nat) (u v : List Byte), Iter (Matches f (u ++ v) a) k u.length (u ++ v).length ↔ Iter (Matches f v a) k 0 v.length := by
    have key : ∀ (k : Nat) (u v : List Byte) (i j : Nat), j ≤ v.length →
        (Iter (Matches f (u ++ v) a) k (u.length + i) (u.length + j) ↔ Iter (Matches f v a) k i j) := by
      intro k u v
      have step : ∀ i t, t ≤ v.length → i ≤ t → (Matches f (u ++ v) a (u.length + i) (u.length + t) ↔ Matches f v a i t) := by
        intro i t ht hit
        have := matches_window (f := f) hs (s := u ++ v) (s' := v) (i := u.length + i) (i' := i) (n := t - i) (fun k hk => by
          rw [List.getElem?_append_right (by omega)]; congr 1; omega)
        rwa [show u.length + i + (t - i) = u.length + t by omega, show i + (t - i) = t by omega] at this
      induction k with
      | zero => intro i j _; simp only [Iter]; omega
      | succ k ih =>
        intro i j hj
        simp only [Iter]
        constructor
        · rintro ⟨t, h1, h2⟩
          have ht := matches_le h1
          have ht' := iter_le (fun _ _ => matches_le) h2
          obtain ⟨t', rfl⟩ : ∃ t', t = u.length + t' := ⟨t - u.length, by omega⟩
          exact ⟨t', (step i t' (by omega) (by omega)).1 h1, (ih t' j hj).1 h2⟩
        · rintro ⟨t, h1, h2⟩
          have ht := matches_le h1
          have ht' := iter_le (fun _ _ => matches_le) h2
          exact ⟨_, (step i t (by omega) (by omega)).2 h1, (ih t j hj).2 h2⟩
    intro k u v
    have := key k u v 0 v.length (Nat.le_refl _)
    simpa using this
  induction k generalizing w with
  | zero =>
    rw [pow_zero, Language.mem_one]
    simp only [Iter]
    exact ⟨fun h => by simp [h], fun h => List.length_eq_zero_iff.1 h.symm⟩
  | succ k ih =>
    rw [pow_succ', Language.mem_mul]
    simp only [Iter]
    constructor
    · rintro ⟨u, hu, v, hv, rfl⟩
      exact ⟨u.length, (matches_split hs u v).1.2 ((h u).1 hu), (hwin k u v).2 ((ih v).1 hv)⟩
    · rintro ⟨t, h1, h2⟩
      have ht := iter_le (fun _ _ => matches_le) h2
      have e : w.take t ++ w.drop t = w := List.take_append_drop t w
      have hl : (w.take t).length = t := by simp; omega
      refine ⟨w.take t, (h _).2 ?_, w.drop t, (ih _).2 ?_, e⟩
      · rw [← (matches_split hs (w.take t) (w.drop t)).1, e, hl]; exact h1
      · rw [← hwin k (w.take t) (w.drop t), e, hl]; exact h2

/-- Powers of `1 + L`. -/
theorem mem_one_add_pow {L : Language Byte} (n : Nat) (w : List Byte) : w ∈ (1 + L) ^ n ↔ ∃ k, k ≤ n ∧ w ∈ L ^ k := by
  induction n generalizing w with
  | zero =>
    constructor
    · intro h; exact ⟨0, Nat.le_refl _, h⟩
    · rintro ⟨k, hk, h⟩
      obtain rfl : k = 0 := by omega
      exact h
  | succ n ih =>
    rw [pow_succ', Language.mem_mul]
    constructor
    · rintro ⟨u, hu, v, hv, rfl⟩
      obtain ⟨k, hk, h⟩ := (ih v).1 hv
      rcases hu with hu | hu
      · rw [(Language.mem_one u).1 hu]
        exact ⟨k, by omega, h⟩
      · exact ⟨k + 1, by omega, by rw [pow_succ', Language.mem_mul]; exact ⟨u, hu, v, h, rfl⟩⟩
    · rintro ⟨k, hk, h⟩
      match k with
      | 0 => exact ⟨[], .inl rfl, w, (ih w).2 ⟨0, by omega, h⟩, rfl⟩
      | k + 1 =>
        rw [pow_succ', Language.mem_mul] at h
        obtain ⟨u, hu, v, hv, rfl⟩ := h
        exact ⟨u, .inr hu, v, (ih v).2 ⟨k, by omega, hv⟩, rfl⟩

theorem mem_denote {a : Ast} (hs : selfContained a = true) (w : List Byte) : w ∈ denote f a ↔ Matches f w a 0 w.length := by
  have hany : ∀ (l : List Ast), (∀ a ∈ l, ∀ w, w ∈ denote f a ↔ Matches f w a 0 w.length) → ∀ w,
      (w ∈ denoteAny f l ↔ MatchesAny f w l 0 w.length) := by
    intro l h w
    induction l with
    | nil => simp only [denoteAny, MatchesAny, Language.notMem_zero]
    | cons a l ih =>
      simp only [denoteAny, MatchesAny, Language.mem_add]
      rw [h a List.mem_cons_self w, ih (fun b hb => h b (List.mem_cons_of_mem _ hb))]
  induction a using ind generalizing w with
  | empty =>
    simp only [denote, Matches, Language.mem_one]
    exact ⟨fun h => by simp [h], fun h => List.length_eq_zero_iff.1 h.symm⟩
  | lit c => simp only [denote, Matches]; exact mem_oneOf
  | range a b => simp only [denote, Matches]; exact mem_oneOf
  | wildcard => simp only [denote, Matches]; exact mem_oneOf
  | set l ih =>
    simp only [selfContained] at hs
    simp only [denote, Matches, Language.mem_inf]
    rw [hany l (fun a ha w => ih a ha (selfContained_all hs a ha) w), mem_oneOf]
    refine and_congr_left fun _ => ⟨fun h => h.1, fun h => ⟨h, ?_⟩⟩
    match w, h with
    | [x], _ => exact ⟨x, rfl, trivial⟩
  | neg a ih =>
    simp only [denote, Matches, selfContained_noAssert (show selfContained a = true from hs)]
    have h := ih hs w
    simp only [Bool.false_eq_true, if_false]
    refine (and_congr mem_oneOf (not_congr h)).trans ?_
    constructor
    · rintro ⟨⟨h1, _⟩, h2⟩
      refine ⟨h1, by omega, ?_⟩
      rwa [h1] at h2
    · rintro ⟨h1, h2, h3⟩
      refine ⟨⟨h1, ?_⟩, by rwa [h1]⟩
      exact ⟨w[0], by simp [h2], trivial⟩
  | seq l ih =>
    simp only [selfContained] at hs
    simp only [denote, Matches]
    have hl := selfContained_all hs
    clear hs
    have key : ∀ (l : List Ast), (∀ a ∈ l, selfContained a = true) → (∀ a ∈ l, ∀ w, w ∈ denote f a ↔ Matches f w a 0 w.length) → ∀ u v,
        v ∈ denoteAll f l ↔ MatchesAll f (u ++ v) l u.length (u ++ v).length := by
      intro l hl h
      induction l with
      | nil =>
        intro u v
        simp only [denoteAll, MatchesAll, Language.mem_one, List.length_append]
        exact ⟨fun h => by simp [h], fun h => List.length_eq_zero_iff.1 (by omega)⟩
      | cons a l ihl =>
        intro u v
        have ihl := ihl (fun b hb => hl b (List.mem_cons_of_mem _ hb)) (fun b hb => h b (List.mem_cons_of_mem _ hb))
        have ha := hl a List.mem_cons_self
        simp only [denoteAll, MatchesAll, Language.mem_mul]
        -- the first part, from the end of `u`
        have hfirst : ∀ x y, Matches f (u ++ (x ++ y)) a u.length (u ++ x).length ↔ Matches f x a 0 x.length := by
          intro x y
          rw [← List.append_assoc]
          have := (matches_split (f := f) ha u x).2
          rw [← this]
          have := matches_window (f := f) ha (s := u ++ x ++ y) (s' := u ++ x) (i := u.length) (i' := u.length) (n := x.length) (fun k hk => by
            rw [List.getElem?_append_left (by rw [List.length_append]; omega)])
          simpa using this
        constructor
        · rintro ⟨x, hx, y, hy, rfl⟩
          refine ⟨(u ++ x).length, (hfirst x y).2 ((h a List.mem_cons_self x).1 hx), ?_⟩
          rw [← List.append_assoc]
          exact (ihl (u ++ x) y).1 hy
        · rintro ⟨t, h1, h2⟩
          have ht := matches_le h1
          have ht' : t ≤ (u ++ v).length := matches_le (a := .seq l) (by simpa only [Matches] using h2)
          rw [List.length_append] at ht'
          have e : v.take (t - u.length) ++ v.drop (t - u.length) = v := List.take_append_drop _ v
          have hl : (u ++ v.take (t - u.length)).length = t := by simp; omega
          refine ⟨_, (h a List.mem_cons_self _).2 ((hfirst _ (v.drop (t - u.length))).1 ?_), _, (ihl (u ++ v.take (t - u.length)) _).2 ?_, e⟩
          · rw [e, hl]; exact h1
          · rw [List.append_assoc, e, hl]; exact h2
    simpa using key l hl (fun a ha w => ih a ha (hl a ha) w) [] w
  | alt l ih =>
    simp only [selfContained] at hs
    simp only [denote, Matches]
    exact hany l (fun a ha w => ih a ha (selfContained_all hs a ha) w) w
  | cap id name a ih => simp only [denote, Matches]; exact ih hs w
  | rep m lo hi a ih =>
    have hs : selfContained a = true := hs
    have hpow := mem_pow_iter hs (fun w => ih hs w)
    cases hi with
    | inf =>
      simp only [denote, Matches, AtMost, true_and]
      rw [Language.kstar_eq_iSup_pow, Language.mul_iSup, Language.mem_iSup]
      constructor
      · rintro ⟨k, hk⟩
        rw [← pow_add] at hk
        exact ⟨lo + k, by omega, (hpow _ w).1 hk⟩
      · rintro ⟨k, h1, h2⟩
        refine ⟨k - lo, ?_⟩
        rw [← pow_add, show lo + (k - lo) = k by omega]
        exact (hpow k w).2 h2
    | fin hi =>
      simp only [denote, Matches, AtMost]
      split
      · next hle =>
        rw [Language.mem_mul]
        constructor
        · rintro ⟨u, hu, v, hv, rfl⟩
          obtain ⟨k, hk, hv⟩ := (mem_one_add_pow _ v).1 hv
          refine ⟨lo + k, by omega, by omega, (hpow _ _).1 ?_⟩
          rw [pow_add, Language.mem_mul]
          exact ⟨u, hu, v, hv, rfl⟩
        · rintro ⟨k, h1, h2, h3⟩
          have := (hpow k w).2 h3
          rw [show k = lo + (k - lo) by omega, pow_add, Language.mem_mul] at this
          obtain ⟨u, hu, v, hv, e⟩ := this
          exact ⟨u, hu, v, (mem_one_add_pow _ v).2 ⟨k - lo, by omega, hv⟩, e⟩
      · next hle =>
        simp only [Language.notMem_zero, false_iff]
        rintro ⟨k, h1, h2, _⟩
        omega
  | look d a => simp [selfContained] at hs
  | bol => simp [selfContained] at hs
  | boi => simp [selfContained] at hs
  | eol => simp [selfContained] at hs
  | eoi => simp [selfContained] at hs
  | wordB => simp [selfContained] at hs
  | backref id => simp [selfContained] at hs
  | namedBackref n => simp [selfContained] at hs

end Mregex
