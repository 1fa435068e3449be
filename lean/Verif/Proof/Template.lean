import Verif.Spec.Template
import Verif.Proof.PathMethods
import Verif.Proof.GroupText
import Verif.Proof.Edges

/-!
# Templates
-/

namespace Mregex
open Ast Spec

section
variable {f : Flags} {s : List Byte}

/-- All characters from `p` to `p + n` have the property `P`. -/
def AllAt (s : List Byte) (P : Byte → Bool) (p n : Nat) : Prop := ∀ i, i < n → ∃ x : Byte, s[p + i]? = some x ∧ P x = true

theorem allAt_zero {P : Byte → Bool} {p : Nat} : AllAt s P p 0 := fun i h => absurd h (Nat.not_lt_zero _)

theorem allAt_succ {P : Byte → Bool} {p n : Nat} : AllAt s P p (n + 1) ↔ (∃ x : Byte, s[p]? = some x ∧ P x = true) ∧ AllAt s P (p + 1) n := by
  constructor
  · refine fun h => ⟨by simpa using h 0 (by omega), fun i hi => ?_⟩
    have := h (i + 1) (by omega)
    rwa [show p + (i + 1) = p + 1 + i by omega] at this
  · rintro ⟨h1, h2⟩ i hi
    cases i with
    | zero => simpa using h1
    | succ i =>
      have := h2 i (by omega)
      rwa [show p + 1 + i = p + (i + 1) by omega] at this

theorem allAt_add {P : Byte → Bool} {p n m : Nat} : AllAt s P p (n + m) ↔ AllAt s P p n ∧ AllAt s P (p + n) m := by
  constructor
  · refine fun h => ⟨fun i hi => h i (by omega), fun i hi => ?_⟩
    have := h (n + i) (by omega)
    rwa [← Nat.add_assoc] at this
  · rintro ⟨h1, h2⟩ i hi
    by_cases hn : i < n
    · exact h1 i hn
    · have := h2 (i - n) (by omega)
      rwa [show p + n + (i - n) = p + i by omega] at this

theorem allAt_le {P : Byte → Bool} {p n : Nat} (hp : p ≤ s.length) (h : AllAt s P p n) : p + n ≤ s.length := by
  cases n with
  | zero => exact hp
  | succ n =>
    obtain ⟨x, hx, _⟩ := h n (by omega)
    have := (List.getElem?_eq_some_iff.1 hx).1
    omega

theorem allAt_slice {P : Byte → Bool} {p n : Nat} (h : p + n ≤ s.length) : AllAt s P p n ↔ ∀ x ∈ (s.drop p).take n, P x = true := by
  constructor
  · intro ha x hx
    obtain ⟨i, hi, he⟩ := List.mem_iff_getElem.1 hx
    rw [List.length_take, List.length_drop] at hi
    obtain ⟨y, hy, hP⟩ := ha i (by omega)
    rw [List.getElem_take, List.getElem_drop] at he
    rw [List.getElem?_eq_getElem (by omega)] at hy
    cases hy
    rwa [← he]
  · intro ha i hi
    refine ⟨s[p + i]'(by omega), List.getElem?_eq_getElem _, ha _ (List.mem_iff_getElem.2 ⟨i, by simp only [List.length_take, List.length_drop]; omega, ?_⟩)⟩
    rw [List.getElem_take, List.getElem_drop]

/-! ### Repeated characters -/

section
variable {P : Byte → Bool}

theorem mem_char {p q : Nat} : q ∈ oneChar s true P p ↔ q = p + 1 ∧ ∃ x : Byte, s[p]? = some x ∧ P x = true := by
  rw [mem_oneChar]; simp [CharAt]

theorem char_cases (s : List Byte) (P : Byte → Bool) (p : Nat) :
    (oneChar s true P p = [p + 1] ∧ ∃ x : Byte, s[p]? = some x ∧ P x = true) ∨ (oneChar s true P p = [] ∧ ¬ ∃ x : Byte, s[p]? = some x ∧ P x = true) := by
  unfold oneChar readChar
  cases hs : s[p]? with
  | none => right; simp
  | some x =>
    cases hP : P x with
    | true => left; simp [hP]
    | false => right; simp [hP]

theorem mem_charExactly {k p q : Nat} : q ∈ exactly (oneChar s true P) k p ↔ q = p + k ∧ AllAt s P p k := by
  induction k generalizing p with
  | zero => simp only [exactly, List.mem_singleton, Nat.add_zero, allAt_zero, and_true]
  | succ k ih =>
    simp only [exactly, List.mem_flatMap, ih, mem_char, allAt_succ]
    constructor
    · rintro ⟨t, ⟨rfl, h1⟩, rfl, h2⟩
      exact ⟨by omega, h1, h2⟩
    · rintro ⟨rfl, h1, h2⟩
      exact ⟨p + 1, ⟨rfl, h1⟩, by omega, h2⟩

/-- Nothing to read at `q`. -/
def Halts (s : List Byte) (P : Byte → Bool) (q : Nat) : Prop := ¬ ∃ x : Byte, s[q]? = some x ∧ P x = true

theorem mem_upTo {k p q : Nat} (hq : Halts s P q) :
    (q ∈ greedyUpTo (oneChar s true P) k p ↔ ∃ n, n ≤ k ∧ q = p + n ∧ AllAt s P p n) ∧
    (q ∈ lazyUpTo (oneChar s true P) k p ↔ ∃ n, n ≤ k ∧ q = p + n ∧ AllAt s P p n) ∧
    (q ∈ possessiveUpTo (oneChar s true P) k p ↔ ∃ n, n ≤ k ∧ q = p + n ∧ AllAt s P p n) := by
  induction k generalizing p with
  | zero =>
    have : q = p ↔ ∃ n, n ≤ 0 ∧ q = p + n ∧ AllAt s P p n :=
      ⟨fun h => ⟨0, Nat.le_refl _, h, allAt_zero⟩, fun ⟨n, h1, h2, _⟩ => by omega⟩
    simp only [greedyUpTo, lazyUpTo, possessiveUpTo, List.mem_singleton]
    exact ⟨this, this, this⟩
  | succ k ih =>
    have key : (q = p ∨ ∃ t, (t = p + 1 ∧ ∃ x : Byte, s[p]? = some x ∧ P x = true) ∧ ∃ n, n ≤ k ∧ q = t + n ∧ AllAt s P t n) ↔
        ∃ n, n ≤ k + 1 ∧ q = p + n ∧ AllAt s P p n := by
      constructor
      · rintro (rfl | ⟨_, ⟨rfl, h1⟩, n, h2, h3, h4⟩)
        · exact ⟨0, by omega, rfl, allAt_zero⟩
        · exact ⟨n + 1, by omega, by omega, allAt_succ.2 ⟨h1, h4⟩⟩
      · rintro ⟨n, h1, h2, h3⟩
        cases n with
        | zero => exact .inl h2
        | succ n => exact .inr ⟨p + 1, ⟨rfl, (allAt_succ.1 h3).1⟩, n, by omega, by omega, (allAt_succ.1 h3).2⟩
    refine ⟨?_, ?_, ?_⟩
    · rw [← key]
      simp only [greedyUpTo, List.mem_append, List.mem_flatMap, mem_char, List.mem_singleton, (ih).1]
      exact or_comm
    · rw [← key]
      simp only [lazyUpTo, List.mem_append, List.mem_flatMap, mem_char, List.mem_singleton, (ih).2.1]
    · rw [← key]
      simp only [possessiveUpTo]
      rcases char_cases s P p with ⟨h1, h2⟩ | ⟨h1, h2⟩
      · simp only [h1, ih.2.2]
        constructor
        · exact fun h => .inr ⟨p + 1, ⟨rfl, h2⟩, h⟩
        · rintro (rfl | ⟨_, ⟨rfl, _⟩, h⟩)
          · exact absurd h2 hq
          · exact h
      · simp only [h1, List.mem_singleton]
        exact ⟨.inl, fun h => h.elim id fun ⟨t, ⟨_, h3⟩, _⟩ => absurd h3 h2⟩

theorem mem_star {k p q : Nat} (hk : s.length < p + k) (hp : p ≤ s.length) (hq : Halts s P q) :
    (q ∈ greedyStar (oneChar s true P) k p ↔ ∃ n, q = p + n ∧ AllAt s P p n) ∧
    (q ∈ lazyStar (oneChar s true P) k p ↔ ∃ n, q = p + n ∧ AllAt s P p n) ∧
    (q ∈ possessiveStar (oneChar s true P) k p ↔ ∃ n, q = p + n ∧ AllAt s P p n) := by
  induction k generalizing p with
  | zero => omega
  | succ k ih =>
    have key : (q = p ∨ ((∃ x : Byte, s[p]? = some x ∧ P x = true) ∧ ∃ n, q = p + 1 + n ∧ AllAt s P (p + 1) n)) ↔ ∃ n, q = p + n ∧ AllAt s P p n := by
      constructor
      · rintro (rfl | ⟨h1, n, h3, h4⟩)
        · exact ⟨0, rfl, allAt_zero⟩
        · exact ⟨n + 1, by omega, allAt_succ.2 ⟨h1, h4⟩⟩
      · rintro ⟨n, h2, h3⟩
        cases n with
        | zero => exact .inl h2
        | succ n => exact .inr ⟨(allAt_succ.1 h3).1, n, by omega, (allAt_succ.1 h3).2⟩
    rw [← key]
    rcases char_cases s P p with ⟨h1, h2⟩ | ⟨h1, h2⟩
    · have hp' : p + 1 ≤ s.length := by
        obtain ⟨x, hx, _⟩ := h2
        exact (List.getElem?_eq_some_iff.1 hx).1
      obtain ⟨i1, i2, i3⟩ := ih (p := p + 1) (by omega) hp'
      have hne : ([p + 1].filter (· ≠ p)) = [p + 1] := by simp
      simp only [greedyStar, lazyStar, possessiveStar, h1, hne, List.flatMap_cons, List.flatMap_nil, List.append_nil, List.mem_append, List.mem_singleton, h2, true_and,
        Nat.add_eq_left, Nat.succ_ne_zero, if_false, i1, i2, i3]
      refine ⟨or_comm, .inr, ?_⟩
      rintro (rfl | h)
      · exact absurd h2 hq
      · exact h
    · simp [greedyStar, lazyStar, possessiveStar, h1, h2]

theorem mem_charQuantified (m : Mode) (u : Bool) (lo : Nat) (hi : Bound) (hlo : ∀ h, hi = .fin h → lo ≤ h) {p q : Nat} (hp : p ≤ s.length) (hq : Halts s P q) :
    q ∈ quantified s.length m u lo hi (oneChar s true P) p ↔ ∃ n, lo ≤ n ∧ AtMost n hi ∧ q = p + n ∧ AllAt s P p n := by
  have hreq : ∀ t, t ∈ (match m with | .possessive => (exactly (oneChar s true P) lo p).take 1 | _ => exactly (oneChar s true P) lo p) ↔ t = p + lo ∧ AllAt s P p lo := by
    intro t
    have hone : ∀ k p, exactly (oneChar s true P) k p = [p + k] ∨ exactly (oneChar s true P) k p = [] := by
      intro k
      induction k with
      | zero => exact fun p => .inl rfl
      | succ k ih =>
        intro p
        rcases char_cases s P p with ⟨h1, _⟩ | ⟨h1, _⟩
        · simp only [exactly, h1, List.flatMap_cons, List.flatMap_nil, List.append_nil]
          rcases ih (p + 1) with h | h
          · rw [h, show p + 1 + k = p + (k + 1) by omega]; exact .inl rfl
          · exact .inr h
        · simp [exactly, h1]
    rw [← mem_charExactly]
    cases m
    · rfl
    · rfl
    · rcases hone lo p with h | h <;> simp [h]
  have hext : ∀ t, t ≤ s.length → (q ∈ extra s.length m u (oneChar s true P) (match (generalizing := false) hi with | .fin h => some (h - lo) | .inf => none) t ↔
      ∃ n, AtMost (lo + n) hi ∧ q = t + n ∧ AllAt s P t n) := by
    intro t ht
    cases hi with
    | fin h =>
      have hlo := hlo h rfl
      have h0 := mem_upTo (k := h - lo) (p := t) hq
      have h1 : (∃ n, n ≤ h - lo ∧ q = t + n ∧ AllAt s P t n) ↔ ∃ n, AtMost (lo + n) (.fin h) ∧ q = t + n ∧ AllAt s P t n := by
        simp only [AtMost]
        exact ⟨fun ⟨n, h1, h2⟩ => ⟨n, by omega, h2⟩, fun ⟨n, h1, h2⟩ => ⟨n, by omega, h2⟩⟩
      rw [h1] at h0
      cases m <;> cases u <;> first | exact h0.1 | exact h0.2.1 | exact h0.2.2
    | inf =>
      have h0 := mem_star (k := s.length + 1) (p := t) (by omega) ht hq
      simp only [AtMost, true_and]
      cases m <;> cases u <;> first | exact h0.1 | exact h0.2.1 | exact h0.2.2
  unfold quantified
  simp only [List.mem_flatMap]
  constructor
  · rintro ⟨t, h1, h2⟩
    obtain ⟨rfl, h3⟩ := (hreq t).1 h1
    obtain ⟨n, h4, h5, h6⟩ := (hext _ (allAt_le hp h3)).1 h2
    exact ⟨lo + n, by omega, h4, by omega, allAt_add.2 ⟨h3, h6⟩⟩
  · rintro ⟨n, h1, h2, h3, h4⟩
    obtain ⟨k, rfl⟩ : ∃ k, n = lo + k := ⟨n - lo, by omega⟩
    obtain ⟨h5, h6⟩ := allAt_add.1 h4
    exact ⟨p + lo, (hreq _).2 ⟨rfl, h5⟩, (hext _ (allAt_le hp h5)).2 ⟨k, h2, by omega, h6⟩⟩

end

/-! ### Contents -/

theorem mayContainAny_eq (l : List Ast) (x : Byte) : mayContainAny f l x = l.any (mayContain f · x) := by
  induction l with
  | nil => rfl
  | cons a l ih => simp [mayContainAny, ih]

theorem contains_of_matches {a : Ast} (hw : wf a = true) (hs : selfContained a = true) {i j : Nat} (h : Matches f s a i j) :
    ∀ t, i ≤ t → t < j → ∃ x : Byte, s[t]? = some x ∧ mayContain f a x = true := by
  have hchar : ∀ {a : Ast} {i j : Nat}, wf a = true → triv a = true → (∀ x, accepts f a x = true → mayContain f a x = true) → Matches f s a i j →
      ∀ t, i ≤ t → t < j → ∃ x : Byte, s[t]? = some x ∧ mayContain f a x = true := by
    intro a i j hw ht hm h t h1 h2
    obtain ⟨rfl, x, hx, ha⟩ := (matches_triv hw ht).1 h
    obtain rfl : t = i := by omega
    exact ⟨x, hx, hm x ha⟩
  induction a using ind generalizing i j with
  | empty => cases h; exact fun t h1 h2 => by omega
  | lit c => exact hchar hw rfl (fun _ h => h) h
  | range c d => exact hchar hw rfl (fun _ h => h) h
  | wildcard => exact hchar hw rfl (fun _ h => h) h
  | set l _ => exact hchar hw rfl (fun _ h => h) h
  | neg a ih =>
    simp only [selfContained] at hs
    exact hchar hw (by rw [← character_eq]; simp [character, selfContained_noAssert hs]) (fun _ h => h) h
  | seq l ih =>
    simp only [wf, wfAll_eq, Bool.and_eq_true, List.all_eq_true] at hw
    replace hw := hw.2
    simp only [selfContained] at hs
    replace hs := selfContained_all hs
    simp only [mayContain, mayContainAny_eq, List.any_eq_true]
    simp only [Matches] at h
    have key : ∀ l', (∀ b ∈ l', b ∈ l) → ∀ i, MatchesAll f s l' i j → ∀ t, i ≤ t → t < j → ∃ x : Byte, s[t]? = some x ∧ ∃ b ∈ l, mayContain f b x = true := by
      intro l'
      induction l' with
      | nil => intro _ i h t h1 h2; cases h; omega
      | cons a l' ihl =>
        intro hb i h t h1 h2
        obtain ⟨m, h3, h4⟩ := h
        by_cases ht : t < m
        · obtain ⟨x, h5, h6⟩ := ih a (hb a (by simp)) (hw a (hb a (by simp))) (hs a (hb a (by simp))) h3 t h1 ht
          exact ⟨x, h5, a, hb a (by simp), h6⟩
        · exact ihl (fun b h => hb b (List.mem_cons_of_mem _ h)) m h4 t (by omega) h2
    exact key l (fun _ h => h) i h
  | alt l ih =>
    simp only [wf, wfAll_eq, Bool.and_eq_true, List.all_eq_true] at hw
    simp only [selfContained] at hs
    replace hs := selfContained_all hs
    simp only [Matches, matchesAny_iff] at h
    obtain ⟨a, ha, h⟩ := h
    intro t h1 h2
    obtain ⟨x, h3, h4⟩ := ih a ha (hw.2 a ha) (hs a ha) h t h1 h2
    exact ⟨x, h3, by simp only [mayContain, mayContainAny_eq, List.any_eq_true]; exact ⟨a, ha, h4⟩⟩
  | cap id n a ih => simp only [wf] at hw; simp only [selfContained] at hs; exact ih hw hs h
  | rep m lo hi' a ih =>
    have hw2 : wf a = true := by
      cases hi' with
      | inf => simpa only [wf] using hw
      | fin b => simp only [wf, Bool.and_eq_true] at hw; exact hw.2
    simp only [selfContained] at hs
    obtain ⟨k, hk1, hk2, h3⟩ := h
    clear hk1 hk2
    intro t h1 h2
    induction k generalizing i with
    | zero => cases h3; omega
    | succ k ihk =>
      obtain ⟨m, h4, h5⟩ := h3
      by_cases ht : t < m
      · exact ih hw2 hs h4 t h1 ht
      · exact ihk h5 (by omega)
  | _ => cases hs

theorem wf_of_wf_rep {m : Mode} {lo : Nat} {hi : Bound} {a : Ast} (hw : wf (.rep m lo hi a) = true) : wf a = true ∧ ∀ h, hi = .fin h → lo ≤ h := by
  cases hi with
  | inf => simp only [wf] at hw; exact ⟨hw, by simp⟩
  | fin b =>
    simp only [wf, Bool.and_eq_true, decide_eq_true_eq] at hw
    exact ⟨hw.2, fun h e => by cases e; exact hw.1⟩

/-- The texts of a content do not contain what it avoids. -/
theorem holds_avoids {C : Content} (hw : wf C.ast = true) (hC : C.plain = true) {c : Byte} (ha : C.avoids f c) {v : List Byte} (hv : C.holds f v) :
    ∀ x ∈ v, accepts f (.lit c) x = false := by
  intro x hx
  cases hx' : accepts f (.lit c) x with
  | false => rfl
  | true =>
    cases C with
    | run m lo hi cls => have := ha x hx'; rw [hv.1 x hx] at this; cases this
    | text X =>
      simp only [Content.plain, Bool.and_eq_true] at hC
      obtain ⟨t, ht, rfl⟩ := List.mem_iff_getElem.1 hx
      obtain ⟨y, hy, h⟩ := contains_of_matches (s := v) hw hC.1.1 hv t (Nat.zero_le _) ht
      rw [List.getElem?_eq_getElem ht] at hy
      cases hy
      rw [show mayContain f (Content.text X).ast v[t] = false from ha _ hx'] at h
      cases h

/-- The field can end at `q`. -/
def StopsAt (f : Flags) (s : List Byte) (C : Content) (q : Nat) : Prop := q = s.length ∨ ∃ (c x : Byte), C.avoids f c ∧ s[q]? = some x ∧ accepts f (.lit c) x = true

theorem mem_content {C : Content} (hw : wf C.ast = true) (hC : C.plain = true) {p q : Nat} (hp : p ≤ s.length) (hq : StopsAt f s C q) :
    q ∈ ends f s C.ast true false p ↔ p ≤ q ∧ q ≤ s.length ∧ C.holds f ((s.drop p).take (q - p)) := by
  cases C with
  | run m lo hi cls =>
    simp only [Content.plain, Bool.and_eq_true] at hC
    obtain ⟨hw1, hw2⟩ := wf_of_wf_rep hw
    have hg : ∀ t, FEq (ends f s cls true false t) (oneChar s true (accepts f cls) t) :=
      fun t => ends_triv (by rw [← character_eq]; exact hC.1) f s true false t
    have hh : Halts s (accepts f cls) q := by
      rintro ⟨x, hx, ha⟩
      rcases hq with rfl | ⟨c, y, h1, h2, h3⟩
      · simp at hx
      · rw [h2] at hx; cases hx
        rw [h1 _ h3] at ha; cases ha
    simp only [Content.ast, ends]
    rw [(quantified_feq hg _ _ _ _ _ _).mem, mem_charQuantified m f.ungreedy lo hi hw2 hp hh]
    simp only [Content.holds]
    constructor
    · rintro ⟨n, h1, h2, rfl, h4⟩
      have hle := allAt_le hp h4
      have hlen : ((s.drop p).take n).length = n := by rw [List.length_take, List.length_drop]; omega
      rw [show p + n - p = n by omega, hlen]
      exact ⟨by omega, hle, (allAt_slice hle).1 h4, h1, h2⟩
    · rintro ⟨h1, h2, h3, h4, h5⟩
      have hlen : ((s.drop p).take (q - p)).length = q - p := by rw [List.length_take, List.length_drop]; omega
      rw [hlen] at h4 h5
      exact ⟨q - p, h4, h5, by omega, (allAt_slice (by omega)).2 h3⟩
  | text X =>
    simp only [Content.plain, Bool.and_eq_true] at hC
    simp only [Content.ast, Content.holds] at hw ⊢
    have hb := selfContained_noBackref hC.1.1
    have key := ends_iff (E := { inp := s, flags := f }) (fwd := true) (inv := false) (q := q) hw hb hC.1.2 (.inl ⟨rfl, rfl, selfContained_behindOk hC.1.1⟩) hp
    have hwin : p ≤ q → q ≤ s.length → (Matches f s X p q ↔ Matches f ((s.drop p).take (q - p)) X 0 ((s.drop p).take (q - p)).length) := by
      intro h1 h2
      have hlen : ((s.drop p).take (q - p)).length = q - p := by rw [List.length_take, List.length_drop]; omega
      have := matches_window (f := f) hC.1.1 (s := s) (s' := (s.drop p).take (q - p)) (i := p) (i' := 0) (n := q - p) (fun k hk => by
        rw [List.getElem?_take, if_pos (by omega), List.getElem?_drop]; simp)
      rwa [show p + (q - p) = q by omega, show 0 + (q - p) = ((s.drop p).take (q - p)).length by omega] at this
    constructor
    · intro h
      obtain ⟨h1, h2⟩ := ends_bounds hp h
      exact ⟨h1, h2, (hwin h1 h2).1 (key.1 h)⟩
    · rintro ⟨h1, h2, h3⟩
      exact key.2 ((hwin h1 h2).2 h3)

/-! ### Paths through a template -/

theorem paths_lits (u : List Byte) (l : List Ast) (p : Nat) (ev : List Event) (y : Place) :
    y ∈ pathsAll f s (u.map .lit ++ l) (p, ev) ↔
      beginsWith f.icase u (s.drop p) = true ∧ y ∈ pathsAll f s l (p + u.length, ev) := by
  induction u generalizing p with
  | nil => simp [beginsWith]
  | cons c u ih =>
    simp only [List.map_cons, List.cons_append, pathsAll, paths, ends, List.mem_flatMap, List.mem_map]
    have hd : s.drop p = match s[p]? with | none => [] | some x => x :: s.drop (p + 1) := by
      cases hx : s[p]? with
      | none => exact List.drop_eq_nil_of_le (List.getElem?_eq_none_iff.1 hx)
      | some x =>
        obtain ⟨h1, rfl⟩ := List.getElem?_eq_some_iff.1 hx
        exact List.drop_eq_getElem_cons h1
    constructor
    · rintro ⟨_, ⟨q, hq, rfl⟩, h⟩
      obtain ⟨rfl, x, hx, ha⟩ := mem_char.1 hq
      rw [ih] at h
      rw [hd, hx]
      simp only [beginsWith, Bool.and_eq_true]
      refine ⟨⟨by simpa [accepts] using ha, h.1⟩, ?_⟩
      rw [List.length_cons, show p + (u.length + 1) = p + 1 + u.length by omega]
      exact h.2
    · rintro ⟨h1, h2⟩
      rw [hd] at h1
      cases hx : s[p]? with
      | none => rw [hx] at h1; cases h1
      | some x =>
        rw [hx] at h1
        simp only [beginsWith, Bool.and_eq_true] at h1
        refine ⟨_, ⟨p + 1, mem_char.2 ⟨rfl, x, hx, by simpa [accepts] using h1.1⟩, rfl⟩, (ih (p + 1)).2 ⟨h1.2, ?_⟩⟩
        rw [List.length_cons, show p + (u.length + 1) = p + 1 + u.length by omega] at h2
        exact h2

/-- The groups that take part. -/
def fieldEvents : Nat → Nat → List Field → List (List Byte) → List Event
  | k, p, d :: l, v :: vs => (k, p + d.before.length, p + d.before.length + v.length) :: fieldEvents (k + 1) (p + d.before.length + v.length) l vs
  | _, _, _, _ => []

theorem filled_cons {d : Field} {l : List Field} {last : List Byte} {vs : List (List Byte)} {r : List Byte} (h : Filled f (d :: l) last vs r) :
    ∃ v vs', vs = v :: vs' ∧ ∃ u r', r = u ++ (v ++ r') ∧ SameText f.icase d.before u ∧ d.content.holds f v ∧ Filled f l last vs' r' := by
  cases vs with
  | nil => exact h.elim
  | cons v vs => exact ⟨v, vs, rfl, h⟩

/-- What follows a field. -/
theorem filled_following {l : List Field} {last : List Byte} {vs : List (List Byte)} {r : List Byte} (h : Filled f l last vs r) :
    match following l last with | [] => (l = [] → r = []) | c :: _ => ∃ x r', r = x :: r' ∧ accepts f (.lit c) x = true := by
  have hs : ∀ {u w r : List Byte}, SameText f.icase u w → match u with | [] => True | c :: _ => ∃ x r', w ++ r = x :: r' ∧ accepts f (.lit c) x = true := by
    intro u w r h
    cases u with
    | nil => trivial
    | cons c u =>
      cases w with
      | nil => exact h.elim
      | cons x w => exact ⟨x, w ++ r, rfl, (accepts_lit_iff ..).2 h.1⟩
  cases l with
  | nil =>
    simp only [following]
    cases vs with
    | cons => exact h.elim
    | nil =>
      have h : SameText f.icase last r := h
      have := hs (r := []) h
      cases last with
      | nil =>
        intro _
        cases r with
        | nil => rfl
        | cons => exact h.elim
      | cons c last => simpa using this
  | cons d l =>
    obtain ⟨v, vs', rfl, u, r', rfl, h1, _, _⟩ := filled_cons h
    have := hs (r := v ++ r') h1
    simp only [following]
    cases hb : d.before with
    | nil => intro h; cases h
    | cons c b => rw [hb] at this; exact this

theorem stops_of_filled {C : Content} {l : List Field} {last : List Byte} (hsep : match following l last with | [] => l = [] | c :: _ => C.avoids f c)
    {vs : List (List Byte)} {q : Nat} (hq : q ≤ s.length) (h : Filled f l last vs (s.drop q)) : StopsAt f s C q := by
  have := filled_following h
  cases hf : following l last with
  | nil =>
    rw [hf] at this hsep
    have := List.drop_eq_nil_iff.1 (this hsep)
    exact .inl (by omega)
  | cons c b =>
    rw [hf] at this hsep
    obtain ⟨x, r', h1, h2⟩ := this
    refine .inr ⟨c, x, hsep, ?_, h2⟩
    have := congrArg List.head? h1
    simpa [List.head?_drop] using this

theorem plain_closed {C : Content} (hw : wf C.ast = true) (h : C.plain = true) : groupIds C.ast = [] ∧ noBackref C.ast = true := by
  cases C with
  | run m lo hi cls =>
    simp only [Content.plain, Bool.and_eq_true, List.isEmpty_iff] at h
    exact ⟨h.2, (closed_of_triv (a := cls) (wf_of_wf_rep hw).1 (by rw [← character_eq]; exact h.1)).2⟩
  | text X =>
    simp only [Content.plain, Bool.and_eq_true, List.isEmpty_iff] at h
    exact ⟨h.2, selfContained_noBackref h.1.1⟩

theorem paths_template {l : List Field} {last : List Byte} (hw : ∀ d ∈ l, wf d.content.ast = true) (hsep : Separated f l last) (k p : Nat) (hp : p ≤ s.length)
    (ev : List Event) (y : Place) :
    (y ∈ pathsAll f s (templateParts k l last) (p, ev) ∧ y.1 = s.length) ↔ ∃ vs, Filled f l last vs (s.drop p) ∧ y = (s.length, ev ++ fieldEvents k p l vs) := by
  induction l generalizing k p ev y with
  | nil =>
    have := paths_lits (f := f) (s := s) last [] p ev y
    simp only [List.append_nil] at this
    simp only [templateParts, this, pathsAll, List.mem_singleton]
    rw [beginsWith_iff]
    constructor
    · rintro ⟨⟨h1, rfl⟩, h2⟩
      have h2 : p + last.length = s.length := h2
      refine ⟨[], ?_, by simp [fieldEvents, h2]⟩
      rwa [List.take_of_length_le (by rw [List.length_drop]; omega)] at h1
    · rintro ⟨vs, h1, rfl⟩
      cases vs with
      | cons => exact h1.elim
      | nil =>
        have h1 : SameText f.icase last (s.drop p) := h1
        have hl := sameText_length h1
        rw [List.length_drop] at hl
        refine ⟨⟨?_, by simp [fieldEvents]; omega⟩, rfl⟩
        rwa [List.take_of_length_le (by rw [List.length_drop]; omega)]
  | cons d l ih =>
    obtain ⟨h1, h2, h3⟩ := hsep
    have hwd := hw d (by simp)
    obtain ⟨hgi, hnb⟩ := plain_closed hwd h1
    have ih := fun k p hp ev y => ih (fun d hd => hw d (List.mem_cons_of_mem _ hd)) h3 k p hp ev y
    simp only [templateParts, paths_lits, pathsAll, paths, paths_closed hgi hnb, List.map_map, List.mem_flatMap, List.mem_map, Function.comp]
    constructor
    · rintro ⟨⟨h4, _, ⟨q, hq, rfl⟩, h5⟩, h6⟩
      rw [beginsWith_iff] at h4
      have hpl : p + d.before.length ≤ s.length := by
        have := sameText_length h4
        rw [List.length_take, List.length_drop] at this
        omega
      obtain ⟨hb1, hb2⟩ := ends_bounds hpl hq
      obtain ⟨vs, h7, rfl⟩ := (ih (k + 1) q hb2 _ _).1 ⟨h5, h6⟩
      obtain ⟨_, _, h8⟩ := (mem_content hwd h1 hpl (stops_of_filled h2 hb2 h7)).1 hq
      have hlen : ((s.drop (p + d.before.length)).take (q - (p + d.before.length))).length = q - (p + d.before.length) := by
        rw [List.length_take, List.length_drop]; omega
      refine ⟨(s.drop (p + d.before.length)).take (q - (p + d.before.length)) :: vs, ⟨(s.drop p).take d.before.length, s.drop q, ?_, h4, h8, h7⟩, ?_⟩
      · have e1 : (s.drop (p + d.before.length)).take (q - (p + d.before.length)) ++ s.drop q = s.drop (p + d.before.length) := by
          have := List.take_append_drop (q - (p + d.before.length)) (s.drop (p + d.before.length))
          rwa [List.drop_drop, show p + d.before.length + (q - (p + d.before.length)) = q by omega] at this
        rw [e1]
        have := List.take_append_drop d.before.length (s.drop p)
        rw [List.drop_drop] at this
        exact this.symm
      · simp only [fieldEvents, hlen, show p + d.before.length + (q - (p + d.before.length)) = q by omega, List.append_assoc, List.cons_append, List.nil_append]
    · rintro ⟨vs, h4, rfl⟩
      obtain ⟨v, vs', rfl, u, r', h5, h6, h7, h8⟩ := filled_cons h4
      have hul := sameText_length h6
      have hsl := congrArg List.length h5
      simp only [List.length_drop, List.length_append] at hsl
      have hpl : p + d.before.length ≤ s.length := by omega
      have hd1 : s.drop (p + d.before.length) = v ++ r' := by
        rw [← List.drop_drop, h5, hul, List.drop_left]
      have hd2 : s.drop (p + d.before.length + v.length) = r' := by
        rw [← List.drop_drop, hd1, List.drop_left]
      have hq : p + d.before.length + v.length ≤ s.length := by omega
      have h8' : Filled f l last vs' (s.drop (p + d.before.length + v.length)) := by rw [hd2]; exact h8
      have hmem : p + d.before.length + v.length ∈ ends f s d.content.ast true false (p + d.before.length) := by
        refine (mem_content hwd h1 hpl (stops_of_filled h2 hq h8')).2 ⟨by omega, hq, ?_⟩
        rw [hd1, show p + d.before.length + v.length - (p + d.before.length) = v.length by omega, List.take_left]
        exact h7
      have := (ih (k + 1) _ hq (ev ++ [(k, p + d.before.length, p + d.before.length + v.length)]) _).2 ⟨vs', h8', rfl⟩
      refine ⟨⟨?_, _, ⟨_, hmem, rfl⟩, ?_⟩, rfl⟩
      · rw [beginsWith_iff, h5, hul, List.take_left]; exact h6
      · simpa only [fieldEvents, List.append_assoc, List.cons_append, List.nil_append] using this.1

/-- The values are determined by the text. -/
theorem filled_unique {l : List Field} {last : List Byte} (hw : ∀ d ∈ l, wf d.content.ast = true) (hsep : Separated f l last) {vs vs' : List (List Byte)} {r : List Byte}
    (h : Filled f l last vs r) (h' : Filled f l last vs' r) : vs = vs' := by
  induction l generalizing vs vs' r with
  | nil =>
    cases vs with
    | cons => exact h.elim
    | nil => cases vs' with
      | cons => exact h'.elim
      | nil => rfl
  | cons d l ih =>
    obtain ⟨h1, h2, h3⟩ := hsep
    have hwd := hw d (by simp)
    obtain ⟨v, w, rfl, u, t, e, i1, i2, i3⟩ := filled_cons h
    obtain ⟨v', w', rfl, u', t', e', i1', i2', i3'⟩ := filled_cons h'
    rw [e] at e'
    obtain ⟨eu, e'⟩ := List.append_inj e' ((sameText_length i1).symm.trans (sameText_length i1'))
    have key : ∀ {v v' t t' : List Byte} {w : List (List Byte)}, v ++ t = v' ++ t' → d.content.holds f v' → Filled f l last w t → (t = [] ∧ t' = []) ∨ v'.length ≤ v.length := by
      intro v v' t t' w e hv' ht
      have hf := filled_following ht
      cases hfo : following l last with
      | nil =>
        rw [hfo] at hf h2
        have ht0 := hf h2
        subst ht0
        have := congrArg List.length e
        simp only [List.length_append, List.length_nil] at this
        exact .inr (by omega)
      | cons c b =>
        rw [hfo] at hf h2
        obtain ⟨x, t2, rfl, hx⟩ := hf
        refine .inr ?_
        by_cases hlt : v.length < v'.length
        · have hm : x ∈ v' := by
            have h9 := congrArg (·[v.length]?) e
            simp only [List.getElem?_append_right (Nat.le_refl _), Nat.sub_self, List.getElem?_cons_zero, List.getElem?_append_left hlt] at h9
            exact List.mem_of_getElem? h9.symm
          rw [holds_avoids hwd h1 h2 hv' x hm] at hx
          cases hx
        · omega
    have hlen : v.length = v'.length := by
      have := congrArg List.length e'
      simp only [List.length_append] at this
      rcases key e' i2' i3 with ⟨rfl, rfl⟩ | h9
      · simpa using this
      · rcases key e'.symm i2 i3' with ⟨rfl, rfl⟩ | h10
        · simpa using this
        · omega
    obtain ⟨rfl, rfl⟩ := List.append_inj e' hlen
    rw [ih (fun d hd => hw d (List.mem_cons_of_mem _ hd)) h3 i3 i3']

/-! ### The groups of a template -/

theorem groupIds_lits (u : List Byte) : groupIdsAll (u.map .lit) = [] := by
  induction u with
  | nil => rfl
  | cons c u ih => simp [groupIdsAll, groupIds, ih]

theorem groupIdsAll_append (l l' : List Ast) : groupIdsAll (l ++ l') = groupIdsAll l ++ groupIdsAll l' := by
  induction l with
  | nil => rfl
  | cons a l ih => simp [groupIdsAll, ih]

theorem visitedOnceAll_lits (k : Nat) (u : List Byte) (l : List Ast) : visitedOnceAll k (u.map .lit ++ l) = visitedOnceAll k l := by
  induction u with
  | nil => rfl
  | cons c u ih => simp [visitedOnceAll, visitedOnce, groupIds, ih]

theorem template_groups {l : List Field} {last : List Byte} (hw : ∀ d ∈ l, wf d.content.ast = true) (hl : ∀ d ∈ l, d.content.plain = true) (k : Nat) :
    groupIdsAll (templateParts k l last) = List.range' k l.length ∧ commitsClosedAll (templateParts k l last) = true ∧ noBackrefAll (templateParts k l last) = true ∧
      ∀ j, visitedOnceAll j (templateParts k l last) = true := by
  have hcl : ∀ (u : List Byte) (l : List Ast), commitsClosedAll (u.map .lit ++ l) = commitsClosedAll l ∧ noBackrefAll (u.map .lit ++ l) = noBackrefAll l := by
    intro u l
    induction u with
    | nil => exact ⟨rfl, rfl⟩
    | cons c u ih => simp [commitsClosedAll, commitsClosed, closed, groupIds, noBackref, noBackrefAll, ih]
  induction l generalizing k with
  | nil =>
    have h1 := hcl last []
    have h2 := fun j => visitedOnceAll_lits j last []
    simp only [List.append_nil] at h1 h2
    exact ⟨groupIds_lits last, h1.1, h1.2, h2⟩
  | cons d l ih =>
    obtain ⟨i1, i2, i3, i4⟩ := ih (fun d hd => hw d (List.mem_cons_of_mem _ hd)) (fun d hd => hl d (List.mem_cons_of_mem _ hd)) (k + 1)
    obtain ⟨hgi, hnb⟩ := plain_closed (hw d (by simp)) (hl d (by simp))
    refine ⟨?_, ?_, ?_, fun j => ?_⟩
    · simp only [templateParts, groupIdsAll_append, groupIds_lits, groupIdsAll, groupIds, hgi, i1, List.nil_append, List.length_cons, List.range'_succ, List.cons_append]
    · simp only [templateParts, (hcl _ _).1, commitsClosedAll, commitsClosed, commitsClosed_of_closed hgi hnb, i2, Bool.and_self]
    · simp only [templateParts, (hcl _ _).2, noBackrefAll, noBackref, hnb, i3, Bool.and_self]
    · simp only [templateParts, visitedOnceAll_lits, visitedOnceAll, visitedOnce, groupIds, hgi, i1, i4, visitedOnce_of_not_mem (k := j) (a := d.content.ast) (by simp [hgi]),
        List.contains_nil, Bool.not_false, Bool.or_true, Bool.and_true, Bool.true_and, List.contains_cons, Bool.or_false, Bool.or_eq_true, Bool.not_eq_true']
      by_cases hj : j = k
      · subst hj; right; simp; omega
      · left; simpa using hj

theorem held_fieldEvents {l : List Field} {vs : List (List Byte)} (hlen : vs.length = l.length) (k p j : Nat) :
    held (k + j) (fieldEvents k p l vs) = (spans p l vs)[j]? := by
  induction l generalizing k p j vs with
  | nil => simp [fieldEvents, spans, held]
  | cons d l ih =>
    cases vs with
    | nil => simp at hlen
    | cons v vs =>
      simp only [List.length_cons, Nat.add_right_cancel_iff] at hlen
      simp only [fieldEvents, spans, held]
      cases j with
      | zero =>
        have hno : ∀ (l : List Field) (vs : List (List Byte)) (k' p : Nat), k < k' → held k (fieldEvents k' p l vs) = none := by
          intro l
          induction l with
          | nil => intro vs k' p _; cases vs <;> rfl
          | cons d l ih =>
            intro vs k' p hk
            cases vs with
            | nil => rfl
            | cons v vs => simp only [fieldEvents, held, ih _ (k' + 1) _ (by omega), Option.none_or]; rw [if_neg (by omega)]
        simp [hno l vs (k + 1) _ (by omega)]
      | succ j =>
        have := ih hlen (k + 1) (p + d.before.length + v.length) j
        rw [show k + 1 + j = k + (j + 1) by omega] at this
        rw [this, if_neg (by omega)]
        simp

theorem filled_length {l : List Field} {last : List Byte} {vs : List (List Byte)} {r : List Byte} (h : Filled f l last vs r) : vs.length = l.length := by
  induction l generalizing vs r with
  | nil => cases vs with
    | nil => rfl
    | cons => exact h.elim
  | cons d l ih =>
    obtain ⟨v, vs', rfl, u, r', _, _, _, h⟩ := filled_cons h
    simp [ih h]

theorem length_spans {l : List Field} {vs : List (List Byte)} (hlen : vs.length = l.length) (p : Nat) : (spans p l vs).length = l.length := by
  induction l generalizing vs p with
  | nil => cases vs <;> rfl
  | cons d l ih =>
    cases vs with
    | nil => simp at hlen
    | cons v vs => simp only [List.length_cons, Nat.add_right_cancel_iff] at hlen; simp [spans, ih hlen]

end

end Mregex
