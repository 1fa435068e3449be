import Verif.Spec.Words
import Verif.Proof.Template
import Verif.Props.Generators

/-!
# Runs of characters
-/

namespace Mregex
open Ast Spec

section
variable {f : Flags} {s : List Byte} {P : Byte → Bool}

theorem stretch_unique {P : Byte → Prop} {i j i' j' : Nat} (h : Stretch P s i j) (h' : Stretch P s i' j') (h1 : i ≤ i') (h2 : i' < j) : i = i' ∧ j = j' := by
  obtain ⟨a1, a2, a3, a4⟩ := h
  obtain ⟨b1, b2, b3, b4⟩ := h'
  have hi : i = i' := by
    rcases Nat.lt_or_ge i i' with hlt | hge
    · exact absurd ⟨i' - 1, by omega, a2 _ (by omega) (by omega)⟩ b3
    · omega
  subst hi
  rcases Nat.lt_trichotomy j j' with hlt | rfl | hgt
  · exact absurd (b2 j (by omega) hlt) a4
  · exact ⟨rfl, rfl⟩
  · exact absurd (a2 j' (by omega) hgt) b4

/-- A stretch from `i` on. -/
def RestOf (P : Byte → Prop) (s : List Byte) (i j : Nat) : Prop := i < j ∧ (∀ t, i ≤ t → t < j → CharAt s t P) ∧ ¬ CharAt s j P

theorem restOf_unique {P : Byte → Prop} {i j j' : Nat} (h : RestOf P s i j) (h' : RestOf P s i j') : j = j' := by
  obtain ⟨a1, a2, a3⟩ := h
  obtain ⟨b1, b2, b3⟩ := h'
  rcases Nat.lt_trichotomy j j' with h | h | h
  · exact absurd (b2 j (by omega) h) a3
  · exact h
  · exact absurd (a2 j' (by omega) h) b3

theorem restOf_exists {P : Byte → Prop} {i : Nat} (h : CharAt s i P) : ∃ j, RestOf P s i j := by
  have hlen : ∀ {i}, CharAt s i P → i < s.length := fun ⟨x, hx, _⟩ => (List.getElem?_eq_some_iff.1 hx).1
  have hi := hlen h
  obtain ⟨n, hn⟩ : ∃ n, s.length - i = n := ⟨_, rfl⟩
  induction n generalizing i with
  | zero => omega
  | succ n ih =>
    by_cases h' : CharAt s (i + 1) P
    · obtain ⟨j, h1, h2, h3⟩ := ih h' (hlen h') (by omega)
      refine ⟨j, by omega, fun t ht1 ht2 => ?_, h3⟩
      rcases Nat.lt_or_eq_of_le ht1 with h4 | rfl
      · exact h2 t h4 ht2
      · exact h
    · refine ⟨i + 1, by omega, fun t ht1 ht2 => ?_, h'⟩
      obtain rfl : t = i := by omega
      exact h

/-- Where attempts find the rest of a run, the search finds whole runs. -/
theorem finds_left {P : Byte → Prop} {first : Nat → Option Nat} (hf : ∀ i j, i ≤ s.length → (first i = some j ↔ RestOf P s i j))
    {p : Nat} {l : List (Nat × Nat)} (h : Finds s.length first p l) (hp : ¬ CharBefore s p P ∨ ¬ CharAt s p P) :
    ∀ x ∈ l, Stretch P s x.1 x.2 := by
  induction h with
  | none => intro x hx; cases hx
  | @empty p i h1 h2 h3 h4 => exact absurd ((hf _ _ h2).1 h3).1 (Nat.lt_irrefl _)
  | @cons p i j l h1 h2 h3 h4 h5 h6 ih =>
    obtain ⟨a1, a2, a3⟩ := (hf i j (by omega)).1 h4
    intro x hx
    rcases List.mem_cons.1 hx with rfl | hx
    · refine ⟨a1, a2, ?_, a3⟩
      rintro ⟨k, rfl, hk⟩
      rcases Nat.lt_or_ge k p with hlt | hge
      · obtain rfl : p = k + 1 := by omega
        rcases hp with hp | hp
        · exact hp ⟨k, rfl, hk⟩
        · exact hp (a2 _ (Nat.le_refl _) a1)
      · obtain ⟨j', hj'⟩ := restOf_exists hk
        have := (hf k j' (by omega)).2 hj'
        rw [h5 k hge (by omega)] at this
        cases this
    · exact ih (.inr a3) x hx

theorem finds_order {n : Nat} {first : Nat → Option Nat} {p : Nat} {l : List (Nat × Nat)} (h : Finds n first p l) (hl : ∀ x ∈ l, x.1 < x.2) :
    (∀ x ∈ l, p ≤ x.1) ∧ l.Pairwise (fun x y => x.2 ≤ y.1) := by
  induction h with
  | none => exact ⟨fun x hx => (by cases hx), .nil⟩
  | @empty p i => exact absurd (hl (i, i) (by simp)) (Nat.lt_irrefl _)
  | @cons p i j l h1 h2 h3 h4 h5 h6 ih =>
    obtain ⟨i1, i2⟩ := ih (fun x hx => hl x (List.mem_cons_of_mem _ hx))
    refine ⟨fun x hx => ?_, List.pairwise_cons.2 ⟨fun x hx => i1 x hx, i2⟩⟩
    rcases List.mem_cons.1 hx with rfl | hx
    · exact h1
    · have := i1 x hx; omega

/-- If all that is found are runs, and all runs in question are found where they start, then the search lists them. -/
theorem enumerates_of_finds {P : Byte → Prop} {Q : Nat → Nat → Prop} {first : Nat → Option Nat} {l : List (Nat × Nat)} (h : Finds s.length first 0 l)
    (hl : ∀ x ∈ l, Q x.1 x.2) (hQ : ∀ i j, Q i j → Stretch P s i j) (hs : ∀ i j, Q i j → first i ≠ none) : Enumerates Q l := by
  refine ⟨fun i j => ⟨fun hx => hl _ hx, fun hq => ?_⟩, ?_⟩
  · have hr := hQ i j hq
    have hi : i ≤ s.length := by
      obtain ⟨x, hx, _⟩ := hr.2.1 i (Nat.le_refl _) hr.1
      have := (List.getElem?_eq_some_iff.1 hx).1
      omega
    obtain ⟨⟨i', j'⟩, hx, h1, h2⟩ := finds_all h (fun x hx => Nat.ne_of_lt (hQ _ _ (hl x hx)).1) i (Nat.zero_le _) hi (hs i j hq)
    obtain ⟨rfl, rfl⟩ := stretch_unique (hQ _ _ (hl _ hx)) hr h1 h2
    exact hx
  · refine (finds_order h fun x hx => (hQ _ _ (hl x hx)).1).2.imp_of_mem fun {x y} hx hy hxy => ?_
    rcases Nat.lt_or_eq_of_le hxy with h1 | h1
    · exact h1
    · have h2 := hQ _ _ (hl x hx)
      have h3 := hQ _ _ (hl y hy)
      exact absurd (h1 ▸ h3.2.1 y.1 (Nat.le_refl _) h3.1) h2.2.2.2

theorem stretches_of_finds {P : Byte → Prop} {first : Nat → Option Nat} {l : List (Nat × Nat)} (h : Finds s.length first 0 l)
    (hf : ∀ i j, i ≤ s.length → (first i = some j ↔ RestOf P s i j)) : Enumerates (Stretch P s) l := by
  refine enumerates_of_finds h (finds_left hf h (.inl fun ⟨k, hk, _⟩ => by omega)) (fun _ _ h => h) fun i j hij hn => ?_
  have hi : i ≤ s.length := by
    obtain ⟨x, hx, _⟩ := hij.2.1 i (Nat.le_refl _) hij.1
    exact Nat.le_of_lt (List.getElem?_eq_some_iff.1 hx).1
  have := (hf i j hi).2 ⟨hij.1, hij.2.1, hij.2.2.2⟩
  rw [hn] at this
  cases this

theorem head_of_single {l : List Nat} {Q : Nat → Prop} (hm : ∀ j, j ∈ l ↔ Q j) (hu : ∀ j j', Q j → Q j' → j = j') (j : Nat) : l.head? = some j ↔ Q j := by
  constructor
  · exact fun h => (hm j).1 (List.mem_of_head? h)
  · intro h
    cases l with
    | nil => exact absurd ((hm j).2 h) (by simp)
    | cons a l => simp [hu _ _ ((hm a).1 (by simp)) h]

theorem allAt_chars {p q : Nat} (hpq : p ≤ q) : AllAt s P p (q - p) ↔ ∀ t, p ≤ t → t < q → CharAt s t (fun x => P x = true) := by
  constructor
  · intro h t h1 h2
    have := h (t - p) (by omega)
    rwa [show p + (t - p) = t by omega] at this
  · intro h i hi
    exact h (p + i) (by omega) (by omega)

/-- Where a class is repeated up to a position that does not have it. -/
theorem mem_run {m : Mode} {lo : Nat} {hi : Bound} {cls : Ast} (hw : wf (.rep m lo hi cls) = true) (hc : character cls = true) {p q : Nat} (hp : p ≤ s.length)
    (hq : ¬ CharAt s q (fun x => accepts f cls x = true)) :
    q ∈ ends f s (.rep m lo hi cls) true false p ↔ p ≤ q ∧ lo ≤ q - p ∧ AtMost (q - p) hi ∧ ∀ t, p ≤ t → t < q → CharAt s t (fun x => accepts f cls x = true) := by
  obtain ⟨hw1, hw2⟩ := wf_of_wf_rep hw
  have hg : ∀ t, FEq (ends f s cls true false t) (oneChar s true (accepts f cls) t) := fun t => ends_triv (by rw [← character_eq]; exact hc) f s true false t
  simp only [ends]
  rw [(quantified_feq hg _ _ _ _ _ _).mem, mem_charQuantified m f.ungreedy lo hi hw2 hp hq]
  constructor
  · rintro ⟨n, h1, h2, rfl, h4⟩
    have h5 : AllAt s (accepts f cls) p (p + n - p) := by rwa [show p + n - p = n by omega]
    rw [show p + n - p = n by omega]
    exact ⟨by omega, h1, h2, (allAt_chars (by omega)).1 h5⟩
  · rintro ⟨h1, h2, h3, h4⟩
    exact ⟨q - p, h2, h3, by omega, (allAt_chars h1).2 h4⟩

theorem ends_char_isEmpty {cls : Ast} (hc : character cls = true) (fwd : Bool) {inv : Bool} (p : Nat) :
    (ends f s cls fwd inv p).isEmpty = true ↔ ¬ (if fwd then CharAt s p (fun x => accepts f cls x = true) else CharBefore s p (fun x => accepts f cls x = true)) := by
  rw [(ends_triv (by rw [← character_eq]; exact hc) f s fwd inv p).isEmpty]
  rw [List.isEmpty_iff, List.eq_nil_iff_forall_not_mem]
  simp only [mem_oneChar]
  cases fwd with
  | true => exact ⟨fun h hc => h (p + 1) ⟨rfl, hc⟩, fun h q hq => h hq.2⟩
  | false => exact ⟨fun h ⟨k, h1, h2⟩ => h k ⟨h1, h2⟩, fun h q hq => h ⟨q, hq.1, hq.2⟩⟩

/-- No character of the class follows. -/
theorem mem_notAhead {cls : Ast} (hc : character cls = true) (p q : Nat) :
    q ∈ ends f s (.neg (.look .ahead cls)) true false p ↔ q = p ∧ ¬ CharAt s p (fun x => accepts f cls x = true) := by
  have := ends_char_isEmpty (f := f) (s := s) hc true (inv := false) p
  simp only [if_true] at this
  cases he : (ends f s cls true false p).isEmpty <;> simp_all [ends, assertion, test]

/-- No character of the class precedes. -/
theorem mem_notBehind {cls : Ast} (hc : character cls = true) (p q : Nat) :
    q ∈ ends f s (.neg (.look .behind cls)) true false p ↔ q = p ∧ ¬ CharBefore s p (fun x => accepts f cls x = true) := by
  have := ends_char_isEmpty (f := f) (s := s) hc false (inv := true) p
  simp only [Bool.false_eq_true, if_false] at this
  cases he : (ends f s cls false true p).isEmpty <;> simp_all [ends, assertion, test]

theorem mem_wordB (p q : Nat) : q ∈ ends f s .wordB true false p ↔ q = p ∧ ¬ (CharBefore s p WordChar ↔ CharAt s p WordChar) := by
  rw [← charBefore_iff isWordAt_iff, ← isWordAt_iff]
  simp only [ends, test]
  cases before (isWordAt s) p <;> cases isWordAt s p <;> simp

/-- A class at the end of a stretch, with any quantifier. -/
theorem mem_tail {m : Mode} {lo : Nat} {hi : Bound} {cls : Ast} (hw : wf (.rep m lo hi cls) = true) (hc : character cls = true) {p q : Nat} (hp : p ≤ s.length) :
    q ∈ endsAll f s [.rep m lo hi cls, .neg (.look .ahead cls)] true false p ↔
      (p ≤ q ∧ lo ≤ q - p ∧ AtMost (q - p) hi ∧ ∀ t, p ≤ t → t < q → CharAt s t (fun x => accepts f cls x = true)) ∧ ¬ CharAt s q (fun x => accepts f cls x = true) := by
  simp only [endsAll, Bool.false_eq_true, if_false, List.mem_flatMap, List.mem_singleton, mem_notAhead hc]
  constructor
  · rintro ⟨t, h1, _, ⟨rfl, h2⟩, rfl⟩
    exact ⟨(mem_run hw hc hp h2).1 h1, h2⟩
  · rintro ⟨h1, h2⟩
    exact ⟨q, (mem_run hw hc hp h2).2 h1, q, ⟨rfl, h2⟩, rfl⟩

/-- The attempts of a greedy or possessive repetition read on as far as they can. -/
theorem star_head {k p : Nat} (hk : s.length < p + k) (hp : p ≤ s.length) :
    ∃ n, (greedyStar (oneChar s true P) k p).head? = some (p + n) ∧ (possessiveStar (oneChar s true P) k p).head? = some (p + n) ∧ AllAt s P p n ∧ Halts s P (p + n) := by
  induction k generalizing p with
  | zero => omega
  | succ k ih =>
    rcases char_cases s P p with ⟨h1, h2⟩ | ⟨h1, h2⟩
    · have hp' : p + 1 ≤ s.length := by
        obtain ⟨x, hx, _⟩ := h2
        exact (List.getElem?_eq_some_iff.1 hx).1
      obtain ⟨n, i1, i2, i3, i4⟩ := ih (p := p + 1) (by omega) hp'
      have hne : ([p + 1].filter (· ≠ p)) = [p + 1] := by simp
      refine ⟨n + 1, ?_, ?_, allAt_succ.2 ⟨h2, i3⟩, by rwa [show p + (n + 1) = p + 1 + n by omega]⟩
      · simp only [greedyStar, h1, hne, List.flatMap_cons, List.flatMap_nil, List.append_nil, List.head?_append, i1, Option.some_or]
        congr 1; omega
      · simp only [possessiveStar, h1, Nat.add_eq_left, Nat.succ_ne_zero, if_false, i2]
        congr 1; omega
    · exact ⟨0, by simp [greedyStar, h1], by simp [possessiveStar, h1], allAt_zero, h2⟩

/-- More are preferred. -/
def eager (f : Flags) : Mode → Bool
  | .greedy => !f.ungreedy
  | .lazy => f.ungreedy
  | .possessive => true

theorem head_eager {m : Mode} {cls : Ast} (hc : character cls = true) (hm : eager f m = true) {p j : Nat} (hp : p ≤ s.length) :
    (ends f s (.rep m 1 .inf cls) true false p).head? = some j ↔
      RestOf (fun x => accepts f cls x = true) s p j := by
  have hg : ∀ t, FEq (ends f s cls true false t) (oneChar s true (accepts f cls) t) := fun t => ends_triv (by rw [← character_eq]; exact hc) f s true false t
  simp only [ends]
  rw [(quantified_feq hg _ _ _ _ _ _).head?]
  have hq : quantified s.length m f.ungreedy 1 .inf (oneChar s true (accepts f cls)) p =
      (oneChar s true (accepts f cls) p).flatMap (extra s.length m f.ungreedy (oneChar s true (accepts f cls)) none) := by
    rcases char_cases s (accepts f cls) p with ⟨h1, _⟩ | ⟨h1, _⟩ <;> cases m <;> simp [quantified, exactly, h1]
  rw [hq]
  rcases char_cases s (accepts f cls) p with ⟨h1, h2⟩ | ⟨h1, h2⟩
  · have hp' : p + 1 ≤ s.length := by
      obtain ⟨x, hx, _⟩ := h2
      exact (List.getElem?_eq_some_iff.1 hx).1
    obtain ⟨n, i1, i2, i3, i4⟩ := star_head (P := accepts f cls) (k := s.length + 1) (p := p + 1) (by omega) hp'
    have h3 : (extra s.length m f.ungreedy (oneChar s true (accepts f cls)) none (p + 1)).head? = some (p + 1 + n) := by
      cases m <;> cases hf : f.ungreedy <;> first | (simp [eager, hf] at hm; done) | exact i1 | exact i2
    have h4 : RestOf (fun x => accepts f cls x = true) s p (p + 1 + n) := by
      refine ⟨by omega, ?_, i4⟩
      have : AllAt s (accepts f cls) p (p + 1 + n - p) := by
        rw [show p + 1 + n - p = n + 1 by omega]; exact allAt_succ.2 ⟨h2, i3⟩
      exact (allAt_chars (by omega)).1 this
    simp only [h1, List.flatMap_cons, List.flatMap_nil, List.append_nil, h3, Option.some.injEq]
    exact ⟨fun e => e ▸ h4, fun h => restOf_unique h4 h⟩
  · simp only [h1, List.flatMap_nil, List.head?_nil]
    exact ⟨fun h => (by cases h), fun h => absurd (h.2.1 p (Nat.le_refl _) h.1) h2⟩

/-- Whatever is repeated has been read. -/
theorem sub_extra (m : Mode) (u : Bool) (k : Option Nat) {p q : Nat} (h : q ∈ extra s.length m u (oneChar s true P) k p) : ∃ n, q = p + n ∧ AllAt s P p n := by
  have h0 : ∀ {p q : Nat}, q = p → ∃ n, q = p + n ∧ AllAt s P p n := fun h => ⟨0, h, allAt_zero⟩
  have h1 : ∀ {p q : Nat}, (∃ x : Byte, s[p]? = some x ∧ P x = true) → (∃ n, q = p + 1 + n ∧ AllAt s P (p + 1) n) → ∃ n, q = p + n ∧ AllAt s P p n :=
    fun h ⟨n, e, h'⟩ => ⟨n + 1, by omega, allAt_succ.2 ⟨h, h'⟩⟩
  have hup : ∀ k p, (q ∈ greedyUpTo (oneChar s true P) k p ∨ q ∈ lazyUpTo (oneChar s true P) k p ∨ q ∈ possessiveUpTo (oneChar s true P) k p) → ∃ n, q = p + n ∧ AllAt s P p n := by
    intro k
    induction k with
    | zero => intro p h; simp only [greedyUpTo, lazyUpTo, possessiveUpTo, List.mem_singleton, or_self] at h; exact h0 h
    | succ k ih =>
      intro p h
      rcases char_cases s P p with ⟨h2, h3⟩ | ⟨h2, h3⟩
      · simp only [greedyUpTo, lazyUpTo, possessiveUpTo, h2, List.flatMap_cons, List.flatMap_nil, List.append_nil, List.mem_append, List.mem_singleton] at h
        rcases h with (h | h) | (h | h) | h
        · exact h1 h3 (ih _ (.inl h))
        · exact h0 h
        · exact h0 h
        · exact h1 h3 (ih _ (.inr (.inl h)))
        · exact h1 h3 (ih _ (.inr (.inr h)))
      · simp only [greedyUpTo, lazyUpTo, possessiveUpTo, h2, List.flatMap_nil, List.nil_append, List.append_nil, List.mem_singleton, or_self] at h
        exact h0 h
  have hst : ∀ k p, (q ∈ greedyStar (oneChar s true P) k p ∨ q ∈ lazyStar (oneChar s true P) k p ∨ q ∈ possessiveStar (oneChar s true P) k p) → ∃ n, q = p + n ∧ AllAt s P p n := by
    intro k
    induction k with
    | zero => intro p h; simp [greedyStar, lazyStar, possessiveStar] at h
    | succ k ih =>
      intro p h
      rcases char_cases s P p with ⟨h2, h3⟩ | ⟨h2, h3⟩
      · have hne : ([p + 1].filter (· ≠ p)) = [p + 1] := by simp
        simp only [greedyStar, lazyStar, possessiveStar, h2, hne, Nat.add_eq_left, Nat.succ_ne_zero, if_false, List.flatMap_cons, List.flatMap_nil, List.append_nil,
          List.mem_append, List.mem_singleton] at h
        rcases h with (h | h) | (h | h) | h
        · exact h1 h3 (ih _ (.inl h))
        · exact h0 h
        · exact h0 h
        · exact h1 h3 (ih _ (.inr (.inl h)))
        · exact h1 h3 (ih _ (.inr (.inr h)))
      · simp only [greedyStar, lazyStar, possessiveStar, h2, List.filter_nil, List.flatMap_nil, List.nil_append, List.append_nil, List.mem_singleton, or_self] at h
        exact h0 h
  cases k with
  | some k =>
    refine hup k p ?_
    cases m <;> cases u <;> first | exact .inl h | exact .inr (.inl h) | exact .inr (.inr h)
  | none =>
    refine hst (s.length + 1) p ?_
    cases m <;> cases u <;> first | exact .inl h | exact .inr (.inl h) | exact .inr (.inr h)

theorem sub_run {m : Mode} {lo : Nat} {hi : Bound} {cls : Ast} (hc : character cls = true) {p q : Nat} (h : q ∈ ends f s (.rep m lo hi cls) true false p) :
    p + lo ≤ q ∧ ∀ t, p ≤ t → t < q → CharAt s t (fun x => accepts f cls x = true) := by
  have hg : ∀ t, FEq (ends f s cls true false t) (oneChar s true (accepts f cls) t) := fun t => ends_triv (by rw [← character_eq]; exact hc) f s true false t
  simp only [ends] at h
  rw [(quantified_feq hg _ _ _ _ _ _).mem] at h
  unfold quantified at h
  simp only [List.mem_flatMap] at h
  obtain ⟨t, h1, h2⟩ := h
  have h1 : t ∈ exactly (oneChar s true (accepts f cls)) lo p := by
    cases m
    · exact h1
    · exact h1
    · exact List.mem_of_mem_take h1
  obtain ⟨rfl, h3⟩ := mem_charExactly.1 h1
  obtain ⟨n, rfl, h4⟩ := sub_extra _ _ _ h2
  refine ⟨by omega, (allAt_chars (by omega)).1 ?_⟩
  rw [show p + lo + n - p = lo + n by omega]
  exact allAt_add.2 ⟨h3, h4⟩

end

end Mregex
