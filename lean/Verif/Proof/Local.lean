import Verif.Spec.Local
import Verif.Proof.Sound

/-!
# Locality and mirroring
-/

namespace Mregex
open Ast Spec

theorem selfContainedAll_eq (l : List Ast) : selfContainedAll l = l.all selfContained := by
  induction l with
  | nil => rfl
  | cons a l ih => simp [selfContainedAll, ih]

theorem selfContained_all {l : List Ast} (h : selfContainedAll l = true) : ∀ a ∈ l, selfContained a = true := by
  simpa only [selfContainedAll_eq, List.all_eq_true] using h

theorem selfContained_noAssert {a : Ast} (h : selfContained a = true) : assertion a = false := by
  induction a using ind with
  | seq l ih =>
    simp only [selfContained] at h
    match l with
    | [] => rfl
    | [b] => simp only [assertion]; exact ih b (by simp) (selfContained_all h b (by simp))
    | _ :: _ :: _ => rfl
  | alt l ih =>
    simp only [selfContained] at h
    match l with
    | [] => rfl
    | [b] => simp only [assertion]; exact ih b (by simp) (selfContained_all h b (by simp))
    | _ :: _ :: _ => rfl
  | neg a ih => simp only [selfContained] at h; simpa only [assertion] using ih h
  | rep m lo hi a ih =>
    simp only [selfContained] at h
    unfold assertion
    split <;> simp_all
  | _ => first | rfl | simp [selfContained] at h

theorem selfContained_noBackref {a : Ast} (h : selfContained a = true) : noBackref a = true := by
  induction a using ind with
  | seq l ih | alt l ih | set l ih =>
    simp only [selfContained] at h
    simp only [noBackref, noBackrefAll_eq, List.all_eq_true]
    exact fun b hb => ih b hb (selfContained_all h b hb)
  | neg a ih | cap _ _ a ih | rep _ _ _ a ih => simp only [selfContained] at h; simpa only [noBackref] using ih h
  | _ => first | rfl | simp [selfContained] at h

theorem selfContained_behindOk {a : Ast} (h : selfContained a = true) : behindOk a = true := by
  induction a using ind with
  | seq l ih | alt l ih | set l ih =>
    simp only [selfContained] at h
    simp only [behindOk, behindOkAll_eq, List.all_eq_true]
    exact fun b hb => ih b hb (selfContained_all h b hb)
  | neg a ih | cap _ _ a ih | rep _ _ _ a ih => simp only [selfContained] at h; simpa only [behindOk] using ih h
  | _ => first | rfl | simp [selfContained] at h

section
variable {f : Flags} {s : List Byte}

theorem iter_le {R : Nat → Nat → Prop} (h : ∀ i j, R i j → i ≤ j) {k i j : Nat} (hk : Iter R k i j) : i ≤ j := by
  induction k generalizing i with
  | zero => exact Nat.le_of_eq hk
  | succ k ih => obtain ⟨t, h1, h2⟩ := hk; exact Nat.le_trans (h _ _ h1) (ih h2)

theorem matches_le {a : Ast} {i j : Nat} (h : Matches f s a i j) : i ≤ j := by
  induction a using ind generalizing i j with
  | seq l ih =>
    simp only [Matches] at h
    induction l generalizing i with
    | nil => exact Nat.le_of_eq h
    | cons a l ihl =>
      obtain ⟨t, h1, h2⟩ := h
      exact Nat.le_trans (ih a (by simp) h1) (ihl (fun b hb => ih b (by simp [hb])) h2)
  | alt l ih =>
    simp only [Matches, matchesAny_iff] at h
    obtain ⟨a, ha, h⟩ := h
    exact ih a ha h
  | rep m lo hi a ih =>
    obtain ⟨k, _, _, h⟩ := h
    exact iter_le (fun i j => ih) h
  | cap id n a ih => exact ih h
  | neg a ih => simp only [Matches] at h; split at h <;> omega
  | look d a ih => cases d <;> simp only [Matches] at h <;> omega
  | _ => simp only [Matches] at h; omega

/-- A match in one text is one in any other text with the same characters there. -/
theorem matches_window {a : Ast} (hs : selfContained a = true) {s s' : List Byte} {i i' n : Nat}
    (h : ∀ k < n, s[i + k]? = s'[i' + k]?) : Matches f s a i (i + n) ↔ Matches f s' a i' (i' + n) := by
  have hchar : ∀ {i i' n : Nat} {s s' : List Byte} {P : Byte → Prop}, (∀ k < n, s[i + k]? = s'[i' + k]?) →
      i + n = i + 1 → CharAt s i P → CharAt s' i' P := by
    intro i i' n s s' P h hn hc
    obtain ⟨x, hx, hP⟩ := hc
    have := h 0 (by omega)
    exact ⟨x, by simpa [hx] using this.symm, hP⟩
  suffices H : ∀ (s s' : List Byte) (i i' n : Nat), (∀ k < n, s[i + k]? = s'[i' + k]?) → Matches f s a i (i + n) →
      Matches f s' a i' (i' + n) from ⟨H _ _ _ _ _ h, H _ _ _ _ _ (fun k hk => (h k hk).symm)⟩
  clear h
  induction a using ind with
  | empty => intro s s' i i' n h hm; simp only [Matches] at hm ⊢; omega
  | lit c | range a b | wildcard =>
    intro s s' i i' n h hm
    simp only [Matches] at hm ⊢
    exact ⟨by omega, hchar h hm.1 hm.2⟩
  | set l ih =>
    intro s s' i i' n h hm
    simp only [selfContained] at hs
    simp only [Matches, matchesAny_iff] at hm ⊢
    obtain ⟨h1, a, ha, h2⟩ := hm
    exact ⟨by omega, a, ha, ih a ha (selfContained_all hs a ha) _ _ _ _ _ h h2⟩
  | neg a ih =>
    intro s s' i i' n h hm
    simp only [selfContained] at hs
    simp only [Matches, selfContained_noAssert hs, Bool.false_eq_true, if_false] at hm ⊢
    obtain ⟨h1, h2, h3⟩ := hm
    have hn : n = 1 := by omega
    subst hn
    refine ⟨rfl, ?_, fun hm => h3 (ih hs s' s i' i 1 (fun k hk => (h k hk).symm) hm)⟩
    have := h 0 (by omega)
    simp only [Nat.add_zero] at this
    rw [List.getElem?_eq_getElem h2] at this
    exact (List.getElem?_eq_some_iff.1 this.symm).1
  | seq l ih =>
    simp only [selfContained] at hs
    simp only [Matches]
    induction l with
    | nil => intro s s' i i' n h hm; simp only [MatchesAll] at hm ⊢; omega
    | cons a l ihl =>
      intro s s' i i' n h hm
      have hs' := selfContained_all hs
      simp only [selfContainedAll, Bool.and_eq_true] at hs
      obtain ⟨t, h1, h2⟩ := hm
      have hit := matches_le h1
      have htj := matches_le (a := .seq l) (by simpa only [Matches] using h2)
      obtain ⟨d, rfl⟩ : ∃ d, t = i + d := ⟨t - i, by omega⟩
      obtain ⟨e, rfl⟩ : ∃ e, n = d + e := ⟨n - d, by omega⟩
      refine ⟨i' + d, ih a (by simp) (hs' a (by simp)) s s' i i' d (fun k hk => h k (by omega)) h1, ?_⟩
      have := ihl (fun b hb => ih b (by simp [hb])) hs.2 s s' (i + d) (i' + d) e
        (fun k hk => by rw [Nat.add_assoc, Nat.add_assoc]; exact h (d + k) (by omega))
        (by rw [Nat.add_assoc]; exact h2)
      rwa [Nat.add_assoc] at this
  | alt l ih =>
    intro s s' i i' n h hm
    simp only [selfContained] at hs
    simp only [Matches, matchesAny_iff] at hm ⊢
    obtain ⟨a, ha, h2⟩ := hm
    exact ⟨a, ha, ih a ha (selfContained_all hs a ha) _ _ _ _ _ h h2⟩
  | cap id nm a ih => simp only [selfContained] at hs; simpa only [Matches] using ih hs
  | rep m lo hi a ih =>
    intro s s' i i' n h hm
    simp only [selfContained] at hs
    obtain ⟨k, h1, h2, h3⟩ := hm
    refine ⟨k, h1, h2, ?_⟩
    clear h1 h2
    induction k generalizing i i' n with
    | zero => simp only [Iter] at h3 ⊢; omega
    | succ k ihk =>
      obtain ⟨t, h1, h2⟩ := h3
      have hit := matches_le h1
      have htj := iter_le (fun _ _ => matches_le) h2
      obtain ⟨d, rfl⟩ : ∃ d, t = i + d := ⟨t - i, by omega⟩
      obtain ⟨e, rfl⟩ : ∃ e, n = d + e := ⟨n - d, by omega⟩
      refine ⟨i' + d, ih hs s s' i i' d (fun k hk => h k (by omega)) h1, ?_⟩
      have := ihk (i + d) (i' + d) e (fun k hk => by rw [Nat.add_assoc, Nat.add_assoc]; exact h (d + k) (by omega))
        (by rw [Nat.add_assoc]; exact h2)
      rwa [Nat.add_assoc] at this
  | _ => simp [selfContained] at hs

/-! ### Mirroring -/

theorem invert_invert {a : Ast} : invert (invert a) = a := by
  induction a using ind with
  | seq l ih =>
    simp only [invert, invertAll_eq, List.map_reverse, List.map_map, List.reverse_reverse]
    congr 1
    conv => rhs; rw [← List.map_id l]
    exact List.map_congr_left (fun a ha => ih a ha)
  | alt l ih | set l ih =>
    simp only [invert, invertAll_eq, List.map_map]
    congr 1
    conv => rhs; rw [← List.map_id l]
    exact List.map_congr_left (fun a ha => ih a ha)
  | look d a ih => cases d <;> simp [invert]
  | neg a ih | cap _ _ a ih | rep _ _ _ a ih => simp only [invert, ih]
  | _ => simp only [invert]

theorem noPossessive_invert (a : Ast) : noPossessive (invert a) = noPossessive a := by
  induction a using ind with
  | seq l ih =>
    rw [Bool.eq_iff_iff]
    simp only [invert, noPossessive, noPossessiveAll_eq, invertAll_eq, List.all_eq_true, List.mem_reverse, List.mem_map]
    constructor
    · intro h b hb; rw [← ih b hb]; exact h _ ⟨b, hb, rfl⟩
    · rintro h _ ⟨b, hb, rfl⟩; rw [ih b hb]; exact h b hb
  | alt l ih | set l ih =>
    rw [Bool.eq_iff_iff]
    simp only [invert, noPossessive, noPossessiveAll_eq, invertAll_eq, List.all_eq_true, List.mem_map]
    constructor
    · intro h b hb; rw [← ih b hb]; exact h _ ⟨b, hb, rfl⟩
    · rintro h _ ⟨b, hb, rfl⟩; rw [ih b hb]; exact h b hb
  | rep m lo hi a ih => cases m <;> simp only [invert, noPossessive, ih]
  | cap id n a ih => simpa only [invert, noPossessive] using ih
  | neg a ih => simpa only [invert, noPossessive] using ih
  | look d a ih => cases d <;> simp only [invert, noPossessive]
  | _ => simp only [invert]

theorem selfContained_invert (a : Ast) : selfContained (invert a) = selfContained a := by
  induction a using ind with
  | seq l ih =>
    rw [Bool.eq_iff_iff]
    simp only [invert, selfContained, selfContainedAll_eq, invertAll_eq, List.all_eq_true, List.mem_reverse, List.mem_map]
    constructor
    · intro h b hb; rw [← ih b hb]; exact h _ ⟨b, hb, rfl⟩
    · rintro h _ ⟨b, hb, rfl⟩; rw [ih b hb]; exact h b hb
  | alt l ih | set l ih =>
    rw [Bool.eq_iff_iff]
    simp only [invert, selfContained, selfContainedAll_eq, invertAll_eq, List.all_eq_true, List.mem_map]
    constructor
    · intro h b hb; rw [← ih b hb]; exact h _ ⟨b, hb, rfl⟩
    · rintro h _ ⟨b, hb, rfl⟩; rw [ih b hb]; exact h b hb
  | rep m lo hi a ih => simpa only [invert, selfContained] using ih
  | cap id n a ih => simpa only [invert, selfContained] using ih
  | neg a ih => simpa only [invert, selfContained] using ih
  | look d a ih => cases d <;> simp only [invert, selfContained]
  | _ => simp only [invert]

theorem assertion_invert (a : Ast) : assertion (invert a) = assertion a := by
  rw [assertion_eq, assertion_eq, isAssertion_invert]

theorem matchesAll_snoc {l : List Ast} {a : Ast} {i j : Nat} :
    MatchesAll f s (l ++ [a]) i j ↔ ∃ t, MatchesAll f s l i t ∧ Matches f s a t j := by
  induction l generalizing i with
  | nil => simp [MatchesAll]
  | cons b l ih =>
    simp only [List.cons_append, MatchesAll, ih]
    constructor
    · rintro ⟨t, h1, u, h2, h3⟩; exact ⟨u, ⟨t, h1, h2⟩, h3⟩
    · rintro ⟨u, ⟨t, h1, h2⟩, h3⟩; exact ⟨t, h1, u, h2, h3⟩

theorem iter_mirror {R R' : Nat → Nat → Prop} {n : Nat} (hle : ∀ i j, R i j → i ≤ j)
    (h : ∀ i j i' j', i + j' = n → j + i' = n → R i j → R' i' j') {k i j i' j' : Nat} (h1 : i + j' = n) (h2 : j + i' = n)
    (hi : Iter R k i j) : Iter R' k i' j' := by
  induction k generalizing i j' with
  | zero => simp only [Iter] at hi ⊢; omega
  | succ k ih =>
    obtain ⟨t, h3, h4⟩ := hi
    have := iter_le hle h4
    have h5 := ih (i := t) (j' := n - t) (by omega) h4
    exact pow_iter.2 ((pow_iter.1 h5).snoc (h i t (n - t) j' h1 (by omega) h3))

theorem reverse_get {i j : Nat} (h : i + j + 1 = s.length) : s.reverse[i]? = s[j]? := by
  rw [List.getElem?_reverse (by omega)]
  congr 1
  omega

theorem charAt_mirror {P : Byte → Prop} {i i' : Nat} (h : i + i' + 1 = s.length) : CharAt s.reverse i P ↔ CharAt s i' P := by
  unfold CharAt
  rw [reverse_get h]

theorem matches_mirror {a : Ast} (hs : selfContained a = true) {i j i' j' : Nat} (h1 : i + j' = s.length)
    (h2 : j + i' = s.length) : Matches f s.reverse (invert a) i j ↔ Matches f s a i' j' := by
  have hchar : ∀ {P : Byte → Prop} {i j i' j' : Nat}, i + j' = s.length → j + i' = s.length →
      ((j = i + 1 ∧ CharAt s.reverse i P) ↔ (j' = i' + 1 ∧ CharAt s i' P)) := by
    intro P i j i' j' h1 h2
    constructor
    · rintro ⟨h, hc⟩
      exact ⟨by omega, (charAt_mirror (by omega)).1 hc⟩
    · rintro ⟨h, hc⟩
      exact ⟨by omega, (charAt_mirror (by omega)).2 hc⟩
  induction a using ind generalizing i j i' j' with
  | empty => simp only [invert, Matches]; omega
  | lit c | range a b | wildcard => simp only [invert, Matches]; exact hchar h1 h2
  | set l ih =>
    simp only [selfContained] at hs
    simp only [invert, invertAll_eq, Matches, matchesAny_iff, List.mem_map]
    constructor
    · rintro ⟨h3, b, ⟨a, ha, rfl⟩, h4⟩
      exact ⟨by omega, a, ha, (ih a ha (selfContained_all hs a ha) h1 h2).1 h4⟩
    · rintro ⟨h3, a, ha, h4⟩
      exact ⟨by omega, _, ⟨a, ha, rfl⟩, (ih a ha (selfContained_all hs a ha) h1 h2).2 h4⟩
  | neg a ih =>
    simp only [selfContained] at hs
    simp only [invert, Matches, assertion_invert, selfContained_noAssert hs, Bool.false_eq_true, if_false, List.length_reverse]
    constructor
    · rintro ⟨h3, h4, h5⟩
      refine ⟨by omega, by omega, fun h6 => h5 ((ih hs (by omega) (by omega)).2 h6)⟩
    · rintro ⟨h3, h4, h5⟩
      refine ⟨by omega, by omega, fun h6 => h5 ((ih hs (by omega) (by omega)).1 h6)⟩
  | seq l ih =>
    simp only [selfContained] at hs
    simp only [invert, invertAll_eq, Matches]
    induction l generalizing j i' with
    | nil => simp only [List.map_nil, List.reverse_nil, MatchesAll]; omega
    | cons a l ihl =>
      have hs' := selfContained_all hs
      simp only [selfContainedAll, Bool.and_eq_true] at hs
      have ihl := fun {j i' : Nat} (h : j + i' = s.length) => ihl (j := j) (i' := i') (fun b hb => ih b (by simp [hb])) hs.2 h
      simp only [List.map_cons, List.reverse_cons, matchesAll_snoc, MatchesAll]
      constructor
      · rintro ⟨t, h3, h4⟩
        have := matches_le h4
        exact ⟨s.length - t, (ih a (by simp) (hs' a (by simp)) (by omega) h2).1 h4, (ihl (by omega)).1 h3⟩
      · rintro ⟨t, h3, h4⟩
        have := matches_le (a := .seq l) (by simpa only [Matches] using h4)
        exact ⟨s.length - t, (ihl (by omega)).2 h4, (ih a (by simp) (hs' a (by simp)) (by omega) h2).2 h3⟩
  | alt l ih =>
    simp only [selfContained] at hs
    simp only [invert, invertAll_eq, Matches, matchesAny_iff, List.mem_map]
    constructor
    · rintro ⟨b, ⟨a, ha, rfl⟩, h4⟩
      exact ⟨a, ha, (ih a ha (selfContained_all hs a ha) h1 h2).1 h4⟩
    · rintro ⟨a, ha, h4⟩
      exact ⟨_, ⟨a, ha, rfl⟩, (ih a ha (selfContained_all hs a ha) h1 h2).2 h4⟩
  | cap id nm a ih => simp only [selfContained] at hs; simpa only [invert, Matches] using ih hs h1 h2
  | rep m lo hi a ih =>
    simp only [selfContained] at hs
    simp only [invert, Matches]
    constructor
    · rintro ⟨k, h3, h4, h5⟩
      exact ⟨k, h3, h4, iter_mirror (fun _ _ => matches_le) (fun i j i' j' h1 h2 => (ih hs h1 h2).1) h1 h2 h5⟩
    · rintro ⟨k, h3, h4, h5⟩
      exact ⟨k, h3, h4, iter_mirror (n := s.length) (fun _ _ => matches_le)
        (fun i j i' j' h1 h2 => (ih hs (by omega) (by omega)).2) (by omega) (by omega) h5⟩
  | _ => simp [selfContained] at hs

end

/-! ### The text before a match -/

section
variable {d m : Nat} {g g' : Nat → List Nat}

theorem flatMap_shift {l : List Nat} {G G' : Nat → List Nat} (h : ∀ q ∈ l, G (d + q) = (G' q).map (d + ·)) :
    (l.map (d + ·)).flatMap G = (l.flatMap G').map (d + ·) := by
  rw [List.flatMap_map, List.map_flatMap]
  exact flatMap_congr' h

theorem filter_shift (l : List Nat) (p : Nat) : (l.map (d + ·)).filter (· ≠ d + p) = (l.filter (· ≠ p)).map (d + ·) := by
  rw [List.filter_map]
  congr 1
  apply List.filter_congr
  intro q _
  simp

variable (hg : ∀ p, p ≤ m → g (d + p) = (g' p).map (d + ·)) (hin : ∀ p q, p ≤ m → q ∈ g' p → q ≤ m)
include hg hin

theorem exactly_shift (k : Nat) : ∀ p, p ≤ m → exactly g k (d + p) = (exactly g' k p).map (d + ·) := by
  induction k with
  | zero => intro p _; rfl
  | succ k ih =>
    intro p hp
    simp only [exactly, hg p hp]
    exact flatMap_shift (fun q hq => ih q (hin p q hp hq))

theorem greedyUpTo_shift (k : Nat) : ∀ p, p ≤ m → greedyUpTo g k (d + p) = (greedyUpTo g' k p).map (d + ·) := by
  induction k with
  | zero => intro p _; rfl
  | succ k ih =>
    intro p hp
    simp only [greedyUpTo, hg p hp, List.map_append, List.map_cons, List.map_nil]
    rw [flatMap_shift (fun q hq => ih q (hin p q hp hq))]

theorem lazyUpTo_shift (k : Nat) : ∀ p, p ≤ m → lazyUpTo g k (d + p) = (lazyUpTo g' k p).map (d + ·) := by
  induction k with
  | zero => intro p _; rfl
  | succ k ih =>
    intro p hp
    simp only [lazyUpTo, hg p hp, List.map_append, List.map_cons, List.map_nil]
    rw [flatMap_shift (fun q hq => ih q (hin p q hp hq))]

theorem greedyStar_shift (k : Nat) : ∀ p, p ≤ m → greedyStar g k (d + p) = (greedyStar g' k p).map (d + ·) := by
  induction k with
  | zero => intro p _; rfl
  | succ k ih =>
    intro p hp
    simp only [greedyStar, hg p hp, List.map_append, List.map_cons, List.map_nil]
    rw [filter_shift, flatMap_shift (fun q hq => ih q (hin p q hp (List.mem_filter.1 hq).1))]

theorem lazyStar_shift (k : Nat) : ∀ p, p ≤ m → lazyStar g k (d + p) = (lazyStar g' k p).map (d + ·) := by
  induction k with
  | zero => intro p _; rfl
  | succ k ih =>
    intro p hp
    simp only [lazyStar, hg p hp, List.map_append, List.map_cons, List.map_nil]
    rw [filter_shift, flatMap_shift (fun q hq => ih q (hin p q hp (List.mem_filter.1 hq).1))]

theorem possessiveUpTo_shift (k : Nat) : ∀ p, p ≤ m → possessiveUpTo g k (d + p) = (possessiveUpTo g' k p).map (d + ·) := by
  induction k with
  | zero => intro p _; rfl
  | succ k ih =>
    intro p hp
    unfold possessiveUpTo
    rw [hg p hp]
    match hgp : g' p with
    | [] => simp
    | q :: _ => exact ih q (hin p q hp (by simp [hgp]))

theorem possessiveStar_shift (k : Nat) : ∀ p, p ≤ m → possessiveStar g k (d + p) = (possessiveStar g' k p).map (d + ·) := by
  induction k with
  | zero => intro p _; rfl
  | succ k ih =>
    intro p hp
    unfold possessiveStar
    rw [hg p hp]
    match hgp : g' p with
    | [] => simp
    | q :: _ =>
      simp only [List.map_cons, Nat.add_left_cancel_iff]
      split
      · rfl
      · exact ih q (hin p q hp (by simp [hgp]))

end

theorem quantified_shift {u w : List Byte} {f : Flags} {g g' : Nat → List Nat}
    (hg : ∀ p, p ≤ w.length → g (u.length + p) = (g' p).map (u.length + ·))
    (hin : Inside { inp := u ++ w, flags := f } 0 g) (hin' : Inside { inp := w, flags := f } 0 g') (mode : Mode) (un : Bool) (lo : Nat)
    (hi : Bound) (p : Nat) (hp : p ≤ w.length) :
    quantified (u ++ w).length mode un lo hi g (u.length + p) = (quantified w.length mode un lo hi g' p).map (u.length + ·) := by
  have hle : ∀ p q, p ≤ w.length → q ∈ g' p → q ≤ w.length := by
    intro p q hp hq
    exact (hin' p q hp hq).right_le
  have hle2 : ∀ q ∈ exactly g' lo p, q ≤ w.length := by
    intro q hq
    exact (hin'.exactly lo p q hp hq).right_le
  have hextra : ∀ o q, q ≤ w.length → extra (u ++ w).length mode un g o (u.length + q) = (extra w.length mode un g' o q).map (u.length + ·) := by
    intro o q hq
    have hq' : u.length + q ≤ (u ++ w).length := by rw [List.length_append]; omega
    have hr := Env.remaining_le (E := { inp := u ++ w, flags := f }) (r := 0) hq'
    have hr2 : ({ inp := u ++ w, flags := f } : Env).remaining 0 (u.length + q) < w.length + 1 := by
      simp only [Env.remaining, List.length_append]
      simp
      omega
    dsimp only at hr
    cases o with
    | some k =>
      unfold extra
      cases mode <;> cases un <;> dsimp only <;>
        first
          | exact possessiveUpTo_shift hg hle k q hq
          | exact greedyUpTo_shift hg hle k q hq
          | exact lazyUpTo_shift hg hle k q hq
    | none =>
      unfold extra
      cases mode <;> cases un <;> dsimp only
      · rw [greedyStar_rounds hin _ (w.length + 1) hq' (by omega) hr2]
        exact greedyStar_shift hg hle _ q hq
      · rw [lazyStar_rounds hin _ (w.length + 1) hq' (by omega) hr2]
        exact lazyStar_shift hg hle _ q hq
      · rw [lazyStar_rounds hin _ (w.length + 1) hq' (by omega) hr2]
        exact lazyStar_shift hg hle _ q hq
      · rw [greedyStar_rounds hin _ (w.length + 1) hq' (by omega) hr2]
        exact greedyStar_shift hg hle _ q hq
      · rw [possStar_rounds hin _ (w.length + 1) hq' (by omega) hr2]
        exact possessiveStar_shift hg hle _ q hq
      · rw [possStar_rounds hin _ (w.length + 1) hq' (by omega) hr2]
        exact possessiveStar_shift hg hle _ q hq
  unfold quantified
  dsimp only
  rw [exactly_shift hg hle lo p hp]
  cases mode with
  | possessive =>
    dsimp only
    rw [← List.map_take]
    exact flatMap_shift (fun q hq => hextra _ q (hle2 q (List.mem_of_mem_take hq)))
  | _ => exact flatMap_shift (fun q hq => hextra _ q (hle2 q hq))

theorem ends_shift {f : Flags} {a : Ast} (hs : selfContained a = true) (u w : List Byte) (p : Nat) (hp : p ≤ w.length) :
    ends f (u ++ w) a true false (u.length + p) = (ends f w a true false p).map (u.length + ·) := by
  have hchar : ∀ P : Byte → Bool, ∀ p, oneChar (u ++ w) true P (u.length + p) = (oneChar w true P p).map (u.length + ·) := by
    intro P p
    simp only [oneChar, readChar, if_true]
    rw [List.getElem?_append_right (by omega), show u.length + p - u.length = p by omega]
    match w[p]? with
    | none => rfl
    | some x =>
      simp only [Option.map_some]
      cases P x <;> simp [Nat.add_assoc]
  induction a using ind generalizing p with
  | empty => simp [ends]
  | lit c | range a b | wildcard | set l _ => simp only [ends]; exact hchar _ _
  | neg a ih =>
    simp only [selfContained] at hs
    simp only [ends, selfContained_noAssert hs, Bool.false_eq_true, if_false]
    exact hchar _ _
  | seq l ih =>
    simp only [selfContained] at hs
    simp only [ends]
    induction l generalizing p with
    | nil => simp [endsAll]
    | cons a l ihl =>
      have hs' := selfContained_all hs
      simp only [selfContainedAll, Bool.and_eq_true] at hs
      simp only [endsAll, Bool.false_eq_true, if_false]
      rw [ih a (by simp) (hs' a (by simp)) p hp]
      refine flatMap_shift (fun q hq => ihl (fun b hb => ih b (by simp [hb])) hs.2 q ?_)
      exact (ends_inside (E := { inp := w, flags := f }) (r := 0) rfl a false p q hp hq).right_le
  | alt l ih =>
    simp only [selfContained] at hs
    simp only [ends]
    induction l with
    | nil => simp [endsAny]
    | cons a l ihl =>
      have hs' := selfContained_all hs
      simp only [selfContainedAll, Bool.and_eq_true] at hs
      simp only [endsAny, List.map_append]
      rw [ih a (by simp) (hs' a (by simp)) p hp, ihl (fun b hb => ih b (by simp [hb])) hs.2]
  | cap id nm a ih => simp only [selfContained] at hs; simpa only [ends] using ih hs p hp
  | rep m lo hi a ih =>
    simp only [selfContained] at hs
    simp only [ends]
    exact quantified_shift (f := f) (fun p hp => ih hs p hp) (ends_inside rfl a false) (ends_inside rfl a false) _ _ _ _ _ hp
  | _ => simp [selfContained] at hs

end Mregex
