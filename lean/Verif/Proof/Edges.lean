import Verif.Spec.Edges
import Verif.Proof.Derives

/-!
# What a match begins with, ends with and contains
-/

namespace Mregex
open Ast Spec

theorem loosenAll_eq (l : List Ast) : loosenAll l = l.map loosen := by
  induction l with
  | nil => rfl
  | cons a l ih => simp [loosenAll, ih]

theorem mem_allBytes (x : Byte) : x ∈ allBytes :=
  List.mem_map.2 ⟨x.toNat, List.mem_range.2 x.isLt, by simp⟩

section
variable {f : Flags} {s : List Byte}

theorem edges_stay {a : Ast} {i : Nat} (hi : i ≤ s.length) (h1 : shortest a = 0) (h2 : ∀ P, needs f P a = false) : Edges f a s i i :=
  ⟨by omega, hi, fun h => absurd h (Nat.lt_irrefl _), fun h => absurd h (Nat.lt_irrefl _), fun P h => by rw [h2] at h; cases h⟩

theorem edges_char {a : Ast} {i j : Nat} (h : j = i + 1 ∧ ∃ x : Byte, s[i]? = some x ∧ accepts f a x = true) (h1 : shortest a = 1)
    (h2 : ∀ x, accepts f a x = true → starts f a x = true ∧ finishes f a x = true)
    (h3 : ∀ P, needs f P a = true → allBytes.all (fun x => !accepts f a x || P x) = true) : Edges f a s i j := by
  obtain ⟨rfl, x, hx, ha⟩ := h
  refine ⟨by omega, (List.getElem?_eq_some_iff.1 hx).1, fun _ => ⟨x, hx, (h2 x ha).1⟩, fun _ => ⟨x, hx, (h2 x ha).2⟩, fun P hP => ⟨i, x, Nat.le_refl _, by omega, hx, ?_⟩⟩
  have := List.all_eq_true.1 (h3 P hP) x (mem_allBytes x)
  simpa [ha] using this

/-- A list of parts. -/
structure EdgesAll (f : Flags) (l : List Ast) (s : List Byte) (b e : Nat) : Prop where
  le : b + shortestAll l ≤ e
  within : e ≤ s.length
  first : b < e → ∃ x : Byte, s[b]? = some x ∧ startsAll f l x = true
  last : b < e → ∃ x : Byte, s[e - 1]? = some x ∧ finishesAll f l x = true
  inner : ∀ P : Byte → Bool, needsAll f P l = true → ∃ (i : Nat) (x : Byte), b ≤ i ∧ i < e ∧ s[i]? = some x ∧ P x = true

theorem edges_cons {a : Ast} {l : List Ast} {b t e : Nat} (h : Edges f a s b t) (h' : EdgesAll f l s t e) : EdgesAll f (a :: l) s b e := by
  have hle := h.le
  have hle' := h'.le
  refine ⟨by simp only [shortestAll]; omega, h'.within, fun hb => ?_, fun hb => ?_, fun P hP => ?_⟩
  · simp only [startsAll, Bool.or_eq_true, Bool.and_eq_true, beq_iff_eq]
    by_cases hbt : b < t
    · obtain ⟨x, h1, h2⟩ := h.first hbt
      exact ⟨x, h1, .inl h2⟩
    · obtain rfl : b = t := by omega
      obtain ⟨x, h1, h2⟩ := h'.first hb
      exact ⟨x, h1, .inr ⟨by omega, h2⟩⟩
  · simp only [finishesAll, Bool.or_eq_true, Bool.and_eq_true, beq_iff_eq]
    by_cases hbt : t < e
    · obtain ⟨x, h1, h2⟩ := h'.last hbt
      exact ⟨x, h1, .inl h2⟩
    · obtain rfl : t = e := by omega
      obtain ⟨x, h1, h2⟩ := h.last hb
      exact ⟨x, h1, .inr ⟨by omega, h2⟩⟩
  · simp only [needsAll, Bool.or_eq_true] at hP
    rcases hP with hP | hP
    · obtain ⟨i, x, h1, h2, h3⟩ := h.inner P hP
      exact ⟨i, x, h1, by omega, h3⟩
    · obtain ⟨i, x, h1, h2, h3⟩ := h'.inner P hP
      exact ⟨i, x, by omega, h2, h3⟩

theorem edges_iter {a : Ast} {D : Nat → Nat → Prop} (hD : ∀ i j, i ≤ s.length → D i j → Edges f a s i j) {k i j : Nat} (hi : i ≤ s.length) (h : Iter D k i j) :
    i + k * shortest a ≤ j ∧ j ≤ s.length ∧ (i < j → 0 < k ∧ (∃ x : Byte, s[i]? = some x ∧ starts f a x = true) ∧ ∃ x : Byte, s[j - 1]? = some x ∧ finishes f a x = true) ∧
    (0 < k → ∀ P : Byte → Bool, needs f P a = true → ∃ (t : Nat) (x : Byte), i ≤ t ∧ t < j ∧ s[t]? = some x ∧ P x = true) := by
  induction k generalizing i with
  | zero => cases h; exact ⟨by omega, hi, fun h => absurd h (Nat.lt_irrefl _), fun h => absurd h (Nat.lt_irrefl _)⟩
  | succ k ih =>
    obtain ⟨t, h1, h2⟩ := h
    have h1 := hD i t hi h1
    obtain ⟨i1, i2, i3, i4⟩ := ih h1.within h2
    have hle := h1.le
    refine ⟨by rw [Nat.succ_mul]; omega, i2, fun hij => ⟨by omega, ?_, ?_⟩, fun _ P hP => ?_⟩
    · by_cases hit : i < t
      · exact h1.first hit
      · obtain rfl : i = t := by omega
        exact (i3 hij).2.1
    · by_cases htj : t < j
      · exact (i3 htj).2.2
      · obtain rfl : t = j := by omega
        exact h1.last hij
    · obtain ⟨t', x, j1, j2, j3⟩ := h1.inner P hP
      exact ⟨t', x, j1, by omega, j3⟩

theorem startsAny_eq (l : List Ast) (x : Byte) : startsAny f l x = l.any (starts f · x) := by
  induction l with
  | nil => rfl
  | cons a l ih => simp [startsAny, ih]

theorem finishesAny_eq (l : List Ast) (x : Byte) : finishesAny f l x = l.any (finishes f · x) := by
  induction l with
  | nil => rfl
  | cons a l ih => simp [finishesAny, ih]

theorem needsEach_eq (P : Byte → Bool) (l : List Ast) : needsEach f P l = l.all (needs f P) := by
  induction l with
  | nil => rfl
  | cons a l ih => simp [needsEach, ih]

theorem shortestAny_le {l : List Ast} {a : Ast} (h : a ∈ l) : shortestAny l ≤ shortest a := by
  induction l with
  | nil => cases h
  | cons b l ih =>
    cases l with
    | nil => simp at h; subst h; exact Nat.le_refl _
    | cons c l =>
      simp only [shortestAny]
      rcases List.mem_cons.1 h with rfl | h
      · exact Nat.min_le_left _ _
      · exact Nat.le_trans (Nat.min_le_right _ _) (ih h)

theorem edges_of_matches {a : Ast} (hw : wf a = true) {i j : Nat} (hi : i ≤ s.length) (h : Matches f s (loosen a) i j) : Edges f a s i j := by
  induction a using ind generalizing i j with
  | empty => cases h; exact edges_stay hi rfl (fun _ => rfl)
  | lit c => exact edges_char ((matches_triv hw rfl).1 h) rfl (fun _ h => ⟨h, h⟩) (fun _ h => h)
  | range c d => exact edges_char ((matches_triv hw rfl).1 h) rfl (fun _ h => ⟨h, h⟩) (fun _ h => h)
  | wildcard => exact edges_char ((matches_triv hw rfl).1 h) rfl (fun _ h => ⟨h, h⟩) (fun _ h => h)
  | set l _ => exact edges_char ((matches_triv hw rfl).1 h) rfl (fun _ h => ⟨h, h⟩) (fun _ h => h)
  | neg a ih =>
    simp only [loosen] at h
    cases ha : assertion a with
    | true =>
      rw [ha] at h
      cases h
      exact edges_stay hi (by simp [shortest, ha]) (fun _ => by simp [needs, ha])
    | false =>
      simp only [ha, Bool.false_eq_true, if_false] at h
      have ht : triv (.neg a) = true := by rw [← character_eq]; simp [character, ha]
      exact edges_char ((matches_triv hw ht).1 h) (by simp [shortest, ha]) (fun _ h => by simp [starts, finishes, ha, h]) (fun _ h => by simpa [needs, ha] using h)
  | seq l ih =>
    simp only [wf, wfAll_eq, Bool.and_eq_true, List.all_eq_true] at hw
    replace hw := hw.2
    have key : EdgesAll f l s i j := by
      simp only [loosen, Matches] at h
      induction l generalizing i with
      | nil => cases h; exact ⟨by simp [shortestAll], hi, fun h => absurd h (Nat.lt_irrefl _), fun h => absurd h (Nat.lt_irrefl _), fun P h => by cases h⟩
      | cons a l ihl =>
        obtain ⟨t, h1, h2⟩ := h
        have h1 := ih a (by simp) (hw a (by simp)) hi h1
        exact edges_cons h1 (ihl (fun b hb => ih b (List.mem_cons_of_mem _ hb)) h1.within (fun b hb => hw b (List.mem_cons_of_mem _ hb)) h2)
    exact ⟨key.le, key.within, key.first, key.last, key.inner⟩
  | alt l ih =>
    simp only [wf, wfAll_eq, Bool.and_eq_true, List.all_eq_true] at hw
    simp only [loosen, loosenAll_eq, Matches, matchesAny_iff, List.mem_map] at h
    obtain ⟨_, ⟨a, ha, rfl⟩, h⟩ := h
    have h := ih a ha (hw.2 a ha) hi h
    have hle := h.le
    have hs := shortestAny_le ha
    have hst : ∀ x, starts f a x = true → starts f (.alt l) x = true := by
      intro x hx
      simp only [starts, startsAny_eq, List.any_eq_true]
      exact ⟨a, ha, hx⟩
    have hfi : ∀ x, finishes f a x = true → finishes f (.alt l) x = true := by
      intro x hx
      simp only [finishes, finishesAny_eq, List.any_eq_true]
      exact ⟨a, ha, hx⟩
    refine ⟨by simp only [shortest]; omega, h.within, fun hb => ?_, fun hb => ?_, fun P hP => h.inner P ?_⟩
    · obtain ⟨x, h1, h2⟩ := h.first hb
      exact ⟨x, h1, hst x h2⟩
    · obtain ⟨x, h1, h2⟩ := h.last hb
      exact ⟨x, h1, hfi x h2⟩
    · simp only [needs, needsEach_eq, Bool.and_eq_true, List.all_eq_true] at hP
      exact hP.2 a ha
  | cap id n a ih =>
    simp only [wf] at hw
    have h := ih hw hi h
    exact ⟨h.le, h.within, h.first, h.last, h.inner⟩
  | rep m lo hi' a ih =>
    have hw2 : wf a = true := by
      cases hi' with
      | inf => simpa only [wf] using hw
      | fin b => simp only [wf, Bool.and_eq_true] at hw; exact hw.2
    obtain ⟨k, h1, h2, h3⟩ := h
    obtain ⟨i1, i2, i3, i4⟩ := edges_iter (fun i j hi h => ih hw2 hi h) hi h3
    have hne : 0 < k → (hi' != .fin 0) = true := by
      intro hk
      cases hi' with
      | inf => rfl
      | fin b =>
        simp only [AtMost] at h2
        cases b with
        | zero => omega
        | succ b => rfl
    refine ⟨?_, i2, fun hb => ?_, fun hb => ?_, fun P hP => ?_⟩
    · simp only [shortest]
      have := Nat.mul_le_mul_right (shortest a) h1
      omega
    · obtain ⟨hk, ⟨x, j1, j2⟩, _⟩ := i3 hb
      exact ⟨x, j1, by simp [starts, hne hk, j2]⟩
    · obtain ⟨hk, _, x, j1, j2⟩ := i3 hb
      exact ⟨x, j1, by simp [finishes, hne hk, j2]⟩
    · simp only [needs, Bool.and_eq_true, decide_eq_true_eq] at hP
      exact i4 (by omega) P hP.2
  | look d a ih => cases h; exact edges_stay hi rfl (fun _ => rfl)
  | backref k | namedBackref k =>
    obtain ⟨h1, h2⟩ := h
    refine ⟨h1, h2, fun hb => ⟨s[i]'(by omega), by simp, rfl⟩, fun hb => ⟨s[j - 1]'(by omega), by simp, rfl⟩, fun P hP => by cases hP⟩
  | bol | boi | eol | eoi | wordB => obtain ⟨rfl, _⟩ := h; exact edges_stay hi rfl (fun _ => rfl)

/-! ### What is offered -/

theorem just_any (P : Proc) : Proc.Just (fun _ _ _ => True) (fun _ => True) P := by
  induction P with
  | done => trivial
  | note _ _ _ P ih => exact ⟨trivial, ih⟩
  | cross _ P ih => exact ih
  | offer q P ih => exact ⟨trivial, ih⟩
  | recall _ f ih => exact fun v _ => ih v

theorem copies_ge {ic : Bool} {w : List Byte} {p q : Nat} (h : q ∈ copies ic s true w p) : p ≤ q := by
  have := (mem_copies_forward h).1
  omega

/-- What is offered is matched by the loosened expression. -/
def Loosely (f : Flags) (s : List Byte) (a : Ast) (p q : Nat) : Prop := Matches f s (loosen a) p q ∧ q ≤ s.length

theorem loosen_character {a : Ast} (hc : character a = true) {i j : Nat} (h : Matches f s a i j) : Matches f s (loosen a) i j := by
  induction a using ind generalizing i j with
  | neg a _ =>
    simp only [character, Bool.not_eq_true'] at hc
    simpa [loosen, hc] using h
  | seq l ih =>
    match l, hc with
    | [a], hc =>
      simp only [character] at hc
      obtain ⟨t, h1, h2⟩ := h
      exact ⟨t, ih a (by simp) hc h1, h2⟩
  | alt l ih =>
    simp only [character, Bool.and_eq_true, characters_eq, List.all_eq_true] at hc
    simp only [loosen, loosenAll_eq, Matches, matchesAny_iff, List.mem_map] at h ⊢
    obtain ⟨a, ha, h⟩ := h
    exact ⟨_, ⟨a, ha, rfl⟩, ih a ha (hc.2 a ha) h⟩
  | rep m lo hi a ih =>
    have hc' : character a = true := by
      unfold character at hc
      split at hc <;> simp_all
    obtain ⟨k, h1, h2, h3⟩ := h
    refine ⟨k, h1, h2, ?_⟩
    clear h1 h2
    induction k generalizing i with
    | zero => exact h3
    | succ k ihk => obtain ⟨t, h4, h5⟩ := h3; exact ⟨t, ih hc' h4, ihk h5⟩
  | lit | range | wildcard | set => exact h
  | _ => cases hc

theorem loosely_proc {ν : List Byte → Nat} {a : Ast} (hw : wf a = true) {p : Nat} (hp : p ≤ s.length) :
    Proc.Just (fun _ _ _ => True) (Loosely f s a p) (proc f s ν a 0 false p) := by
  have hchar : ∀ {a : Ast} {p : Nat}, wf a = true → character a = true → ∀ q ∈ oneChar s true (accepts f a) p, Loosely f s a p q := by
    intro a p hw hc q hq
    exact ⟨loosen_character hc ((dm_triv (fwd := true) hw (by rw [← character_eq]; exact hc)).2 hq), oneChar_le hq⟩
  have href : ∀ (k p : Nat), p ≤ s.length → Proc.Just (fun _ _ _ => True) (fun q => p ≤ q ∧ q ≤ s.length) (reference f s k 0 p) :=
    fun k p hp v _ => just_offers (fun q hq => ⟨copies_ge hq, (copies_le hp hq)⟩)
  induction a using ind generalizing p with
  | neg a ih =>
    simp only [proc]
    split
    · next ha => exact just_commit (just_any _) (fun _ _ => trivial) (just_only ⟨by simp [loosen, ha, Matches], hp⟩)
    · next ha => exact just_offers (fun q hq => hchar hw (by simpa [character] using ha) q hq)
  | seq l ih =>
    simp only [proc]
    simp only [wf, wfAll_eq, Bool.and_eq_true, List.all_eq_true] at hw
    replace hw := hw.2
    induction l generalizing p with
    | nil => exact just_only ⟨rfl, hp⟩
    | cons a l ihl =>
      simp only [procAll]
      exact just_proceed (ih a (by simp) (hw a (by simp)) hp) (fun q hq =>
        just_mono (ihl (fun b hb => ih b (List.mem_cons_of_mem _ hb)) hq.2 (fun b hb => hw b (List.mem_cons_of_mem _ hb))) (fun t ht => ⟨⟨q, hq.1, ht.1⟩, ht.2⟩))
  | alt l ih =>
    simp only [proc]
    simp only [wf, wfAll_eq, Bool.and_eq_true, List.all_eq_true] at hw
    replace hw := hw.2
    have hd : ∀ b ∈ l, ∀ q, Loosely f s b p q → Loosely f s (.alt l) p q := by
      intro b hb q h
      refine ⟨?_, h.2⟩
      simp only [loosen, loosenAll_eq, Matches, matchesAny_iff, List.mem_map]
      exact ⟨_, ⟨b, hb, rfl⟩, h.1⟩
    have hl : ∀ l', (∀ b ∈ l', b ∈ l) → Proc.Just (fun _ _ _ => True) (Loosely f s (.alt l) p) (procAny f s ν l' 0 false p) := by
      intro l'
      induction l' with
      | nil => exact fun _ => trivial
      | cons a l' ihl =>
        intro hb
        have ihl := ihl (fun b h => hb b (List.mem_cons_of_mem _ h))
        have ham := hb a (by simp)
        simp only [procAny]
        split
        · next hc =>
          refine just_offers (fun q hq => ?_)
          rw [mem_oneChar] at hq
          obtain ⟨h1, x, h2, h3⟩ := hq
          rw [acceptsAny_eq, List.any_eq_true] at h3
          obtain ⟨b, h4, h5⟩ := h3
          refine hd b (hb b h4) q (hchar (hw b (hb b h4)) ?_ q (mem_oneChar.2 ⟨h1, x, h2, h5⟩))
          rw [characters_eq, List.all_eq_true] at hc
          exact hc b h4
        · exact just_andThen (just_mono (ih a ham (hw a ham) hp) (hd a ham)) ihl
    exact hl l (fun _ h => h)
  | cap id n a ih =>
    simp only [wf] at hw
    simp only [proc]
    exact just_andThen (just_proceed (ih hw hp) (fun q hq => ⟨trivial, hq, trivial⟩)) trivial
  | rep m lo hi a ih =>
    have hw2 : wf a = true ∧ ∀ h, hi = .fin h → lo ≤ h := by
      cases hi with
      | inf => simp only [wf] at hw; exact ⟨hw, by simp⟩
      | fin b =>
        simp only [wf, Bool.and_eq_true, decide_eq_true_eq] at hw
        exact ⟨hw.2, fun h e => by cases e; exact hw.1⟩
    simp only [proc]
    refine just_mono (just_quantified (D := Matches f s (loosen a)) (fun q hq => ih hw2.1 hq) _ _ _ _ _ hw2.2 p hp) (fun q hq => ?_)
    obtain ⟨⟨i, h1, h2, h3⟩, h4⟩ := hq
    exact ⟨⟨i, h1, h2, pow_iter.2 h3⟩, h4⟩
  | look d a ih =>
    simp only [proc]
    split <;> exact just_commit (just_any _) (fun _ _ => just_only ⟨rfl, hp⟩) trivial
  | backref k =>
    simp only [proc]
    exact just_mono (href _ p hp) (fun q hq => ⟨hq, hq.2⟩)
  | namedBackref n =>
    simp only [proc]
    exact just_mono (href _ p hp) (fun q hq => ⟨hq, hq.2⟩)
  | lit | range | wildcard | set => simp only [proc, ends]; exact just_offers (fun q hq => hchar hw rfl q hq)
  | empty | bol | boi | eol | eoi | wordB =>
    simp only [proc]
    refine just_offers (fun q hq => ?_)
    have key := (ends_iff (E := { inp := s, flags := f }) (fwd := true) (inv := false) hw rfl rfl (.inl ⟨rfl, rfl, rfl⟩) hp).1 hq
    exact ⟨key, (ends_inside (E := { inp := s, flags := f }) (r := 0) rfl _ false p q hp hq).right_le⟩

end

end Mregex
