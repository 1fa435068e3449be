import Verif.Spec.Says
import Verif.Proof.PathMethods
import Verif.Proof.Template

/-!
# Words and memories
-/

namespace Mregex
open Ast Spec

section
variable {f : Flags} {s : List Byte}

/-- The memory of a path. -/
def notes (s : List Byte) (ev : List Event) : Memory := ev.reverse.map fun v => (v.1, (s.drop v.2.1).take (v.2.2 - v.2.1))

theorem notes_snoc (ev : List Event) (v : Event) : notes s (ev ++ [v]) = (v.1, (s.drop v.2.1).take (v.2.2 - v.2.1)) :: notes s ev := by
  simp [notes]

theorem recall_notes (k : Nat) (ev : List Event) : recall k (notes s ev) = heldText s (held k ev) := by
  rw [← ev.reverse_reverse]
  induction ev.reverse with
  | nil => rfl
  | cons v l ih =>
    rw [List.reverse_cons, notes_snoc, held_snoc, recall, ih]
    split
    · next h => simp [h, heldText]
    · next h => simp [h]

theorem repeats_add {P : Memory → List Byte → Memory → Prop} {n m : Nat} {e t e' : Memory} {u v : List Byte} (h : Repeats P n e u t) (h' : Repeats P m t v e') :
    Repeats P (n + m) e (u ++ v) e' := by
  induction n generalizing e u with
  | zero =>
    obtain ⟨rfl, rfl⟩ := h
    simpa using h'
  | succ n ih =>
    obtain ⟨u1, u2, t1, rfl, h1, h2⟩ := h
    rw [Nat.add_right_comm]
    exact ⟨u1, u2 ++ v, t1, by simp, h1, ih h2⟩

theorem repeats_split {P : Memory → List Byte → Memory → Prop} {n m : Nat} {e e' : Memory} {w : List Byte} (h : Repeats P (n + m) e w e') :
    ∃ u v t, w = u ++ v ∧ Repeats P n e u t ∧ Repeats P m t v e' := by
  induction n generalizing e w with
  | zero => exact ⟨[], w, e, rfl, ⟨rfl, rfl⟩, by simpa using h⟩
  | succ n ih =>
    rw [Nat.add_right_comm] at h
    obtain ⟨u, v, t, rfl, h1, h2⟩ := h
    obtain ⟨u', v', t', rfl, h3, h4⟩ := ih h2
    exact ⟨u ++ u', v', t', by simp, ⟨u, u', t, rfl, h1, h3⟩, h4⟩

/-! ### The groups of other parts -/

theorem repeats_frame {P : Memory → List Byte → Memory → Prop} {k : Nat} (hP : ∀ e w e', P e w e' → recall k e' = recall k e) {n : Nat} {e e' : Memory} {w : List Byte}
    (h : Repeats P n e w e') : recall k e' = recall k e := by
  induction n generalizing e w with
  | zero => rw [h.2]
  | succ n ih =>
    obtain ⟨u, v, t, _, h1, h2⟩ := h
    rw [ih h2, hP _ _ _ h1]

theorem says_frame {a : Ast} {k : Nat} (hk : k ∉ groupIds a) : ∀ {e w e'}, Says f a e w e' → recall k e' = recall k e := by
  induction a using ind with
  | seq l ih =>
    simp only [groupIds] at hk
    simp only [Says]
    induction l with
    | nil => intro e w e' h; rw [h.2]
    | cons a l ihl =>
      simp only [groupIdsAll, List.mem_append, not_or] at hk
      intro e w e' ⟨u, v, t, _, h1, h2⟩
      rw [ihl (fun b hb => ih b (List.mem_cons_of_mem _ hb)) hk.2 h2, ih a (by simp) hk.1 h1]
  | alt l ih =>
    simp only [groupIds] at hk
    simp only [Says]
    induction l with
    | nil => intro e w e' h; exact h.elim
    | cons a l ihl =>
      simp only [groupIdsAll, List.mem_append, not_or] at hk
      intro e w e' h
      rcases h with h | h
      · exact ih a (by simp) hk.1 h
      · exact ihl (fun b hb => ih b (List.mem_cons_of_mem _ hb)) hk.2 h
  | cap id n a ih =>
    simp only [groupIds, List.mem_cons, not_or] at hk
    simp only [Says]
    rintro e w e' ⟨t, h, rfl⟩
    rw [recall, if_neg (Ne.symm hk.1), ih hk.2 h]
  | rep m lo hi a ih =>
    simp only [groupIds] at hk
    simp only [Says]
    rintro e w e' ⟨n, _, _, h⟩
    exact repeats_frame (P := Says f a) (fun e w e' h => ih hk h) h
  | _ => simp only [Says]; intro e w e' h; rw [h.2]

/-! ### Paths say words -/

/-- The part of the text between the places, with the memories there. -/
def Told (s : List Byte) (P : Memory → List Byte → Memory → Prop) (x y : Place) : Prop :=
  ∃ w, s.drop x.1 = w ++ s.drop y.1 ∧ y.1 = x.1 + w.length ∧ P (notes s x.2) w (notes s y.2)

theorem sameText_of_beginsWith {icase : Bool} {w l : List Byte} (h : beginsWith icase w l = true) : SameText icase w (l.take w.length) := by
  induction w generalizing l with
  | nil => trivial
  | cons x w ih =>
    cases l with
    | nil => simp [beginsWith] at h
    | cons y l =>
      simp only [beginsWith, Bool.and_eq_true] at h
      refine ⟨?_, ih h.2⟩
      rcases Bool.or_eq_true _ _ ▸ h.1 with h | h
      · exact .inl (by simpa using h)
      · rw [Bool.and_eq_true] at h
        exact .inr ⟨h.1, by simpa using h.2⟩

theorem beginsWith_of_sameText {icase : Bool} {w v r : List Byte} (h : SameText icase w v) : beginsWith icase w (v ++ r) = true ∧ v.length = w.length := by
  induction w generalizing v with
  | nil =>
    cases v with
    | nil => simp [beginsWith]
    | cons => exact h.elim
  | cons x w ih =>
    cases v with
    | nil => exact h.elim
    | cons y v =>
      obtain ⟨h1, h2⟩ := h
      obtain ⟨h3, h4⟩ := ih h2
      simp only [List.cons_append, beginsWith, h3, Bool.and_true, List.length_cons, h4, and_true]
      rcases h1 with rfl | ⟨h1, h5⟩
      · simp
      · simp [h1, h5]

theorem told_char {P : Byte → Bool} {x y : Place} (h : y ∈ (oneChar s true P x.1).map (·, x.2)) :
    Told s (fun e w e' => (∃ c, w = [c] ∧ P c = true) ∧ e' = e) x y := by
  obtain ⟨q, h1, rfl⟩ := List.mem_map.1 h
  obtain ⟨rfl, c, h2, h3⟩ := mem_char.1 h1
  refine ⟨[c], ?_, rfl, ⟨c, rfl, h3⟩, rfl⟩
  obtain ⟨hl, rfl⟩ := List.getElem?_eq_some_iff.1 h2
  rw [List.drop_eq_getElem_cons hl]; rfl

section
variable {P : Memory → List Byte → Memory → Prop} {g : Place → List Place}

theorem told_repeats_cons (hg : ∀ x y, y ∈ g x → x.1 ≤ s.length → y.1 ≤ s.length ∧ Told s P x y) {n : Nat} {x t y : Place} (ht : t ∈ g x) (hx : x.1 ≤ s.length)
    (h : t.1 ≤ s.length → y.1 ≤ s.length ∧ Told s (Repeats P n) t y) : y.1 ≤ s.length ∧ Told s (Repeats P (n + 1)) x y := by
  obtain ⟨h1, u, h2, h3, h4⟩ := hg _ _ ht hx
  obtain ⟨h5, v, h6, h7, h8⟩ := h h1
  exact ⟨h5, u ++ v, by rw [h2, h6, List.append_assoc], by simp; omega, u, v, _, rfl, h4, h8⟩

theorem told_repeats_nil {x : Place} : Told s (Repeats P 0) x x := ⟨[], rfl, rfl, rfl, rfl⟩

theorem told_times (hg : ∀ x y, y ∈ g x → x.1 ≤ s.length → y.1 ≤ s.length ∧ Told s P x y) {n : Nat} {x y : Place} (h : y ∈ timesP g n x) (hx : x.1 ≤ s.length) :
    y.1 ≤ s.length ∧ Told s (Repeats P n) x y := by
  induction n generalizing x with
  | zero =>
    simp only [timesP, List.mem_singleton] at h
    subst h
    exact ⟨hx, told_repeats_nil⟩
  | succ n ih =>
    simp only [timesP, List.mem_flatMap] at h
    obtain ⟨t, h1, h2⟩ := h
    exact told_repeats_cons hg h1 hx (ih h2)

theorem told_upTo (hg : ∀ x y, y ∈ g x → x.1 ≤ s.length → y.1 ≤ s.length ∧ Told s P x y) {k : Nat} {x y : Place} (h : y ∈ greedyP g k x ∨ y ∈ lazyP g k x)
    (hx : x.1 ≤ s.length) : y.1 ≤ s.length ∧ ∃ n, n ≤ k ∧ Told s (Repeats P n) x y := by
  induction k generalizing x with
  | zero =>
    simp only [greedyP, lazyP, List.mem_singleton, or_self] at h
    subst h
    exact ⟨hx, 0, Nat.le_refl _, told_repeats_nil⟩
  | succ n ih =>
    have : y = x ∨ ∃ t ∈ g x, y ∈ greedyP g n t ∨ y ∈ lazyP g n t := by
      simp only [greedyP, lazyP, List.mem_append, List.mem_flatMap, List.mem_singleton] at h
      rcases h with (⟨t, h1, h2⟩ | h) | h | ⟨t, h1, h2⟩
      · exact .inr ⟨t, h1, .inl h2⟩
      · exact .inl h
      · exact .inl h
      · exact .inr ⟨t, h1, .inr h2⟩
    rcases this with rfl | ⟨t, h1, h2⟩
    · exact ⟨hx, 0, Nat.zero_le _, told_repeats_nil⟩
    · have ht := (hg _ _ h1 hx).1
      obtain ⟨h3, m, h4, h5⟩ := ih h2 ht
      exact ⟨h3, m + 1, by omega, (told_repeats_cons hg h1 hx fun _ => ⟨h3, h5⟩).2⟩

theorem told_star (hg : ∀ x y, y ∈ g x → x.1 ≤ s.length → y.1 ≤ s.length ∧ Told s P x y) {k : Nat} {x y : Place} (h : y ∈ greedyStarP g k x ∨ y ∈ lazyStarP g k x)
    (hx : x.1 ≤ s.length) : y.1 ≤ s.length ∧ ∃ n, Told s (Repeats P n) x y := by
  induction k generalizing x with
  | zero => simp [greedyStarP, lazyStarP] at h
  | succ n ih =>
    have : y = x ∨ ∃ t ∈ g x, y ∈ greedyStarP g n t ∨ y ∈ lazyStarP g n t := by
      simp only [greedyStarP, lazyStarP, List.mem_append, List.mem_flatMap, List.mem_singleton, List.mem_filter] at h
      rcases h with (⟨t, h1, h2⟩ | h) | h | ⟨t, h1, h2⟩
      · exact .inr ⟨t, h1.1, .inl h2⟩
      · exact .inl h
      · exact .inl h
      · exact .inr ⟨t, h1.1, .inr h2⟩
    rcases this with rfl | ⟨t, h1, h2⟩
    · exact ⟨hx, 0, told_repeats_nil⟩
    · have ht := (hg _ _ h1 hx).1
      obtain ⟨h3, m, h5⟩ := ih h2 ht
      exact ⟨h3, m + 1, (told_repeats_cons hg h1 hx fun _ => ⟨h3, h5⟩).2⟩

theorem told_extra (hg : ∀ x y, y ∈ g x → x.1 ≤ s.length → y.1 ≤ s.length ∧ Told s P x y) {b : Bool} {o : Option Nat} {x y : Place} (h : y ∈ extraP s.length b g o x)
    (hx : x.1 ≤ s.length) : y.1 ≤ s.length ∧ ∃ n, (∀ k, o = some k → n ≤ k) ∧ Told s (Repeats P n) x y := by
  cases o with
  | none =>
    have : y ∈ greedyStarP g (s.length + 1) x ∨ y ∈ lazyStarP g (s.length + 1) x := by
      cases b
      · exact .inr h
      · exact .inl h
    obtain ⟨h1, n, h2⟩ := told_star hg this hx
    exact ⟨h1, n, by simp, h2⟩
  | some k =>
    have : y ∈ greedyP g k x ∨ y ∈ lazyP g k x := by
      cases b
      · exact .inr h
      · exact .inl h
    obtain ⟨h1, n, h2, h3⟩ := told_upTo hg this hx
    exact ⟨h1, n, by simpa using h2, h3⟩

end

theorem wordyAll_mem {l : List Ast} (h : wordyAll l = true) : ∀ a ∈ l, wordy a = true := by
  induction l with
  | nil => intro a ha; simp at ha
  | cons b l ih =>
    simp only [wordyAll, Bool.and_eq_true] at h
    intro a ha
    rcases List.mem_cons.1 ha with rfl | ha
    · exact h.1
    · exact ih h.2 a ha

theorem wordy_rep {m : Mode} {lo : Nat} {hi : Bound} {a : Ast} (h : wordy (.rep m lo hi a) = true) : m ≠ .possessive ∧ wordy a = true := by
  cases m with
  | possessive => simp [wordy] at h
  | _ => exact ⟨by simp, by simpa only [wordy] using h⟩

/-- Every path says the text that it passes. -/
theorem told_paths {a : Ast} (ha : wordy a = true) (hw : wf a = true) : ∀ {x y : Place}, y ∈ paths f s a x → x.1 ≤ s.length → y.1 ≤ s.length ∧ Told s (Says f a) x y := by
  induction a using ind with
  | empty =>
    intro x y h hx
    simp only [paths, ends, List.map_cons, List.map_nil, List.mem_singleton] at h
    subst h
    exact ⟨hx, [], rfl, rfl, rfl, rfl⟩
  | seq l ih =>
    simp only [wordy] at ha
    simp only [wf, Bool.and_eq_true] at hw
    replace hw := hw.2
    intro x y h hx
    simp only [paths] at h
    unfold Told
    simp only [Says]
    induction l generalizing x with
    | nil =>
      simp only [pathsAll, List.mem_singleton] at h
      subst h
      exact ⟨hx, [], rfl, rfl, rfl, rfl⟩
    | cons a l ihl =>
      simp only [pathsAll, List.mem_flatMap] at h
      simp only [wordyAll, Bool.and_eq_true] at ha
      simp only [wfAll, Bool.and_eq_true] at hw
      obtain ⟨t, h1, h2⟩ := h
      obtain ⟨h3, u, h4, h5, h6⟩ := ih a (by simp) ha.1 hw.1 h1 hx
      obtain ⟨h7, v, h8, h9, h10⟩ := ihl (fun b hb => ih b (List.mem_cons_of_mem _ hb)) ha.2 hw.2 h2 h3
      exact ⟨h7, u ++ v, by rw [h4, h8, List.append_assoc], by simp; omega, u, v, _, rfl, h6, h10⟩
  | alt l ih =>
    simp only [wordy] at ha
    simp only [wf, Bool.and_eq_true] at hw
    replace hw := hw.2
    intro x y h hx
    simp only [paths] at h
    unfold Told
    simp only [Says]
    induction l generalizing x with
    | nil => simp [pathsAny] at h
    | cons a l ihl =>
      simp only [pathsAny, List.mem_append] at h
      simp only [wordyAll, Bool.and_eq_true] at ha
      simp only [wfAll, Bool.and_eq_true] at hw
      rcases h with h | h
      · obtain ⟨h3, u, h4, h5, h6⟩ := ih a (by simp) ha.1 hw.1 h hx
        exact ⟨h3, u, h4, h5, .inl h6⟩
      · obtain ⟨h3, u, h4, h5, h6⟩ := ihl (fun b hb => ih b (List.mem_cons_of_mem _ hb)) ha.2 hw.2 h hx
        exact ⟨h3, u, h4, h5, .inr h6⟩
  | cap id n a ih =>
    simp only [wordy] at ha
    simp only [wf] at hw
    intro x y h hx
    simp only [paths, List.mem_map] at h
    obtain ⟨z, h1, rfl⟩ := h
    obtain ⟨h3, u, h4, h5, h6⟩ := ih ha hw h1 hx
    refine ⟨h3, u, h4, h5, notes s z.2, h6, ?_⟩
    rw [notes_snoc]
    simp only [h4, h5, Nat.add_sub_cancel_left, List.take_left]
  | rep m lo hi a ih =>
    obtain ⟨hm, ha⟩ := wordy_rep ha
    obtain ⟨hw, hl⟩ := wf_of_wf_rep hw
    intro x y h hx
    rw [paths_rep hm, List.mem_flatMap] at h
    obtain ⟨t, h1, h2⟩ := h
    obtain ⟨h3, u, h4, h5, h6⟩ := told_times (P := Says f a) (fun x y => ih ha hw) h1 hx
    obtain ⟨h7, n, hn, v, h8, h9, h10⟩ := told_extra (P := Says f a) (fun x y => ih ha hw) h2 h3
    refine ⟨h7, u ++ v, by rw [h4, h8, List.append_assoc], by simp; omega, ?_⟩
    simp only [Says]
    refine ⟨lo + n, by omega, ?_, repeats_add h6 h10⟩
    cases hi with
    | inf => trivial
    | fin h =>
      have := hn _ rfl
      have := hl h rfl
      show lo + n ≤ h
      omega
  | backref k =>
    intro x y h hx
    simp only [paths] at h
    split at h
    · next hb =>
      simp only [List.mem_singleton] at h
      subst h
      have hle := beginsWith_length hb
      have hs := sameText_of_beginsWith hb
      rw [List.length_drop] at hle
      refine ⟨by show _ + _ ≤ _; omega, (s.drop x.1).take (heldText s (held k x.2)).length, ?_, ?_, ?_, rfl⟩
      · show _ = _ ++ s.drop (x.1 + _)
        rw [← List.drop_drop, List.take_append_drop]
      · simp; omega
      · rw [recall_notes]; exact hs
    · simp at h
  | neg a =>
    simp only [wordy, Bool.not_eq_true'] at ha
    intro x y h hx
    refine ⟨(paths_bounds hx h).2, ?_⟩
    simp only [paths, ends, ha, Bool.false_eq_true, if_false] at h
    unfold Told
    simp only [Says]
    exact told_char h
  | lit | range | wildcard | set =>
    intro x y h hx
    refine ⟨(paths_bounds hx h).2, ?_⟩
    simp only [paths, ends] at h
    unfold Told
    simp only [Says]
    exact told_char h
  | _ => simp [wordy] at ha

/-! ### Words have paths -/

/-- The memory agrees with the path on the groups that satisfy `P`. -/
def Like (s : List Byte) (P : Nat → Bool) (ev : List Event) (e : Memory) : Prop := ∀ k, P k = true → heldText s (held k ev) = recall k e

theorem like_notes (s : List Byte) (P : Nat → Bool) (ev : List Event) : Like s P ev (notes s ev) := fun k _ => (recall_notes k ev).symm

/-- From every place with a memory like `e` and the word ahead, `g` offers a place behind the word with a memory like `e'`. -/
def Offers (s : List Byte) (P : Nat → Bool) (g : Place → List Place) (e : Memory) (w : List Byte) (e' : Memory) : Prop :=
  ∀ p ev r, p ≤ s.length → s.drop p = w ++ r → Like s P ev e → ∃ ev', (p + w.length, ev') ∈ g (p, ev) ∧ Like s P ev' e'

theorem drop_behind {p : Nat} {u v r : List Byte} (hp : p ≤ s.length) (h : s.drop p = u ++ v ++ r) : p + u.length ≤ s.length ∧ s.drop (p + u.length) = v ++ r := by
  have hl := congrArg List.length h
  simp only [List.length_drop, List.length_append] at hl
  refine ⟨by omega, ?_⟩
  rw [← List.drop_drop, h, List.append_assoc, List.drop_left]

section
variable {P : Nat → Bool} {S : Memory → List Byte → Memory → Prop} {g : Place → List Place}

theorem offers_times (hg : ∀ e w e', S e w e' → Offers s P g e w e') {n : Nat} {e e' : Memory} {w : List Byte} (h : Repeats S n e w e') :
    Offers s P (timesP g n) e w e' := by
  induction n generalizing e w with
  | zero =>
    obtain ⟨rfl, rfl⟩ := h
    intro p ev r _ _ hl
    exact ⟨ev, by simp [timesP], hl⟩
  | succ n ih =>
    obtain ⟨u, v, t, rfl, h1, h2⟩ := h
    intro p ev r hp hd hl
    obtain ⟨h3, h4⟩ := drop_behind hp hd
    obtain ⟨ev1, h5, h6⟩ := hg _ _ _ h1 p ev (v ++ r) hp (by rw [hd, List.append_assoc]) hl
    obtain ⟨ev2, h7, h8⟩ := ih h2 _ ev1 r h3 h4 h6
    refine ⟨ev2, ?_, h8⟩
    simp only [timesP, List.mem_flatMap]
    exact ⟨_, h5, by simpa [Nat.add_assoc] using h7⟩

theorem offers_upTo (hg : ∀ e w e', S e w e' → Offers s P g e w e') {n k : Nat} (hn : n ≤ k) {e e' : Memory} {w : List Byte} (h : Repeats S n e w e') (b : Bool) :
    Offers s P (if b then greedyP g k else lazyP g k) e w e' := by
  induction k generalizing n e w with
  | zero =>
    obtain rfl : n = 0 := by omega
    obtain ⟨rfl, rfl⟩ := h
    intro p ev r _ _ hl
    exact ⟨ev, by cases b <;> simp [greedyP, lazyP], hl⟩
  | succ k ih =>
    cases n with
    | zero =>
      obtain ⟨rfl, rfl⟩ := h
      intro p ev r _ _ hl
      exact ⟨ev, by cases b <;> simp [greedyP, lazyP], hl⟩
    | succ n =>
      obtain ⟨u, v, t, rfl, h1, h2⟩ := h
      intro p ev r hp hd hl
      obtain ⟨h3, h4⟩ := drop_behind hp hd
      obtain ⟨ev1, h5, h6⟩ := hg _ _ _ h1 p ev (v ++ r) hp (by rw [hd, List.append_assoc]) hl
      obtain ⟨ev2, h7, h8⟩ := ih (by omega) h2 _ ev1 r h3 h4 h6
      refine ⟨ev2, ?_, h8⟩
      rw [Nat.add_assoc, ← List.length_append] at h7
      cases b
      · simp only [Bool.false_eq_true, if_false, lazyP, List.mem_append, List.mem_flatMap] at h7 ⊢
        exact .inr ⟨_, h5, h7⟩
      · simp only [if_true, greedyP, List.mem_append, List.mem_flatMap] at h7 ⊢
        exact .inl ⟨_, h5, h7⟩

theorem offers_star (hg : ∀ e w e', S e w e' → Offers s P g e w e') (hf : ∀ e w e', S e w e' → ∀ k, P k = true → recall k e' = recall k e) {n : Nat} {e e' : Memory}
    {w : List Byte} (h : Repeats S n e w e') (b : Bool) {fuel : Nat} {p : Nat} {ev : List Event} {r : List Byte} (hp : p ≤ s.length) (hfuel : s.length < p + fuel)
    (hd : s.drop p = w ++ r) (hl : Like s P ev e) : ∃ ev', (p + w.length, ev') ∈ (if b then greedyStarP g fuel else lazyStarP g fuel) (p, ev) ∧ Like s P ev' e' := by
  induction n generalizing e w p ev fuel with
  | zero =>
    obtain ⟨rfl, rfl⟩ := h
    cases fuel with
    | zero => omega
    | succ fuel => exact ⟨ev, by cases b <;> simp [greedyStarP, lazyStarP], hl⟩
  | succ n ih =>
    obtain ⟨u, v, t, rfl, h1, h2⟩ := h
    cases hu : u with
    | nil =>
      subst hu
      exact ih h2 hp hfuel hd (fun k hk => (hl k hk).trans (hf _ _ _ h1 k hk).symm)
    | cons c u' =>
      rw [← hu]
      have hpos : 0 < u.length := by rw [hu]; simp
      cases fuel with
      | zero => omega
      | succ fuel =>
        obtain ⟨h3, h4⟩ := drop_behind hp hd
        obtain ⟨ev1, h5, h6⟩ := hg _ _ _ h1 p ev (v ++ r) hp (by rw [hd, List.append_assoc]) hl
        obtain ⟨ev2, h7, h8⟩ := ih h2 h3 (fuel := fuel) (by omega) h4 h6
        refine ⟨ev2, ?_, h8⟩
        rw [Nat.add_assoc, ← List.length_append] at h7
        have hne : p + u.length ≠ p := by omega
        cases b
        · simp only [Bool.false_eq_true, if_false, lazyStarP, List.mem_append, List.mem_flatMap, List.mem_filter] at h7 ⊢
          exact .inr ⟨_, ⟨h5, by simpa using hne⟩, h7⟩
        · simp only [if_true, greedyStarP, List.mem_append, List.mem_flatMap, List.mem_filter] at h7 ⊢
          exact .inl ⟨_, ⟨h5, by simpa using hne⟩, h7⟩

end

theorem offers_char {P : Nat → Bool} {Q : Byte → Bool} {e e' : Memory} {w : List Byte} (h : (∃ c, w = [c] ∧ Q c = true) ∧ e' = e) :
    Offers s P (fun x => (oneChar s true Q x.1).map (·, x.2)) e w e' := by
  obtain ⟨⟨c, rfl, hc⟩, rfl⟩ := h
  intro p ev r hp hd hl
  refine ⟨ev, List.mem_map.2 ⟨p + 1, mem_char.2 ⟨rfl, c, ?_, hc⟩, rfl⟩, hl⟩
  have : (s.drop p)[0]? = some c := by rw [hd]; rfl
  simpa using this

/-- Every word that is said has a path. -/
theorem offers_paths {P : Nat → Bool} {a : Ast} (ha : wordy a = true) {around : List Nat} (hr : refsTo P around a = true)
    (hv : ∀ k, P k = true → visitedOnce k a = true) : ∀ {e w e'}, Says f a e w e' → Offers s P (paths f s a) e w e' := by
  induction a using ind generalizing around with
  | empty =>
    simp only [Says]
    rintro e w e' ⟨rfl, rfl⟩ p ev r _ _ hl
    exact ⟨ev, by simp [paths, ends], hl⟩
  | seq l ih =>
    simp only [wordy] at ha
    simp only [refsTo] at hr
    simp only [visitedOnce] at hv
    simp only [Says]
    intro e w e' h p ev r hp hd hl
    simp only [paths]
    induction l generalizing e w p ev with
    | nil =>
      obtain ⟨rfl, rfl⟩ := h
      exact ⟨ev, by simp [pathsAll], hl⟩
    | cons a l ihl =>
      simp only [wordyAll, Bool.and_eq_true] at ha
      simp only [refsToAll, Bool.and_eq_true] at hr
      simp only [visitedOnceAll, Bool.and_eq_true] at hv
      obtain ⟨u, v, t, rfl, h1, h2⟩ := h
      obtain ⟨h3, h4⟩ := drop_behind hp hd
      obtain ⟨ev1, h5, h6⟩ := ih a (by simp) ha.1 hr.1 (fun k hk => (hv k hk).1.1) h1 p ev (v ++ r) hp (by rw [hd, List.append_assoc]) hl
      obtain ⟨ev2, h7, h8⟩ := ihl (fun b hb => ih b (List.mem_cons_of_mem _ hb)) ha.2 hr.2 (fun k hk => (hv k hk).2) h2 _ _ h3 h4 h6
      refine ⟨ev2, ?_, h8⟩
      simp only [pathsAll, List.mem_flatMap]
      exact ⟨_, h5, by simpa [Nat.add_assoc] using h7⟩
  | alt l ih =>
    simp only [wordy] at ha
    simp only [refsTo] at hr
    simp only [visitedOnce] at hv
    simp only [Says]
    intro e w e' h p ev r hp hd hl
    simp only [paths]
    induction l with
    | nil => exact h.elim
    | cons a l ihl =>
      simp only [wordyAll, Bool.and_eq_true] at ha
      simp only [refsToAll, Bool.and_eq_true] at hr
      simp only [visitedOnceAny, Bool.and_eq_true] at hv
      simp only [pathsAny, List.mem_append]
      rcases h with h | h
      · obtain ⟨ev1, h5, h6⟩ := ih a (by simp) ha.1 hr.1 (fun k hk => (hv k hk).1) h p ev r hp hd hl
        exact ⟨ev1, .inl h5, h6⟩
      · obtain ⟨ev1, h5, h6⟩ := ihl (fun b hb => ih b (List.mem_cons_of_mem _ hb)) ha.2 hr.2 (fun k hk => (hv k hk).2) h
        exact ⟨ev1, .inr h5, h6⟩
  | cap id n a ih =>
    simp only [wordy] at ha
    simp only [refsTo] at hr
    simp only [visitedOnce, Bool.and_eq_true] at hv
    simp only [Says]
    rintro e w e' ⟨t, h, rfl⟩ p ev r hp hd hl
    obtain ⟨ev1, h5, h6⟩ := ih ha hr (fun k hk => (hv k hk).2) h p ev r hp hd hl
    refine ⟨ev1 ++ [(id, p, p + w.length)], ?_, ?_⟩
    · simp only [paths, List.mem_map]
      exact ⟨_, h5, rfl⟩
    · intro k hk
      rw [held_snoc, recall]
      by_cases hid : id = k
      · simp only [hid, if_true, heldText, hd, Nat.add_sub_cancel_left, List.take_left]
      · simp only [hid, if_false]
        exact h6 k hk
  | rep m lo hi a ih =>
    obtain ⟨hm, ha⟩ := wordy_rep ha
    simp only [refsTo] at hr
    simp only [visitedOnce, Bool.and_eq_true] at hv
    have ih := fun e w e' (h : Says f a e w e') => ih ha hr (fun k hk => (hv k hk).2) h
    simp only [Says]
    rintro e w e' ⟨n, h1, h2, h⟩ p ev r hp hd hl
    obtain ⟨k, rfl⟩ := Nat.exists_eq_add_of_le h1
    obtain ⟨u, v, t, rfl, h3, h4⟩ := repeats_split h
    obtain ⟨h5, h6⟩ := drop_behind hp hd
    obtain ⟨ev1, h7, h8⟩ := offers_times ih h3 p ev (v ++ r) hp (by rw [hd, List.append_assoc]) hl
    have hex : ∃ ev2, (p + u.length + v.length, ev2) ∈ extraP s.length ((m == .greedy) != f.ungreedy) (paths f s a)
        (match hi with | .fin h => some (h - lo) | .inf => none) (p + u.length, ev1) ∧ Like s P ev2 e' := by
      cases hi with
      | fin h =>
        have h2 : lo + k ≤ h := h2
        exact offers_upTo ih (show k ≤ h - lo by omega) h4 _ _ _ r h5 h6 h8
      | inf =>
        exact offers_star ih (fun e w e' hs k hk => says_frame (by
          have := (hv k hk).1
          simpa using this) hs) h4 _ h5 (by omega) h6 h8
    obtain ⟨ev2, h9, h10⟩ := hex
    refine ⟨ev2, ?_, h10⟩
    rw [paths_rep hm, List.mem_flatMap]
    refine ⟨_, h7, ?_⟩
    rw [List.length_append, ← Nat.add_assoc]
    exact h9
  | backref k =>
    simp only [refsTo, Bool.and_eq_true] at hr
    simp only [Says]
    rintro e w e' ⟨h, rfl⟩ p ev r hp hd hl
    rw [← hl k hr.1] at h
    obtain ⟨h1, h2⟩ := beginsWith_of_sameText (r := r) h
    refine ⟨ev, ?_, hl⟩
    simp only [paths, hd, h1, if_true, List.mem_singleton, h2]
  | neg a =>
    simp only [wordy, Bool.not_eq_true'] at ha
    simp only [Says]
    intro e w e' h p ev r hp hd hl
    obtain ⟨ev', h1, h2⟩ := offers_char (s := s) (P := P) h p ev r hp hd hl
    exact ⟨ev', by simpa only [paths, ends, ha, Bool.false_eq_true, if_false] using h1, h2⟩
  | lit | range | wildcard | set =>
    simp only [Says]
    intro e w e' h p ev r hp hd hl
    obtain ⟨ev', h1, h2⟩ := offers_char (s := s) (P := P) h p ev r hp hd hl
    exact ⟨ev', by simpa only [paths, ends] using h1, h2⟩
  | _ => simp [wordy] at ha

end
end Mregex
