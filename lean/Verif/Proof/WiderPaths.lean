import Verif.Proof.Wider
import Verif.Proof.FramePaths

/-!
# Parts that permit more, inside of expressions with references
-/

namespace Mregex
open Ast Spec

section
variable {n : Nat} {g g' : Place → List Place} (hg : ∀ x, x.1 ≤ n → ∀ y ∈ g x, y ∈ g' x) (hin : ∀ x, x.1 ≤ n → ∀ y ∈ g x, y.1 ≤ n)
include hg hin

theorem timesP_more (k : Nat) : ∀ x : Place, x.1 ≤ n → ∀ y ∈ timesP g k x, y ∈ timesP g' k x ∧ y.1 ≤ n := by
  induction k with
  | zero => intro x hx y hy; simp only [timesP, List.mem_singleton] at hy ⊢; exact ⟨hy, hy ▸ hx⟩
  | succ k ih =>
    intro x hx y hy
    simp only [timesP, List.mem_flatMap] at hy ⊢
    obtain ⟨t, h1, h2⟩ := hy
    obtain ⟨h3, h4⟩ := ih t (hin x hx t h1) y h2
    exact ⟨⟨t, hg x hx t h1, h3⟩, h4⟩

theorem greedyP_more (k : Nat) : ∀ x : Place, x.1 ≤ n → ∀ y ∈ greedyP g k x, y ∈ greedyP g' k x := by
  induction k with
  | zero => intro x _ y hy; exact hy
  | succ k ih =>
    intro x hx y hy
    simp only [greedyP, List.mem_append, List.mem_flatMap] at hy ⊢
    exact hy.imp_left fun ⟨t, h1, h2⟩ => ⟨t, hg x hx t h1, ih t (hin x hx t h1) y h2⟩

theorem lazyP_more (k : Nat) : ∀ x : Place, x.1 ≤ n → ∀ y ∈ lazyP g k x, y ∈ lazyP g' k x := by
  induction k with
  | zero => intro x _ y hy; exact hy
  | succ k ih =>
    intro x hx y hy
    simp only [lazyP, List.mem_append, List.mem_flatMap] at hy ⊢
    exact hy.imp_right fun ⟨t, h1, h2⟩ => ⟨t, hg x hx t h1, ih t (hin x hx t h1) y h2⟩

theorem greedyStarP_more (k : Nat) : ∀ x : Place, x.1 ≤ n → ∀ y ∈ greedyStarP g k x, y ∈ greedyStarP g' k x := by
  induction k with
  | zero => intro x _ y hy; exact hy
  | succ k ih =>
    intro x hx y hy
    simp only [greedyStarP, List.mem_append, List.mem_flatMap, List.mem_filter] at hy ⊢
    exact hy.imp_left fun ⟨t, ⟨h1, h0⟩, h2⟩ => ⟨t, ⟨hg x hx t h1, h0⟩, ih t (hin x hx t h1) y h2⟩

theorem lazyStarP_more (k : Nat) : ∀ x : Place, x.1 ≤ n → ∀ y ∈ lazyStarP g k x, y ∈ lazyStarP g' k x := by
  induction k with
  | zero => intro x _ y hy; exact hy
  | succ k ih =>
    intro x hx y hy
    simp only [lazyStarP, List.mem_append, List.mem_flatMap, List.mem_filter] at hy ⊢
    exact hy.imp_right fun ⟨t, ⟨h1, h0⟩, h2⟩ => ⟨t, ⟨hg x hx t h1, h0⟩, ih t (hin x hx t h1) y h2⟩

theorem extraP_more (N : Nat) (more : Bool) (o : Option Nat) (x : Place) (hx : x.1 ≤ n) : ∀ y ∈ extraP N more g o x, y ∈ extraP N more g' o x := by
  have h1 := fun k => greedyP_more hg hin k x hx
  have h2 := fun k => lazyP_more hg hin k x hx
  have h3 := fun k => greedyStarP_more hg hin k x hx
  have h4 := fun k => lazyStarP_more hg hin k x hx
  cases o <;> cases more <;> simp only [extraP, Bool.false_eq_true, if_true, if_false] <;> first | apply h1 | apply h2 | apply h3 | apply h4

end

section
variable {f : Flags} {s : List Byte} {a b : Ast}

theorem pathsAll_more (h : ∀ x : Place, x.1 ≤ s.length → ∀ y ∈ paths f s a x, y ∈ paths f s b x) (pre post : List Ast) :
    ∀ x : Place, x.1 ≤ s.length → ∀ y ∈ pathsAll f s (pre ++ a :: post) x, y ∈ pathsAll f s (pre ++ b :: post) x := by
  induction pre with
  | nil =>
    intro x hx y hy
    simp only [List.nil_append, pathsAll, List.mem_flatMap] at hy ⊢
    obtain ⟨t, h1, h2⟩ := hy
    exact ⟨t, h x hx t h1, h2⟩
  | cons c pre ih =>
    intro x hx y hy
    simp only [List.cons_append, pathsAll, List.mem_flatMap] at hy ⊢
    obtain ⟨t, h1, h2⟩ := hy
    exact ⟨t, h1, ih t (paths_bounds hx h1).2 y h2⟩

theorem pathsAny_more {x : Place} (h : ∀ y ∈ paths f s a x, y ∈ paths f s b x) (pre post : List Ast) :
    ∀ y ∈ pathsAny f s (pre ++ a :: post) x, y ∈ pathsAny f s (pre ++ b :: post) x := by
  intro y hy
  induction pre with
  | nil => simp only [List.nil_append, pathsAny, List.mem_append] at hy ⊢; exact hy.imp_left (h y)
  | cons c pre ih => simp only [List.cons_append, pathsAny, List.mem_append] at hy ⊢; exact hy.imp_right ih

end

/-- What permits more in the gap has more paths, or fewer if it is negated. -/
theorem wider_paths {f : Flags} {cat : Cat} (s : List Byte) {X Y : Ast} (hX : closed X = true) (hY : closed Y = true)
    (h : ∀ fwd inv, Readings cat fwd inv → ∀ p, p ≤ s.length → ∀ q ∈ ends f s X fwd inv p, q ∈ ends f s Y fwd inv p) :
    ∀ (C : Frame), C.backtracks = true → (cat = .forward → C.ahead = true) → ∀ x : Place, x.1 ≤ s.length → ∀ y,
      if C.positive then y ∈ paths f s (C.fill X) x → y ∈ paths f s (C.fill Y) x else y ∈ paths f s (C.fill Y) x → y ∈ paths f s (C.fill X) x := by
  have base : ∀ C : Frame, C.backtracks = true → (cat = .forward → C.ahead = true) → ∀ x : Place, x.1 ≤ s.length → ∀ y : Place,
      if C.positive then y ∈ (ends f s (C.fill X) true false x.1).map (·, x.2) → y ∈ (ends f s (C.fill Y) true false x.1).map (·, x.2)
      else y ∈ (ends f s (C.fill Y) true false x.1).map (·, x.2) → y ∈ (ends f s (C.fill X) true false x.1).map (·, x.2) := by
    intro C hb ha x hx y
    have := wider_fill s C hb ha h true false (.inr ⟨rfl, rfl⟩) x.1 hx
    by_cases hC : C.positive = true
    · rw [if_pos hC]
      simp only [if_pos hC] at this
      rw [List.mem_map, List.mem_map]
      exact fun ⟨q, h1, h2⟩ => ⟨q, this q h1, h2⟩
    · rw [if_neg hC]
      simp only [if_neg hC] at this
      rw [List.mem_map, List.mem_map]
      exact fun ⟨q, h1, h2⟩ => ⟨q, this q h1, h2⟩
  have hin : ∀ a, ∀ x : Place, x.1 ≤ s.length → ∀ y ∈ paths f s a x, y.1 ≤ s.length := fun a x hx y hy => (paths_bounds hx hy).2
  intro C
  induction C with
  | gap =>
    intro hb ha x hx y
    simp only [closed, Bool.and_eq_true, List.isEmpty_iff] at hX hY
    have := base .gap hb ha x hx y
    simp only [Frame.fill] at this ⊢
    rw [paths_closed hX.1 hX.2 x.1 x.2, paths_closed hY.1 hY.2 x.1 x.2]
    exact this
  | seq pre C post ih =>
    intro hb ha x hx y
    have ih := ih hb ha
    simp only [Frame.fill, paths, Frame.positive]
    cases hC : C.positive <;> simp only [hC, if_true, Bool.false_eq_true, if_false] at ih ⊢
    · exact pathsAll_more (fun x hx y => ih x hx y) pre post x hx y
    · exact pathsAll_more (fun x hx y => ih x hx y) pre post x hx y
  | alt pre C post ih =>
    intro hb ha x hx y
    have ih := ih hb ha x hx
    simp only [Frame.fill, paths, Frame.positive]
    cases hC : C.positive <;> simp only [hC, if_true, Bool.false_eq_true, if_false] at ih ⊢
    · exact pathsAny_more (fun y => ih y) pre post y
    · exact pathsAny_more (fun y => ih y) pre post y
  | cap id name C ih =>
    intro hb ha x hx y
    have ih := ih hb ha x hx
    simp only [Frame.fill, paths, Frame.positive, List.mem_map]
    cases hC : C.positive <;> simp only [hC, if_true, Bool.false_eq_true, if_false] at ih ⊢
    · exact fun ⟨t, h1, h2⟩ => ⟨t, ih t h1, h2⟩
    · exact fun ⟨t, h1, h2⟩ => ⟨t, ih t h1, h2⟩
  | rep m lo hi C ih =>
    intro hb ha x hx y
    simp only [Frame.backtracks, Bool.and_eq_true, bne_iff_ne, ne_eq] at hb
    have ih := ih hb.2 ha
    cases m with
    | possessive => exact absurd rfl hb.1
    | greedy | lazy =>
      simp only [Frame.fill, paths, Frame.positive, List.mem_flatMap]
      cases hC : C.positive <;> simp only [hC, if_true, Bool.false_eq_true, if_false] at ih ⊢
      · rintro ⟨t, h1, h2⟩
        obtain ⟨h3, h4⟩ := timesP_more (fun x hx y => ih x hx y) (hin _) lo x hx t h1
        exact ⟨t, h3, extraP_more (fun x hx y => ih x hx y) (hin _) _ _ _ t h4 y h2⟩
      · rintro ⟨t, h1, h2⟩
        obtain ⟨h3, h4⟩ := timesP_more (fun x hx y => ih x hx y) (hin _) lo x hx t h1
        exact ⟨t, h3, extraP_more (fun x hx y => ih x hx y) (hin _) _ _ _ t h4 y h2⟩
  | look d C ih =>
    intro hb ha x hx y
    have := base (.look d C) hb ha x hx y
    simpa only [Frame.fill, paths] using this
  | notLook d C ih =>
    intro hb ha x hx y
    have := base (.notLook d C) hb ha x hx y
    simpa only [Frame.fill, paths] using this

/-- With more paths a method finds a match if it found one before, and a search finds one no further to the right. -/
theorem methodPath_more {f : Flags} {s : List Byte} {a b : Ast} (h : ∀ x : Place, x.1 ≤ s.length → ∀ y ∈ paths f s a x, y ∈ paths f s b x) {M : Method} {i : Nat} {y : Place}
    (hy : methodPath f s a M = some (i, y)) : ∃ i' y', methodPath f s b M = some (i', y') ∧ i' ≤ i := by
  have hd : ∀ j, j ≤ s.length → ∀ z, (paths f s a (j, [])).head? = some z → ∃ z', (paths f s b (j, [])).head? = some z' := by
    intro j hj z hz
    have h1 : z ∈ paths f s a (j, []) := List.mem_of_mem_head? (by rw [hz]; rfl)
    have h2 := h (j, []) hj z h1
    cases hb : paths f s b (j, []) with
    | nil => rw [hb] at h2; cases h2
    | cons z' l => exact ⟨z', rfl⟩
  cases M with
  | «match» =>
    simp only [methodPath, fullPath, Option.map_eq_some_iff, Prod.mk.injEq] at hy ⊢
    obtain ⟨z, h1, rfl, rfl⟩ := hy
    have h2 := h (0, []) (Nat.zero_le _) z (List.mem_of_find?_eq_some h1)
    have h3 := List.find?_some h1
    cases hb : (paths f s b (0, [])).find? (fun y => y.1 == s.length) with
    | none => exact absurd h3 (List.find?_eq_none.1 hb z h2)
    | some z' => exact ⟨0, z', ⟨z', rfl, rfl, rfl⟩, Nat.le_refl _⟩
  | matchPrefix =>
    simp only [methodPath, prefixPath, Option.map_eq_some_iff, Prod.mk.injEq] at hy ⊢
    obtain ⟨z, h1, rfl, rfl⟩ := hy
    obtain ⟨z', h2⟩ := hd 0 (Nat.zero_le _) z h1
    exact ⟨0, z', ⟨z', h2, rfl, rfl⟩, Nat.le_refl _⟩
  | search =>
    simp only [methodPath, searchPath] at hy ⊢
    have key : ∀ k m, m + k ≤ s.length + 1 → (List.range' m k).findSome? (fun j => (paths f s a (j, [])).head?.map (j, ·)) = some (i, y) →
        m ≤ i ∧ ∃ i' y', (List.range' m k).findSome? (fun j => (paths f s b (j, [])).head?.map (j, ·)) = some (i', y') ∧ i' ≤ i := by
      intro k
      induction k with
      | zero => intro m _ h; cases h
      | succ k ih =>
        intro m hm hk
        simp only [List.range'_succ, List.findSome?_cons] at hk ⊢
        cases ha : (paths f s a (m, [])).head? with
        | some z =>
          simp only [ha, Option.map_some, Option.some.injEq, Prod.mk.injEq] at hk
          obtain ⟨z', h2⟩ := hd m (by omega) z ha
          simp only [h2, Option.map_some]
          exact ⟨hk.1 ▸ Nat.le_refl _, m, z', rfl, hk.1 ▸ Nat.le_refl _⟩
        | none =>
          simp only [ha, Option.map_none] at hk
          obtain ⟨h1, i', y', h2, h3⟩ := ih (m + 1) (by omega) hk
          refine ⟨by omega, ?_⟩
          cases hb : (paths f s b (m, [])).head? with
          | some z' => exact ⟨m, z', rfl, by omega⟩
          | none => exact ⟨i', y', h2, h3⟩
    exact (key _ 0 (by omega) hy).2

end Mregex
