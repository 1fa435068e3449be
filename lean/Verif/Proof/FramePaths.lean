import Verif.Proof.Frame
import Verif.Proof.PathMethods

/-!
# Filling gaps: paths
-/

namespace Mregex
open Ast Spec

/-- The same places are found, whatever is looked for. -/
def PEq (l l' : List Place) : Prop := ∀ G : Place → Option Place, l.findSome? G = l'.findSome? G

namespace PEq
variable {l l' l₁ l₁' l₂ l₂' : List Place}

theorem refl (l : List Place) : PEq l l := fun _ => rfl

theorem append (h : PEq l₁ l₁') (h' : PEq l₂ l₂') : PEq (l₁ ++ l₂) (l₁' ++ l₂') := by
  intro G
  rw [List.findSome?_append, List.findSome?_append, h, h']

theorem findSome_flatMap (l : List Place) (g : Place → List Place) (G : Place → Option Place) :
    (l.flatMap g).findSome? G = l.findSome? (fun x => (g x).findSome? G) := by
  induction l with
  | nil => rfl
  | cons a l ih =>
    rw [List.flatMap_cons, List.findSome?_append, ih, List.findSome?_cons]
    cases (g a).findSome? G <;> rfl

theorem flatMap {g g' : Place → List Place} (h : PEq l l') (hg : ∀ x ∈ l, PEq (g x) (g' x)) : PEq (l.flatMap g) (l'.flatMap g') := by
  intro G
  rw [findSome_flatMap, findSome_flatMap, ← h]
  clear h
  induction l with
  | nil => rfl
  | cons a l ih =>
    rw [List.findSome?_cons, List.findSome?_cons, hg a (by simp) G, ih (fun q hq => hg q (by simp [hq]))]

theorem filter (h : PEq l l') (P : Place → Bool) : PEq (l.filter P) (l'.filter P) := by
  have key : ∀ (G : Place → Option Place) (l : List Place), (l.filter P).findSome? G = l.findSome? (fun x => if P x then G x else none) := by
    intro G l
    induction l with
    | nil => rfl
    | cons a l ih => by_cases h : P a = true <;> simp [h, List.findSome?_cons, ih]
  intro G
  rw [key, key, h]

theorem map (h : PEq l l') (φ : Place → Place) : PEq (l.map φ) (l'.map φ) := by
  intro G
  rw [List.findSome?_map, List.findSome?_map, h]

theorem of_ends {e e' : List Nat} (h : FEq e e') (ev : List Event) : PEq (e.map (·, ev)) (e'.map (·, ev)) := by
  intro G
  rw [List.findSome?_map, List.findSome?_map]
  have key : ∀ l : List Nat, l.findSome? (G ∘ fun q => (q, ev)) = (l.find? (fun q => (G (q, ev)).isSome)).bind (fun q => G (q, ev)) := by
    intro l
    induction l with
    | nil => rfl
    | cons a l ih =>
      cases h : G (a, ev) with
      | none => simp [List.findSome?_cons, List.find?_cons, h, ih]
      | some x => simp [List.findSome?_cons, List.find?_cons, h]
  rw [key, key, find_of_feq h]

theorem find? (h : PEq l l') (A : Place → Bool) : l.find? A = l'.find? A := by
  have key : ∀ l : List Place, l.find? A = l.findSome? (fun q => if A q then some q else none) := by
    intro l
    induction l with
    | nil => rfl
    | cons a l ih => cases h : A a <;> simp [List.findSome?_cons, List.find?_cons, h, ih]
  rw [key, key, h]

theorem head? (h : PEq l l') : l.head? = l'.head? := by
  have := h.find? (fun _ => true)
  cases l <;> cases l' <;> simp_all

end PEq

section
variable {n : Nat} {g g' : Place → List Place} (hg : ∀ x, x.1 ≤ n → PEq (g x) (g' x)) (hin : ∀ x, x.1 ≤ n → ∀ y ∈ g x, y.1 ≤ n)
include hg hin

theorem timesP_in (k : Nat) (x : Place) (hx : x.1 ≤ n) : PEq (timesP g k x) (timesP g' k x) ∧ ∀ y ∈ timesP g k x, y.1 ≤ n := by
  induction k generalizing x with
  | zero => exact ⟨.refl _, fun q hq => by simp only [timesP, List.mem_singleton] at hq; rw [hq]; exact hx⟩
  | succ k ih =>
    refine ⟨(hg x hx).flatMap (fun q hq => (ih q (hin x hx q hq)).1), fun q hq => ?_⟩
    obtain ⟨t, ht, hq⟩ := List.mem_flatMap.1 hq
    exact (ih t (hin x hx t ht)).2 q hq

theorem greedyP_in (k : Nat) (x : Place) (hx : x.1 ≤ n) : PEq (greedyP g k x) (greedyP g' k x) := by
  induction k generalizing x with
  | zero => exact .refl _
  | succ k ih => exact ((hg x hx).flatMap (fun q hq => ih q (hin x hx q hq))).append (.refl _)

theorem lazyP_in (k : Nat) (x : Place) (hx : x.1 ≤ n) : PEq (lazyP g k x) (lazyP g' k x) := by
  induction k generalizing x with
  | zero => exact .refl _
  | succ k ih => exact (PEq.refl _).append ((hg x hx).flatMap (fun q hq => ih q (hin x hx q hq)))

theorem greedyStarP_in (k : Nat) (x : Place) (hx : x.1 ≤ n) : PEq (greedyStarP g k x) (greedyStarP g' k x) := by
  induction k generalizing x with
  | zero => exact .refl _
  | succ k ih => exact (((hg x hx).filter _).flatMap (fun q hq => ih q (hin x hx q (List.mem_filter.1 hq).1))).append (.refl _)

theorem lazyStarP_in (k : Nat) (x : Place) (hx : x.1 ≤ n) : PEq (lazyStarP g k x) (lazyStarP g' k x) := by
  induction k generalizing x with
  | zero => exact .refl _
  | succ k ih => exact (PEq.refl _).append (((hg x hx).filter _).flatMap (fun q hq => ih q (hin x hx q (List.mem_filter.1 hq).1)))

theorem extraP_in (N : Nat) (more : Bool) (o : Option Nat) (x : Place) (hx : x.1 ≤ n) : PEq (extraP N more g o x) (extraP N more g' o x) := by
  have h1 := fun k => greedyP_in hg hin k x hx
  have h2 := fun k => lazyP_in hg hin k x hx
  have h3 := fun k => greedyStarP_in hg hin k x hx
  have h4 := fun k => lazyStarP_in hg hin k x hx
  cases o <;> cases more <;> simp only [extraP, Bool.false_eq_true, if_true, if_false] <;> first | apply h1 | apply h2 | apply h3 | apply h4

end

section
variable {f : Flags} {s : List Byte}

theorem pathsAll_gap {a b : Ast} (h : ∀ x : Place, x.1 ≤ s.length → PEq (paths f s a x) (paths f s b x)) (pre post : List Ast) (x : Place)
    (hx : x.1 ≤ s.length) : PEq (pathsAll f s (pre ++ a :: post) x) (pathsAll f s (pre ++ b :: post) x) := by
  induction pre generalizing x with
  | nil => simp only [List.nil_append, pathsAll]; exact (h x hx).flatMap (fun _ _ => .refl _)
  | cons c pre ih => simp only [List.cons_append, pathsAll]; exact (PEq.refl _).flatMap (fun y hy => ih y (paths_bounds hx hy).2)

theorem pathsAny_gap {a b : Ast} {x : Place} (h : PEq (paths f s a x) (paths f s b x)) (pre post : List Ast) :
    PEq (pathsAny f s (pre ++ a :: post) x) (pathsAny f s (pre ++ b :: post) x) := by
  induction pre with
  | nil => simp only [List.nil_append, pathsAny]; exact h.append (.refl _)
  | cons c pre ih => simp only [List.cons_append, pathsAny]; exact (PEq.refl _).append ih

end

/-- With the same choices in the gap there are the same paths. -/
theorem paths_fill {E : Env} {X Y : Ast} (h : ∀ fwd inv, Readings E.cat fwd inv → SameChoices E.flags fwd inv X Y) (hX : closed X = true) (hY : closed Y = true)
    (s : List Byte) (C : Frame) : (E.cat = .forward → Ok E 0 (C.fill X)) → ∀ x : Place, x.1 ≤ s.length →
      PEq (paths E.flags s (C.fill X) x) (paths E.flags s (C.fill Y) x) := by
  have base : ∀ C : Frame, (E.cat = .forward → Ok E 0 (C.fill X)) → ∀ x : Place, x.1 ≤ s.length →
      PEq ((ends E.flags s (C.fill X) true false x.1).map (·, x.2)) ((ends E.flags s (C.fill Y) true false x.1).map (·, x.2)) :=
    fun C hok x hx => .of_ends (choices_fill h s C true false 0 (.inr ⟨rfl, rfl⟩) hok x.1 hx) _
  induction C with
  | gap =>
    intro hok x hx
    simp only [closed, Bool.and_eq_true, List.isEmpty_iff] at hX hY
    simp only [Frame.fill]
    rw [paths_closed hX.1 hX.2 x.1 x.2, paths_closed hY.1 hY.2 x.1 x.2]
    exact base .gap hok x hx
  | seq pre C post ih =>
    intro hok x hx
    simp only [Frame.fill, paths] at hok ⊢
    exact pathsAll_gap (ih (fun hc => by cases hok hc with | seq _ h => exact h _ (by simp))) pre post x hx
  | alt pre C post ih =>
    intro hok x hx
    simp only [Frame.fill, paths] at hok ⊢
    exact pathsAny_gap (ih (fun hc => by cases hok hc with | alt _ h => exact h _ (by simp)) x hx) pre post
  | cap id name C ih =>
    intro hok x hx
    simp only [Frame.fill, paths] at hok ⊢
    exact (ih (fun hc => by cases hok hc with | cap _ _ h => exact h) x hx).map _
  | rep m lo hi C ih =>
    intro hok x hx
    have hok' : E.cat = .forward → Ok E 0 (C.fill X) := fun hc => by
      have := hok hc
      simp only [Frame.fill] at this
      cases this with | repFin _ h => exact h | repInf h => exact h
    have hin : ∀ x : Place, x.1 ≤ s.length → ∀ y ∈ paths E.flags s (C.fill X) x, y.1 ≤ s.length := fun x hx y hy => (paths_bounds hx hy).2
    obtain ⟨h1, h2⟩ := timesP_in (ih hok') hin lo x hx
    cases m with
    | possessive =>
      have := base (.rep .possessive lo hi C) hok x hx
      simpa only [Frame.fill, paths] using this
    | greedy => simp only [Frame.fill, paths]; exact h1.flatMap (fun y hy => extraP_in (ih hok') hin _ _ _ y (h2 y hy))
    | lazy => simp only [Frame.fill, paths]; exact h1.flatMap (fun y hy => extraP_in (ih hok') hin _ _ _ y (h2 y hy))
  | look d C ih =>
    intro hok x hx
    have := base (.look d C) hok x hx
    simpa only [Frame.fill, paths] using this
  | notLook d C ih =>
    intro hok x hx
    have := base (.notLook d C) hok x hx
    simpa only [Frame.fill, paths] using this

theorem methodPath_fill {E : Env} {X Y : Ast} (h : ∀ fwd inv, Readings E.cat fwd inv → SameChoices E.flags fwd inv X Y) (hX : closed X = true)
    (hY : closed Y = true) (s : List Byte) (C : Frame) (hok : E.cat = .forward → Ok E 0 (C.fill X)) (M : Method) :
    methodPath E.flags s (C.fill X) M = methodPath E.flags s (C.fill Y) M := by
  have hp := paths_fill h hX hY s C hok
  cases M with
  | «match» => simp only [methodPath, fullPath, (hp (0, []) (Nat.zero_le _)).find?]
  | matchPrefix => simp only [methodPath, prefixPath, (hp (0, []) (Nat.zero_le _)).head?]
  | search =>
    simp only [methodPath, searchPath]
    have key : ∀ l : List Nat, (∀ j ∈ l, j ≤ s.length) → l.findSome? (fun j => (paths E.flags s (C.fill X) (j, [])).head?.map (j, ·)) =
        l.findSome? (fun j => (paths E.flags s (C.fill Y) (j, [])).head?.map (j, ·)) := by
      intro l hl
      induction l with
      | nil => rfl
      | cons a l ih => rw [List.findSome?_cons, List.findSome?_cons, (hp (a, []) (hl a (by simp))).head?, ih (fun j hj => hl j (by simp [hj]))]
    exact key _ (fun j hj => by have := List.mem_range'_1.1 hj; omega)

end Mregex
