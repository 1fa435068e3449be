import Verif.Spec.Paths
import Verif.Proof.CaptureLemmas

/-!
# Facts about paths
-/

namespace Mregex
open Ast Spec

theorem held_snoc (k id : Nat) (v : Nat × Nat) (l : List Event) :
    held k (l ++ [(id, v)]) = if id = k then some v else held k l := by
  induction l with
  | nil => simp [held]
  | cons e l ih =>
    obtain ⟨i, w⟩ := e
    simp only [List.cons_append, held, ih]
    split <;> simp

/-! ### Relations along paths -/

section
variable {Q : Place → Place → Prop} (hrefl : ∀ x, Q x x) (htrans : ∀ x y z, Q x y → Q y z → Q x z)
  {g : Place → List Place} (hg : ∀ x y, y ∈ g x → Q x y)
include hrefl htrans hg

theorem timesP_rel (k : Nat) : ∀ x y, y ∈ timesP g k x → Q x y := by
  induction k with
  | zero => intro x y h; simp only [timesP, List.mem_singleton] at h; subst h; exact hrefl _
  | succ k ih =>
    intro x y h
    simp only [timesP, List.mem_flatMap] at h
    obtain ⟨t, h1, h2⟩ := h
    exact htrans _ _ _ (hg _ _ h1) (ih _ _ h2)

theorem greedyP_rel (k : Nat) : ∀ x y, y ∈ greedyP g k x → Q x y := by
  induction k with
  | zero => intro x y h; simp only [greedyP, List.mem_singleton] at h; subst h; exact hrefl _
  | succ k ih =>
    intro x y h
    simp only [greedyP, List.mem_append, List.mem_flatMap, List.mem_singleton] at h
    rcases h with ⟨t, h1, h2⟩ | rfl
    · exact htrans _ _ _ (hg _ _ h1) (ih _ _ h2)
    · exact hrefl _

theorem lazyP_rel (k : Nat) : ∀ x y, y ∈ lazyP g k x → Q x y := by
  induction k with
  | zero => intro x y h; simp only [lazyP, List.mem_singleton] at h; subst h; exact hrefl _
  | succ k ih =>
    intro x y h
    simp only [lazyP, List.mem_append, List.mem_flatMap, List.mem_singleton] at h
    rcases h with rfl | ⟨t, h1, h2⟩
    · exact hrefl _
    · exact htrans _ _ _ (hg _ _ h1) (ih _ _ h2)

theorem greedyStarP_rel (k : Nat) : ∀ x y, y ∈ greedyStarP g k x → Q x y := by
  induction k with
  | zero => intro x y h; simp [greedyStarP] at h
  | succ k ih =>
    intro x y h
    simp only [greedyStarP, List.mem_append, List.mem_flatMap, List.mem_singleton, List.mem_filter] at h
    rcases h with ⟨t, ⟨h1, _⟩, h2⟩ | rfl
    · exact htrans _ _ _ (hg _ _ h1) (ih _ _ h2)
    · exact hrefl _

theorem lazyStarP_rel (k : Nat) : ∀ x y, y ∈ lazyStarP g k x → Q x y := by
  induction k with
  | zero => intro x y h; simp [lazyStarP] at h
  | succ k ih =>
    intro x y h
    simp only [lazyStarP, List.mem_append, List.mem_flatMap, List.mem_singleton, List.mem_filter] at h
    rcases h with rfl | ⟨t, ⟨h1, _⟩, h2⟩
    · exact hrefl _
    · exact htrans _ _ _ (hg _ _ h1) (ih _ _ h2)

theorem extraP_rel (n : Nat) (more : Bool) (o : Option Nat) : ∀ x y, y ∈ extraP n more g o x → Q x y := by
  intro x y h
  unfold extraP at h
  split at h
  · split at h
    · exact greedyP_rel hrefl htrans hg _ _ _ h
    · exact lazyP_rel hrefl htrans hg _ _ _ h
  · split at h
    · exact greedyStarP_rel hrefl htrans hg _ _ _ h
    · exact lazyStarP_rel hrefl htrans hg _ _ _ h

end

section
variable {f : Flags} {s : List Byte}

theorem paths_rep {m : Mode} (hm : m ≠ .possessive) (lo : Nat) (hi : Bound) (a : Ast) (x : Place) :
    paths f s (.rep m lo hi a) x = (timesP (paths f s a) lo x).flatMap
        (extraP s.length ((m == .greedy) != f.ungreedy) (paths f s a) (match hi with | .fin h => some (h - lo) | .inf => none)) := by
  cases m with
  | possessive => exact absurd rfl hm
  | _ => cases hi <;> simp only [paths]

/-- What holds for the single steps of a path holds for the path. -/
theorem paths_rel {Q : Place → Place → Prop} (hrefl : ∀ x, Q x x) (htrans : ∀ x y z, Q x y → Q y z → Q x z)
    (hends : ∀ a x q, q ∈ ends f s a true false x.1 → Q x (q, x.2))
    (href : ∀ (w : List Byte) (x : Place), beginsWith f.icase w (s.drop x.1) = true → Q x (x.1 + w.length, x.2))
    {ids : Nat → Prop} (hcap : ∀ id x y, ids id → Q x y → Q x (y.1, y.2 ++ [(id, x.1, y.1)])) (a : Ast)
    (ha : ∀ k ∈ groupIds a, ids k) : ∀ x y, y ∈ paths f s a x → Q x y := by
  have hbase : ∀ a x y, y ∈ (ends f s a true false x.1).map (·, x.2) → Q x y := by
    intro a x y h
    obtain ⟨q, h1, rfl⟩ := List.mem_map.1 h
    exact hends _ _ _ h1
  induction a using ind with
  | cap id n a ih =>
    intro x y h
    simp only [paths, List.mem_map] at h
    obtain ⟨z, h1, rfl⟩ := h
    simp only [groupIds, List.mem_cons] at ha
    exact hcap _ _ _ (ha _ (.inl rfl)) (ih (fun k hk => ha k (.inr hk)) _ _ h1)
  | seq l ih =>
    intro x y h
    simp only [paths] at h
    simp only [groupIds] at ha
    induction l generalizing x with
    | nil => simp only [pathsAll, List.mem_singleton] at h; subst h; exact hrefl _
    | cons b l ihl =>
      simp only [pathsAll, List.mem_flatMap] at h
      simp only [groupIdsAll, List.mem_append] at ha
      obtain ⟨t, h1, h2⟩ := h
      exact htrans _ _ _ (ih b (by simp) (fun k hk => ha k (.inl hk)) _ _ h1)
        (ihl (fun c hc => ih c (List.mem_cons_of_mem _ hc)) (fun k hk => ha k (.inr hk)) _ h2)
  | alt l ih =>
    intro x y h
    simp only [paths] at h
    simp only [groupIds] at ha
    induction l with
    | nil => simp [pathsAny] at h
    | cons b l ihl =>
      simp only [pathsAny, List.mem_append] at h
      simp only [groupIdsAll, List.mem_append] at ha
      rcases h with h | h
      · exact ih b (by simp) (fun k hk => ha k (.inl hk)) _ _ h
      · exact ihl (fun c hc => ih c (List.mem_cons_of_mem _ hc)) (fun k hk => ha k (.inr hk)) h
  | rep m lo hi a ih =>
    intro x y h
    simp only [groupIds] at ha
    by_cases hm : m = .possessive
    · subst hm
      simp only [paths] at h
      exact hbase _ _ _ h
    · rw [paths_rep hm, List.mem_flatMap] at h
      obtain ⟨t, h1, h2⟩ := h
      exact htrans _ _ _ (timesP_rel hrefl htrans (ih ha) _ _ _ h1) (extraP_rel hrefl htrans (ih ha) _ _ _ _ _ h2)
  | backref k =>
    intro x y h
    simp only [paths] at h
    split at h
    · next hw => simp only [List.mem_singleton] at h; subst h; exact href _ _ hw
    · simp at h
  | _ => intro x y h; simp only [paths] at h; exact hbase _ _ _ h

/-- The groups of other parts are not affected. -/
theorem held_paths {a : Ast} {x y : Place} (h : y ∈ paths f s a x) {k : Nat} (hk : k ∉ groupIds a) : held k y.2 = held k x.2 := by
  refine paths_rel (Q := fun x y => held k y.2 = held k x.2) (ids := fun i => i ≠ k) (fun _ => rfl) (fun _ _ _ h h' => h'.trans h)
    (fun _ _ _ _ => rfl) (fun _ _ _ => rfl) ?_ a (fun i hi e => hk (e ▸ hi)) x y h
  intro id x y hid h
  rw [held_snoc, if_neg hid, h]

theorem held_pathsAll {l : List Ast} {x y : Place} (h : y ∈ pathsAll f s l x) {k : Nat} (hk : k ∉ groupIdsAll l) :
    held k y.2 = held k x.2 :=
  held_paths (a := .seq l) (by simpa only [paths] using h) (by simpa only [groupIds] using hk)

theorem beginsWith_length {icase : Bool} {w l : List Byte} (h : beginsWith icase w l = true) : w.length ≤ l.length := by
  induction w generalizing l with
  | nil => simp
  | cons x w ih =>
    cases l with
    | nil => simp [beginsWith] at h
    | cons y l =>
      simp only [beginsWith, Bool.and_eq_true] at h
      have := ih h.2
      simp only [List.length_cons]
      omega

theorem ends_bounds {a : Ast} {p q : Nat} (hp : p ≤ s.length) (h : q ∈ ends f s a true false p) : p ≤ q ∧ q ≤ s.length := by
  have := ends_inside (E := { inp := s, flags := f }) (r := 0) rfl a false p q hp h
  unfold Env.Reach at this
  dsimp only at this
  omega

theorem paths_bounds {a : Ast} {x y : Place} (hx : x.1 ≤ s.length) (h : y ∈ paths f s a x) : x.1 ≤ y.1 ∧ y.1 ≤ s.length := by
  refine paths_rel (Q := fun x y => x.1 ≤ s.length → x.1 ≤ y.1 ∧ y.1 ≤ s.length) (ids := fun _ => True) ?_ ?_ ?_ ?_ ?_ a
    (fun _ _ => trivial) x y h hx
  · intro x hx; exact ⟨Nat.le_refl _, hx⟩
  · intro x y z h1 h2 hx
    have a1 := h1 hx
    have a2 := h2 a1.2
    exact ⟨Nat.le_trans a1.1 a2.1, a2.2⟩
  · intro a x q h hx; exact ends_bounds hx h
  · intro w x h hx
    have := beginsWith_length h
    simp only [List.length_drop] at this
    dsimp only
    omega
  · intro id x y _ h hx; exact h hx

theorem pathsAll_bounds {l : List Ast} {x y : Place} (hx : x.1 ≤ s.length) (h : y ∈ pathsAll f s l x) :
    x.1 ≤ y.1 ∧ y.1 ≤ s.length :=
  paths_bounds (a := .seq l) hx (by simpa only [paths] using h)

theorem timesP_bounds {a : Ast} {k : Nat} {x y : Place} (hx : x.1 ≤ s.length) (h : y ∈ timesP (paths f s a) k x) :
    x.1 ≤ y.1 ∧ y.1 ≤ s.length := by
  refine timesP_rel (Q := fun x y => x.1 ≤ s.length → x.1 ≤ y.1 ∧ y.1 ≤ s.length) ?_ ?_ (fun x y h hx => paths_bounds hx h) k x y h hx
  · intro x hx; exact ⟨Nat.le_refl _, hx⟩
  · intro x y z h1 h2 hx
    have a1 := h1 hx
    have a2 := h2 a1.2
    exact ⟨Nat.le_trans a1.1 a2.1, a2.2⟩

theorem extraP_bounds {a : Ast} {more : Bool} {o : Option Nat} {n : Nat} {x y : Place} (hx : x.1 ≤ s.length)
    (h : y ∈ extraP n more (paths f s a) o x) : x.1 ≤ y.1 ∧ y.1 ≤ s.length := by
  refine extraP_rel (Q := fun x y => x.1 ≤ s.length → x.1 ≤ y.1 ∧ y.1 ≤ s.length) ?_ ?_ (fun x y h hx => paths_bounds hx h) n more o x y h hx
  · intro x hx; exact ⟨Nat.le_refl _, hx⟩
  · intro x y z h1 h2 hx
    have a1 := h1 hx
    have a2 := h2 a1.2
    exact ⟨Nat.le_trans a1.1 a2.1, a2.2⟩

/-- Only zero-length matchers have paths that do not advance. -/
theorem paths_ne {a : Ast} (hz : zlm a = false) {x y : Place} (hx : x.1 ≤ s.length) (h : y ∈ paths f s a x) : y.1 ≠ x.1 := by
  have hbase : ∀ (a : Ast) (x y : Place), zlm a = false → x.1 ≤ s.length → y ∈ (ends f s a true false x.1).map (·, x.2) → y.1 ≠ x.1 := by
    intro a x y hz hx h
    obtain ⟨q, h1, rfl⟩ := List.mem_map.1 h
    exact ends_ne (E := { inp := s, flags := f }) (r := 0) rfl hz hx h1
  induction a using ind generalizing x y with
  | cap id n a ih =>
    simp only [paths, List.mem_map] at h
    obtain ⟨z, h1, rfl⟩ := h
    have := ih (by simpa only [zlm] using hz) hx h1
    exact this
  | seq l ih =>
    simp only [paths] at h
    simp only [zlm] at hz
    induction l generalizing x with
    | nil => simp [zlmAll] at hz
    | cons b l ihl =>
      simp only [pathsAll, List.mem_flatMap] at h
      obtain ⟨t, h1, h2⟩ := h
      have b1 := paths_bounds hx h1
      have b2 := pathsAll_bounds b1.2 h2
      simp only [zlmAll, Bool.and_eq_false_iff] at hz
      rcases hz with hz | hz
      · have := ih b (by simp) hz hx h1
        omega
      · have := ihl (fun c hc => ih c (List.mem_cons_of_mem _ hc)) hz b1.2 h2
        omega
  | alt l ih =>
    simp only [paths] at h
    simp only [zlm] at hz
    induction l with
    | nil => simp [pathsAny] at h
    | cons b l ihl =>
      simp only [pathsAny, List.mem_append] at h
      simp only [zlmAny, Bool.or_eq_false_iff] at hz
      rcases h with h | h
      · exact ih b (by simp) hz.1 hx h
      · exact ihl (fun c hc => ih c (List.mem_cons_of_mem _ hc)) hz.2 h
  | rep m lo hi a ih =>
    by_cases hm : m = .possessive
    · subst hm
      simp only [paths] at h
      exact hbase _ _ _ hz hx h
    · rw [paths_rep hm, List.mem_flatMap] at h
      obtain ⟨t, h1, h2⟩ := h
      simp only [zlm, Bool.or_eq_false_iff, beq_eq_false_iff_ne] at hz
      have b2 := extraP_bounds (timesP_bounds hx h1).2 h2
      obtain ⟨k, rfl⟩ : ∃ k, lo = k + 1 := ⟨lo - 1, by omega⟩
      simp only [timesP, List.mem_flatMap] at h1
      obtain ⟨t', h3, h4⟩ := h1
      have b3 := paths_bounds hx h3
      have b4 := timesP_bounds b3.2 h4
      have := ih hz.2 hx h3
      omega
  | backref k => simp [zlm] at hz
  | _ => simp only [paths] at h; exact hbase _ _ _ hz hx h

/-! ### Parts without groups and references -/

theorem noBackref_all {l : List Ast} (h : noBackrefAll l = true) : ∀ a ∈ l, noBackref a = true := by
  simpa only [noBackrefAll_eq, List.all_eq_true] using h

theorem flatMap_place {α : Type} (l : List Nat) (g : Nat → List α) (h : Place → List α) (ev : List Event) (hh : ∀ q ∈ l, h (q, ev) = g q) :
    (l.map (·, ev)).flatMap h = l.flatMap g := by
  rw [List.flatMap_map]
  exact flatMap_congr' hh

section
variable {g : Place → List Place} {g' : Nat → List Nat} {ev : List Event} (hg : ∀ p, g (p, ev) = (g' p).map (·, ev))
include hg

theorem timesP_closed (k : Nat) (p : Nat) : timesP g k (p, ev) = (exactly g' k p).map (·, ev) := by
  induction k generalizing p with
  | zero => rfl
  | succ k ih =>
    simp only [timesP, exactly, hg]
    rw [flatMap_place _ _ _ _ (fun q _ => ih q), List.map_flatMap]

theorem greedyP_closed (k : Nat) (p : Nat) : greedyP g k (p, ev) = (greedyUpTo g' k p).map (·, ev) := by
  induction k generalizing p with
  | zero => rfl
  | succ k ih =>
    simp only [greedyP, greedyUpTo, hg, List.map_append, List.map_cons, List.map_nil]
    rw [flatMap_place _ _ _ _ (fun q _ => ih q), List.map_flatMap]

theorem lazyP_closed (k : Nat) (p : Nat) : lazyP g k (p, ev) = (lazyUpTo g' k p).map (·, ev) := by
  induction k generalizing p with
  | zero => rfl
  | succ k ih =>
    simp only [lazyP, lazyUpTo, hg, List.map_append, List.map_cons, List.map_nil]
    rw [flatMap_place _ _ _ _ (fun q _ => ih q), List.map_flatMap]

omit hg in
theorem filter_place (l : List Nat) (p : Nat) : (l.map (·, ev)).filter (fun y : Place => y.1 ≠ p) = (l.filter (· ≠ p)).map (·, ev) := by
  rw [List.filter_map]
  rfl

theorem greedyStarP_closed (k : Nat) (p : Nat) : greedyStarP g k (p, ev) = (greedyStar g' k p).map (·, ev) := by
  induction k generalizing p with
  | zero => rfl
  | succ k ih =>
    simp only [greedyStarP, greedyStar, hg, List.map_append, List.map_cons, List.map_nil]
    rw [filter_place, flatMap_place _ _ _ _ (fun q _ => ih q), List.map_flatMap]

theorem lazyStarP_closed (k : Nat) (p : Nat) : lazyStarP g k (p, ev) = (lazyStar g' k p).map (·, ev) := by
  induction k generalizing p with
  | zero => rfl
  | succ k ih =>
    simp only [lazyStarP, lazyStar, hg, List.map_append, List.map_cons, List.map_nil]
    rw [filter_place, flatMap_place _ _ _ _ (fun q _ => ih q), List.map_flatMap]

end

theorem paths_closed {a : Ast} (hi : groupIds a = []) (hb : noBackref a = true) (p : Nat) (ev : List Event) :
    paths f s a (p, ev) = (ends f s a true false p).map (·, ev) := by
  induction a using ind generalizing p with
  | cap id n a ih => simp [groupIds] at hi
  | seq l ih =>
    simp only [paths, ends]
    simp only [noBackref] at hb
    simp only [groupIds] at hi
    induction l generalizing p with
    | nil => rfl
    | cons b l ihl =>
      simp only [groupIdsAll, List.append_eq_nil_iff] at hi
      simp only [noBackrefAll, Bool.and_eq_true] at hb
      simp only [pathsAll, endsAll, Bool.false_eq_true, if_false]
      rw [ih b (by simp) hi.1 hb.1, flatMap_place _ _ _ _ (fun q _ => ihl (fun c hc => ih c (List.mem_cons_of_mem _ hc)) hi.2 hb.2 q), List.map_flatMap]
  | alt l ih =>
    simp only [paths, ends]
    simp only [noBackref] at hb
    simp only [groupIds] at hi
    induction l with
    | nil => rfl
    | cons b l ihl =>
      simp only [groupIdsAll, List.append_eq_nil_iff] at hi
      simp only [noBackrefAll, Bool.and_eq_true] at hb
      simp only [pathsAny, endsAny, List.map_append]
      rw [ih b (by simp) hi.1 hb.1, ihl (fun c hc => ih c (List.mem_cons_of_mem _ hc)) hi.2 hb.2]
  | rep m lo hi' a ih =>
    by_cases hm : m = .possessive
    · subst hm; simp only [paths]
    · have hg : ∀ p, paths f s a (p, ev) = (ends f s a true false p).map (·, ev) :=
        fun p => ih (by simpa only [groupIds] using hi) (by simpa only [noBackref] using hb) p
      rw [paths_rep hm, timesP_closed hg]
      simp only [ends, quantified]
      clear hi hb
      cases m with
      | possessive => exact absurd rfl hm
      | greedy =>
        rw [List.map_flatMap]
        refine flatMap_place _ _ _ _ (fun q _ => ?_)
        cases hi' <;> cases hu : f.ungreedy <;> simp only [extraP, extra] <;>
          simp [greedyP_closed hg, lazyP_closed hg, greedyStarP_closed hg, lazyStarP_closed hg]
      | lazy =>
        rw [List.map_flatMap]
        refine flatMap_place _ _ _ _ (fun q _ => ?_)
        cases hi' <;> cases hu : f.ungreedy <;> simp only [extraP, extra] <;>
          simp [greedyP_closed hg, lazyP_closed hg, greedyStarP_closed hg, lazyStarP_closed hg]
  | backref k => simp [noBackref] at hb
  | _ => simp only [paths]

end
end Mregex
