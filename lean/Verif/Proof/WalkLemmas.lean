import Verif.Spec.Walks
import Verif.Proof.PathLemmas
import Verif.Proof.Proc

/-!
# Walks: what does not change along them
-/

namespace Mregex.Walk
open Ast Spec

section
variable {Q : Place → Place → Prop} (hrefl : ∀ x, Q x x) (htrans : ∀ x y z, Q x y → Q y z → Q x z)
  {g : Place → List Place} (hg : ∀ x y, y ∈ g x → Q x y)
include hrefl htrans hg

theorem possessiveP_rel (k : Nat) : ∀ x y, y ∈ possessiveP g k x → Q x y := by
  induction k with
  | zero => intro x y h; simp only [possessiveP, List.mem_singleton] at h; subst h; exact hrefl _
  | succ k ih =>
    intro x y h
    rw [possessiveP] at h
    split at h
    · simp only [List.mem_singleton] at h; subst h; exact hrefl _
    · next t l e => exact htrans _ _ _ (hg x t (by rw [e]; simp)) (ih _ _ h)

theorem possessiveStarP_rel (k : Nat) : ∀ x y, y ∈ possessiveStarP g k x → Q x y := by
  induction k with
  | zero => intro x y h; simp [possessiveStarP] at h
  | succ k ih =>
    intro x y h
    rw [possessiveStarP] at h
    split at h
    · simp only [List.mem_singleton] at h; subst h; exact hrefl _
    · next t l e =>
      split at h
      · simp only [List.mem_singleton] at h; subst h; exact hg x _ (by rw [e]; simp)
      · exact htrans _ _ _ (hg x t (by rw [e]; simp)) (ih _ _ h)

end

section
variable {f : Flags} {s : List Byte}

theorem walks_rep {m : Mode} (hm : m ≠ .possessive) (lo : Nat) (hi : Bound) (a : Ast) (r : Nat) (inv : Bool) (x : Place) :
    walks f s (.rep m lo hi a) r inv x = (timesP (walks f s a r inv) lo x).flatMap
        (extraP s.length ((m == .greedy) != f.ungreedy) (walks f s a r inv) (match hi with | .fin h => some (h - lo) | .inf => none)) := by
  cases m with
  | possessive => exact absurd rfl hm
  | _ => cases hi <;> simp only [walks]

/-- What holds for the single steps of a walk holds for the walk. -/
theorem walks_rel {Q : Nat → Place → Place → Prop} (hrefl : ∀ r x, Q r x x) (htrans : ∀ r x y z, Q r x y → Q r y z → Q r x z)
    (hends : ∀ a r inv x q, q ∈ ends f s a (r % 2 == 0) inv x.1 → Q r x (q, x.2))
    (href : ∀ (w : List Byte) r (x : Place) q, q ∈ copies f.icase s (r % 2 == 0) w x.1 → Q r x (q, x.2))
    (hlook : ∀ r r' (x z : Place), Q r' x z → Q r x (x.1, z.2)) {ids : Nat → Prop} (hcap : ∀ id r x y v, ids id → Q r x y → Q r x (y.1, y.2 ++ [(id, v)])) (a : Ast)
    (ha : ∀ k ∈ groupIds a, ids k) (r : Nat) (inv : Bool) : ∀ x y, y ∈ walks f s a r inv x → Q r x y := by
  have hbase : ∀ a r inv x y, y ∈ (ends f s a (r % 2 == 0) inv x.1).map (·, x.2) → Q r x y := by
    intro a r inv x y h
    obtain ⟨q, h1, rfl⟩ := List.mem_map.1 h
    exact hends _ _ _ _ _ h1
  induction a using ind generalizing r inv with
  | cap id n a ih =>
    intro x y h
    simp only [walks, List.mem_map] at h
    obtain ⟨z, h1, rfl⟩ := h
    simp only [groupIds, List.mem_cons] at ha
    exact hcap _ _ _ _ _ (ha _ (.inl rfl)) (ih (fun k hk => ha k (.inr hk)) _ _ _ _ h1)
  | seq l ih =>
    intro x y h
    simp only [walks] at h
    simp only [groupIds] at ha
    induction l generalizing x y with
    | nil => simp only [walksAll, List.mem_singleton] at h; subst h; exact hrefl _ _
    | cons b l ihl =>
      simp only [groupIdsAll, List.mem_append] at ha
      have ihl := ihl (fun c hc => ih c (List.mem_cons_of_mem _ hc)) (fun k hk => ha k (.inr hk))
      have ihb := ih b (by simp) (fun k hk => ha k (.inl hk)) r inv
      rw [walksAll] at h
      split at h
      · obtain ⟨t, h1, h2⟩ := List.mem_flatMap.1 h
        exact htrans _ _ _ _ (ihl _ _ h1) (ihb _ _ h2)
      · obtain ⟨t, h1, h2⟩ := List.mem_flatMap.1 h
        exact htrans _ _ _ _ (ihb _ _ h1) (ihl _ _ h2)
  | alt l ih =>
    intro x y h
    simp only [walks] at h
    simp only [groupIds] at ha
    induction l with
    | nil => simp [walksAny] at h
    | cons b l ihl =>
      simp only [walksAny, List.mem_append] at h
      simp only [groupIdsAll, List.mem_append] at ha
      rcases h with h | h
      · exact ih b (by simp) (fun k hk => ha k (.inl hk)) _ _ _ _ h
      · exact ihl (fun c hc => ih c (List.mem_cons_of_mem _ hc)) (fun k hk => ha k (.inr hk)) h
  | rep m lo hi a ih =>
    intro x y h
    simp only [groupIds] at ha
    by_cases hm : m = .possessive
    · subst hm
      simp only [walks, List.mem_flatMap] at h
      obtain ⟨t, h1, h2⟩ := h
      refine htrans _ _ _ _ (timesP_rel (hrefl r) (htrans r) (ih ha r inv) _ _ _ (List.mem_of_mem_take h1)) ?_
      cases hi with
      | fin h => exact possessiveP_rel (hrefl r) (htrans r) (ih ha r inv) _ _ _ h2
      | inf => exact possessiveStarP_rel (hrefl r) (htrans r) (ih ha r inv) _ _ _ h2
    · rw [walks_rep hm, List.mem_flatMap] at h
      obtain ⟨t, h1, h2⟩ := h
      exact htrans _ _ _ _ (timesP_rel (hrefl r) (htrans r) (ih ha r inv) _ _ _ h1) (extraP_rel (hrefl r) (htrans r) (ih ha r inv) _ _ _ _ _ h2)
  | backref k =>
    intro x y h
    simp only [walks] at h
    obtain ⟨q, h1, rfl⟩ := List.mem_map.1 h
    exact href _ _ _ _ h1
  | neg a ih =>
    intro x y h
    rw [walks] at h
    split at h
    · split at h
      · simp only [List.mem_singleton] at h; subst h; exact hrefl _ _
      · simp at h
    · exact hbase _ _ _ _ _ h
  | look d a ih =>
    intro x y h
    simp only [walks, List.mem_map] at h
    obtain ⟨z, h1, rfl⟩ := h
    simp only [groupIds] at ha
    split at h1
    · exact hlook _ _ _ _ (ih ha _ _ _ _ (List.mem_of_mem_take h1))
    · exact hlook _ _ _ _ (ih ha _ _ _ _ (List.mem_of_mem_take h1))
  | _ => intro x y h; simp only [walks] at h; exact hbase _ _ _ _ _ h

/-- The groups of other parts are not affected. -/
theorem held_walks {a : Ast} {r : Nat} {inv : Bool} {x y : Place} (h : y ∈ walks f s a r inv x) {k : Nat} (hk : k ∉ groupIds a) : held k y.2 = held k x.2 := by
  refine walks_rel (Q := fun _ x y => held k y.2 = held k x.2) (ids := fun i => i ≠ k) (fun _ _ => rfl) (fun _ _ _ _ h h' => h'.trans h)
    (fun _ _ _ _ _ _ => rfl) (fun _ _ _ _ _ => rfl) (fun _ _ _ _ h => h) ?_ a (fun i hi e => hk (e ▸ hi)) r inv x y h
  intro id r x y v hid h
  rw [held_snoc, if_neg hid, h]

theorem held_walksAll {l : List Ast} {r : Nat} {inv : Bool} {x y : Place} (h : y ∈ walksAll f s l r inv x) {k : Nat} (hk : k ∉ groupIdsAll l) :
    held k y.2 = held k x.2 :=
  held_walks (a := .seq l) (by simpa only [walks] using h) (by simpa only [groupIds] using hk)

/-- A group that has taken part has taken part. -/
theorem held_stays {a : Ast} {r : Nat} {inv : Bool} {x y : Place} (h : y ∈ walks f s a r inv x) {k : Nat} (hk : held k x.2 ≠ none) : held k y.2 ≠ none := by
  refine walks_rel (Q := fun _ x y => held k x.2 ≠ none → held k y.2 ≠ none) (ids := fun _ => True) (fun _ _ h => h) (fun _ _ _ _ h h' h'' => h' (h h''))
    (fun _ _ _ _ _ _ h => h) (fun _ _ _ _ _ h => h) (fun _ _ _ _ h => h) ?_ a (fun _ _ => trivial) r inv x y h hk
  intro id r x y v _ h hx
  rw [held_snoc]
  split
  · simp
  · exact h hx

theorem held_times {g : Place → List Place} {k : Nat} (h : ∀ x y, y ∈ g x → held k y.2 ≠ none) (hs : ∀ x y, y ∈ g x → held k x.2 ≠ none → held k y.2 ≠ none) {n : Nat}
    (hn : n ≠ 0) {x y : Place} (hy : y ∈ timesP g n x) : held k y.2 ≠ none := by
  obtain ⟨n, rfl⟩ : ∃ m, n = m + 1 := ⟨n - 1, by omega⟩
  simp only [timesP, List.mem_flatMap] at hy
  obtain ⟨t, h1, h2⟩ := hy
  exact timesP_rel (Q := fun x y => held k x.2 ≠ none → held k y.2 ≠ none) (fun _ h => h) (fun _ _ _ h h' h'' => h' (h h'')) hs n t y h2 (h x t h1)

theorem surely_walks (a : Ast) {k : Nat} (hk : k ∈ surely a) (r : Nat) (inv : Bool) : ∀ x y, y ∈ walks f s a r inv x → held k y.2 ≠ none := by
  induction a using ind generalizing r inv with
  | cap id n a ih =>
    intro x y h
    simp only [walks, List.mem_map] at h
    obtain ⟨z, h1, rfl⟩ := h
    rw [surely, List.mem_cons] at hk
    rw [held_snoc]
    split
    · simp
    · next hid => exact ih (hk.resolve_left (Ne.symm hid)) _ _ _ _ h1
  | seq l ih =>
    intro x y h
    simp only [walks] at h
    simp only [surely] at hk
    induction l generalizing x y with
    | nil => simp [surelyAll] at hk
    | cons b l ihl =>
      have ihl := ihl (fun c hc => ih c (List.mem_cons_of_mem _ hc))
      simp only [surelyAll, List.mem_append] at hk
      rw [walksAll] at h
      split at h
      · obtain ⟨t, h1, h2⟩ := List.mem_flatMap.1 h
        rcases hk with hk | hk
        · exact ih b (by simp) hk _ _ _ _ h2
        · exact held_stays h2 (ihl hk _ _ h1)
      · obtain ⟨t, h1, h2⟩ := List.mem_flatMap.1 h
        rcases hk with hk | hk
        · exact held_stays (a := .seq l) (by simpa only [walks] using h2) (ih b (by simp) hk _ _ _ _ h1)
        · exact ihl hk _ _ h2
  | alt l ih =>
    intro x y h
    simp only [walks] at h
    simp only [surely] at hk
    induction l with
    | nil => simp [walksAny] at h
    | cons b l ihl =>
      simp only [walksAny, List.mem_append] at h
      match l, ihl with
      | [], _ =>
        simp only [surelyAny] at hk
        rcases h with h | h
        · exact ih b (by simp) hk _ _ _ _ h
        · simp [walksAny] at h
      | c :: l, ihl =>
        simp only [surelyAny, List.mem_filter, List.contains_eq_mem, decide_eq_true_eq] at hk
        rcases h with h | h
        · exact ih b (by simp) hk.1 _ _ _ _ h
        · exact ihl (fun c hc => ih c (List.mem_cons_of_mem _ hc)) hk.2 h
  | rep m lo hi a ih =>
    intro x y h
    rw [surely] at hk
    split at hk
    · cases hk
    · next hlo =>
      have hs : ∀ x y, y ∈ walks f s a r inv x → held k x.2 ≠ none → held k y.2 ≠ none := fun x y h h' => held_stays h h'
      by_cases hm : m = .possessive
      · subst hm
        simp only [walks, List.mem_flatMap] at h
        obtain ⟨t, h1, h2⟩ := h
        have h3 := held_times (ih hk r inv) hs hlo (List.mem_of_mem_take h1)
        cases hi with
        | fin h => exact possessiveP_rel (Q := fun x y => held k x.2 ≠ none → held k y.2 ≠ none) (fun _ h => h) (fun _ _ _ h h' h'' => h' (h h'')) hs _ t y h2 h3
        | inf => exact possessiveStarP_rel (Q := fun x y => held k x.2 ≠ none → held k y.2 ≠ none) (fun _ h => h) (fun _ _ _ h h' h'' => h' (h h'')) hs _ t y h2 h3
      · rw [walks_rep hm, List.mem_flatMap] at h
        obtain ⟨t, h1, h2⟩ := h
        exact extraP_rel (Q := fun x y => held k x.2 ≠ none → held k y.2 ≠ none) (fun _ h => h) (fun _ _ _ h h' h'' => h' (h h'')) hs _ _ _ t y h2
          (held_times (ih hk r inv) hs hlo h1)
  | look d a ih =>
    intro x y h
    rw [surely] at hk
    simp only [walks, List.mem_map] at h
    obtain ⟨z, h1, rfl⟩ := h
    split at h1
    · exact ih hk _ _ x z (List.mem_of_mem_take h1)
    · exact ih hk _ _ x z (List.mem_of_mem_take h1)
  | _ => simp [surely] at hk

theorem copies_reach {E : Env} {r : Nat} {icase : Bool} {w : List Byte} {p q : Nat} (hp : p ≤ E.inp.length) (h : q ∈ copies icase E.inp (r % 2 == 0) w p) :
    E.Reach r p q := by
  induction w generalizing p with
  | nil => simp only [copies, List.mem_singleton] at h; subst h; exact .refl hp
  | cons x w ih =>
    simp only [copies, List.mem_flatMap] at h
    obtain ⟨t, h1, h2⟩ := h
    obtain ⟨rfl, h0⟩ := oneChar_ne rfl hp h1
    have h3 := Env.reach_next hp h0
    exact h3.trans (ih h3.right_le h2)

theorem reach_ne {E : Env} {r p t q : Nat} (h1 : E.Reach r p t) (h2 : E.Reach r t q) (h : t ≠ p ∨ q ≠ t) : q ≠ p := by
  unfold Env.Reach at h1 h2
  omega

end

section
variable {E : Env} {r : Nat} {inv : Bool}

theorem walks_bounds {a : Ast} {x y : Place} (hx : x.1 ≤ E.inp.length) (h : y ∈ walks E.flags E.inp a r inv x) : E.Reach r x.1 y.1 := by
  refine walks_rel (Q := fun r x y => x.1 ≤ E.inp.length → E.Reach r x.1 y.1) (ids := fun _ => True) ?_ ?_ ?_ ?_ (fun r r' x z h hx => .refl hx) ?_ a
    (fun _ _ => trivial) r inv x y h hx
  · intro r x hx; exact .refl hx
  · intro r x y z h1 h2 hx
    have a1 := h1 hx
    exact a1.trans (h2 a1.right_le)
  · intro a r inv x q h hx; exact ends_inside rfl a inv x.1 q hx h
  · intro w r x q h hx; exact copies_reach hx h
  · intro id r x y v _ h hx; exact h hx

theorem walksAll_bounds {l : List Ast} {x y : Place} (hx : x.1 ≤ E.inp.length) (h : y ∈ walksAll E.flags E.inp l r inv x) : E.Reach r x.1 y.1 :=
  walks_bounds (a := .seq l) hx (by simpa only [walks] using h)

theorem timesP_bounds {a : Ast} {k : Nat} {x y : Place} (hx : x.1 ≤ E.inp.length) (h : y ∈ timesP (walks E.flags E.inp a r inv) k x) : E.Reach r x.1 y.1 := by
  refine timesP_rel (Q := fun x y => x.1 ≤ E.inp.length → E.Reach r x.1 y.1) ?_ ?_ (fun x y h hx => walks_bounds hx h) k x y h hx
  · intro x hx; exact .refl hx
  · intro x y z h1 h2 hx
    have a1 := h1 hx
    exact a1.trans (h2 a1.right_le)

theorem extraP_bounds {a : Ast} {more : Bool} {o : Option Nat} {n : Nat} {x y : Place} (hx : x.1 ≤ E.inp.length)
    (h : y ∈ extraP n more (walks E.flags E.inp a r inv) o x) : E.Reach r x.1 y.1 := by
  refine extraP_rel (Q := fun x y => x.1 ≤ E.inp.length → E.Reach r x.1 y.1) ?_ ?_ (fun x y h hx => walks_bounds hx h) n more o x y h hx
  · intro x hx; exact .refl hx
  · intro x y z h1 h2 hx
    have a1 := h1 hx
    exact a1.trans (h2 a1.right_le)

/-- Only zero-length matchers have walks that do not advance. -/
theorem walks_ne {a : Ast} (hz : zlm a = false) {x y : Place} (hx : x.1 ≤ E.inp.length) (h : y ∈ walks E.flags E.inp a r inv x) : y.1 ≠ x.1 := by
  have hbase : ∀ (a : Ast) (x y : Place), zlm a = false → x.1 ≤ E.inp.length → y ∈ (ends E.flags E.inp a (r % 2 == 0) inv x.1).map (·, x.2) → y.1 ≠ x.1 := by
    intro a x y hz hx h
    obtain ⟨q, h1, rfl⟩ := List.mem_map.1 h
    exact ends_ne (E := E) (r := r) rfl hz hx h1
  induction a using ind generalizing x y with
  | cap id n a ih =>
    simp only [walks, List.mem_map] at h
    obtain ⟨z, h1, rfl⟩ := h
    have := ih (by simpa only [zlm] using hz) hx h1
    exact this
  | seq l ih =>
    simp only [walks] at h
    simp only [zlm] at hz
    induction l generalizing x y with
    | nil => simp [zlmAll] at hz
    | cons b l ihl =>
      have ihl := fun {x y} hz => @ihl (fun c hc => ih c (List.mem_cons_of_mem _ hc)) hz x y
      simp only [zlmAll, Bool.and_eq_false_iff] at hz
      rw [walksAll] at h
      split at h
      · obtain ⟨t, h1, h2⟩ := List.mem_flatMap.1 h
        have b1 := walksAll_bounds hx h1
        refine reach_ne b1 (walks_bounds b1.right_le h2) ?_
        rcases hz with hz | hz
        · exact .inr (ih b (by simp) hz b1.right_le h2)
        · exact .inl (ihl hz hx h1)
      · obtain ⟨t, h1, h2⟩ := List.mem_flatMap.1 h
        have b1 := walks_bounds hx h1
        refine reach_ne b1 (walksAll_bounds b1.right_le h2) ?_
        rcases hz with hz | hz
        · exact .inl (ih b (by simp) hz hx h1)
        · exact .inr (ihl hz b1.right_le h2)
  | alt l ih =>
    simp only [walks] at h
    simp only [zlm] at hz
    induction l with
    | nil => simp [walksAny] at h
    | cons b l ihl =>
      simp only [walksAny, List.mem_append] at h
      simp only [zlmAny, Bool.or_eq_false_iff] at hz
      rcases h with h | h
      · exact ih b (by simp) hz.1 hx h
      · exact ihl (fun c hc => ih c (List.mem_cons_of_mem _ hc)) hz.2 h
  | rep m lo hi a ih =>
    simp only [zlm, Bool.or_eq_false_iff, beq_eq_false_iff_ne] at hz
    have htimes : ∀ t, t ∈ timesP (walks E.flags E.inp a r inv) lo x → t.1 ≠ x.1 := by
      intro t h1
      obtain ⟨k, rfl⟩ : ∃ k, lo = k + 1 := ⟨lo - 1, by omega⟩
      simp only [timesP, List.mem_flatMap] at h1
      obtain ⟨t', h3, h4⟩ := h1
      have b3 := walks_bounds hx h3
      exact reach_ne b3 (timesP_bounds b3.right_le h4) (.inl (ih hz.2 hx h3))
    by_cases hm : m = .possessive
    · subst hm
      simp only [walks, List.mem_flatMap] at h
      obtain ⟨t, h1, h2⟩ := h
      have h1 := List.mem_of_mem_take h1
      have b1 := timesP_bounds hx h1
      refine reach_ne b1 ?_ (.inl (htimes t h1))
      refine walks_bounds (a := .rep .possessive 0 (match hi with | .fin h => .fin (h - lo) | .inf => .inf) a) (r := r) (inv := inv) b1.right_le ?_
      cases hi <;> simpa [walks, timesP] using h2
    · rw [walks_rep hm, List.mem_flatMap] at h
      obtain ⟨t, h1, h2⟩ := h
      have b1 := timesP_bounds hx h1
      exact reach_ne b1 (extraP_bounds b1.right_le h2) (.inl (htimes t h1))
  | backref k => simp [zlm] at hz
  | look d a ih => simp [zlm] at hz
  | neg a ih =>
    rw [walks, if_neg (by rw [assertion_eq]; simpa [zlm] using hz)] at h
    exact hbase _ _ _ hz hx h
  | _ => simp only [walks] at h; exact hbase _ _ _ hz hx h

end

section
variable {f : Flags} {s : List Byte}

section
variable {g : Place → List Place} {g' : Nat → List Nat} {ev : List Event} (hg : ∀ p, g (p, ev) = (g' p).map (·, ev))
include hg

theorem possessiveP_closed (k : Nat) (p : Nat) : possessiveP g k (p, ev) = (possessiveUpTo g' k p).map (·, ev) := by
  induction k generalizing p with
  | zero => rfl
  | succ k ih =>
    rw [possessiveP, possessiveUpTo, hg]
    cases g' p with
    | nil => rfl
    | cons q l => exact ih q

theorem possessiveStarP_closed (k : Nat) (p : Nat) : possessiveStarP g k (p, ev) = (possessiveStar g' k p).map (·, ev) := by
  induction k generalizing p with
  | zero => rfl
  | succ k ih =>
    rw [possessiveStarP, possessiveStar, hg]
    cases g' p with
    | nil => rfl
    | cons q l =>
      dsimp only [List.map_cons]
      by_cases h : q = p
      · simp [h]
      · simp [h, ih q]

end

theorem walks_closed {a : Ast} (hi : groupIds a = []) (hb : noBackref a = true) (r : Nat) (inv : Bool) (p : Nat) (ev : List Event) :
    walks f s a r inv (p, ev) = (ends f s a (r % 2 == 0) inv p).map (·, ev) := by
  induction a using ind generalizing r inv p with
  | cap id n a ih => simp [groupIds] at hi
  | seq l ih =>
    simp only [walks, ends]
    simp only [noBackref] at hb
    simp only [groupIds] at hi
    induction l generalizing p with
    | nil => rfl
    | cons b l ihl =>
      simp only [groupIdsAll, List.append_eq_nil_iff] at hi
      simp only [noBackrefAll, Bool.and_eq_true] at hb
      have ihl := ihl (fun c hc => ih c (List.mem_cons_of_mem _ hc)) hi.2 hb.2
      rw [walksAll, endsAll]
      split
      · rw [ihl, flatMap_place _ _ _ _ (fun q _ => ih b (by simp) hi.1 hb.1 r inv q), List.map_flatMap]
      · rw [ih b (by simp) hi.1 hb.1, flatMap_place _ _ _ _ (fun q _ => ihl q), List.map_flatMap]
  | alt l ih =>
    simp only [walks, ends]
    simp only [noBackref] at hb
    simp only [groupIds] at hi
    induction l with
    | nil => rfl
    | cons b l ihl =>
      simp only [groupIdsAll, List.append_eq_nil_iff] at hi
      simp only [noBackrefAll, Bool.and_eq_true] at hb
      simp only [walksAny, endsAny, List.map_append]
      rw [ih b (by simp) hi.1 hb.1, ihl (fun c hc => ih c (List.mem_cons_of_mem _ hc)) hi.2 hb.2]
  | rep m lo hi' a ih =>
    have hg : ∀ p, walks f s a r inv (p, ev) = (ends f s a (r % 2 == 0) inv p).map (·, ev) :=
      fun p => ih (by simpa only [groupIds] using hi) (by simpa only [noBackref] using hb) r inv p
    by_cases hm : m = .possessive
    · subst hm
      simp only [walks, ends, quantified]
      rw [timesP_closed hg, ← List.map_take, List.map_flatMap]
      refine flatMap_place _ _ _ _ (fun q _ => ?_)
      cases hi' with
      | fin h => simp only [extra, possessiveP_closed hg]
      | inf => simp only [extra, possessiveStarP_closed hg]
    · rw [walks_rep hm, timesP_closed hg]
      simp only [ends, quantified]
      clear hi hb
      cases m with
      | possessive => exact absurd rfl hm
      | greedy =>
        rw [List.map_flatMap]
        refine flatMap_place _ _ _ _ (fun q _ => ?_)
        cases hi' <;> cases hu : f.ungreedy <;> simp only [extraP, extra] <;>
          simp [greedyP_closed hg, lazyP_closed hg, greedyStarP_closed hg, lazyStarP_closed hg]
      | lazy =>
        rw [List.map_flatMap]
        refine flatMap_place _ _ _ _ (fun q _ => ?_)
        cases hi' <;> cases hu : f.ungreedy <;> simp only [extraP, extra] <;>
          simp [greedyP_closed hg, lazyP_closed hg, greedyStarP_closed hg, lazyStarP_closed hg]
  | backref k => simp [noBackref] at hb
  | neg a ih =>
    rw [walks]
    split
    · next h =>
      rw [ih (by simpa only [groupIds] using hi) (by simpa only [noBackref] using hb), ends, if_pos h]
      cases ends f s a (r % 2 == 0) inv p <;> simp [test]
    · rfl
  | look d a ih =>
    have ih := ih (by simpa only [groupIds] using hi) (by simpa only [noBackref] using hb)
    have e : ((r + 1) % 2 == 0) = !(r % 2 == 0) := by
      rcases Nat.mod_two_eq_zero_or_one r with h | h
      · rw [show (r + 1) % 2 = 1 by omega, h]; rfl
      · rw [show (r + 1) % 2 = 0 by omega, h]; rfl
    simp only [walks, ends, ih, e]
    split
    · cases ends f s a (r % 2 == 0) false p <;> simp [test]
    · cases ends f s a (!(r % 2 == 0)) true p <;> simp [test]
  | _ => simp only [walks]

/-! ### Mirroring -/

theorem walksAll_append (l l' : List Ast) (r : Nat) (inv : Bool) (x : Place) :
    walksAll f s (l ++ l') r inv x =
      if inv then (walksAll f s l' r inv x).flatMap (walksAll f s l r inv) else (walksAll f s l r inv x).flatMap (walksAll f s l' r inv) := by
  induction l generalizing x with
  | nil =>
    have e : walksAll f s [] r inv = fun x => [x] := by funext x; simp [walksAll]
    cases inv <;> simp [e]
  | cons a l ih =>
    cases inv with
    | false =>
      simp only [List.cons_append, walksAll, Bool.false_eq_true, if_false] at *
      rw [List.flatMap_assoc]
      exact flatMap_congr' (fun y _ => ih y)
    | true =>
      simp only [List.cons_append, walksAll, if_true] at *
      rw [ih, List.flatMap_assoc]

theorem walks_invert (a : Ast) (r : Nat) (inv : Bool) : walks f s (invert a) r inv = walks f s a r (!inv) := by
  induction a using ind generalizing r inv with
  | seq l ih =>
    funext x
    simp only [invert, walks, invertAll_eq]
    induction l generalizing x with
    | nil => simp [walksAll]
    | cons a l ihl =>
      have ihl' := ihl (fun b hb => ih b (List.mem_cons_of_mem _ hb))
      have e : walksAll f s (List.map invert l).reverse r inv = walksAll f s l r (!inv) := funext ihl'
      simp only [List.map_cons, List.reverse_cons]
      rw [walksAll_append]
      have e1 : walksAll f s [invert a] r inv = walks f s a r (!inv) := by
        funext q
        simp only [walksAll]
        cases inv <;> simp [ih a (by simp)]
      rw [e, e1]
      cases inv <;> simp [walksAll]
  | alt l ih =>
    funext x
    simp only [invert, walks, invertAll_eq]
    induction l with
    | nil => simp [walksAny]
    | cons a l ihl =>
      simp only [List.map_cons, walksAny]
      rw [ih a (by simp), ihl (fun b hb => ih b (List.mem_cons_of_mem _ hb))]
  | cap id n a ih => funext x; simp only [invert, walks, ih]
  | rep m lo hi a ih => funext x; cases m <;> cases hi <;> simp only [invert, walks, ih]
  | look d a ih => funext x; cases d <;> cases inv <;> simp [invert, walks]
  | neg a ih =>
    funext x
    have e := congrFun (ends_invert f s (.neg a) (r % 2 == 0) inv) x.1
    simp only [invert] at e
    simp only [invert, walks, ih, e]
    rw [assertion_eq, assertion_eq, isAssertion_invert]
  | set l ih =>
    funext x
    have e := congrFun (ends_invert f s (.set l) (r % 2 == 0) inv) x.1
    simp only [invert] at e
    simp only [invert, walks, e]
  | _ =>
    funext x
    simp only [invert, walks]
    try simp only [ends]

end
end Mregex.Walk
