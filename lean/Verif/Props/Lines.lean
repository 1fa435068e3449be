import Verif.Proof.Lines
import Verif.Props.Tidy
import Verif.Props.Passed

/-!
# C91: texts that consist of lines
-/

namespace Mregex
open Ast Spec

section
variable {R : Regex} {cat : Cat} {seps : List Byte}

/-- **C91.** An attempt of a generator inside a line of a longer text (from any position of the line, `t` before the line, `v` behind it) does what it does in the line
alone: the same verdict, and all groups are the same ranges of the line, also those left behind by a failure.  References, lookarounds in both directions, word
boundaries, atomic groups are allowed. -/
theorem C91_attempt (hR : R.Ok cat) (ha : stays R.fl seps R.ast = true) (t w v : List Byte) (hf : ∀ x, t.getLast? = some x → x ∈ seps)
    (hb : ∀ x, v.head? = some x → x ∈ seps) (hw : ∀ y ∈ w, y ∉ seps) {p : Nat} (hp : p ≤ w.length) :
    ∃ res res' g g', genNext R .matchPrefix cat w ⟨p, true⟩ = some (res, g) ∧
      genNext R .matchPrefix cat (t ++ (w ++ v)) ⟨p + t.length, true⟩ = some (res', g') ∧ res'.matched = res.matched ∧
      (res.matched = true → res'.group 0 = (res.group 0).map (shiftCap t.length) ∧ g' = ⟨g.current + t.length, g.active⟩) ∧
      ∀ k, k ≠ 0 → k ≤ captureCount R.ast → res'.group k = (res.group k).map (shiftCap t.length) ∧
        (res'.group k).map (heldText (t ++ (w ++ v))) = (res.group k).map (heldText w) := by
  have hν : ∀ n id, nameIndex R.names n = some id → (fun n => (nameIndex R.names n).getD 0) n = id := fun n id h => by
    simp only [show nameIndex R.names n = some id from h]; rfl
  obtain ⟨res, g, h1, h2, h3, h4, h5⟩ := genNext_follow hR hν .matchPrefix w ⟨p, true⟩ rfl hp
  obtain ⟨res', g', h1', h2', h3', h4', h5'⟩ := genNext_follow hR hν .matchPrefix (t ++ (w ++ v)) ⟨p + t.length, true⟩ rfl
    (by simp only [List.length_append]; omega)
  obtain ⟨e1, e2, e3, e4⟩ := follow_window (proc_window t w v hf hb (Flags.ofList R.flags) (fun n => (nameIndex R.names n).getD 0) hw R.ast ha 0 false hp)
    (acc := fun _ => true) (acc' := fun _ => true) (fun _ _ => rfl) (h := fun _ => none) (h' := fun _ => none) (fun _ _ hx => nomatch hx) (fun _ => rfl)
  simp only [carryOut, Option.isSome_map] at h2 h3 h4 h5 h2' h3' h4' h5'
  refine ⟨res, res', g, g', h1, h1', ?_, fun hm => ?_, fun k hk hk' => ?_⟩
  · rw [h2, h2', e1, Option.isSome_map]
  · rw [h2] at hm
    obtain ⟨q, hq⟩ := Option.isSome_iff_exists.1 hm
    obtain ⟨h6, h7⟩ := h3 (p, q) (by rw [hq]; rfl)
    obtain ⟨h6', h7'⟩ := h3' (p + t.length, q + t.length) (by rw [e1, hq]; rfl)
    rw [h6, h6', h7, h7']
    refine ⟨rfl, ?_⟩
    simp only [Gen.mk.injEq, true_and]
    rw [Bool.eq_iff_iff]
    simp only [bne_iff_ne, ne_eq]
    omega
  · rw [h5 k hk hk', h5' k hk hk', e2 k]
    exact ⟨rfl, congrArg some (heldText_window t w v (e3 k))⟩

/-! ### Iterated searches -/

theorem finds_skip {N : Nat} {first : Nat → Option Nat} {p p' : Nat} {l : List (Nat × Nat)} (h : Finds N first p' l) (hp : p ≤ p')
    (hn : ∀ i, p ≤ i → i < p' → first i = none) : Finds N first p l := by
  have key : ∀ {i}, (∀ i', p' ≤ i' → i' < i → first i' = none) → ∀ i', p ≤ i' → i' < i → first i' = none := fun {i} h i' h1 h2 => by
    by_cases h3 : i' < p'
    · exact hn i' h1 h3
    · exact h i' (by omega) h2
  cases h with
  | none h =>
    refine .none fun i h1 h2 => ?_
    by_cases h3 : i < p'
    · exact hn i h1 h3
    · exact h i (by omega) h2
  | empty h1 h2 h3 h4 => exact .empty (by omega) h2 h3 (key h4)
  | cons h1 h2 h3 h4 h5 h6 => exact .cons (by omega) h2 h3 h4 (key h5) h6

theorem finds_unique {N : Nat} {first : Nat → Option Nat} {p : Nat} {l l' : List (Nat × Nat)} (h : Finds N first p l) (h' : Finds N first p l') : l = l' := by
  have key : ∀ {p i i' x y}, p ≤ i → p ≤ i' → first i = some x → first i' = some y → (∀ j, p ≤ j → j < i → first j = none) →
      (∀ j, p ≤ j → j < i' → first j = none) → i = i' := by
    intro p i i' x y h1 h2 h3 h4 h5 h6
    rcases Nat.lt_trichotomy i i' with h | h | h
    · rw [h6 i h1 h] at h3; cases h3
    · exact h
    · rw [h5 i' h2 h] at h4; cases h4
  induction h generalizing l' with
  | none h =>
    cases h' with
    | none => rfl
    | empty h1 h2 h3 h4 => rw [h _ h1 h2] at h3; cases h3
    | cons h1 h2 h3 h4 h5 h6 => rw [h _ h1 (by omega)] at h4; cases h4
  | @empty p i h1 h2 h3 h4 =>
    cases h' with
    | none h => rw [h _ h1 h2] at h3; cases h3
    | empty h1' h2' h3' h4' => rw [key h1 h1' h3 h3' h4 h4']
    | cons h1' h2' h3' h4' h5' h6' =>
      obtain rfl := key h1 h1' h3 h4' h4 h5'
      rw [h3] at h4'; cases h4'; omega
  | @cons p i j l h1 h2 h3 h4 h5 h6 ih =>
    cases h' with
    | none h => rw [h _ h1 (by omega)] at h4; cases h4
    | empty h1' h2' h3' h4' =>
      obtain rfl := key h1 h1' h4 h3' h5 h4'
      rw [h4] at h3'; cases h3'; omega
    | cons h1' h2' h3' h4' h5' h6' =>
      obtain rfl := key h1 h1' h4 h4' h5 h5'
      rw [h4] at h4'; cases h4'
      rw [ih h6']

section
variable {n N d : Nat} {first first' : Nat → Option Nat} (hfirst : ∀ i, i ≤ n → first' (i + d) = (first i).map (· + d))
include hfirst

theorem none_window {p i : Nat} (hi : i ≤ n + 1) (h : ∀ j, p ≤ j → j < i → first j = none) (j : Nat) (h1 : p + d ≤ j) (h2 : j < i + d) : first' j = none := by
  have := hfirst (j - d) (by omega)
  rw [show j - d + d = j by omega, h (j - d) (by omega) (by omega)] at this
  exact this

/-- Searching in the last piece. -/
theorem finds_last (hN : n + d = N) {p : Nat} {l : List (Nat × Nat)} (h : Finds n first p l) : Finds N first' (p + d) (l.map fun x => (x.1 + d, x.2 + d)) := by
  induction h with
  | none h => exact .none fun i h1 h2 => none_window hfirst (Nat.le_refl _) (fun j h3 h4 => h j h3 (by omega)) i h1 (by omega)
  | empty h1 h2 h3 h4 =>
    exact .empty (by omega) (by omega) (by rw [hfirst _ h2, h3]; rfl) fun i' => none_window hfirst (by omega) h4 i'
  | cons h1 h2 h3 h4 h5 h6 ih =>
    exact .cons (by dsimp only; omega) (by dsimp only; omega) (by dsimp only; omega) (by rw [hfirst _ (by omega), h4]; rfl)
      (fun i' => none_window hfirst (by omega) h5 i') ih

/-- Searching in a piece that others follow. -/
theorem finds_piece (hN : n + d ≤ N) {p : Nat} (hp : p ≤ n + 1) {l l' : List (Nat × Nat)} (h : Finds n first p l) (hl : ∀ x ∈ l, x.1 ≠ x.2)
    (h' : Finds N first' (n + 1 + d) l') : Finds N first' (p + d) (l.map (fun x => (x.1 + d, x.2 + d)) ++ l') := by
  induction h with
  | none h => exact finds_skip h' (by omega) fun i h1 h2 => none_window hfirst (Nat.le_refl _) (fun j h3 h4 => h j h3 (by omega)) i h1 (by omega)
  | empty h1 h2 h3 h4 => exact absurd rfl (hl _ (List.mem_singleton.2 rfl))
  | cons h1 h2 h3 h4 h5 h6 ih =>
    exact .cons (by dsimp only; omega) (by dsimp only; omega) (by dsimp only; omega) (by rw [hfirst _ (by omega), h4]; rfl)
      (fun i' => none_window hfirst (by omega) h5 i') (ih (by omega) fun x hx => hl x (by simp [hx]))

end

/-! ### Pieces -/

theorem pieces_plain {w : List Byte} (hw : ∀ y ∈ w, y ∉ seps) : pieces seps w = [w] := by
  induction w with
  | nil => rfl
  | cons c w ih =>
    simp only [pieces, if_neg (hw c (by simp)), ih fun y hy => hw y (by simp [hy])]

theorem pieces_cons {w : List Byte} (hw : ∀ y ∈ w, y ∉ seps) {c : Byte} (hc : c ∈ seps) (r : List Byte) : pieces seps (w ++ c :: r) = w :: pieces seps r := by
  induction w with
  | nil => simp only [List.nil_append, pieces, if_pos hc]
  | cons x w ih =>
    simp only [List.cons_append, pieces, if_neg (hw x (by simp)), ih fun y hy => hw y (by simp [hy])]

theorem pieces_ne_nil (s : List Byte) : pieces seps s ≠ [] := by
  cases s with
  | nil => simp [pieces]
  | cons c s =>
    unfold pieces
    split
    · simp
    · split <;> simp

theorem split_first (seps s : List Byte) : (∀ y ∈ s, y ∉ seps) ∨ ∃ w c r, s = w ++ c :: r ∧ (∀ y ∈ w, y ∉ seps) ∧ c ∈ seps := by
  induction s with
  | nil => exact .inl fun _ h => nomatch h
  | cons x s ih =>
    by_cases hx : x ∈ seps
    · exact .inr ⟨[], x, s, rfl, (fun _ h => nomatch h), hx⟩
    · rcases ih with h | ⟨w, c, r, rfl, h1, h2⟩
      · left
        intro y hy
        rcases List.mem_cons.1 hy with rfl | hy
        · exact hx
        · exact h y hy
      · refine .inr ⟨x :: w, c, r, rfl, ?_, h2⟩
        intro y hy
        rcases List.mem_cons.1 hy with rfl | hy
        · exact hx
        · exact h1 y hy

/-- Texts by their pieces: `t` is what is before them. -/
theorem pieces_induction {seps : List Byte} {P : List Byte → List Byte → List (List Byte) → Prop}
    (last : ∀ t w, (∀ x, t.getLast? = some x → x ∈ seps) → (∀ y ∈ w, y ∉ seps) → P t w [w])
    (step : ∀ t w c r, (∀ x, t.getLast? = some x → x ∈ seps) → (∀ y ∈ w, y ∉ seps) → c ∈ seps → P (t ++ (w ++ [c])) r (pieces seps r) →
      P t (w ++ c :: r) (w :: pieces seps r)) (s : List Byte) : P [] s (pieces seps s) := by
  suffices h : ∀ n s t, s.length ≤ n → (∀ x, t.getLast? = some x → x ∈ seps) → P t s (pieces seps s) from h _ s [] (Nat.le_refl _) fun _ hx => nomatch hx
  intro n
  induction n with
  | zero =>
    intro s t hs ht
    obtain rfl := List.eq_nil_of_length_eq_zero (Nat.le_zero.1 hs)
    exact last t [] ht fun _ h => nomatch h
  | succ n ih =>
    intro s t hs ht
    rcases split_first seps s with h | ⟨w, c, r, rfl, h1, h2⟩
    · rw [pieces_plain h]
      exact last t s ht h
    · rw [pieces_cons h1 h2]
      refine step t w c r ht h1 h2 (ih r _ (by simp at hs; omega) fun x hx => ?_)
      simp only [List.getLast?_append, List.getLast?_singleton, Option.some_or, Option.some.injEq] at hx
      exact hx ▸ h2

/-! ### Fresh attempts in pieces -/

variable {ν : List Byte → Nat}

/-- What the outer groups hold after a fresh attempt at `b`. -/
def freshTexts (R : Regex) (ν : List Byte → Nat) (s : List Byte) (b : Nat) : List (List Byte) :=
  (outerGroups R.ast).map fun k => heldText s (((proc R.fl s ν R.ast 0 false b).follow (fun _ => true) (fun _ => none)).2 k)

theorem fresh_window (ha : stays R.fl seps R.ast = true) (t w v : List Byte) (hf : ∀ x, t.getLast? = some x → x ∈ seps)
    (hb : ∀ x, v.head? = some x → x ∈ seps) (hw : ∀ y ∈ w, y ∉ seps) {p : Nat} (hp : p ≤ w.length) :
    freshEnd R ν (t ++ (w ++ v)) (p + t.length) = (freshEnd R ν w p).map (· + t.length) ∧
      freshTexts R ν (t ++ (w ++ v)) (p + t.length) = freshTexts R ν w p := by
  obtain ⟨e1, e2, e3, e4⟩ := follow_window (proc_window t w v hf hb R.fl ν hw R.ast ha 0 false hp)
    (acc := fun _ => true) (acc' := fun _ => true) (fun _ _ => rfl) (h := fun _ => none) (h' := fun _ => none) (fun _ _ hx => nomatch hx) (fun _ => rfl)
  refine ⟨e1, ?_⟩
  unfold freshTexts
  refine List.map_congr_left fun k _ => ?_
  rw [e2 k, heldText_window t w v (e3 k)]

theorem mem_outerGroups {a : Ast} {k : Nat} (h : k ∈ outerGroups a) : k ≠ 0 ∧ k ≤ captureCount a ∧ k ∉ innerGroups a := by
  simp only [outerGroups, List.mem_filter, List.mem_range'_1, Bool.not_eq_true', List.contains_eq_mem, decide_eq_false_iff_not] at h
  exact ⟨by omega, by omega, h.2⟩

/-- What one sees of a match found by a search. -/
theorem sight_search (hR : R.Ok cat) (hν : ∀ k n, R.ast.nameSpec.count (some n) = 1 → HasGroup R.ast k (some n) → ν n = k)
    (ho : ∀ k ∈ referred ν R.ast, k ∉ innerGroups R.ast) (s : List Byte) {cur q : Nat} {m : Bool} {c : Ctx} (hcur : cur ≤ s.length)
    (h : Method.search.invoke (R.env cat s) (fuelFor R.ast s) R.ast cur (initCtx R.names) = .ok ⟨q, m⟩ c) :
    (m = true → ∃ b, cur ≤ b ∧ b ≤ s.length ∧ freshEnd R ν s b = some q ∧ (∀ j, cur ≤ j → j < b → freshEnd R ν s j = none) ∧
      c[0]? = some (some (b, q)) ∧ sight R.ast s ⟨c, m⟩ = ((b, q), freshTexts R ν s b)) ∧
    (m = false → ∀ j, cur ≤ j → j ≤ s.length → freshEnd R ν s j = none) := by
  obtain ⟨q', m', c', h1, h2, h3⟩ := search_fresh hR hν ho s hcur
  rw [h] at h1
  cases h1
  refine ⟨fun hm => ?_, h3⟩
  obtain ⟨b, e1, e2, e3, e4, e5, e6⟩ := h2 hm
  refine ⟨b, e1, e2, e4, e5, e3, ?_⟩
  unfold sight freshTexts
  simp only [Result.group, e3, Option.getD_some]
  congr 1
  refine List.map_congr_left fun k hk => ?_
  obtain ⟨k1, k2, k3⟩ := mem_outerGroups hk
  obtain ⟨n, e7, e8⟩ := e6 k k1 k3
  rw [e7, getElem?_ctxOf, if_pos, Option.getD_some, e8]
  show k < (R.ast.nameSpec).length + 1
  rw [length_nameSpec]; omega

theorem genCalls_mem (hR : R.Ok cat) (M : Method) {s : List Byte} (k : Nat) : ∀ {g g' : Gen} {rs : List Result}, g.current ≤ s.length →
    genCalls R M cat s k g = some (rs, g') → ∀ x ∈ rs, x.matched = true → ∃ g₁ g₂, g₁.current ≤ s.length ∧ g₁.active = true ∧
      genNext R M cat s g₁ = some (x, g₂) := by
  induction k with
  | zero => intro g g' rs _ h x hx; cases h; cases hx
  | succ k ih =>
    intro g g' rs hg h x hx hm
    cases ha : g.active with
    | false =>
      rw [genCalls_inactive M ha] at h
      cases h
      rw [List.eq_of_mem_replicate hx] at hm
      cases hm
    | true =>
      obtain ⟨res, g₁, h1, h2, _⟩ := genNext_active (s := s) hR M hg ha
      unfold genCalls at h
      cases e2 : genCalls R M cat s k g₁ with
      | none => simp [h1, e2] at h
      | some y =>
        obtain ⟨rest, g2⟩ := y
        simp only [h1, e2, Option.bind_eq_bind, Option.bind_some, Option.pure_def, Option.some.injEq, Prod.mk.injEq] at h
        obtain ⟨rfl, rfl⟩ := h
        rcases List.mem_cons.1 hx with rfl | hx
        · exact ⟨g, g₁, hg, ha, h1⟩
        · exact ih h2 e2 x hx hm

/-- What one sees of the results of `find_all`. -/
theorem sight_findAll (hR : R.Ok cat) (hν : ∀ k n, R.ast.nameSpec.count (some n) = 1 → HasGroup R.ast k (some n) → ν n = k)
    (ho : ∀ k ∈ referred ν R.ast, k ∉ innerGroups R.ast) (s : List Byte) (k : Nat) (hk : s.length + 2 ≤ k) :
    ∃ rs ranges, rangeElements R .search cat s k = some (rs, true) ∧ rs.map (sight R.ast s) = ranges.map (fun x => (x, freshTexts R ν s x.1)) ∧
      Finds s.length (freshEnd R ν s) 0 ranges := by
  obtain ⟨rs', g, h1, h2, _⟩ := C33_range R cat hR .search s k hk
  have hv : SearchView R cat s (freshEnd R ν s) := by
    intro cur hcur
    obtain ⟨q, m, c, h1, h2, h3⟩ := search_fresh hR hν ho s hcur
    refine ⟨⟨q, m⟩, c, h1, fun hm => ?_, h3⟩
    obtain ⟨b, e1, e2, e3, e4, e5, _⟩ := h2 hm
    exact ⟨b, e1, e2, e3, e4, e5⟩
  obtain ⟨rs, ranges, h3, h4, h5⟩ := finds_of_view hR hv k hk
  rw [h2] at h3
  simp only [Option.some.injEq, Prod.mk.injEq, and_true] at h3
  subst h3
  refine ⟨_, ranges, h2, ?_, h5⟩
  have hmem : ∀ x ∈ rs'.takeWhile (·.matched), x.matched = true ∧ ∀ r, x.group 0 = some (some r) → sight R.ast s x = (r, freshTexts R ν s r.1) := by
    intro x hx
    have hm : x.matched = true := by
      have := List.all_takeWhile (p := fun x : Result => x.matched) (l := rs')
      rw [List.all_eq_true] at this
      exact this x hx
    refine ⟨hm, fun r hr => ?_⟩
    obtain ⟨g₁, g₂, k1, k2, k3⟩ := genCalls_mem hR .search (k + 1) (Nat.zero_le _) h1 x ((List.takeWhile_sublist _).subset hx) hm
    obtain ⟨q, m, c, i1, _⟩ := search_fresh hR hν ho s k1
    simp only [genNext, k2, i1, Bool.not_true, Bool.false_eq_true, if_false, Option.some.injEq, Prod.mk.injEq] at k3
    obtain ⟨rfl, _⟩ := k3
    obtain ⟨b, _, _, _, _, j1, j2⟩ := (sight_search hR hν ho s k1 i1).1 hm
    simp only [Result.group, j1, Option.some.injEq] at hr
    subst hr
    exact j2
  generalize rs'.takeWhile (·.matched) = l at h4 hmem
  clear h5 h2
  induction l generalizing ranges with
  | nil => cases ranges with | nil => rfl | cons _ _ => cases h4
  | cons x l ih =>
    cases ranges with
    | nil => cases h4
    | cons r ranges =>
      simp only [List.map_cons, List.cons.injEq] at h4 ⊢
      exact ⟨(hmem x (by simp)).2 r h4.1, ih ranges h4.2 fun y hy => hmem y (by simp [hy])⟩

/-- **C91.** `find_all` on a text finds what it finds in the lines (the pieces between separators), one after the other: the same ranges, counted from the beginning of the
text, and the same texts of the outer groups.  (A loop ends with the first empty match; so nothing empty may be found in the lines before the last one.) -/
theorem C91_find_all (hR : R.Ok cat) (ν : List Byte → Nat) (hν : ∀ k n, R.ast.nameSpec.count (some n) = 1 → HasGroup R.ast k (some n) → ν n = k)
    (ho : ∀ k ∈ referred ν R.ast, k ∉ innerGroups R.ast) (ha : stays R.fl seps R.ast = true) (s : List Byte) (F : List Byte → List Result)
    (hF : ∀ w ∈ pieces seps s, rangeElements R .search cat w (w.length + 2) = some (F w, true))
    (hne : ∀ w ∈ (pieces seps s).dropLast, ∀ x ∈ F w, (sight R.ast w x).1.1 ≠ (sight R.ast w x).1.2) (k : Nat) (hk : s.length + 2 ≤ k) :
    ∃ rs, rangeElements R .search cat s k = some (rs, true) ∧
      rs.map (sight R.ast s) = perPiece (fun w => (F w).map (sight R.ast w)) 0 (pieces seps s) := by
  obtain ⟨rs, ranges, h1, h2, h3⟩ := sight_findAll hR hν ho s k hk
  refine ⟨rs, h1, ?_⟩
  rw [h2]
  have hw : ∀ w, rangeElements R .search cat w (w.length + 2) = some (F w, true) → ∃ l, (F w).map (sight R.ast w) = l.map (fun x => (x, freshTexts R ν w x.1)) ∧
      Finds w.length (freshEnd R ν w) 0 l := fun w h => by
    obtain ⟨rs', l, i1, i2, i3⟩ := sight_findAll hR hν ho w _ (Nat.le_refl _)
    rw [h] at i1
    simp only [Option.some.injEq, Prod.mk.injEq, and_true] at i1
    subst i1
    exact ⟨l, i2, i3⟩
  suffices h : ∃ l, Finds s.length (freshEnd R ν s) 0 l ∧ perPiece (fun w => (F w).map (sight R.ast w)) 0 (pieces seps s) = l.map (fun x => (x, freshTexts R ν s x.1)) by
    obtain ⟨l, h4, h5⟩ := h
    rw [h5, finds_unique h3 h4]
  refine pieces_induction (seps := seps) (P := fun t r ws => t ++ r = s → (∀ w ∈ ws, rangeElements R .search cat w (w.length + 2) = some (F w, true)) →
    (∀ w ∈ ws.dropLast, ∀ x ∈ F w, (sight R.ast w x).1.1 ≠ (sight R.ast w x).1.2) → ∃ l, Finds s.length (freshEnd R ν s) t.length l ∧
      perPiece (fun w => (F w).map (sight R.ast w)) t.length ws = l.map (fun x => (x, freshTexts R ν s x.1))) ?_ ?_ s rfl hF hne
  · rintro t w ht hws rfl hF _
    obtain ⟨l, i1, i2⟩ := hw w (hF w (by simp))
    have hfw := fun {p} => fresh_window (ν := ν) ha t w [] ht (fun _ hx => nomatch hx) hws (p := p)
    simp only [List.append_nil] at hfw
    refine ⟨l.map fun x => (x.1 + t.length, x.2 + t.length), ?_, ?_⟩
    · have := finds_last (fun i hi => (hfw hi).1) (N := (t ++ w).length) (by simp [Nat.add_comm]) i2
      rwa [Nat.zero_add] at this
    · simp only [perPiece, i1, List.append_nil, List.map_map]
      refine List.map_congr_left fun x hx => ?_
      simp only [Function.comp, later, (hfw (finds_mem i2 x hx).1).2]
  · rintro t w c r ht hws hc ih rfl hF hne
    have hne0 := pieces_ne_nil (seps := seps) r
    obtain ⟨l', j1, j2⟩ := ih (by simp) (fun w' hw' => hF w' (by simp [hw'])) (fun w' hw' => hne w' (by
      rw [List.dropLast_cons_of_ne_nil hne0]; simp [hw']))
    obtain ⟨l, i1, i2⟩ := hw w (hF w (by simp))
    have hfw := fun {p} => fresh_window (ν := ν) ha t w (c :: r) ht (fun x hx => by cases hx; exact hc) hws (p := p)
    have hlen : (t ++ (w ++ [c])).length = t.length + w.length + 1 := by simp; omega
    rw [hlen] at j1 j2
    have hl : ∀ x ∈ l, x.1 ≠ x.2 := by
      intro x hx
      have hx' : (x, freshTexts R ν w x.1) ∈ (F w).map (sight R.ast w) := by rw [i1]; exact List.mem_map_of_mem (f := fun x => (x, freshTexts R ν w x.1)) hx
      obtain ⟨y, hy, he⟩ := List.mem_map.1 hx'
      have := hne w (by rw [List.dropLast_cons_of_ne_nil hne0]; simp) y hy
      rwa [he] at this
    refine ⟨l.map (fun x => (x.1 + t.length, x.2 + t.length)) ++ l', ?_, ?_⟩
    · have := finds_piece (fun i hi => (hfw hi).1) (N := (t ++ (w ++ c :: r)).length) (by simp; omega) (Nat.zero_le _) i2 hl
        (l' := l') (by rwa [show w.length + 1 + t.length = t.length + w.length + 1 by omega])
      rwa [Nat.zero_add] at this
    · simp only [perPiece, j2, List.map_append, i1, List.map_map]
      congr 1
      refine List.map_congr_left fun x hx => ?_
      simp only [Function.comp, later, (hfw (finds_mem i2 x hx).1).2]

/-- The first position at or after `p` at which something is found. -/
def FirstAt (N : Nat) (first : Nat → Option Nat) (p : Nat) : Option (Nat × Nat) → Prop
  | none => ∀ j, p ≤ j → j ≤ N → first j = none
  | some (b, e) => p ≤ b ∧ b ≤ N ∧ first b = some e ∧ ∀ j, p ≤ j → j < b → first j = none

theorem firstAt_unique {N : Nat} {first : Nat → Option Nat} {p : Nat} {o o' : Option (Nat × Nat)} (h : FirstAt N first p o) (h' : FirstAt N first p o') : o = o' := by
  match o, o', h, h' with
  | none, none, _, _ => rfl
  | none, some (b, e), h, ⟨h1, h2, h3, _⟩ => rw [h b h1 h2] at h3; cases h3
  | some (b, e), none, ⟨h1, h2, h3, _⟩, h => rw [h b h1 h2] at h3; cases h3
  | some (b, e), some (b', e'), ⟨h1, h2, h3, h4⟩, ⟨h1', h2', h3', h4'⟩ =>
    rcases Nat.lt_trichotomy b b' with h | rfl | h
    · rw [h4' b h1 h] at h3; cases h3
    · rw [h3] at h3'; cases h3'; rfl
    · rw [h4 b' h1' h] at h3'; cases h3'

/-- What one sees of a search. -/
theorem sight_found (hR : R.Ok cat) (hν : ∀ k n, R.ast.nameSpec.count (some n) = 1 → HasGroup R.ast k (some n) → ν n = k)
    (ho : ∀ k ∈ referred ν R.ast, k ∉ innerGroups R.ast) (s : List Byte) {res : Result} (h : R.search s cat = some res) :
    ∃ o, FirstAt s.length (freshEnd R ν s) 0 o ∧ (if res.matched then some (sight R.ast s res) else none) = o.map (fun x => (x, freshTexts R ν s x.1)) := by
  obtain ⟨q, m, c, h1, _⟩ := search_fresh hR hν ho s (Nat.zero_le _)
  simp only [Regex.search, Regex.invoke, h1, Option.some.injEq] at h
  subst h
  obtain ⟨h2, h3⟩ := sight_search hR hν ho s (Nat.zero_le _) h1
  cases m with
  | false => exact ⟨none, h3 rfl, rfl⟩
  | true =>
    obtain ⟨b, e1, e2, e3, e4, _, e5⟩ := h2 rfl
    exact ⟨some (b, q), ⟨e1, e2, e3, e4⟩, by simp only [if_true, e5]; rfl⟩

/-- **C91.** `search` on a text finds what it finds in the first line (piece between separators) in which it finds something, and fails if it fails in all lines. -/
theorem C91_search (hR : R.Ok cat) (ν : List Byte → Nat) (hν : ∀ k n, R.ast.nameSpec.count (some n) = 1 → HasGroup R.ast k (some n) → ν n = k)
    (ho : ∀ k ∈ referred ν R.ast, k ∉ innerGroups R.ast) (ha : stays R.fl seps R.ast = true) (s : List Byte) (F : List Byte → Result)
    (hF : ∀ w ∈ pieces seps s, R.search w cat = some (F w)) :
    ∃ res, R.search s cat = some res ∧ (if res.matched then some (sight R.ast s res) else none) =
      firstPiece (fun w => if (F w).matched then some (sight R.ast w (F w)) else none) 0 (pieces seps s) := by
  obtain ⟨res, h1⟩ := C01_methods_return R cat hR .search s
  refine ⟨res, h1, ?_⟩
  obtain ⟨o, h2, h3⟩ := sight_found hR hν ho s h1
  rw [h3]
  suffices h : ∃ o, FirstAt s.length (freshEnd R ν s) 0 o ∧ firstPiece (fun w => if (F w).matched then some (sight R.ast w (F w)) else none) 0 (pieces seps s) =
      o.map (fun x => (x, freshTexts R ν s x.1)) by
    obtain ⟨o', h4, h5⟩ := h
    rw [h5, firstAt_unique h2 h4]
  refine pieces_induction (seps := seps) (P := fun t r ws => t ++ r = s → (∀ w ∈ ws, R.search w cat = some (F w)) →
    ∃ o, FirstAt s.length (freshEnd R ν s) t.length o ∧ firstPiece (fun w => if (F w).matched then some (sight R.ast w (F w)) else none) t.length ws =
      o.map (fun x => (x, freshTexts R ν s x.1))) ?_ ?_ s rfl hF
  · rintro t w ht hws rfl hF
    obtain ⟨o, i1, i2⟩ := sight_found hR hν ho w (hF w (by simp))
    have hfw := fun {p} => fresh_window (ν := ν) ha t w [] ht (fun _ hx => nomatch hx) hws (p := p)
    simp only [List.append_nil] at hfw
    have hnone := fun {i} => none_window (p := 0) (i := i) (fun i hi => (hfw hi).1)
    simp only [Nat.zero_add] at hnone
    match o, i1 with
    | none, i1 =>
      refine ⟨none, fun j j1 j2 => ?_, ?_⟩
      · exact hnone (Nat.le_refl _) (fun j _ h => i1 j (Nat.zero_le _) (by omega)) j j1 (by simp at j2; omega)
      · simp only [firstPiece, i2, Option.map_none]
    | some (b, e), ⟨k1, k2, k3, k4⟩ =>
      refine ⟨some (b + t.length, e + t.length), ⟨by omega, by simp; omega, by rw [(hfw k2).1, k3]; rfl, hnone (by omega) k4⟩, ?_⟩
      simp only [firstPiece, i2, Option.map_some, later, (hfw k2).2]
  · rintro t w c r ht hws hc ih rfl hF
    obtain ⟨o', j1, j2⟩ := ih (by simp) (fun w' hw' => hF w' (by simp [hw']))
    obtain ⟨o, i1, i2⟩ := sight_found hR hν ho w (hF w (by simp))
    have hfw := fun {p} => fresh_window (ν := ν) ha t w (c :: r) ht (fun x hx => by cases hx; exact hc) hws (p := p)
    have hlen : (t ++ (w ++ [c])).length = t.length + w.length + 1 := by simp; omega
    rw [hlen] at j1 j2
    have hnone := fun {i} => none_window (p := 0) (i := i) (fun i hi => (hfw hi).1)
    simp only [Nat.zero_add] at hnone
    match o, i1 with
    | none, i1 =>
      refine ⟨o', ?_, ?_⟩
      · have hn := hnone (Nat.le_refl _) (fun j _ h => i1 j (Nat.zero_le _) (by omega))
        match o', j1 with
        | none, j1 =>
          intro j l1 l2
          by_cases h : j < w.length + 1 + t.length
          · exact hn j l1 h
          · exact j1 j (by omega) l2
        | some (b, e), ⟨k1, k2, k3, k4⟩ =>
          refine ⟨by omega, k2, k3, fun j l1 l2 => ?_⟩
          by_cases h : j < w.length + 1 + t.length
          · exact hn j l1 h
          · exact k4 j (by omega) l2
      · simp only [firstPiece, i2, Option.map_none, j2]
    | some (b, e), ⟨k1, k2, k3, k4⟩ =>
      refine ⟨some (b + t.length, e + t.length), ⟨by omega, by simp; omega, by rw [(hfw k2).1, k3]; rfl, hnone (by omega) k4⟩, ?_⟩
      simp only [firstPiece, i2, Option.map_some, later, (hfw k2).2]

end

/-! ### Examples -/

/-- `^(\w+)=(?:(\d+)|"\1")$` with `multiline`. -/
def exLines : Regex :=
  ⟨.seq [.bol, .cap 1 none (plus (.set [.range (ch 'a') (ch 'z')])), .lit (ch '='),
    .alt [.cap 2 none (plus (.range (ch '0') (ch '9'))), .seq [.lit (ch '"'), .backref 1, .lit (ch '"')]], .eol], [.multiline]⟩

example : exLines.Ok .randomAccess ∧ stays exLines.fl [10#8, 13#8] exLines.ast = true ∧ (∀ k ∈ referred (fun _ => 0) exLines.ast, k ∉ innerGroups exLines.ast) ∧
    pieces [10#8, 13#8] (txt "x=12\n=\ny=\"y\"") = [txt "x=12", txt "=", txt "y=\"y\""] ∧
    (rangeElements exLines .search .randomAccess (txt "x=12\n=\ny=\"y\"") 20).map (fun x => x.1.map (sight exLines.ast (txt "x=12\n=\ny=\"y\""))) =
      some [((0, 4), [txt "x", txt "12"]), ((7, 12), [txt "y", []])] :=
  ⟨Regex.ok_of_okb (by decide), by decide, by decide, by decide, by decide +kernel⟩

/-- **C91.** That nothing empty is found in the lines before is necessary: `a*` finds nothing but an empty match in "b\na", as the loop ends there. -/
theorem C91_empty_matters :
    (Regex.mk (star (.lit (ch 'a'))) []).Ok .randomAccess ∧ stays {} [10#8] (star (.lit (ch 'a'))) = true ∧
    (rangeElements ⟨star (.lit (ch 'a')), []⟩ .search .randomAccess (txt "b\na") 5).map (fun x => x.1.map (·.group 0)) = some [some (some (0, 0))] ∧
    (rangeElements ⟨star (.lit (ch 'a')), []⟩ .search .randomAccess (txt "a") 3).map (fun x => x.1.map (·.group 0)) = some [some (some (0, 1)), some (some (1, 1))] :=
  ⟨Regex.ok_of_okb (by decide), by decide, by decide +kernel, by decide +kernel⟩

/-- **C91.** So is the condition on references: `a(?=(x))b|c\1d` with a group in a lookahead.  (The text that an abandoned attempt in the first line has left in the
group is asked for in the second line.) -/
theorem C91_references_matter :
    let R : Regex := ⟨.alt [.seq [.lit (ch 'a'), .look .ahead (.cap 1 none (.lit (ch 'x'))), .lit (ch 'b')], .seq [.lit (ch 'c'), .backref 1, .lit (ch 'd')]], []⟩
    R.Ok .randomAccess ∧ stays R.fl [10#8] R.ast = true ∧ pieces [10#8] (txt "ax\ncd") = [txt "ax", txt "cd"] ∧
    (R.search (txt "ax\ncd")).map (·.matched) = some false ∧ (R.search (txt "cd")).map (·.matched) = some true :=
  ⟨Regex.ok_of_okb (by decide), by decide, by decide, by decide +kernel, by decide +kernel⟩

end Mregex
