import Verif.Model.Generator
import Verif.Props.Language
import Verif.Props.Safety

/-!
# C29 - C33: tokenizers, searchers and their ranges
-/

namespace Mregex
open Ast Spec

/-- Ranges that follow each other without gap, from `p`. -/
def Adjacent : Nat → List (Nat × Nat) → Prop
  | _, [] => True
  | p, (b, e) :: l => b = p ∧ b ≤ e ∧ Adjacent e l

/-- Ranges that follow each other, possibly with gaps, from `p`. -/
def Ordered : Nat → List (Nat × Nat) → Prop
  | _, [] => True
  | p, (b, e) :: l => p ≤ b ∧ b ≤ e ∧ Ordered e l

/-- Where the last range ends (`p` if there is none). -/
def lastEnd : Nat → List (Nat × Nat) → Nat
  | p, [] => p
  | _, (_, e) :: l => lastEnd e l

/-- Only the last one may be empty. -/
def EmptyLast (l : List (Nat × Nat)) : Prop := ∀ l1 x l2, l = l1 ++ x :: l2 → x.1 = x.2 → l2 = []

/-- The text of a range. -/
def slice (s : List Byte) (x : Nat × Nat) : List Byte := (s.drop x.1).take (x.2 - x.1)

/-! ## Auxiliary lemmas -/

section
variable {R : Regex} {cat : Cat} {s : List Byte}

/-- One call of an active generator. -/
theorem genNext_active (hR : R.Ok cat) (M : Method) {g : Gen} (hg : g.current ≤ s.length) (ha : g.active = true) :
    ∃ res g', genNext R M cat s g = some (res, g') ∧ g'.current ≤ s.length ∧
      (res.matched = false → g'.active = false) ∧
      (res.matched = true → ∃ i, g.current ≤ i ∧ i ≤ g'.current ∧ (M ≠ .search → i = g.current) ∧
        res.group 0 = some (some (i, g'.current)) ∧ g'.active = decide (i ≠ g'.current)) := by
  have hlen : (initCtx R.names).length = R.names.length := length_init R.names
  have hI : ∀ c : Ctx, c.length = R.names.length → c.length = R.names.length := fun _ h => h
  -- what the methods deliver
  have key : ∃ q b c, M.invoke (R.env cat s) (fuelFor R.ast s) R.ast g.current (initCtx R.names) = .ok ⟨q, b⟩ c ∧
      q ≤ s.length ∧ (b = true → ∃ i, g.current ≤ i ∧ i ≤ q ∧ (M ≠ .search → i = g.current) ∧ c[0]? = some (some (i, q))) := by
    have set0 : ∀ (c : Ctx) (x : Cap), c.length = R.names.length → (c.set 0 x)[0]? = some x := by
      intro c x hc
      rw [List.getElem?_set]
      simp [hc, Regex.names]
    cases M with
    | «match» =>
      simp only [Method.invoke, matchMethod]
      rcases (Regex.match_post (s := s) hI hR capClosed_len hg hlen).elim with ⟨q, c', h, h'⟩ | ⟨q, c', h, h'⟩
      · have := over_reach hg h'.2.1
        exact ⟨q, true, _, congrArg _ h, this.right_le, fun _ => ⟨g.current, Nat.le_refl _, by unfold Env.Reach at this; omega,
          fun _ => rfl, set0 _ _ h'.2.2⟩⟩
      · exact ⟨q, false, _, congrArg _ h, h'.1.right_le, fun h => by cases h⟩
    | matchPrefix =>
      simp only [Method.invoke, prefixMethod]
      rcases (Regex.prefix_post (s := s) hI hR capClosed_len hg hlen).elim with ⟨q, c', h, h'⟩ | ⟨q, c', h, h'⟩
      · have := over_reach hg h'.1
        exact ⟨q, true, _, congrArg _ h, this.right_le, fun _ => ⟨g.current, Nat.le_refl _, by unfold Env.Reach at this; omega,
          fun _ => rfl, set0 _ _ h'.2⟩⟩
      · exact ⟨q, false, _, congrArg _ h, h'.1.right_le, fun h => by cases h⟩
    | search =>
      rcases (Regex.search_post (s := s) hI hR capClosed_len hg hlen).elim with ⟨q, c', h, h'⟩ | ⟨q, c', h, h'⟩
      · obtain ⟨i, c'', h1, hi, ho, h2, h3⟩ := h'
        have := over_reach hi ho
        exact ⟨q, true, _, h, this.right_le, fun _ => ⟨i, h1, by unfold Env.Reach at this; omega, fun h => absurd rfl h,
          by rw [h3]; exact set0 _ _ h2⟩⟩
      · exact ⟨q, false, _, h, by rw [h'.1]; exact Nat.le_refl _, fun h => by cases h⟩
  obtain ⟨q, b, c, h1, h2, h3⟩ := key
  refine ⟨⟨c, b⟩, ⟨q, b && !(c.getD 0 none).isEmpty⟩, ?_, h2, ?_, ?_⟩
  · simp [genNext, ha, h1]
  · intro hb
    dsimp only at hb ⊢
    rw [hb]; rfl
  · intro hb
    dsimp only at hb ⊢
    obtain ⟨i, h4, h5, h6, h7⟩ := h3 hb
    refine ⟨i, h4, h5, h6, h7, ?_⟩
    rw [hb, List.getD_eq_getElem?_getD, h7]
    by_cases hq : i = q <;> simp [Cap.isEmpty, hq]

theorem genNext_inactive (M : Method) {g : Gen} (ha : g.active = false) :
    genNext R M cat s g = some (⟨initCtx R.names, false⟩, g) := by simp [genNext, ha]

theorem genCalls_inactive (M : Method) {g : Gen} (ha : g.active = false) (k : Nat) :
    genCalls R M cat s k g = some (List.replicate k ⟨initCtx R.names, false⟩, g) := by
  induction k with
  | zero => rfl
  | succ k ih => simp [genCalls, genNext_inactive M ha, ih, List.replicate_succ]

/-- The ranges of the matched results of any number of calls. -/
theorem genCalls_ranges (hR : R.Ok cat) (M : Method) (k : Nat) : ∀ g : Gen, g.current ≤ s.length →
    ∃ rs g' rg, genCalls R M cat s k g = some (rs, g') ∧ g'.current ≤ s.length ∧
      (rs.filter (·.matched)).map (·.group 0) = rg.map (fun x => some (some x)) ∧
      (∃ hits misses, rs = hits ++ misses ∧ (∀ x ∈ hits, x.matched = true) ∧ (∀ x ∈ misses, x.matched = false)) ∧
      Ordered g.current rg ∧ (M ≠ .search → Adjacent g.current rg) ∧ EmptyLast rg ∧ lastEnd g.current rg ≤ s.length ∧
      (g'.active = true → rg.length = k ∧ rs.length = k ∧ g'.current = lastEnd g.current rg ∧ ∀ x ∈ rg, x.1 < x.2) ∧
      (g.active = false → rg = []) := by
  induction k with
  | zero =>
    intro g hg
    refine ⟨[], g, [], rfl, hg, rfl, ⟨[], [], rfl, by simp, by simp⟩, trivial, fun _ => trivial, ?_, hg, fun _ => ⟨rfl, rfl, rfl, by simp⟩,
      fun _ => rfl⟩
    intro l1 x l2 h
    simp at h
  | succ k ih =>
    intro g hg
    cases ha : g.active with
    | false =>
      refine ⟨_, g, [], genCalls_inactive M ha (k + 1), hg, ?_, ⟨[], _, (List.nil_append _).symm, by simp, ?_⟩, trivial,
        fun _ => trivial, ?_, hg, ?_, fun _ => rfl⟩
      · rw [List.filter_eq_nil_iff.2]
        · rfl
        · intro x hx; rw [List.eq_of_mem_replicate hx]; simp
      · intro x hx; rw [List.eq_of_mem_replicate hx]
      · intro l1 x l2 h; simp at h
      · intro h; rw [ha] at h; cases h
    | true =>
      obtain ⟨res, g', h1, h2, h3, h4⟩ := genNext_active hR M hg ha
      obtain ⟨rs, g'', rg, i1, i2, i3, i4, i5, i6, i7, i8, i9, i10⟩ := ih g' h2
      have hcalls : genCalls R M cat s (k + 1) g = some (res :: rs, g'') := by simp [genCalls, h1, i1]
      cases hm : res.matched with
      | false =>
        have ha' := h3 hm
        have hrg := i10 ha'
        subst hrg
        rw [genCalls_inactive M ha'] at i1
        simp only [Option.some.injEq, Prod.mk.injEq] at i1
        refine ⟨res :: rs, g'', [], hcalls, i2, by simpa [hm] using i3, ⟨[], res :: rs, rfl, by simp, ?_⟩, trivial, fun _ => trivial, i7, hg,
          fun h => ?_, fun _ => rfl⟩
        · intro x hx
          rcases List.mem_cons.1 hx with rfl | hx
          · exact hm
          · rw [← i1.1] at hx; rw [List.eq_of_mem_replicate hx]
        · rw [← i1.2, ha'] at h; cases h
      | true =>
        obtain ⟨i, j1, j2, j3, j4, j5⟩ := h4 hm
        refine ⟨res :: rs, g'', (i, g'.current) :: rg, hcalls, i2, by simpa [hm, j4] using i3, ?_, ⟨j1, j2, i5⟩,
          fun h => ⟨j3 h, j2, i6 h⟩, ?_, i8, ?_, fun h => (by cases h)⟩
        · obtain ⟨hits, misses, e, e1, e2⟩ := i4
          exact ⟨res :: hits, misses, by rw [e]; rfl, fun x hx => by
            rcases List.mem_cons.1 hx with rfl | hx
            · exact hm
            · exact e1 x hx, e2⟩
        · intro l1 x l2 h hx
          match l1 with
          | [] =>
            simp only [List.nil_append, List.cons.injEq] at h
            obtain ⟨rfl, rfl⟩ := h
            exact i10 (by rw [j5]; simpa using hx)
          | y :: l1 =>
            simp only [List.cons_append, List.cons.injEq] at h
            exact i7 l1 x l2 h.2 hx
        · intro h
          obtain ⟨k1, k2, k3, k4⟩ := i9 h
          have hact : g'.active = true := by
            cases hact : g'.active with
            | true => rfl
            | false =>
              rw [genCalls_inactive M hact] at i1
              simp only [Option.some.injEq, Prod.mk.injEq] at i1
              rw [← i1.2, hact] at h; cases h
          refine ⟨by simp [k1], by simp [k2], k3, fun x hx => ?_⟩
          rcases List.mem_cons.1 hx with rfl | hx
          · have : i ≠ g'.current := by simpa [j5] using hact
            show i < g'.current
            omega
          · exact k4 x hx

theorem ordered_lastEnd {l : List (Nat × Nat)} {p : Nat} (h : Ordered p l) : p ≤ lastEnd p l := by
  induction l generalizing p with
  | nil => exact Nat.le_refl _
  | cons x l ih =>
    obtain ⟨b, e⟩ := x
    obtain ⟨h1, h2, h3⟩ := h
    have := ih h3
    show p ≤ lastEnd e l
    omega

theorem ordered_pairwise {l : List (Nat × Nat)} {p : Nat} (h : Ordered p l) :
    l.Pairwise (fun x y => x.2 ≤ y.1) ∧ ∀ x ∈ l, p ≤ x.1 ∧ x.1 ≤ x.2 ∧ x.2 ≤ lastEnd p l := by
  induction l generalizing p with
  | nil => simp
  | cons x l ih =>
    obtain ⟨b, e⟩ := x
    obtain ⟨h1, h2, h3⟩ := h
    obtain ⟨i1, i2⟩ := ih h3
    refine ⟨List.pairwise_cons.2 ⟨fun y hy => (i2 y hy).1, i1⟩, fun y hy => ?_⟩
    rcases List.mem_cons.1 hy with rfl | hy
    · have := ordered_lastEnd h3
      exact ⟨h1, h2, this⟩
    · have := i2 y hy
      exact ⟨by omega, this.2.1, this.2.2⟩

/-- Ranges that only become empty at the end are few. -/
theorem ordered_length {l : List (Nat × Nat)} {p : Nat} (h : Ordered p l) (he : EmptyLast l) :
    l.length ≤ lastEnd p l - p + 1 ∧ ((∀ x ∈ l, x.1 < x.2) → l.length ≤ lastEnd p l - p) := by
  induction l generalizing p with
  | nil => simp
  | cons x l ih =>
    obtain ⟨b, e⟩ := x
    obtain ⟨h1, h2, h3⟩ := h
    have hl := ordered_lastEnd h3
    have he' : EmptyLast l := fun l1 y l2 h => he ((b, e) :: l1) y l2 (by rw [h]; rfl)
    obtain ⟨i1, i2⟩ := ih h3 he'
    refine ⟨?_, fun hne => ?_⟩
    · show l.length + 1 ≤ lastEnd e l - p + 1
      by_cases hbe : b = e
      · have := he [] (b, e) l rfl hbe
        subst this
        simp
      · omega
    · have := i2 (fun x hx => hne x (List.mem_cons_of_mem _ hx))
      have := hne (b, e) (by simp)
      show l.length + 1 ≤ lastEnd e l - p
      dsimp only at this
      omega

theorem adjacent_ordered {l : List (Nat × Nat)} {p : Nat} (h : Adjacent p l) : Ordered p l := by
  induction l generalizing p with
  | nil => trivial
  | cons y l ih =>
    obtain ⟨b, e⟩ := y
    obtain ⟨rfl, h4, h5⟩ := h
    exact ⟨Nat.le_refl _, h4, ih h5⟩

theorem adjacent_slices {l : List (Nat × Nat)} {p : Nat} (h : Adjacent p l) (hl : lastEnd p l ≤ s.length) :
    (l.map (slice s)).flatten = slice s (p, lastEnd p l) := by
  induction l generalizing p with
  | nil => simp [lastEnd, slice]
  | cons x l ih =>
    obtain ⟨b, e⟩ := x
    obtain ⟨rfl, h2, h3⟩ := h
    have ho := adjacent_ordered h3
    have hle := ordered_lastEnd ho
    have hl' : lastEnd e l ≤ s.length := hl
    rw [List.map_cons, List.flatten_cons, ih h3 hl']
    show slice s (b, e) ++ slice s (e, lastEnd e l) = slice s (b, lastEnd e l)
    simp only [slice]
    have e1 : lastEnd e l - b = (e - b) + (lastEnd e l - e) := by omega
    rw [e1, List.take_add]
    congr 1
    rw [List.drop_drop]
    congr 2
    omega

end

/-! ## C29 -/

/-- **C29.** The matched results of any number of calls of a tokenizer come first, the first one starts at the beginning of the input, each next one
starts where the previous one ended, their texts concatenated are a prefix of the input, and at most the last one is empty. -/
theorem C29_tokenizer (R : Regex) (cat : Cat) (hR : R.Ok cat) (s : List Byte) (k : Nat) :
    ∃ hits misses g ranges, genCalls R tokenizerMethod cat s k {} = some (hits ++ misses, g) ∧
      (∀ x ∈ hits, x.matched = true) ∧ (∀ x ∈ misses, x.matched = false) ∧
      hits.map (·.group 0) = ranges.map (fun x => some (some x)) ∧ Adjacent 0 ranges ∧
      (ranges.map (slice s)).flatten <+: s ∧ EmptyLast ranges := by
  obtain ⟨rs, g', rg, h1, h2, h3, ⟨hits, misses, h4, h5, h6⟩, h7, h8, h9, h10, _⟩ := genCalls_ranges (s := s) hR .matchPrefix k {} (Nat.zero_le _)
  have ha := h8 (by decide)
  refine ⟨hits, misses, g', rg, h4 ▸ h1, h5, h6, ?_, ha, ?_, h9⟩
  · rw [h4, List.filter_append, List.filter_eq_self.2 h5, List.filter_eq_nil_iff.2 (fun x hx => by simp [h6 x hx]), List.append_nil] at h3
    exact h3
  · rw [adjacent_slices (s := s) ha h10]
    simpa [slice] using List.take_prefix _ s

/-- `\w+` on "ab c": one token, then the end. -/
example : genCalls ⟨plus word, []⟩ .matchPrefix .randomAccess [ch 'a', ch 'b', ch ' ', ch 'c'] 3 {} =
    some ([⟨[some (0, 2)], true⟩, ⟨[some (2, 2)], false⟩, ⟨[none], false⟩], ⟨2, false⟩) := by decide

/-- `a|\w\w|` on "abc": two tokens and an empty one. -/
def exTok : Regex := ⟨.alt [.seq [word, word], .lit (ch 'a'), .empty], []⟩
example : exTok.Ok .randomAccess := Regex.ok_of_okb (by decide)
example : genCalls exTok .matchPrefix .randomAccess [ch 'a', ch 'b', ch 'a', ch '-'] 4 {} =
    some ([⟨[some (0, 2)], true⟩, ⟨[some (2, 3)], true⟩, ⟨[some (3, 3)], true⟩, ⟨[none], false⟩], ⟨3, false⟩) := by decide

/-! ## C30 -/

/-- **C30.** The matched results of any number of calls of a searcher come first, are ordered by position and pairwise disjoint, lie in the input, at most the last one
is empty, and there are at most `length + 1`. -/
theorem C30_searcher (R : Regex) (cat : Cat) (hR : R.Ok cat) (s : List Byte) (k : Nat) :
    ∃ hits misses g ranges, genCalls R searcherMethod cat s k {} = some (hits ++ misses, g) ∧
      (∀ x ∈ hits, x.matched = true) ∧ (∀ x ∈ misses, x.matched = false) ∧
      hits.map (·.group 0) = ranges.map (fun x => some (some x)) ∧
      ranges.Pairwise (fun x y => x.2 ≤ y.1) ∧ (∀ x ∈ ranges, x.1 ≤ x.2 ∧ x.2 ≤ s.length) ∧ EmptyLast ranges ∧
      hits.length ≤ s.length + 1 := by
  obtain ⟨rs, g', rg, h1, h2, h3, ⟨hits, misses, h4, h5, h6⟩, h7, h8, h9, h10, _⟩ := genCalls_ranges (s := s) hR .search k {} (Nat.zero_le _)
  have h3' : hits.map (·.group 0) = rg.map (fun x => some (some x)) := by
    rw [h4, List.filter_append, List.filter_eq_self.2 h5, List.filter_eq_nil_iff.2 (fun x hx => by simp [h6 x hx]), List.append_nil] at h3
    exact h3
  obtain ⟨p1, p2⟩ := ordered_pairwise h7
  refine ⟨hits, misses, g', rg, h4 ▸ h1, h5, h6, h3', p1, fun x hx => ⟨(p2 x hx).2.1, Nat.le_trans (p2 x hx).2.2 h10⟩, h9, ?_⟩
  have hl : hits.length = rg.length := by simpa using congrArg List.length h3'
  have := (ordered_length h7 h9).1
  simp only at h10 this
  omega

example : genCalls ⟨.seq [.lit (ch 'a'), star (.lit (ch 'b'))], []⟩ .search .randomAccess [ch 'a', ch 'c', ch 'a', ch 'b'] 3 {} =
    some ([⟨[some (0, 1)], true⟩, ⟨[some (2, 4)], true⟩, ⟨[none], false⟩], ⟨4, false⟩) := by decide

/-! ## C32 -/

/-- **C32.** Whatever the method and however many calls were made before: after a call that returned a non-match or an empty match the generator is
not active, and every later call returns a non-match with untouched groups and leaves the generator as it is. -/
theorem C32_stays_exhausted (R : Regex) (cat : Cat) (hR : R.Ok cat) (M : Method) (s : List Byte) (k : Nat) (rs : List Result) (g g' : Gen)
    (res : Result) (h : genCalls R M cat s k {} = some (rs, g)) (h' : genNext R M cat s g = some (res, g'))
    (he : res.matched = false ∨ res.length = 0) :
    g'.active = false ∧ ∀ m, genCalls R M cat s m g' = some (List.replicate m ⟨R.names.map (fun _ => none), false⟩, g') := by
  suffices hg : g'.active = false from ⟨hg, fun m => genCalls_inactive M hg m⟩
  obtain ⟨_, g1, _, h1, h2, _⟩ := genCalls_ranges (s := s) hR M k {} (Nat.zero_le _)
  rw [h] at h1
  obtain ⟨_, rfl⟩ := Prod.mk.inj (Option.some.inj h1)
  cases ha : g.active with
  | false =>
    rw [genNext_inactive M ha] at h'
    obtain ⟨_, rfl⟩ := Prod.mk.inj (Option.some.inj h')
    exact ha
  | true =>
    obtain ⟨res', g2, i1, i2, i3, i4⟩ := genNext_active hR M h2 ha
    rw [h'] at i1
    obtain ⟨rfl, rfl⟩ := Prod.mk.inj (Option.some.inj i1)
    cases hm : res.matched with
    | false => exact i3 hm
    | true =>
      obtain ⟨i, j1, j2, j3, j4, j5⟩ := i4 hm
      rcases he with he | he
      · rw [hm] at he; cases he
      · rw [j5]
        simp only [Result.group] at j4
        simp only [Result.length, List.getD_eq_getElem?_getD, j4, Option.getD_some, Cap.length] at he
        simp only [decide_eq_false_iff_not, ne_eq, Decidable.not_not]
        omega

/-- **C32.** A generator is exhausted after at most `length + 2` calls. -/
theorem C32_exhausted (R : Regex) (cat : Cat) (hR : R.Ok cat) (M : Method) (s : List Byte) (k : Nat) (hk : s.length + 2 ≤ k) :
    ∃ rs g, genCalls R M cat s k {} = some (rs, g) ∧ g.active = false := by
  obtain ⟨rs, g', rg, h1, h2, h3, _, h7, h8, h9, h10, h11, _⟩ := genCalls_ranges (s := s) hR M k {} (Nat.zero_le _)
  refine ⟨rs, g', h1, ?_⟩
  cases ha : g'.active with
  | false => rfl
  | true =>
    have h12 : rg.length ≤ lastEnd 0 rg - 0 + 1 := (ordered_length h7 h9).1
    have := (h11 ha).1
    replace h10 : lastEnd 0 rg ≤ s.length := h10
    omega

example : exTok.Ok .randomAccess ∧ exTok.Ok .bidirectional := ⟨Regex.ok_of_okb (by decide), Regex.ok_of_okb (by decide)⟩

/-! ## C33 -/

theorem visit_eq (R : Regex) (M : Method) (cat : Cat) (s : List Byte) (k : Nat) : ∀ (A : RangeAdapter) (rs : List Result) (g : Gen),
    genCalls R M cat s k A.gen = some (rs, g) → (∃ x ∈ A.currentResult :: rs, x.matched = false) →
    A.visit R M cat s k = some ((A.currentResult :: rs).takeWhile (·.matched), true) := by
  induction k with
  | zero =>
    intro A rs g h hx
    cases h
    simp only [List.mem_singleton, exists_eq_left] at hx
    simp [RangeAdapter.visit, RangeAdapter.active, Result.toBool, hx]
  | succ k ih =>
    intro A rs g h hx
    unfold RangeAdapter.visit
    cases hm : A.currentResult.matched with
    | false => simp [RangeAdapter.active, Result.toBool, hm]
    | true =>
      have ha : A.active = true := hm
      rw [if_pos ha]
      unfold genCalls at h
      cases h1 : genNext R M cat s A.gen with
      | none => simp [h1] at h
      | some x =>
        obtain ⟨res, g1⟩ := x
        cases h2 : genCalls R M cat s k g1 with
        | none => simp [h1, h2] at h
        | some y =>
          obtain ⟨rest, g2⟩ := y
          simp only [h1, h2, Option.bind_eq_bind, Option.bind_some, Option.pure_def, Option.some.injEq, Prod.mk.injEq] at h
          obtain ⟨rfl, rfl⟩ := h
          have hx' : ∃ x ∈ res :: rest, x.matched = false := by
            obtain ⟨x, hx, hxm⟩ := hx
            rcases List.mem_cons.1 hx with rfl | hx
            · rw [hm] at hxm; cases hxm
            · exact ⟨x, hx, hxm⟩
          have := ih ⟨g1, res⟩ rest g2 h2 hx'
          simp only [RangeAdapter.computeNext, h1, Option.bind_eq_bind, Option.bind_some, Option.pure_def, this, List.takeWhile_cons, hm,
            if_true]

/-- **C33.** For a range over the results of a generator with any method (`tokenize()`: `match_prefix`, `find_all()`: `search`): a loop over it visits exactly the
matched results which the generator produces before its first non-match, in order, and then reaches the sentinel. -/
theorem C33_range (R : Regex) (cat : Cat) (hR : R.Ok cat) (M : Method) (s : List Byte) (k : Nat) (hk : s.length + 2 ≤ k) :
    ∃ rs g, genCalls R M cat s (k + 1) {} = some (rs, g) ∧
      rangeElements R M cat s k = some (rs.takeWhile (·.matched), true) ∧ (∃ x ∈ rs, x.matched = false) := by
  obtain ⟨rs, g', rg, h1, h2, h3, ⟨hits, misses, h4, h5, h6⟩, h7, h8, h9, h10, h11, _⟩ :=
    genCalls_ranges (s := s) hR M (k + 1) {} (Nat.zero_le _)
  have hlen : ∀ k g rs g', genCalls R M cat s k g = some (rs, g') → rs.length = k := by
    intro k
    induction k with
    | zero => intro g rs g' h; cases h; rfl
    | succ k ih =>
      intro g rs g' h
      unfold genCalls at h
      cases h1 : genNext R M cat s g with
      | none => simp [h1] at h
      | some x =>
        obtain ⟨res, g1⟩ := x
        cases h2 : genCalls R M cat s k g1 with
        | none => simp [h1, h2] at h
        | some y =>
          simp only [h1, h2, Option.bind_eq_bind, Option.bind_some, Option.pure_def, Option.some.injEq, Prod.mk.injEq] at h
          rw [← h.1, List.length_cons, ih _ _ _ h2]
  have hmiss : ∃ x ∈ rs, x.matched = false := by
    have hl : hits.length = rg.length := by
      rw [h4, List.filter_append, List.filter_eq_self.2 h5, List.filter_eq_nil_iff.2 (fun x hx => by simp [h6 x hx]), List.append_nil] at h3
      simpa using congrArg List.length h3
    have hlen' : rg.length ≤ lastEnd 0 rg - 0 + 1 := (ordered_length h7 h9).1
    have hn := hlen _ _ _ _ h1
    replace h10 : lastEnd 0 rg ≤ s.length := h10
    rw [h4, List.length_append] at hn
    match misses, h4, h6, hn with
    | [], _, _, hn => simp only [List.length_nil, Nat.add_zero] at hn; omega
    | x :: l, h4, h6, _ => exact ⟨x, by rw [h4]; simp, h6 x (by simp)⟩
  refine ⟨rs, g', h1, ?_, hmiss⟩
  unfold genCalls at h1
  cases e1 : genNext R M cat s {} with
  | none => simp [e1] at h1
  | some x =>
    obtain ⟨res, g1⟩ := x
    cases e2 : genCalls R M cat s k g1 with
    | none => simp [e1, e2] at h1
    | some y =>
      obtain ⟨rest, g2⟩ := y
      simp only [e1, e2, Option.bind_eq_bind, Option.bind_some, Option.pure_def, Option.some.injEq, Prod.mk.injEq] at h1
      obtain ⟨rfl, rfl⟩ := h1
      simp only [rangeElements, RangeAdapter.make, e1, Option.bind_eq_bind, Option.bind_some, Option.pure_def]
      exact visit_eq R M cat s k ⟨g1, res⟩ rest g2 e2 hmiss

example : rangeElements ⟨.seq [.lit (ch 'a'), star (.lit (ch 'b'))], []⟩ .search .randomAccess [ch 'a', ch 'c', ch 'a', ch 'b'] 6 =
    some ([⟨[some (0, 1)], true⟩, ⟨[some (2, 4)], true⟩], true) := by decide

/-! ## C31 -/

/-- What searching again and again from the end of the previous match gives, stopping after the first empty match: `first i` is where the first match from `i` ends. -/
inductive Finds (n : Nat) (first : Nat → Option Nat) : Nat → List (Nat × Nat) → Prop
  | none {p} : (∀ i, p ≤ i → i ≤ n → first i = Option.none) → Finds n first p []
  | empty {p i} : p ≤ i → i ≤ n → first i = some i → (∀ i', p ≤ i' → i' < i → first i' = Option.none) → Finds n first p [(i, i)]
  | cons {p i j l} : p ≤ i → i < j → j ≤ n → first i = some j → (∀ i', p ≤ i' → i' < i → first i' = Option.none) → Finds n first j l →
      Finds n first p ((i, j) :: l)

/-- `first i` describes the attempts of the searches from any position: where the match that starts at `i` ends. -/
def SearchView (R : Regex) (cat : Cat) (s : List Byte) (first : Nat → Option Nat) : Prop :=
  ∀ cur, cur ≤ s.length → ∃ r c, Method.search.invoke (R.env cat s) (fuelFor R.ast s) R.ast cur (initCtx R.names) = .ok r c ∧
    (r.matched = true → ∃ i, cur ≤ i ∧ i ≤ s.length ∧ c[0]? = some (some (i, r.pos)) ∧ first i = some r.pos ∧
      ∀ j, cur ≤ j → j < i → first j = Option.none) ∧
    (r.matched = false → ∀ j, cur ≤ j → j ≤ s.length → first j = Option.none)

/-- Without backreferences these are the heads of `ends`. -/
theorem searchView_ends {R : Regex} {cat : Cat} {s : List Byte} (hR : R.Ok cat) (hb : noBackref R.ast = true) :
    SearchView R cat s (fun i => (ends R.fl s R.ast true false i).head?) := by
  intro cur hc
  obtain ⟨r, c, h1, h2, h3⟩ := C06_search R cat hR hb s cur hc _ (length_init R.names)
  refine ⟨r, c, h1, fun h => ?_, fun h j h4 h5 => by simp only [h3 h j h4 h5]; rfl⟩
  obtain ⟨i, k1, k2, k3, k4, k5⟩ := h2 h
  exact ⟨i, k1, k2, k3, k4, fun j h4 h5 => by simp only [k5 j h4 h5]; rfl⟩

/-- One call of an active searcher. -/
theorem searcherNext_view {R : Regex} {cat : Cat} {s : List Byte} (hR : R.Ok cat) {first : Nat → Option Nat} (hv : SearchView R cat s first) {g : Gen}
    (hg : g.current ≤ s.length) (ha : g.active = true) :
    ∃ res g', genNext R .search cat s g = some (res, g') ∧ g'.current ≤ s.length ∧
      (res.matched = false → g'.active = false ∧ ∀ j, g.current ≤ j → j ≤ s.length → first j = none) ∧
      (res.matched = true → ∃ i, g.current ≤ i ∧ i ≤ g'.current ∧ res.group 0 = some (some (i, g'.current)) ∧
        g'.active = decide (i ≠ g'.current) ∧ first i = some g'.current ∧
        ∀ j, g.current ≤ j → j < i → first j = none) := by
  obtain ⟨res, g', h1, h2, h3, h4⟩ := genNext_active hR .search hg ha
  obtain ⟨r, c, i1, i2, i3⟩ := hv g.current hg
  simp only [genNext, ha, i1, Bool.not_true, Bool.false_eq_true, if_false] at h1
  simp only [Option.some.injEq, Prod.mk.injEq] at h1
  obtain ⟨rfl, rfl⟩ := h1
  refine ⟨_, _, by simp only [genNext, ha, i1, Bool.not_true, Bool.false_eq_true, if_false], h2, fun h => ⟨h3 h, i3 h⟩, fun h => ?_⟩
  obtain ⟨i, j1, j2, j3, j4, j5⟩ := h4 h
  obtain ⟨i', k1, k2, k3, k4, k5⟩ := i2 h
  have e : i = i' := by
    simp only [Result.group, k3, Option.some.injEq, Prod.mk.injEq] at j4
    exact j4.1.symm
  subst e
  exact ⟨i, j1, j2, j4, j5, k4, k5⟩

theorem genCalls_finds {R : Regex} {cat : Cat} {s : List Byte} (hR : R.Ok cat) {first : Nat → Option Nat} (hv : SearchView R cat s first) (k : Nat) :
    ∀ (g : Gen) (rs : List Result) (g' : Gen), g.active = true → g.current ≤ s.length → genCalls R .search cat s k g = some (rs, g') →
      g'.active = false →
      ∃ rg, (rs.takeWhile (·.matched)).map (·.group 0) = rg.map (fun x => some (some x)) ∧
        Finds s.length first g.current rg := by
  induction k with
  | zero =>
    intro g rs g' ha hg h h'
    cases h
    rw [ha] at h'; cases h'
  | succ k ih =>
    intro g rs g' ha hg h h'
    obtain ⟨res, g1, h1, h2, h3, h4⟩ := searcherNext_view hR hv hg ha
    unfold genCalls at h
    cases e2 : genCalls R .search cat s k g1 with
    | none => simp [h1, e2] at h
    | some y =>
      obtain ⟨rest, g2⟩ := y
      simp only [h1, e2, Option.bind_eq_bind, Option.bind_some, Option.pure_def, Option.some.injEq, Prod.mk.injEq] at h
      obtain ⟨rfl, rfl⟩ := h
      cases hm : res.matched with
      | false =>
        exact ⟨[], by simp [hm], .none fun i hi hi' => (h3 hm).2 i hi hi'⟩
      | true =>
        obtain ⟨i, j1, j2, j3, j4, j5, j6⟩ := h4 hm
        by_cases hi : i = g1.current
        · have hact : g1.active = false := by rw [j4]; simpa using hi
          rw [genCalls_inactive _ hact] at e2
          obtain ⟨e3, e4⟩ := Prod.mk.inj (Option.some.inj e2)
          refine ⟨[(i, i)], ?_, .empty j1 (by omega) (by rw [j5, hi]) fun i' h5 h6 => j6 i' h5 h6⟩
          have : rest.takeWhile (·.matched) = [] := by
            rw [← e3]
            cases k <;> simp [List.replicate_succ]
          rw [List.takeWhile_cons, if_pos hm, this]
          simp [j3, hi]
        · obtain ⟨rg, r1, r2⟩ := ih g1 rest g2 (by rw [j4]; simpa using hi) h2 e2 h'
          exact ⟨(i, g1.current) :: rg, by simp [hm, j3, r1],
            .cons j1 (by omega) h2 j5 (fun i' h5 h6 => j6 i' h5 h6) r2⟩

/-- **C31** is false: `find_all()` stops after an empty match.  `a*` on "baa" gives one empty match at 0; searching from there on, there is the non-empty
match "aa". -/
theorem C31_find_all_false :
    (Regex.mk (star (.lit (ch 'a'))) []).Ok .randomAccess ∧
    (∀ k, 5 ≤ k → rangeElements ⟨star (.lit (ch 'a')), []⟩ findAllMethod .randomAccess [ch 'b', ch 'a', ch 'a'] k =
      some ([⟨[some (0, 0)], true⟩], true)) ∧
    Matches {} [ch 'b', ch 'a', ch 'a'] (star (.lit (ch 'a'))) 1 3 := by
  have hok : (Regex.mk (star (.lit (ch 'a'))) []).Ok .randomAccess := Regex.ok_of_okb (by decide)
  refine ⟨hok, fun k hk => ?_, ?_⟩
  · obtain ⟨rs, g, h1, h2, _⟩ := C33_range _ _ hok .search [ch 'b', ch 'a', ch 'a'] k (by simpa using hk)
    rw [h2]
    have e : genNext ⟨star (.lit (ch 'a')), []⟩ .search .randomAccess [ch 'b', ch 'a', ch 'a'] {} =
      some (⟨[some (0, 0)], true⟩, ⟨0, false⟩) := by decide
    simp only [genCalls, e, genCalls_inactive .search (g := ⟨0, false⟩) rfl, Option.bind_eq_bind, Option.bind_some, Option.pure_def,
      Option.some.injEq, Prod.mk.injEq] at h1
    rw [← h1.1]
    cases k with
    | zero => omega
    | succ k => simp [List.replicate_succ]
  · exact (mem_ends_iff (s := [ch 'b', ch 'a', ch 'a']) hok (by decide) (by decide)).1
      (show 3 ∈ ends _ _ _ _ _ _ from by decide)

theorem finds_of_view {R : Regex} {cat : Cat} {s : List Byte} (hR : R.Ok cat) {first : Nat → Option Nat} (hv : SearchView R cat s first) (k : Nat)
    (hk : s.length + 2 ≤ k) :
    ∃ rs ranges, rangeElements R .search cat s k = some (rs, true) ∧ rs.map (·.group 0) = ranges.map (fun x => some (some x)) ∧
      Finds s.length first 0 ranges := by
  obtain ⟨rs, g, h1, h2, _⟩ := C33_range R cat hR .search s k hk
  obtain ⟨rs', g', h3, h4⟩ := C32_exhausted R cat hR .search s (k + 1) (by omega)
  rw [h1] at h3
  obtain ⟨rfl, rfl⟩ := Prod.mk.inj (Option.some.inj h3)
  obtain ⟨rg, h5, h6⟩ := genCalls_finds hR hv (k + 1) {} rs g rfl (Nat.zero_le _) h1 h4
  exact ⟨_, rg, h2, h5, h6⟩

/-- **C31, partial** (missing: the search goes on after an empty match, which is false).  For regexes without backreferences the ranges yielded by `find_all()` are what searching again and again
from the end of the previous match gives, until nothing is found or the found match is empty.  Each is the first match at the first position from
which there is one (`ends` is the ordered list of C06). -/
theorem C31_find_all_partial (R : Regex) (cat : Cat) (hR : R.Ok cat) (hb : noBackref R.ast = true) (s : List Byte) (k : Nat)
    (hk : s.length + 2 ≤ k) :
    ∃ rs ranges, rangeElements R findAllMethod cat s k = some (rs, true) ∧ rs.map (·.group 0) = ranges.map (fun x => some (some x)) ∧
      Finds s.length (fun i => (ends R.fl s R.ast true false i).head?) 0 ranges := by
  exact finds_of_view hR (searchView_ends hR hb) k hk

theorem finds_all {n : Nat} {first : Nat → Option Nat} {p : Nat} {l : List (Nat × Nat)} (h : Finds n first p l) (hl : ∀ x ∈ l, x.1 ≠ x.2) :
    ∀ i, p ≤ i → i ≤ n → first i ≠ none → ∃ x ∈ l, x.1 ≤ i ∧ i < x.2 := by
  induction h with
  | none h => intro i h1 h2 h3; exact absurd (h i h1 h2) h3
  | empty => exact absurd rfl (hl _ (List.mem_singleton.2 rfl))
  | @cons p i j l h1 h2 h3 h4 h5 h6 ih =>
    intro i' k1 k2 k3
    by_cases hi : i' < i
    · exact absurd (h5 i' k1 hi) k3
    · by_cases hj : i' < j
      · exact ⟨(i, j), by simp, by simpa using hi, hj⟩
      · obtain ⟨x, hx, hx'⟩ := ih (fun x hx => hl x (List.mem_cons_of_mem _ hx)) i' (by omega) k2 k3
        exact ⟨x, List.mem_cons_of_mem _ hx, hx'⟩

theorem finds_mem {n : Nat} {first : Nat → Option Nat} {p : Nat} {l : List (Nat × Nat)} (h : Finds n first p l) :
    ∀ x ∈ l, x.1 ≤ n ∧ first x.1 = some x.2 := by
  induction h with
  | none h => intro x hx; cases hx
  | empty h1 h2 h3 => intro x hx; rw [List.mem_singleton.1 hx]; exact ⟨h2, h3⟩
  | cons h1 h2 h3 h4 h5 h6 ih =>
    intro x hx
    rcases List.mem_cons.1 hx with rfl | hx
    · exact ⟨by dsimp only; omega, h4⟩
    · exact ih x hx

/-- **C31, partial** (missing: regexes which match the empty string somewhere in the input).  If the regex matches nowhere in the input without consuming, then `find_all()` yields only
matches and leaves nothing out: every match in the input starts inside one of the yielded ones; in particular there is none after the last one. -/
theorem C31_complete_partial (R : Regex) (cat : Cat) (hR : R.Ok cat) (hd : declarative R.ast = true) (s : List Byte)
    (hne : ∀ i, i ≤ s.length → ¬ Matches R.fl s R.ast i i) (k : Nat) (hk : s.length + 2 ≤ k) :
    ∃ (rs : List Result) (ranges : List (Nat × Nat)), rangeElements R findAllMethod cat s k = some (rs, true) ∧ rs.map (·.group 0) = ranges.map (fun x => some (some x)) ∧
      (∀ x ∈ ranges, Matches R.fl s R.ast x.1 x.2) ∧
      ∀ i j, i ≤ s.length → Matches R.fl s R.ast i j → ∃ x ∈ ranges, x.1 ≤ i ∧ i < x.2 := by
  obtain ⟨rs, rg, h1, h2, h3⟩ := C31_find_all_partial R cat hR (declarative_iff.1 hd).1 s k hk
  have hm : ∀ x ∈ rg, Matches R.fl s R.ast x.1 x.2 := fun x hx => by
    have := finds_mem h3 x hx
    exact (mem_ends_iff hR hd this.1).1 (List.mem_of_head? this.2)
  refine ⟨rs, rg, h1, h2, hm, fun i j hi hij => ?_⟩
  refine finds_all h3 (fun x hx he => ?_) i (Nat.zero_le _) hi (fun h => ?_)
  · have := hm x hx
    rw [← he] at this
    exact hne x.1 (finds_mem h3 x hx).1 this
  · have := (mem_ends_iff hR hd hi).2 hij
    rw [List.head?_eq_none_iff.1 h] at this
    cases this

/-- `ab*` never matches without consuming. -/
example : (Regex.mk (.seq [.lit (ch 'a'), star (.lit (ch 'b'))]) []).Ok .randomAccess ∧
    declarative (.seq [.lit (ch 'a'), star (.lit (ch 'b'))]) = true ∧
    ∀ i, i ≤ 4 → ¬ Matches {} [ch 'a', ch 'c', ch 'a', ch 'b'] (.seq [.lit (ch 'a'), star (.lit (ch 'b'))]) i i := by
  have hok : (Regex.mk (.seq [.lit (ch 'a'), star (.lit (ch 'b'))]) []).Ok .randomAccess := Regex.ok_of_okb (by decide)
  refine ⟨hok, by decide, fun i hi h => ?_⟩
  have := (mem_ends_iff (s := [ch 'a', ch 'c', ch 'a', ch 'b']) hok (by decide) hi).2 h
  revert this
  have : ∀ i ∈ List.range 5, i ∉ ends {} [ch 'a', ch 'c', ch 'a', ch 'b'] (.seq [.lit (ch 'a'), star (.lit (ch 'b'))]) true false i := by decide
  exact this i (List.mem_range.2 (by omega))

end Mregex
