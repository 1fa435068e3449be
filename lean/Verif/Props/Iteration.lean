import Verif.Spec.Iteration
import Verif.Props.Generators

/-!
# C95: programs that iterate
-/

namespace Mregex
open Ast Spec

section
variable {R : Regex} {M : Method} {cat : Cat} {s : List Byte}

/-- The first call and all further ones. -/
theorem genCalls_sequence (h : ∀ k, ∃ rs g, genCalls R M cat s k {} = some (rs, g)) :
    ∃ nth : Nat → Result × Gen, genNext R M cat s {} = some (nth 0) ∧ ∀ n, genNext R M cat s (nth n).2 = some (nth (n + 1)) := by
  let seq : Nat → Option (Result × Gen) := fun n => n.rec (genNext R M cat s {}) fun _ o => o.bind fun x => genNext R M cat s x.2
  have hs : ∀ k g, (∃ rs g', genCalls R M cat s (k + 1) g = some (rs, g')) → ∃ x, genNext R M cat s g = some x ∧ ∃ rs g', genCalls R M cat s k x.2 = some (rs, g') := by
    intro k g ⟨rs, g', hk⟩
    simp only [genCalls] at hk
    cases h1 : genNext R M cat s g with
    | none => rw [h1] at hk; cases hk
    | some x =>
      rw [h1] at hk
      refine ⟨x, rfl, ?_⟩
      cases h2 : genCalls R M cat s k x.2 with
      | none => simp [h2] at hk
      | some y => exact ⟨y.1, y.2, rfl⟩
  have hseq : ∀ n, ∃ x, seq n = some x ∧ ∀ k, ∃ rs g', genCalls R M cat s k x.2 = some (rs, g') := by
    intro n
    induction n with
    | zero =>
      obtain ⟨x, hx, _⟩ := hs 0 {} (h 1)
      refine ⟨x, hx, fun k => ?_⟩
      obtain ⟨x', hx', h'⟩ := hs k {} (h (k + 1))
      rw [hx] at hx'
      cases hx'
      exact h'
    | succ n ih =>
      obtain ⟨x, hx, h1⟩ := ih
      obtain ⟨y, hy, _⟩ := hs 0 x.2 (h1 1)
      refine ⟨y, ?_, fun k => ?_⟩
      · show (seq n).bind _ = _
        rw [hx]
        exact hy
      · obtain ⟨y', hy', h'⟩ := hs k x.2 (h1 (k + 1))
        rw [hy] at hy'
        cases hy'
        exact h'
  refine ⟨fun n => (hseq n).choose, (hseq 0).choose_spec.1, fun n => ?_⟩
  have h1 := (hseq n).choose_spec.1
  have h2 := (hseq (n + 1)).choose_spec.1
  have h3 : seq (n + 1) = (seq n).bind fun x => genNext R M cat s x.2 := rfl
  exact (h3.trans (by rw [h1]; rfl)).symm.trans h2

theorem genCalls_nth {nth : Nat → Result × Gen} (h0 : genNext R M cat s {} = some (nth 0)) (h1 : ∀ n, genNext R M cat s (nth n).2 = some (nth (n + 1))) (k : Nat) :
    (genCalls R M cat s k {}).map (·.1) = some ((List.range k).map fun n => (nth n).1) := by
  have key : ∀ k m, (genCalls R M cat s k (nth m).2).map (·.1) = some ((List.range' (m + 1) k).map fun n => (nth n).1) := by
    intro k
    induction k with
    | zero => intro m; rfl
    | succ k ih =>
      intro m
      have := ih (m + 1)
      simp only [genCalls, h1]
      cases h2 : genCalls R M cat s k (nth (m + 1)).2 with
      | none => rw [h2] at this; cases this
      | some x =>
        rw [h2] at this
        simp only [Option.map_some, Option.some.injEq] at this
        simp [h2, this, List.range'_succ]
  cases k with
  | zero => rfl
  | succ k =>
    have := key k 0
    simp only [genCalls, h0]
    cases h2 : genCalls R M cat s k (nth 0).2 with
    | none => rw [h2] at this; cases this
    | some x =>
      rw [h2] at this
      simp only [Option.map_some, Option.some.injEq] at this
      simp [h2, this, List.range_eq_range', List.range'_succ]

/-- The state of the variables, given the calls of the generator. -/
def stateOf (nth : Nat → Result × Gen) (c : Counts) : IterState := ⟨c.ranges.map fun n => ⟨(nth n).2, (nth n).1⟩, c.iters, c.seen⟩

/-- Not a state. -/
def IterOut.Fails : IterOut → Prop
  | .ok _ => False
  | _ => True

/-- What a step does, in terms of what counting says. -/
def Mirrors (nth : Nat → Result × Gen) (o : IterOut) : Option Counts → Prop
  | some c => o = .ok (stateOf nth c)
  | none => o.Fails

theorem at_follows (nth : Nat → Result × Gen) (c : Counts) (it : Nat) {f : Nat → RangeAdapter → IterOut} {g : Nat × Nat → Counts}
    (h : ∀ r n, c.ranges[r]? = some n → f r ⟨(nth n).2, (nth n).1⟩ = .ok (stateOf nth (g (r, n)))) : Mirrors nth ((stateOf nth c).at it f) ((c.place it).map g) := by
  unfold IterState.at Counts.place stateOf
  simp only
  match hi : c.iters[it]? with
  | none => simp [Mirrors, IterOut.Fails]
  | some none => simp [Mirrors, IterOut.Fails]
  | some (some r) =>
    simp only [Option.join_some, Option.bind_eq_bind, Option.bind_some, List.getElem?_map]
    match hr : c.ranges[r]? with
    | none => simp [Mirrors, IterOut.Fails]
    | some n => simpa [Mirrors] using h r n hr

theorem step_follows {nth : Nat → Result × Gen} (h0 : genNext R M cat s {} = some (nth 0)) (h1 : ∀ n, genNext R M cat s (nth n).2 = some (nth (n + 1))) (c : Counts)
    {x : IterStep} (hx : prefixOnly [x] = true) : Mirrors nth ((stateOf nth c).step R M cat s x) (c.step (fun n => (nth n).1) 1 x) := by
  cases x with
  | range => simp [IterState.step, RangeAdapter.make, h0, Counts.step, Mirrors, stateOf]
  | copyRange r =>
    simp only [IterState.step, Counts.step, stateOf, List.getElem?_map]
    match c.ranges[r]? with
    | none => simp [Mirrors, IterOut.Fails]
    | some n => simp [Mirrors, stateOf]
  | copyDirect r =>
    simp only [IterState.step, Counts.step, stateOf, List.getElem?_map]
    match c.ranges[r]? with
    | none => simp [Mirrors, IterOut.Fails]
    | some n => simp [Mirrors, stateOf, h1]
  | begin r =>
    simp only [IterState.step, Counts.step, stateOf, List.getElem?_map]
    match c.ranges[r]? with
    | none => simp [Mirrors, IterOut.Fails]
    | some n => simp [Mirrors, stateOf]
  | default => simp [IterState.step, Counts.step, Mirrors, stateOf]
  | copy it =>
    simp only [IterState.step, Counts.step, stateOf]
    match c.iters[it]? with
    | none => simp [Mirrors, IterOut.Fails]
    | some t => simp [Mirrors, stateOf]
  | deref it => exact at_follows nth c it fun r n _ => rfl
  | incr it =>
    refine at_follows nth c it fun r n _ => ?_
    simp [RangeAdapter.computeNext, h1, stateOf, List.map_set]
  | postIncr it => cases hx
  | test it => exact at_follows nth c it fun r n _ => rfl

theorem run_follows {nth : Nat → Result × Gen} (h0 : genNext R M cat s {} = some (nth 0)) (h1 : ∀ n, genNext R M cat s (nth n).2 = some (nth (n + 1))) (p : List IterStep)
    (hp : prefixOnly p = true) (c : Counts) : Mirrors nth ((stateOf nth c).run R M cat s p) (c.run (fun n => (nth n).1) 1 p) := by
  induction p generalizing c with
  | nil => rfl
  | cons x p ih =>
    have hx : prefixOnly [x] = true ∧ prefixOnly p = true := by cases x <;> first | exact ⟨rfl, hp⟩ | cases hp
    have hs := step_follows h0 h1 c hx.1
    simp only [IterState.run, Counts.run]
    match hc : c.step (fun n => (nth n).1) 1 x with
    | none =>
      rw [hc] at hs
      match ho : (stateOf nth c).step R M cat s x with
      | .ok st => rw [ho] at hs; cases hs
      | .ub => trivial
      | .illFormed => trivial
    | some c' =>
      rw [hc] at hs
      have hs : (stateOf nth c).step R M cat s x = .ok (stateOf nth c') := hs
      rw [hs]
      exact ih hx.2 c'

end

/-- What a program gets to see, if it compiles and its behaviour is defined. -/
def IterOut.seen? : IterOut → Option (List Seen)
  | .ok st => some st.seen
  | _ => none

theorem run_noDirect (elem : Nat → Result) (skip : Nat) (c : Counts) (p : List IterStep) (hp : noDirect p = true) : c.run elem skip p = c.run elem 0 p := by
  induction p generalizing c with
  | nil => rfl
  | cons x p ih =>
    have hx : c.step elem skip x = c.step elem 0 x ∧ noDirect p = true := by cases x <;> first | exact ⟨rfl, hp⟩ | cases hp
    simp only [Counts.run, hx.1]
    cases c.step elem 0 x with
    | none => rfl
    | some c' => exact ih c' hx.2

/-- **C95**: programs with ranges and iterators see what counting says: a range is a number, all its iterators share it, `begin()` is where the range is now, and copies of a range have their own.
The elements are the results of successive calls of the generator; from the first that is not a match on, none is.  (Full statement: for all programs, with copies that skip nothing; `it++` is missing, see `C95_postfix_false`, and `auto other(range)` skips an element, see `C95_copy_false`.) -/
theorem C95_programs_partial (R : Regex) (cat : Cat) (hR : R.Ok cat) (M : Method) (s : List Byte) :
    ∃ elem : Nat → Result, (∀ k, (genCalls R M cat s k {}).map (·.1) = some ((List.range k).map elem)) ∧
      (∀ n m, n ≤ m → (elem n).matched = false → (elem m).matched = false) ∧
      (∀ k, s.length + 2 ≤ k → rangeElements R M cat s k = some (((List.range (k + 1)).map elem).takeWhile (·.matched), true)) ∧
      ∀ p, prefixOnly p = true → (IterState.run R M cat s {} p).seen? = (Counts.run elem 1 {} p).map (·.seen) ∧
        (noDirect p = true → (IterState.run R M cat s {} p).seen? = (Counts.run elem 0 {} p).map (·.seen)) := by
  have hall : ∀ k, ∃ rs g, genCalls R M cat s k {} = some (rs, g) := fun k => by
    obtain ⟨rs, g, _, h, _⟩ := genCalls_ranges (s := s) hR M k {} (Nat.zero_le _)
    exact ⟨rs, g, h⟩
  obtain ⟨nth, h0, h1⟩ := genCalls_sequence hall
  have hn := genCalls_nth h0 h1
  refine ⟨fun n => (nth n).1, hn, fun n m hnm hf => ?_, fun k hk => ?_, fun p hp => ?_⟩
  · obtain ⟨rs, g, _, h, _, _, ⟨hits, misses, h4, h5, h6⟩, _⟩ := genCalls_ranges (s := s) hR M (m + 1) {} (Nat.zero_le _)
    have hm := hn (m + 1)
    rw [h] at hm
    simp only [Option.map_some, Option.some.injEq] at hm
    have hmiss : ∀ i, i ≤ m → (hits ++ misses)[i]? = some (nth i).1 := by
      intro i hi
      rw [← h4, hm, List.getElem?_map, List.getElem?_range (by omega)]
      rfl
    have a1 := hmiss n hnm
    have a2 := hmiss m (Nat.le_refl _)
    by_cases hl : n < hits.length
    · rw [List.getElem?_append_left hl] at a1
      have := h5 _ (List.mem_of_getElem? a1)
      rw [hf] at this
      cases this
    · rw [List.getElem?_append_right (by omega)] at a2
      exact h6 _ (List.mem_of_getElem? a2)
  · obtain ⟨rs, g, h2, h3, _⟩ := C33_range R cat hR M s k hk
    have hm := hn (k + 1)
    rw [h2] at hm
    simp only [Option.map_some, Option.some.injEq] at hm
    rw [h3, hm]
  · refine and_iff_left_of_imp (fun h hd => h.trans (by rw [run_noDirect _ _ _ _ hd])) |>.2 ?_
    have := run_follows h0 h1 p hp {}
    rw [show stateOf nth {} = {} from rfl] at this
    match hc : Counts.run (fun n => (nth n).1) 1 {} p with
    | none =>
      rw [hc] at this
      match ho : IterState.run R M cat s {} p with
      | .ok st => rw [ho] at this; cases this
      | .ub => rfl
      | .illFormed => rfl
    | some c =>
      rw [hc] at this
      have this : IterState.run R M cat s {} p = .ok (stateOf nth c) := this
      rw [this]
      rfl

/-- Iterators point to ranges that exist. -/
def Counts.Sound (c : Counts) : Prop := ∀ r, some r ∈ c.iters → r < c.ranges.length

theorem sound_step {elem : Nat → Result} {skip : Nat} {c c' : Counts} {x : IterStep} (hc : Counts.Sound c) (h : c.step elem skip x = some c') : Counts.Sound c' := by
  have hset : ∀ {r n}, Counts.Sound { c with ranges := c.ranges.set r n } := fun r' hr => by simpa using hc r' hr
  cases x with
  | range =>
    cases h
    intro r hr
    have := hc r hr
    simp only [List.length_append, List.length_singleton]
    omega
  | copyRange r | copyDirect r =>
    obtain ⟨n, _, rfl⟩ := Option.map_eq_some_iff.1 h
    intro r hr
    have := hc r hr
    simp only [List.length_append, List.length_singleton]
    omega
  | begin r =>
    obtain ⟨n, hn, rfl⟩ := Option.map_eq_some_iff.1 h
    intro r' hr
    rcases List.mem_append.1 hr with hr | hr
    · exact hc r' hr
    · obtain rfl : r' = r := by simpa using hr
      exact (List.getElem?_eq_some_iff.1 hn).1
  | default =>
    cases h
    intro r hr
    rcases List.mem_append.1 hr with hr | hr
    · exact hc r hr
    · simp at hr
  | copy it =>
    obtain ⟨n, hn, rfl⟩ := Option.map_eq_some_iff.1 h
    intro r' hr
    rcases List.mem_append.1 hr with hr | hr
    · exact hc r' hr
    · obtain rfl : some r' = n := by simpa using hr
      exact hc r' (List.mem_of_getElem? hn)
  | deref it | test it =>
    obtain ⟨n, hn, rfl⟩ := Option.map_eq_some_iff.1 h
    exact hc
  | incr it | postIncr it =>
    obtain ⟨n, hn, rfl⟩ := Option.map_eq_some_iff.1 h
    exact hset

section
variable {R : Regex} {M : Method} {cat : Cat} {s : List Byte}

theorem at_ub (nth : Nat → Result × Gen) {c : Counts} (hc : Counts.Sound c) (it : Nat) {f : Nat → RangeAdapter → IterOut} (hf : ∀ r n, f r ⟨(nth n).2, (nth n).1⟩ ≠ .ub) :
    (stateOf nth c).at it f = .ub ↔ c.iters[it]? = some none := by
  unfold IterState.at stateOf
  simp only
  match hi : c.iters[it]? with
  | none => simp
  | some none => simp
  | some (some r) =>
    have hr := hc r (List.mem_of_getElem? hi)
    simp only [List.getElem?_map, List.getElem?_eq_getElem hr, Option.map_some]
    simp [hf]

theorem step_ub {nth : Nat → Result × Gen} (h0 : genNext R M cat s {} = some (nth 0)) (h1 : ∀ n, genNext R M cat s (nth n).2 = some (nth (n + 1))) {c : Counts}
    (hc : Counts.Sound c) (x : IterStep) : (stateOf nth c).step R M cat s x = .ub ↔ UsesNull c x := by
  cases x with
  | range => simp [IterState.step, RangeAdapter.make, h0, UsesNull]
  | copyRange r | begin r =>
    simp only [IterState.step, stateOf, List.getElem?_map, UsesNull]
    cases c.ranges[r]? <;> simp
  | copyDirect r =>
    simp only [IterState.step, stateOf, List.getElem?_map, UsesNull]
    cases c.ranges[r]? <;> simp [h1]
  | default => simp [IterState.step, UsesNull]
  | copy it =>
    simp only [IterState.step, stateOf, UsesNull]
    cases c.iters[it]? <;> simp
  | deref it | test it => exact at_ub nth hc it fun _ _ => by simp
  | incr it => exact at_ub nth hc it fun _ _ => by simp [RangeAdapter.computeNext, h1]
  | postIncr it => simp [IterState.step, UsesNull]

theorem run_ub {nth : Nat → Result × Gen} (h0 : genNext R M cat s {} = some (nth 0)) (h1 : ∀ n, genNext R M cat s (nth n).2 = some (nth (n + 1))) (p : List IterStep)
    {c : Counts} (hc : Counts.Sound c) : (stateOf nth c).run R M cat s p = .ub ↔
      ∃ before x after c', p = before ++ x :: after ∧ prefixOnly before = true ∧ c.run (fun n => (nth n).1) 1 before = some c' ∧ UsesNull c' x := by
  induction p generalizing c with
  | nil =>
    simp only [IterState.run]
    constructor
    · intro h; cases h
    · rintro ⟨before, x, after, c', h, _⟩
      cases before <;> cases h
  | cons x p ih =>
    have hsub := step_ub h0 h1 hc x
    constructor
    · intro h
      by_cases hx : (stateOf nth c).step R M cat s x = .ub
      · exact ⟨[], x, p, c, rfl, rfl, rfl, hsub.1 hx⟩
      · simp only [IterState.run] at h
        match ho : (stateOf nth c).step R M cat s x with
        | .ub => exact absurd ho hx
        | .illFormed => rw [ho] at h; cases h
        | .ok st =>
          have hp : prefixOnly [x] = true := by
            cases x <;> first | rfl | (simp [IterState.step] at ho)
          have hs := step_follows h0 h1 c hp
          rw [ho] at hs h
          match hcs : c.step (fun n => (nth n).1) 1 x with
          | none => rw [hcs] at hs; cases hs
          | some c' =>
            rw [hcs] at hs
            have hs : IterOut.ok st = .ok (stateOf nth c') := hs
            cases hs
            obtain ⟨before, y, after, c'', h2, h3, h4, h5⟩ := (ih (sound_step hc hcs)).1 h
            refine ⟨x :: before, y, after, c'', by rw [h2]; rfl, ?_, by simp only [Counts.run, hcs, Option.bind_some, h4], h5⟩
            cases x <;> first | exact h3 | cases hp
    · rintro ⟨before, y, after, c', h2, h3, h4, h5⟩
      cases before with
      | nil =>
        cases h2
        cases h4
        simp only [IterState.run, hsub.2 h5]
      | cons x' before =>
        cases h2
        have hx : prefixOnly [x] = true ∧ prefixOnly before = true := by cases x <;> first | exact ⟨rfl, h3⟩ | cases h3
        have hs := step_follows h0 h1 c hx.1
        simp only [Counts.run, Option.bind_eq_some_iff] at h4
        obtain ⟨c₁, h6, h7⟩ := h4
        rw [h6] at hs
        have hs : (stateOf nth c).step R M cat s x = .ok (stateOf nth c₁) := hs
        simp only [IterState.run, hs]
        exact (ih (sound_step hc h6)).2 ⟨before, y, after, c', rfl, hx.2, h7, h5⟩

end

/-- **C95**: behaviour is undefined exactly if the program comes to use an iterator that has no range. -/
theorem C95_undefined (R : Regex) (cat : Cat) (hR : R.Ok cat) (M : Method) (s : List Byte) :
    ∃ elem : Nat → Result, (∀ k, (genCalls R M cat s k {}).map (·.1) = some ((List.range k).map elem)) ∧
      ∀ p, IterState.run R M cat s {} p = .ub ↔ RunsIntoNull elem p := by
  have hall : ∀ k, ∃ rs g, genCalls R M cat s k {} = some (rs, g) := fun k => by
    obtain ⟨rs, g, _, h, _⟩ := genCalls_ranges (s := s) hR M k {} (Nat.zero_le _)
    exact ⟨rs, g, h⟩
  obtain ⟨nth, h0, h1⟩ := genCalls_sequence hall
  exact ⟨fun n => (nth n).1, genCalls_nth h0 h1, fun p => run_ub h0 h1 p (c := {}) (fun r hr => by cases hr)⟩

/-- `auto it = iterator{}; ++it;`. -/
example (elem : Nat → Result) : RunsIntoNull elem [.default, .incr 0] := ⟨[.default], .incr 0, [], _, rfl, rfl, rfl, rfl⟩
/-- A loop over a range does not. -/
example : ∃ st, IterState.run ⟨.lit (ch 'a'), []⟩ .search .randomAccess [ch 'a'] {} [.range, .begin 0, .deref 0, .incr 0] = .ok st := ⟨_, rfl⟩

/-- **C95** is false for `it++`: it does not compile. -/
theorem C95_postfix_false (R : Regex) (M : Method) (cat : Cat) (s : List Byte) (elem : Nat → Result) (h : ∃ A, RangeAdapter.make R M cat s = some A) :
    (IterState.run R M cat s {} [.range, .begin 0, .postIncr 0]).seen? = none ∧ (Counts.run elem 0 {} [.range, .begin 0, .postIncr 0]).map (·.seen) = some [.value (elem 0)] := by
  obtain ⟨A, h⟩ := h
  constructor
  · simp [IterState.run, IterState.step, h, IterOut.seen?]
  · rfl

/-- **C95** is false for `auto other(range)`: with the pattern `a` and the text `aa`, the copy of a fresh range begins with the second match. -/
theorem C95_copy_false : ∃ elem : Nat → Result,
    (∀ k, (genCalls ⟨.lit (ch 'a'), []⟩ .search .randomAccess [ch 'a', ch 'a'] k {}).map (·.1) = some ((List.range k).map elem)) ∧
    (IterState.run ⟨.lit (ch 'a'), []⟩ .search .randomAccess [ch 'a', ch 'a'] {} [.range, .copyDirect 0, .begin 1, .deref 0]).seen? = some [.value (elem 1)] ∧
    (Counts.run elem 0 {} [.range, .copyDirect 0, .begin 1, .deref 0]).map (·.seen) = some [.value (elem 0)] ∧ elem 0 ≠ elem 1 := by
  obtain ⟨elem, h1, _, _, h4⟩ := C95_programs_partial ⟨.lit (ch 'a'), []⟩ .randomAccess (Regex.ok_of_okb (by decide)) .search [ch 'a', ch 'a']
  refine ⟨elem, h1, (h4 _ rfl).1, rfl, fun h => ?_⟩
  have h2 := h1 2
  rw [show (List.range 2).map elem = [elem 0, elem 1] from rfl, h] at h2
  have h3 : (genCalls ⟨.lit (ch 'a'), []⟩ .search .randomAccess [ch 'a', ch 'a'] 2 {}).map (fun x => x.1.map (·.groups)) = some [[some (0, 1)], [some (1, 2)]] := by decide
  cases hg : genCalls ⟨.lit (ch 'a'), []⟩ .search .randomAccess [ch 'a', ch 'a'] 2 {} with
  | none => rw [hg] at h2; cases h2
  | some x =>
    rw [hg] at h2 h3
    simp only [Option.map_some, Option.some.injEq] at h2 h3
    rw [h2] at h3
    simp only [List.map_cons, List.map_nil, List.cons.injEq] at h3
    have := h3.1.symm.trans h3.2.1
    cases this

/-! ### Loops -/

/-- `n` rounds of `for (; it != end; ++it) use(*it);` with the iterator `it`. -/
def roundsOf (it : Nat) : Nat → List IterStep
  | 0 => []
  | n + 1 => .test it :: .deref it :: .incr it :: roundsOf it n

/-- What `n` rounds see, from the element `k` on. -/
def roundsSeen (elem : Nat → Result) (k : Nat) : Nat → List Seen
  | 0 => []
  | n + 1 => .more (elem k).matched :: .value (elem k) :: roundsSeen elem (k + 1) n

theorem counts_append (elem : Nat → Result) (skip : Nat) (c : Counts) (p q : List IterStep) : c.run elem skip (p ++ q) = (c.run elem skip p).bind fun c' => c'.run elem skip q := by
  induction p generalizing c with
  | nil => rfl
  | cons x p ih =>
    simp only [List.cons_append, Counts.run]
    cases c.step elem skip x with
    | none => rfl
    | some c' => exact ih c'

theorem run_rounds (elem : Nat → Result) (skip : Nat) {c : Counts} {it r k : Nat} (hi : c.iters[it]? = some (some r)) (hr : c.ranges[r]? = some k) (n : Nat) :
    c.run elem skip (roundsOf it n) = some { c with ranges := c.ranges.set r (k + n), seen := c.seen ++ roundsSeen elem k n } := by
  induction n generalizing c k with
  | zero =>
    simp only [roundsOf, Counts.run, Nat.add_zero, roundsSeen, List.append_nil, Option.some.injEq]
    have : c.ranges.set r k = c.ranges := by
      obtain ⟨h, rfl⟩ := List.getElem?_eq_some_iff.1 hr
      exact List.set_getElem_self h
    rw [this]
  | succ n ih =>
    have hlt : r < c.ranges.length := (List.getElem?_eq_some_iff.1 hr).1
    have hp : ∀ seen, (Counts.mk c.ranges c.iters seen).place it = some (r, k) := fun seen => by
      simp [Counts.place, hi, hr]
    simp only [roundsOf, Counts.run, Counts.step]
    rw [show c.place it = some (r, k) from hp c.seen]
    simp only [Option.map_some, Option.bind_some, hp]
    rw [ih (c := ⟨c.ranges.set r (k + 1), c.iters, c.seen ++ [Seen.more (elem k).matched] ++ [Seen.value (elem k)]⟩) (k := k + 1) hi (by simp [hlt])]
    simp only [roundsSeen, List.set_set, List.append_assoc, List.cons_append, List.nil_append, show k + 1 + n = k + (n + 1) by omega]

/-- **C95**: after a loop over a range that is left by `break` at the element `j`, a second loop begins with this element once more, whatever the first one did before. -/
theorem C95_second_loop (R : Regex) (cat : Cat) (hR : R.Ok cat) (M : Method) (s : List Byte) :
    ∃ elem : Nat → Result, (∀ k, (genCalls R M cat s k {}).map (·.1) = some ((List.range k).map elem)) ∧
      ∀ j n, (IterState.run R M cat s {} ([.range, .begin 0] ++ roundsOf 0 j ++ [.test 0, .deref 0] ++ [.begin 0] ++ roundsOf 1 n)).seen? =
        some (roundsSeen elem 0 j ++ [.more (elem j).matched, .value (elem j)] ++ roundsSeen elem j n) := by
  obtain ⟨elem, h1, _, _, h4⟩ := C95_programs_partial R cat hR M s
  refine ⟨elem, h1, fun j n => ?_⟩
  have hp : ∀ it n q, prefixOnly q = true → prefixOnly (roundsOf it n ++ q) = true := by
    intro it n q hq
    induction n with
    | zero => exact hq
    | succ n ih => exact ih
  have hd : ∀ it n q, noDirect q = true → noDirect (roundsOf it n ++ q) = true := by
    intro it n q hq
    induction n with
    | zero => exact hq
    | succ n ih => exact ih
  rw [(h4 _ ?_).2 ?_]
  · simp only [counts_append, Counts.run, Counts.step, List.nil_append, Option.bind_some, List.getElem?_cons_zero, Option.map_some]
    rw [run_rounds elem 0 (it := 0) (r := 0) (k := 0) rfl rfl]
    simp only [Option.bind_some, Counts.place, List.set_cons_zero, List.getElem?_cons_zero, Option.join_some, Option.bind_eq_bind, Option.map_some, Nat.zero_add,
      List.nil_append, Option.pure_def]
    rw [run_rounds elem 0 (it := 1) (r := 0) (k := j) rfl rfl]
    simp
  · have h2 := hp 1 n [] rfl
    rw [List.append_nil] at h2
    simp only [List.append_assoc, List.cons_append, List.nil_append]
    exact hp 0 j _ h2
  · have h2 := hd 1 n [] rfl
    rw [List.append_nil] at h2
    simp only [List.append_assoc, List.cons_append, List.nil_append]
    exact hd 0 j _ h2

/-- Two iterators of one range, and one of a copy of it. -/
def exProgram : List IterStep := [.range, .begin 0, .copy 0, .incr 0, .copyRange 0, .begin 1, .incr 1, .deref 0, .deref 1, .deref 2, .begin 0, .deref 3, .test 3]
example (elem : Nat → Result) : prefixOnly exProgram = true ∧ noDirect exProgram = true ∧ (Counts.run elem 0 {} exProgram).map (·.seen) =
    some [.value (elem 2), .value (elem 2), .value (elem 1), .value (elem 2), .more (elem 2).matched] := ⟨rfl, rfl, rfl⟩
/-- A default constructed iterator may not be looked at. -/
example (elem : Nat → Result) : (Counts.run elem 0 {} [.default, .deref 0]).map (·.seen) = none := rfl
example : ∃ A, RangeAdapter.make ⟨.lit (ch 'a'), []⟩ .search .randomAccess [ch 'b'] = some A := ⟨_, rfl⟩
example := C95_programs_partial ⟨.rep .greedy 1 .inf (.lit (ch 'a')), []⟩ .forward (Regex.ok_of_okb (by decide)) .search [ch 'a', ch 'a', ch 'b', ch 'a']

end Mregex
