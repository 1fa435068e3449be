import Verif.Proof.CaptureLemmas

/-!
# C01, C07, C08, C09, C49: termination, memory safety, group 0, bounds of captures
-/

namespace Mregex
open Ast Spec

/-! ## Examples used below -/

/-- `(?:a|(b))*c\1`. -/
def exSafe : Regex :=
  ⟨.seq [star (.alt [.lit (ch 'a'), .cap 1 none (.lit (ch 'b'))]), .lit (ch 'c'), .backref 1], []⟩

theorem exSafe_ok : exSafe.Ok .randomAccess := Regex.ok_of_okb (by decide)

/-- `(?:a*)*(?<=x)` - nested unbounded repetitions of something that matches the empty string. -/
def exNested : Regex :=
  ⟨.seq [star (.cap 1 none (star (.lit (ch 'a')))), .look .behind (.lit (ch 'x'))], []⟩

theorem exNested_ok : exNested.Ok .bidirectional := Regex.ok_of_okb (by decide)

/-! ## C01 -/

/-- **C01.** Every method, started at any position of the input with any capture state of the right size, returns:
there is a result that is reached with every sufficiently large amount of fuel (so neither `diverge` nor
`ub`, the outcome of reading or moving outside of the input, occurs).  The reported end is inside the input. -/
theorem C01_total (R : Regex) (cat : Cat) (hR : R.Ok cat) (M : Method) (s : List Byte) (cur : Nat)
    (hcur : cur ≤ s.length) (c : Ctx) (hc : c.length = R.names.length) :
    ∃ res c', res.pos ≤ s.length ∧
      ∀ fuel, fuelFor R.ast s ≤ fuel → M.invoke (R.env cat s) fuel R.ast cur c = .ok res c' := by
  suffices h : ∃ res c', res.pos ≤ s.length ∧ M.invoke (R.env cat s) (fuelFor R.ast s) R.ast cur c = .ok res c' by
    obtain ⟨res, c', h1, h2⟩ := h
    exact ⟨res, c', h1, fun fuel hf => by rw [← h2]; exact invoke_fuel (hR s) M hcur hc hf⟩
  have hI : ∀ c : Ctx, c.length = R.names.length → c.length = R.names.length := fun _ h => h
  cases M with
  | «match» =>
    simp only [Method.invoke, matchMethod]
    rcases (Regex.match_post (s := s) hI hR capClosed_len hcur hc).elim with ⟨q, c', h, h'⟩ | ⟨q, c', h, h'⟩
    · exact ⟨⟨q, true⟩, _, by rw [h'.1]; exact Nat.le_refl _, congrArg _ h⟩
    · exact ⟨⟨q, false⟩, _, h'.1.right_le, congrArg _ h⟩
  | matchPrefix =>
    simp only [Method.invoke, prefixMethod]
    rcases (Regex.prefix_post (s := s) hI hR capClosed_len hcur hc).elim with ⟨q, c', h, h'⟩ | ⟨q, c', h, h'⟩
    · exact ⟨⟨q, true⟩, _, (over_reach hcur h'.1).right_le, congrArg _ h⟩
    · exact ⟨⟨q, false⟩, _, h'.1.right_le, congrArg _ h⟩
  | search =>
    rcases (Regex.search_post (s := s) hI hR capClosed_len hcur hc).elim with ⟨q, c', h, h'⟩ | ⟨q, c', h, h'⟩
    · obtain ⟨i, c'', _, hi, ho, _⟩ := h'
      exact ⟨⟨q, true⟩, _, (over_reach hi ho).right_le, h⟩
    · exact ⟨⟨q, false⟩, _, by rw [h'.1]; exact Nat.le_refl _, h⟩

/-- **C01** for the public entry points. -/
theorem C01_methods_return (R : Regex) (cat : Cat) (hR : R.Ok cat) (M : Method) (s : List Byte) :
    ∃ res, R.invoke M cat s = some res := by
  obtain ⟨res, c', _, h⟩ := C01_total R cat hR M s 0 (Nat.zero_le _) (initCtx R.names) (length_init _)
  exact ⟨⟨c', res.matched⟩, by simp [Regex.invoke, h _ (Nat.le_refl _)]⟩

example : ∃ res, exSafe.invoke .search .randomAccess [ch 'x', ch 'b', ch 'c', ch 'b'] = some res :=
  C01_methods_return _ _ exSafe_ok _ _

example : ∃ res, exNested.invoke .match .bidirectional [ch 'a', ch 'a'] = some res :=
  C01_methods_return _ _ exNested_ok _ _

/-- The static requirement on multiline `^` is needed: with merely forward iterators the library calls `std::prev`. -/
theorem C01_forward_multiline_bol :
    (Regex.mk .bol [.multiline]).search [ch 'a', ch 'a'] .forward ≠ none ∧
    (Regex.mk (.seq [.lit (ch 'a'), .bol]) [.multiline]).search [ch 'a', ch 'a'] .forward = none := by
  decide

/-! ## C07 -/

/-- **C07** for `match`: group 0 is the whole input. -/
theorem C07_match (R : Regex) (cat : Cat) (hR : R.Ok cat) (s : List Byte) (res : Result)
    (h : R.match s cat = some res) (hm : res.matched = true) :
    res.group 0 = some (some (0, s.length)) ∧ res.length = s.length := by
  obtain ⟨q, c, h1, h2⟩ := Regex.match_eq h
  have hs := Regex.match_post (s := s) (fun _ h => h) hR capClosed_len (Nat.zero_le _) (length_init R.names)
  rw [h1, hm] at hs
  obtain ⟨rfl, -, hl⟩ := hs.of_true
  have h3 : res.groups[0]? = some (some (0, s.length)) := by
    rw [h2, List.getElem?_set]; simp [hl, Regex.names]
  exact ⟨h3, by simp [Result.length, h3, Cap.length]⟩

/-- **C07** for `match_prefix`: group 0 is a prefix of the input, ending where the regex matched: some run of the regex from
the beginning of the input ends there. -/
theorem C07_matchPrefix (R : Regex) (cat : Cat) (hR : R.Ok cat) (s : List Byte) (res : Result)
    (h : R.matchPrefix s cat = some res) (hm : res.matched = true) :
    ∃ j, j ≤ s.length ∧ res.group 0 = some (some (0, j)) ∧ res.length = j ∧
      ∃ c', mtch (R.env cat s) (fuelFor R.ast s) R.ast 0 0 (initCtx R.names) success = .ok ⟨j, true⟩ c' := by
  obtain ⟨q, c, h1, h2⟩ := Regex.matchPrefix_eq h
  have hs := Regex.prefix_post (s := s) (fun _ h => h) hR capClosed_len (Nat.zero_le _) (length_init R.names)
  rw [h1, hm] at hs
  replace hs := hs.of_true
  have h3 : res.groups[0]? = some (some (0, q)) := by
    rw [h2, List.getElem?_set]; simp [hs.2, Regex.names]
  exact ⟨q, (over_reach (Nat.zero_le _) hs.1).right_le, h3, by simp [Result.length, h3, Cap.length], c, hm ▸ h1⟩

theorem searchLoop_hit {E : Env} {fuel : Nat} {a : Ast} (hok : Ok E 0 a) (hf : fuelFor a E.inp ≤ fuel) :
    ∀ k cur c q c', cur ≤ E.inp.length → E.inp.length - cur + 1 ≤ k → c.length = E.names.length →
      searchLoop E fuel a k cur c = .ok ⟨q, true⟩ c' →
      ∃ i ci c'', cur ≤ i ∧ i ≤ q ∧ q ≤ E.inp.length ∧ ci.length = E.names.length ∧ c''.length = E.names.length ∧
        mtch E fuel a 0 i ci success = .ok ⟨q, true⟩ c'' ∧ c' = c''.set 0 (some (i, q)) := by
  intro k
  induction k with
  | zero => intro cur c q c' _ h; omega
  | succ k ih =>
    intro cur c q c' hcur hk hc h
    unfold searchLoop at h
    have hs := prefix_safe (E := E) (I := fun c => c.length = E.names.length) (fun _ h => h) hok hf capClosed_len hcur hc
    match hm : mtch E fuel a 0 cur c success with
    | .ok ⟨q', true⟩ c'' =>
      rw [hm] at h hs
      simp only [Post, if_true, Out.ok.injEq, MR.mk.injEq, and_true] at h hs
      obtain ⟨rfl, rfl⟩ := h
      have := over_reach hcur hs.1
      exact ⟨cur, c, c'', Nat.le_refl _, by unfold Env.Reach at this; omega, this.right_le, hc, hs.2, hm, rfl⟩
    | .ok ⟨q', false⟩ c'' =>
      rw [hm] at h hs
      simp only [Post, Bool.false_eq_true, if_false] at h hs
      by_cases he : cur = E.inp.length
      · simp [he, nonMatch] at h
      · simp only [he, if_false] at h
        obtain ⟨i, ci, c3, h1, h2⟩ := ih (cur + 1) c'' q c' (by omega) (by omega) hs.2 h
        exact ⟨i, ci, c3, by omega, h2⟩
    | .ub => rw [hm] at h; cases h
    | .diverge => rw [hm] at h; cases h

/-- **C07** for `search`: group 0 is a range inside the input from a position at which a run of the regex was started to the
position at which that run ended.  (`C04` says more about that range.) -/
theorem C07_search (R : Regex) (cat : Cat) (hR : R.Ok cat) (s : List Byte) (res : Result)
    (h : R.search s cat = some res) (hm : res.matched = true) :
    ∃ i j, i ≤ j ∧ j ≤ s.length ∧ res.group 0 = some (some (i, j)) ∧ res.length = j - i ∧
      ∃ c c', mtch (R.env cat s) (fuelFor R.ast s) R.ast 0 i c success = .ok ⟨j, true⟩ c' := by
  obtain ⟨q, h1⟩ := Regex.search_eq h
  rw [hm] at h1
  obtain ⟨i, ci, c'', h2, h3, h4, h5, h6, h7, h8⟩ := searchLoop_hit (hR s) (Nat.le_refl _) _ 0 _ q _ (Nat.zero_le _)
    (Nat.le_refl _) (length_init _) h1
  have h9 : res.groups[0]? = some (some (i, q)) := by
    rw [h8, List.getElem?_set]; simp [h6, Regex.env, Regex.names]
  exact ⟨i, q, h3, h4, h9, by simp [Result.length, h9, Cap.length], ci, c'', h7⟩

example : exSafe.search [ch 'x', ch 'b', ch 'c'] = some ⟨[some (1, 3), some (1, 1)], true⟩ := by decide

/-! ## C08 -/

/-- **C08** is false for `match`: the failed match of `a` against `ab` reports a group 0 of length 1. -/
theorem C08_match_false :
    ∃ (R : Regex) (s : List Byte) (res : Result), R.Ok .randomAccess ∧ R.match s = some res ∧ res.matched = false ∧
      res.length ≠ 0 :=
  ⟨⟨.lit (ch 'a'), []⟩, [ch 'a', ch 'b'], ⟨[some (0, 1)], false⟩, Regex.ok_of_okb (by decide), by decide, by decide,
    by decide⟩

/-- **C08** is false for `match_prefix` as well: `ab` on `ax`, with bidirectional iterators. -/
theorem C08_matchPrefix_false :
    ∃ (R : Regex) (s : List Byte) (res : Result), R.Ok .bidirectional ∧ R.matchPrefix s .bidirectional = some res ∧
      res.matched = false ∧ res.length ≠ 0 :=
  ⟨⟨.seq [.lit (ch 'a'), .lit (ch 'b')], []⟩, [ch 'a', ch 'x'], ⟨[some (0, 1)], false⟩, Regex.ok_of_okb (by decide),
    by decide, by decide, by decide⟩

/-- **C08, partial**: it holds for `search` (of regexes in which no group is numbered 0, which is what the parser
produces).  Missing: `match` and `match_prefix`, for which it is false. -/
theorem C08_search_partial (R : Regex) (cat : Cat) (hR : R.Ok cat) (h0 : 0 ∉ groupIds R.ast) (s : List Byte)
    (res : Result) (h : R.search s cat = some res) (hm : res.matched = false) :
    res.group 0 = some none ∧ res.length = 0 := by
  obtain ⟨q, h1⟩ := Regex.search_eq h
  have hs := Regex.search_post (s := s) (I := fun c => c.length = R.names.length ∧ c[0]? = some none) (fun _ h => h.1)
    hR (capClosed_zero h0) (Nat.zero_le _) (c := initCtx R.names) ⟨length_init R.names, by simp [initCtx, Regex.names]⟩
  rw [Nat.sub_zero, h1, hm] at hs
  replace hs := hs.of_false
  exact ⟨hs.2.2, by simp [Result.length, hs.2.2, Cap.length]⟩

example : (0 ∉ groupIds exSafe.ast) ∧ ∃ res, exSafe.search [ch 'x', ch 'b'] = some res ∧ res.matched = false :=
  ⟨by decide, ⟨[none, some (1, 1)], false⟩, by decide⟩

/-! ## C09 -/

theorem invoke_inBounds (R : Regex) (cat : Cat) (hR : R.Ok cat) (M : Method) (s : List Byte) (res : Result)
    (h : R.invoke M cat s = some res) : InBounds (R.env cat s) res.groups := by
  have hI : ∀ c, InBounds (R.env cat s) c → c.length = R.names.length := fun _ h => h.1
  have hcl := capClosed_inBounds (hR s)
  have hc : InBounds (R.env cat s) (initCtx R.names) := inBounds_init (E := R.env cat s)
  cases M with
  | «match» =>
    obtain ⟨q, c, h1, h2⟩ := Regex.match_eq h
    have hs := Regex.match_post hI hR hcl (Nat.zero_le _) hc
    rw [h1] at hs
    rw [h2]
    cases hm : res.matched with
    | true =>
      rw [hm] at hs
      replace hs := hs.of_true
      exact hs.2.2.set (Nat.zero_le _) (over_reach (Nat.zero_le _) hs.2.1).right_le
    | false =>
      rw [hm] at hs
      exact hs.of_false.2.set (Nat.zero_le _) hs.of_false.1.right_le
  | matchPrefix =>
    obtain ⟨q, c, h1, h2⟩ := Regex.matchPrefix_eq h
    have hs := Regex.prefix_post hI hR hcl (Nat.zero_le _) hc
    rw [h1] at hs
    rw [h2]
    cases hm : res.matched with
    | true =>
      rw [hm] at hs
      replace hs := hs.of_true
      exact hs.2.set (Nat.zero_le _) (over_reach (Nat.zero_le _) hs.1).right_le
    | false =>
      rw [hm] at hs
      exact hs.of_false.2.set (Nat.zero_le _) hs.of_false.1.right_le
  | search =>
    obtain ⟨q, h1⟩ := Regex.search_eq h
    have hs := Regex.search_post hI hR hcl (Nat.zero_le _) hc
    rw [Nat.sub_zero, h1] at hs
    cases hm : res.matched with
    | true =>
      rw [hm] at hs
      obtain ⟨i, c'', _, hi, ho, hb, he⟩ := hs.of_true
      rw [he]
      have := over_reach hi ho
      exact hb.set (by unfold Env.Reach at this; omega) this.right_le
    | false =>
      rw [hm] at hs
      exact hs.of_false.2

/-- **C09.** Whether or not the match succeeded, each group is untouched or a range inside of the input. -/
theorem C09_groups_in_bounds (R : Regex) (cat : Cat) (hR : R.Ok cat) (M : Method) (s : List Byte) (res : Result)
    (h : R.invoke M cat s = some res) (k : Nat) (g : Cap) (hg : res.group k = some g) :
    g = none ∨ ∃ b e, g = some (b, e) ∧ b ≤ e ∧ e ≤ s.length := by
  have hb := invoke_inBounds R cat hR M s res h
  match g with
  | none => exact .inl rfl
  | some (b, e) => exact .inr ⟨b, e, rfl, hb.2 k b e hg⟩

example : ∃ res, exSafe.invoke .match .randomAccess [ch 'b', ch 'c'] = some res ∧ res.matched = true ∧
    res.group 1 = some (some (0, 0)) :=
  ⟨⟨[some (0, 2), some (0, 0)], true⟩, by decide⟩

/-! ## C49 -/

/-- **C49.** A node that is not classified as a zero-length matcher cannot match the empty string at any position, in either
direction: even if all possible matches are tried (the continuation `equals p` accepts only the empty one), the
result is a failure. -/
theorem C49_not_zero_length (E : Env) (r : Nat) (a : Ast) (hok : Ok E r a) (hz : zlm a = false) (p : Nat)
    (hp : p ≤ E.inp.length) (c : Ctx) (hc : c.length = E.names.length) (fuel : Nat) (hf : fuelFor a E.inp ≤ fuel) :
    ∃ q c', mtch E fuel a r p c (equals p) = .ok ⟨q, false⟩ c' := by
  have hs := mtch_safe (I := fun c => c.length = E.names.length) (fun _ h => h) fuel a r hok hf capClosed_len p p c
    (equals p) (fun _ _ => False) (.refl hp) hc ?_
  · rcases hs.elim with ⟨_, _, _, h⟩ | ⟨q, c', h, _⟩
    · exact h.elim
    · exact ⟨q, c', h⟩
  · intro q c' ho hc'
    have hne := over_ne hp hz ho
    have : (q == p) = false := by simpa using Ne.symm hne
    simp only [Post, equals, this, Bool.false_eq_true, if_false]
    exact ⟨over_reach hp ho, hc'⟩

/-- **C49**, in terms of the language of the regex. -/
theorem C49_language (f : Flags) (s : List Byte) (a : Ast) (hw : wf a = true) (hb : noBackref a = true)
    (hp' : noPossessive a = true) (hr : behindOk a = true) (hz : zlm a = false) (i : Nat) (hi : i ≤ s.length) :
    ¬ Matches f s a i i := by
  intro h
  have := (ends_iff (E := { inp := s, flags := f }) (fwd := true) (inv := false) hw hb hp' (.inl ⟨rfl, rfl, hr⟩) hi).2 h
  exact ends_ne (r := 0) rfl hz (E := { inp := s, flags := f }) hi this rfl

example : ∃ a, zlm a = false ∧ Ok { inp := [], names := [none, none] } 0 a ∧
    a = .seq [.cap 1 none (star (.lit (ch 'a'))), .lit (ch 'b'), .eol] :=
  ⟨_, by decide, ok_of_okF (k := 5) (cat := .randomAccess) (f := {}) (by decide) _, rfl⟩

end Mregex
