import Verif.Proof.WalkMethods
import Verif.Props.Trails

/-!
# Groups and references inside of lookarounds and possessive constructs
-/

namespace Mregex
open Ast Spec

/-- Where lookarounds and possessive constructs contain no groups and references the walk is the path: `followable` extends `traceable`. -/
theorem C11_walks_are_paths (R : Regex) (h : traceable R.ast = true) (s : List Byte) (M : Method) :
    followable R.ast = true ∧ methodWalk R.fl s R.ast M = methodPath R.fl s R.ast M :=
  ⟨Walk.followable_of_traceable h, Walk.methodWalk_path (by simp only [traceable, Bool.and_eq_true] at h; exact h.1) M⟩

/-- Without references the walk is the trail: `followable` holds for all such regexes. -/
theorem C11_walks_are_trails (R : Regex) (h : noBackref R.ast = true) (s : List Byte) (M : Method) :
    followable R.ast = true ∧ methodWalk R.fl s R.ast M = methodTrail R.fl s R.ast M :=
  ⟨Walk.followable_of_noBackref h, Walk.methodWalk_trail h M⟩

/-- The walks are exact about the range of the match, also with references in lookarounds and to groups set in lookarounds and possessive constructs: a method succeeds iff it finds a walk,
and group 0 is its range. -/
theorem C11_walk_ranges (R : Regex) (cat : Cat) (hR : R.Ok cat) (ht : followable R.ast = true) (s : List Byte) (M : Method) :
    ∃ res, R.invoke M cat s = some res ∧ res.matched = (methodWalk R.fl s R.ast M).isSome ∧
      ∀ i y, methodWalk R.fl s R.ast M = some (i, y) → res.group 0 = some (some (i, y.1)) := by
  obtain ⟨res, h1, ⟨i, y, h2, h3, h4, _⟩ | ⟨h2, h3, _⟩⟩ := Walk.method_agrees (Walk.denC_root hR ht) M
  · rw [show Flags.ofList R.flags = R.fl from rfl] at h2
    exact ⟨res, h1, by rw [h2, h3]; rfl, fun i' y' h => by rw [h2] at h; cases h; exact h4⟩
  · rw [show Flags.ofList R.flags = R.fl from rfl] at h2
    exact ⟨res, h1, by rw [h2, h3]; rfl, fun i' y' h => by rw [h2] at h; cases h⟩

/-- **C11**, partial, for regexes with references and with groups in lookarounds, negations and possessive constructs: if a group takes part in the walk of the match and
cannot be tried again on the way, it holds exactly the range of its participation; outside of the lookarounds and possessive constructs it holds this range or no text.
Missing: groups of iterated parts keep their text (false, `C11_false`); references that are not `followable`: to groups that are tried again after they took part, from
inside of the group, or to a group in a lookaround or possessive construct that need not have taken part (such a reference can read the text of an abandoned attempt,
`C11_stale_reference`). -/
theorem C11_walks_partial (R : Regex) (cat : Cat) (hR : R.Ok cat) (ht : followable R.ast = true) (s : List Byte) (M : Method)
    (res : Result) (h : R.invoke M cat s = some res) (i : Nat) (y : Place) (hy : methodWalk R.fl s R.ast M = some (i, y))
    (k : Nat) (hk : k ≠ 0) (v : Nat × Nat) (hv : held k y.2 = some v) (g : Cap) (hg : res.group k = some g) :
    (visitedOnce k R.ast = true → g = some v) ∧ (outside k R.ast = true → g = some v ∨ NoText g) := by
  obtain ⟨res', h1, ⟨i', y', h2, _, _, c, h5, h6⟩ | ⟨h2, _, _⟩⟩ := Walk.method_agrees (s := s) (Walk.denC_root hR ht) M
  · rw [show Flags.ofList R.flags = R.fl from rfl] at h2
    rw [hy] at h2; cases h2
    rw [h] at h1; cases h1
    have := h5.2 k g (by simp) (by
      have : res.groups[k]? = some g := hg
      rw [h6, List.getElem?_set_ne (fun e => hk e.symm)] at this
      exact this)
    rw [hv] at this
    rcases this with this | ⟨ha, hb⟩
    · exact ⟨fun _ => this, fun _ => .inl this⟩
    · refine ⟨fun ho => ?_, fun ho => ?_⟩
      · cases ho.symm.trans ha
      · exact .inr (hb.resolve_right (by simp [ho]))
  · rw [show Flags.ofList R.flags = R.fl from rfl] at h2
    rw [hy] at h2; cases h2

/-- **C12**, partial, for regexes with references and with groups in lookarounds, negations and possessive constructs: a group outside of these that does not take part in the
walk of the match holds no text, and so does every such group after a failure.
Missing: the groups in there, which do leave text behind (`C12_false`, `C12_failure_false`). -/
theorem C12_walks_partial (R : Regex) (cat : Cat) (hR : R.Ok cat) (ht : followable R.ast = true) (s : List Byte) (M : Method)
    (res : Result) (h : R.invoke M cat s = some res) (k : Nat) (hk : k ≠ 0) (ho : outside k R.ast = true) (g : Cap) (hg : res.group k = some g) :
    (∀ i y, methodWalk R.fl s R.ast M = some (i, y) → held k y.2 = none → NoText g) ∧ (res.matched = false → NoText g) := by
  obtain ⟨res', h1, ⟨i', y', h2, h3, _, c, h5, h6⟩ | ⟨h2, h3, c, v, h5, h6⟩⟩ := Walk.method_agrees (s := s) (Walk.denC_root hR ht) M
  · rw [show Flags.ofList R.flags = R.fl from rfl] at h2
    rw [h] at h1; cases h1
    refine ⟨fun i y hy hv => ?_, fun hf => by rw [h3] at hf; cases hf⟩
    rw [hy] at h2; cases h2
    have := h5.2 k g (by simp) (by
      have : res.groups[k]? = some g := hg
      rw [h6, List.getElem?_set_ne (fun e => hk e.symm)] at this
      exact this)
    rw [hv] at this
    exact this.resolve_right (by simp [ho])
  · rw [show Flags.ofList R.flags = R.fl from rfl] at h2
    rw [h] at h1; cases h1
    refine ⟨fun i y hy => (by rw [hy] at h2; cases h2), fun _ => ?_⟩
    have := h5.2 k g (by simp) (by
      have : res.groups[k]? = some g := hg
      rcases h6 with h6 | h6
      · rw [h6] at this; exact this
      · rw [h6, List.getElem?_set_ne (fun e => hk e.symm)] at this
        exact this)
    exact this.resolve_right (by simp [ho])

/-- `(?=(a+))\1b(?>(c|\1))(?!\2)` on `aabc`: an atomic group made of a lookahead and a reference, references in a possessive construct and in a negation. -/
def exWalk : Regex :=
  ⟨.seq [.look .ahead (.cap 1 none (.rep .greedy 1 .inf (.lit (ch 'a')))), .backref 1, .lit (ch 'b'),
    .rep .possessive 1 (.fin 1) (.cap 2 none (.alt [.lit (ch 'c'), .backref 1])), .neg (.look .ahead (.backref 2))], []⟩
example : exWalk.Ok .randomAccess ∧ followable exWalk.ast = true ∧ traceable exWalk.ast = false ∧ noBackref exWalk.ast = false ∧
    visitedOnce 1 exWalk.ast = true ∧ outside 1 exWalk.ast = false ∧
    methodWalk exWalk.fl [ch 'a', ch 'a', ch 'b', ch 'c'] exWalk.ast .search = some (0, 4, [(1, 0, 2), (2, 3, 4)]) ∧
    exWalk.search [ch 'a', ch 'a', ch 'b', ch 'c'] = some ⟨[some (0, 4), some (0, 2), some (3, 4)], true⟩ ∧
    methodWalk exWalk.fl [ch 'a', ch 'a', ch 'b', ch 'c', ch 'c'] exWalk.ast .search = none :=
  ⟨Regex.ok_of_okb (by decide), by decide, by decide, by decide, by decide, by decide, by decide, by decide, by decide⟩

/-- `([ab])c(?<=\1c)(?<!b\1c)(?<=\2(\1c))d` on `acacd`: a lookbehind is matched from its last part to the first, so that group 2 in there is set before it is referred to. -/
def exWalkBehind : Regex :=
  ⟨.seq [.cap 1 none (.set [.lit (ch 'a'), .lit (ch 'b')]), .lit (ch 'c'), .look .behind (.seq [.backref 1, .lit (ch 'c')]),
    .neg (.look .behind (.seq [.lit (ch 'b'), .backref 1, .lit (ch 'c')])), .look .behind (.seq [.backref 2, .cap 2 none (.seq [.backref 1, .lit (ch 'c')])]), .lit (ch 'd')], []⟩
example : exWalkBehind.Ok .bidirectional ∧ followable exWalkBehind.ast = true ∧ traceable exWalkBehind.ast = false ∧ noBackref exWalkBehind.ast = false ∧
    visitedOnce 2 exWalkBehind.ast = true ∧ outside 1 exWalkBehind.ast = true ∧
    methodWalk exWalkBehind.fl [ch 'a', ch 'c', ch 'a', ch 'c', ch 'd'] exWalkBehind.ast .search = some (2, 5, [(1, 2, 3), (2, 2, 4)]) ∧
    exWalkBehind.search [ch 'a', ch 'c', ch 'a', ch 'c', ch 'd'] = some ⟨[some (2, 5), some (2, 3), some (2, 4)], true⟩ ∧
    methodWalk exWalkBehind.fl [ch 'b', ch 'c', ch 'a', ch 'c', ch 'd'] exWalkBehind.ast .search = none :=
  ⟨Regex.ok_of_okb (by decide), by decide, by decide, by decide, by decide, by decide, by decide, by decide, by decide⟩

/-- `(?<=(a)\1)b`: the reference comes before the group, as lookbehinds are matched from the end. -/
example : followable (.seq [.look .behind (.seq [.cap 1 none (.lit (ch 'a')), .backref 1]), .lit (ch 'b')]) = false := by decide

/-- `(x)?(?=(a))\2` on `a`: group 1 is outside and does not take part. -/
def exWalkOut : Regex :=
  ⟨.seq [.rep .greedy 0 (.fin 1) (.cap 1 none (.lit (ch 'x'))), .look .ahead (.cap 2 none (.lit (ch 'a'))), .backref 2], []⟩
example : exWalkOut.Ok .randomAccess ∧ followable exWalkOut.ast = true ∧ outside 1 exWalkOut.ast = true ∧
    methodWalk exWalkOut.fl [ch 'a'] exWalkOut.ast .match = some (0, 1, [(2, 0, 1)]) ∧
    exWalkOut.match [ch 'a'] = some ⟨[some (0, 1), none, some (0, 1)], true⟩ :=
  ⟨Regex.ok_of_okb (by decide), by decide, by decide, by decide, by decide⟩

/-- `(?:(?=(a))b|a)\1`. -/
def exLeftBehind : Regex :=
  ⟨.seq [.alt [.seq [.look .ahead (.cap 1 none (.lit (ch 'a'))), .lit (ch 'b')], .lit (ch 'a')], .backref 1], []⟩

/-- A reference to a group in a lookahead that did not take part reads what an abandoned attempt has left: `(?:(?=(a))b|a)\1` does not match `a`, although group 1 takes no part
in the only walk, and matches `aa`. -/
theorem C11_stale_reference : exLeftBehind.Ok .randomAccess ∧ followable exLeftBehind.ast = false ∧
    methodWalk exLeftBehind.fl [ch 'a'] exLeftBehind.ast .match = some (0, 1, []) ∧ (exLeftBehind.match [ch 'a']).map (·.matched) = some false ∧
    methodWalk exLeftBehind.fl [ch 'a', ch 'a'] exLeftBehind.ast .match = none ∧ (exLeftBehind.match [ch 'a', ch 'a']).map (·.matched) = some true :=
  ⟨Regex.ok_of_okb (by decide), by decide, by decide, by decide, by decide, by decide⟩

/-! ## C05, C31 -/

/-- The end of the first walk from a position. -/
def firstWalk (f : Flags) (s : List Byte) (a : Ast) (p : Nat) : Option Nat := (walks f s a 0 false (p, [])).head?.map (·.1)

theorem searchWalk_some {f : Flags} {s : List Byte} {a : Ast} {cur i : Nat} {y : Place} (h : Walk.searchWalk f s a cur = some (i, y)) :
    cur ≤ i ∧ i ≤ s.length ∧ firstWalk f s a i = some y.1 ∧ ∀ j, cur ≤ j → j < i → firstWalk f s a j = none := by
  unfold Walk.searchWalk at h
  generalize hn : s.length + 1 - cur = n at h
  induction n generalizing cur with
  | zero => simp at h
  | succ n ih =>
    rw [List.range'_succ, List.findSome?_cons] at h
    cases e : (walks f s a 0 false (cur, [])).head? with
    | some z =>
      simp only [e, Option.map_some, Option.some.injEq, Prod.mk.injEq] at h
      obtain ⟨rfl, rfl⟩ := h
      exact ⟨Nat.le_refl _, by omega, by simp [firstWalk, e], fun j h1 h2 => by omega⟩
    | none =>
      simp only [e, Option.map_none] at h
      obtain ⟨h1, h2, h3, h4⟩ := ih (by omega) h
      refine ⟨by omega, h2, h3, fun j h5 h6 => ?_⟩
      rcases Nat.eq_or_lt_of_le h5 with rfl | h5
      · simp [firstWalk, e]
      · exact h4 j h5 h6

theorem searchWalk_none {f : Flags} {s : List Byte} {a : Ast} {cur : Nat} (h : Walk.searchWalk f s a cur = none) :
    ∀ j, cur ≤ j → j ≤ s.length → firstWalk f s a j = none := by
  intro j h1 h2
  have := List.findSome?_eq_none_iff.1 h j (by rw [List.mem_range'_1]; omega)
  simpa [firstWalk] using this

theorem searchView_walks {R : Regex} {cat : Cat} {s : List Byte} (hR : R.Ok cat) (ht : followable R.ast = true) :
    SearchView R cat s (firstWalk R.fl s R.ast) := by
  intro cur hc
  rcases (Walk.search_walks (s := s) (Walk.denC_root hR ht) _ cur _ hc rfl Walk.agrees_init).elim with ⟨q, c, h1, i, y, c', h2, rfl, h3, rfl⟩ | ⟨q, c, h1, rfl, h2, h3⟩
  · obtain ⟨g1, g2, g3, g4⟩ := searchWalk_some h2
    refine ⟨_, _, h1, fun _ => ⟨i, g1, g2, ?_, g3, g4⟩, fun h => by cases h⟩
    have : c'.length = R.names.length := h3.1
    rw [List.getElem?_set_self (by rw [this]; simp [Regex.names])]
  · exact ⟨_, _, h1, fun h => (by cases h), fun _ => searchWalk_none h2⟩

/-- An attempt with captures that hold no text outside of the lookarounds and possessive constructs, and anything inside. -/
theorem attempt_walks {R : Regex} {cat : Cat} {s : List Byte} (hR : R.Ok cat) (ht : followable R.ast = true) {i : Nat} (hi : i ≤ s.length) {c : Ctx}
    (hc : c.length = R.names.length) (hn : ∀ k g, outside k R.ast = true → c[k]? = some g → NoText g) :
    match firstWalk R.fl s R.ast i with
    | some j => ∃ c', Method.matchPrefix.invoke (R.env cat s) (fuelFor R.ast s) R.ast i c = .ok ⟨j, true⟩ c'
    | none => ∃ q c', Method.matchPrefix.invoke (R.env cat s) (fuelFor R.ast s) R.ast i c = .ok ⟨q, false⟩ c' := by
  have ha : Walk.Agrees (R.env cat s) (Again R.ast) (Walk.Within R.ast) [] [] c := by
    refine ⟨hc, fun k g _ hg => ?_⟩
    simp only [held]
    cases ho : outside k R.ast with
    | true => exact .inl (hn k g ho hg)
    | false => exact .inr ho
  unfold firstWalk
  rcases (Walk.prefix_walks (s := s) (Walk.denC_root hR ht) hi ha).elim with ⟨q, c', h1, y, h2, rfl, _⟩ | ⟨q, c', h1, h2, _⟩
  · rw [show (walks R.fl s R.ast 0 false (i, [])).head? = some y from h2]
    simp only [Option.map_some, Method.invoke, prefixMethod, h1, setGroup0]
    exact ⟨_, rfl⟩
  · rw [show (walks R.fl s R.ast 0 false (i, [])).head? = none from h2]
    simp only [Option.map_none, Method.invoke, prefixMethod, h1, setGroup0]
    exact ⟨_, _, rfl⟩

/-- **C05, partial**, for regexes that are `followable`: groups in lookarounds and possessive constructs may be referred to after they surely took part, as in
`(?=(a+))\1b` (missing: other references to such groups, for which it is false).  If `search` reports `[i,j)`, a fresh attempt at `i` ends at
`j`, and fresh attempts at all earlier positions fail.  If `search` fails, fresh attempts fail everywhere. -/
theorem C05_walks_partial (R : Regex) (cat : Cat) (hR : R.Ok cat) (ht : followable R.ast = true) (s : List Byte) (res : Result) (h : R.search s cat = some res) :
    (res.matched = true → ∃ i j, res.group 0 = some (some (i, j)) ∧ i ≤ s.length ∧
      (∃ c', Method.matchPrefix.invoke (R.env cat s) (fuelFor R.ast s) R.ast i (initCtx R.names) = .ok ⟨j, true⟩ c') ∧
      ∀ k, k < i → ∃ q c', Method.matchPrefix.invoke (R.env cat s) (fuelFor R.ast s) R.ast k (initCtx R.names) = .ok ⟨q, false⟩ c') ∧
    (res.matched = false → ∀ k, k ≤ s.length →
      ∃ q c', Method.matchPrefix.invoke (R.env cat s) (fuelFor R.ast s) R.ast k (initCtx R.names) = .ok ⟨q, false⟩ c') := by
  have hat : ∀ {i}, i ≤ s.length → _ := fun {i} (hi : i ≤ s.length) => attempt_walks hR ht hi (length_init R.names)
    (fun k g _ hg => by rw [getElem?_init hg]; trivial)
  obtain ⟨r, c, h1, h2, h3⟩ := searchView_walks (s := s) hR ht 0 (Nat.zero_le _)
  simp only [Regex.search, Regex.invoke, h1, Option.some.injEq] at h
  subst h
  refine ⟨fun hm => ?_, fun hm k hk => ?_⟩
  · obtain ⟨i, _, k2, k3, k4, k5⟩ := h2 hm
    refine ⟨i, r.pos, k3, k2, ?_, fun k hk => ?_⟩
    · have := hat k2
      rw [k4] at this
      exact this
    · have := hat (i := k) (by omega)
      rw [k5 k (Nat.zero_le _) hk] at this
      exact this
  · have := hat hk
    rw [h3 hm k (Nat.zero_le _) hk] at this
    exact this

/-- An attempt does not notice what earlier attempts have left in groups inside of lookarounds and possessive constructs. -/
theorem C05_leftovers_partial (R : Regex) (cat : Cat) (hR : R.Ok cat) (ht : followable R.ast = true) (s : List Byte) (i : Nat) (hi : i ≤ s.length)
    (c : Ctx) (hc : c.length = R.names.length) (hn : ∀ k g, outside k R.ast = true → c[k]? = some g → NoText g) :
    ∃ m q c' c'', Method.matchPrefix.invoke (R.env cat s) (fuelFor R.ast s) R.ast i c = .ok ⟨q, m⟩ c' ∧
      ∃ q', Method.matchPrefix.invoke (R.env cat s) (fuelFor R.ast s) R.ast i (initCtx R.names) = .ok ⟨q', m⟩ c'' ∧ (m = true → q = q') := by
  have h1 := attempt_walks hR ht hi hc hn
  have h2 := attempt_walks (cat := cat) hR ht hi (length_init R.names) (fun k g _ hg => by rw [getElem?_init hg]; trivial)
  cases e : firstWalk R.fl s R.ast i with
  | some j =>
    rw [e] at h1 h2
    obtain ⟨c', h1⟩ := h1
    obtain ⟨c'', h2⟩ := h2
    exact ⟨true, j, c', c'', h1, j, h2, fun _ => rfl⟩
  | none =>
    rw [e] at h1 h2
    obtain ⟨q, c', h1⟩ := h1
    obtain ⟨q', c'', h2⟩ := h2
    exact ⟨false, q, c', c'', h1, q', h2, fun h => (by cases h)⟩

/-- **C31, partial**, for regexes that are `followable` (missing: the search goes on after an empty match, which is false). -/
theorem C31_walks_partial (R : Regex) (cat : Cat) (hR : R.Ok cat) (ht : followable R.ast = true) (s : List Byte) (k : Nat) (hk : s.length + 2 ≤ k) :
    ∃ rs ranges, rangeElements R findAllMethod cat s k = some (rs, true) ∧ rs.map (·.group 0) = ranges.map (fun x => some (some x)) ∧
      Finds s.length (firstWalk R.fl s R.ast) 0 ranges :=
  finds_of_view hR (searchView_walks hR ht) k hk

/-- `(?=(a+))\1b` in `aacab`: the attempts at `aac` leave text in group 1. -/
def exAheadRef : Regex := ⟨.seq [.look .ahead (.cap 1 none (.rep .greedy 1 .inf (.lit (ch 'a')))), .backref 1, .lit (ch 'b')], []⟩
example : exAheadRef.Ok .randomAccess ∧ followable exAheadRef.ast = true ∧ traceable exAheadRef.ast = false ∧
    exAheadRef.search [ch 'a', ch 'a', ch 'c', ch 'a', ch 'b'] = some ⟨[some (3, 5), some (3, 4)], true⟩ ∧
    rangeElements exAheadRef .search .randomAccess [ch 'a', ch 'b', ch 'a', ch 'c', ch 'a', ch 'b'] 8 =
      some ([⟨[some (0, 2), some (0, 1)], true⟩, ⟨[some (4, 6), some (4, 5)], true⟩], true) :=
  ⟨Regex.ok_of_okb (by decide), by decide, by decide, by decide, by decide⟩

end Mregex
