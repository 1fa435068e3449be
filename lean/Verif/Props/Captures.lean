import Verif.Proof.GroupText
import Verif.Proof.Forget
import Verif.Proof.Kept
import Verif.Props.Flags
import Verif.Props.Generators

/-!
# C10 - C12, C27, C28, C53: captured groups and references to them
-/

namespace Mregex
open Ast Spec

/-! ## C10 -/

/-- `(?<=(a(?=cb)bc))`: a group inside of a lookbehind that contains a lookahead. -/
def exInner : Regex :=
  ⟨.look .behind (.cap 1 none (.seq [.lit (ch 'a'), .look .ahead (.seq [.lit (ch 'c'), .lit (ch 'b')]), .lit (ch 'b'), .lit (ch 'c')])), []⟩

/-- **C10** fails: the group of `(?<=(a(?=cb)bc))` captures the text `abc`, which `a(?=cb)bc` cannot match. -/
theorem C10_false : ∃ (R : Regex) (s : List Byte) (res : Result) (b e : Nat), R.Ok .randomAccess ∧ noBackref R.ast = true ∧
    noPossessive R.ast = true ∧ R.search s = some res ∧ res.matched = true ∧ res.group 1 = some (some (b, e)) ∧ b < e ∧
    ∀ body, GroupBody R.ast 1 body → ¬ Matches R.fl s body b e := by
  refine ⟨exInner, [ch 'a', ch 'b', ch 'c'], ⟨[some (3, 3), some (0, 3)], true⟩, 0, 3, Regex.ok_of_okb (by decide), by decide, by decide,
    by decide, rfl, rfl, by decide, fun body hb => ?_⟩
  cases hb with | look hb => ?_
  cases hb with
  | here =>
    simp only [Matches, MatchesAll]
    rintro ⟨t, ⟨rfl, _⟩, t', ⟨rfl, t'', _, t3, ⟨rfl, x, hx, hc⟩, _⟩, _⟩
    simp only [List.getElem?_cons_succ, List.getElem?_cons_zero, Option.some.injEq] at hx
    subst hx
    revert hc
    simp only [CharEq]
    decide
  | cap hb =>
    cases hb with | seq hm hb => ?_
    simp only [List.mem_cons, List.not_mem_nil, or_false] at hm
    rcases hm with rfl | rfl | rfl | rfl
    · cases hb
    · cases hb with | look hb => ?_
      cases hb with | seq hm hb => ?_
      simp only [List.mem_cons, List.not_mem_nil, or_false] at hm
      rcases hm with rfl | rfl <;> cases hb
    · cases hb
    · cases hb

/-- **C10**, partial: every group with text holds a range of the input that the sub-expression of a group with this number matches there.
Missing: lookbehinds whose bodies are mirrored incorrectly (`behindOk`), see `C10_false`. -/
theorem C10_captured_text_partial (R : Regex) (cat : Cat) (hR : R.Ok cat) (hd : declarative R.ast = true) (s : List Byte) (M : Method)
    (res : Result) (h : R.invoke M cat s = some res) (k b e : Nat) (hk : k ≠ 0) (hg : res.group k = some (some (b, e))) (hbe : b < e) :
    ∃ body, GroupBody R.ast k body ∧ Matches R.fl s body b e := by
  have hd' := declarative_iff.1 hd
  have hst := capStable_justified (hR s) hd
  have hinit : Justified R.fl s R.ast R.names.length (initCtx R.names) :=
    ⟨length_init _, fun k b e hk => by cases getElem?_init hk⟩
  have hset : ∀ {c : Ctx} {v : Cap}, Justified R.fl s R.ast R.names.length c → (c.set 0 v)[k]? = some (some (b, e)) →
      ∃ body, GroupBody R.ast k body ∧ Matches R.fl s body b e := by
    intro c v hc hg
    rw [List.getElem?_set_ne (Ne.symm hk)] at hg
    exact hc.2 k b e hg hbe
  unfold Result.group at hg
  cases M with
  | «match» =>
    obtain ⟨q, c, h1, h2⟩ := Regex.match_eq h
    have hv := Regex.match_view (I := Justified R.fl s R.ast R.names.length) (fun c hc => hc.1) hR hd'.1 hst (Nat.zero_le _) hinit
    rw [h1] at hv
    rw [h2] at hg
    cases hm : res.matched <;> rw [hm] at hv
    · exact hset hv.of_false.2 hg
    · exact hset hv.of_true.2 hg
  | matchPrefix =>
    obtain ⟨q, c, h1, h2⟩ := Regex.matchPrefix_eq h
    have hv := Regex.prefix_view (I := Justified R.fl s R.ast R.names.length) (fun c hc => hc.1) hR hd'.1 hst (Nat.zero_le _) hinit
    rw [h1] at hv
    rw [h2] at hg
    cases hm : res.matched <;> rw [hm] at hv
    · exact hset hv.of_false.2 hg
    · exact hset hv.of_true.2 hg
  | search =>
    obtain ⟨q, h1⟩ := Regex.search_eq h
    have hv := Regex.search_view (I := Justified R.fl s R.ast R.names.length) (fun c hc => hc.1) hR hd'.1 hst (Nat.zero_le _) hinit
    rw [Nat.sub_zero, h1] at hv
    cases hm : res.matched <;> rw [hm] at hv
    · exact hv.of_false.2.2.2 k b e hg hbe
    · obtain ⟨i, c, _, hc, h2⟩ := hv.of_true
      rw [h2] at hg
      exact hset hc hg

/-- The group of `exLang` on `xabcde` holds `ab`. -/
example : exLang.Ok .randomAccess ∧ declarative exLang.ast = true ∧
    ∃ res, exLang.search [ch 'x', ch 'a', ch 'b', ch 'c', ch 'd', ch 'e'] = some res ∧ res.group 1 = some (some (1, 2)) :=
  ⟨exLang_ok, exLang_decl, ⟨[some (1, 5), some (1, 2)], true⟩, by decide, rfl⟩

/-! ## C53 -/

/-- `(a|ab)(c|bcd)(d*?)\2?x`: choices, a lazy quantifier and a reference. -/
def exTrace : Regex :=
  ⟨.seq [.cap 1 none (.alt [.lit (ch 'a'), .seq [.lit (ch 'a'), .lit (ch 'b')]]),
    .cap 2 none (.alt [.lit (ch 'c'), .seq [.lit (ch 'b'), .lit (ch 'c'), .lit (ch 'd')]]),
    .cap 3 none (.rep .lazy 0 .inf (.lit (ch 'd'))), .backref 2, .lit (ch 'x')], []⟩

theorem exTrace_ok : exTrace.Ok .randomAccess := Regex.ok_of_okb (by decide)
theorem exTrace_trace : traceable exTrace.ast = true := by decide

/-- **C53**: for regexes with references and nested choices, every method succeeds iff there is a path, and then reports the start and the end
of the first one in the order of preference. -/
theorem C53_first_path (R : Regex) (cat : Cat) (hR : R.Ok cat) (ht : traceable R.ast = true) (s : List Byte) (M : Method) :
    ∃ res, R.invoke M cat s = some res ∧ (res.matched = true ↔ (methodPath R.fl s R.ast M).isSome = true) ∧
      ∀ i y, methodPath R.fl s R.ast M = some (i, y) → res.group 0 = some (some (i, y.1)) := by
  obtain ⟨res, h1, ⟨i, y, h2, h3, h4, h5⟩ | ⟨h2, h3, h4⟩⟩ := method_paths (s := s) hR ht M
  · rw [show Flags.ofList R.flags = R.fl from rfl] at h2
    refine ⟨res, h1, by simp [h2, h3], fun i' y' h => ?_⟩
    rw [h2] at h
    cases h
    exact h4
  · rw [show Flags.ofList R.flags = R.fl from rfl] at h2
    refine ⟨res, h1, by simp [h2, h3], fun i' y' h => ?_⟩
    rw [h2] at h
    cases h

/-- On `abccx` the first branch of the first group has to be abandoned; the reference then finds the second `c`. -/
example : exTrace.Ok .randomAccess ∧ traceable exTrace.ast = true ∧
    methodPath exTrace.fl [ch 'a', ch 'b', ch 'c', ch 'c', ch 'x'] exTrace.ast .match = some (0, 5, [(1, 0, 2), (2, 2, 3), (3, 3, 3)]) ∧
    exTrace.match [ch 'a', ch 'b', ch 'c', ch 'c', ch 'x'] = some ⟨[some (0, 5), some (0, 2), some (2, 3), some (3, 3)], true⟩ :=
  ⟨exTrace_ok, exTrace_trace, by decide, by decide⟩

/-- **C53** fails beyond this fragment: `(?:(a)(?:|ax)\1)*b` matches `aaxb` although no path leads there: the group is cleared by an abandoned iteration
and then refers to the empty text. -/
def exLost : Regex :=
  ⟨.seq [star (.seq [.cap 1 none (.lit (ch 'a')), .alt [.empty, .seq [.lit (ch 'a'), .lit (ch 'x')]], .backref 1]), .lit (ch 'b')], []⟩

theorem C53_beyond : ∃ (R : Regex) (s : List Byte) (res : Result), R.Ok .randomAccess ∧ commitsClosed R.ast = true ∧
    refsTo (fun _ => true) [] R.ast = true ∧ R.match s = some res ∧ res.matched = true ∧ methodPath R.fl s R.ast .match = none :=
  ⟨exLost, [ch 'a', ch 'a', ch 'x', ch 'b'], ⟨[some (0, 4), some (0, 0)], true⟩, Regex.ok_of_okb (by decide), by decide, by decide,
    by decide, rfl, by decide⟩

/-! ## C05 and C31 with references -/

/-- Where the first path from `i` ends. -/
def firstEnd (f : Flags) (s : List Byte) (a : Ast) (i : Nat) : Option Nat := (paths f s a (i, [])).head?.map Prod.fst

theorem searchPath_some {f : Flags} {s : List Byte} {a : Ast} {cur i : Nat} {y : Place} (h : searchPath f s a cur = some (i, y)) :
    cur ≤ i ∧ i ≤ s.length ∧ firstEnd f s a i = some y.1 ∧ ∀ j, cur ≤ j → j < i → firstEnd f s a j = none := by
  unfold searchPath at h
  generalize hn : s.length + 1 - cur = n at h
  induction n generalizing cur with
  | zero => simp at h
  | succ n ih =>
    rw [List.range'_succ, List.findSome?_cons] at h
    cases e : (paths f s a (cur, [])).head? with
    | some z =>
      simp only [e, Option.map_some, Option.some.injEq, Prod.mk.injEq] at h
      obtain ⟨rfl, rfl⟩ := h
      exact ⟨Nat.le_refl _, by omega, by simp [firstEnd, e], fun j h1 h2 => by omega⟩
    | none =>
      simp only [e, Option.map_none] at h
      obtain ⟨h1, h2, h3, h4⟩ := ih (by omega) h
      refine ⟨by omega, h2, h3, fun j h5 h6 => ?_⟩
      rcases Nat.eq_or_lt_of_le h5 with rfl | h5
      · simp [firstEnd, e]
      · exact h4 j h5 h6

theorem searchPath_none {f : Flags} {s : List Byte} {a : Ast} {cur : Nat} (h : searchPath f s a cur = none) :
    ∀ j, cur ≤ j → j ≤ s.length → firstEnd f s a j = none := by
  intro j h1 h2
  have := List.findSome?_eq_none_iff.1 h j (by rw [List.mem_range'_1]; omega)
  simpa [firstEnd] using this

theorem searchView_paths {R : Regex} {cat : Cat} {s : List Byte} (hR : R.Ok cat) (ht : traceable R.ast = true) :
    SearchView R cat s (firstEnd R.fl s R.ast) := by
  intro cur hc
  rcases (search_paths (s := s) (denC_root hR ht) _ cur _ hc rfl agrees_init).elim with ⟨q, c, h1, i, y, c', h2, rfl, h3, rfl⟩ | ⟨q, c, h1, rfl, h2, h3⟩
  · obtain ⟨g1, g2, g3, g4⟩ := searchPath_some h2
    refine ⟨_, _, h1, fun _ => ⟨i, g1, g2, ?_, g3, g4⟩, fun h => by cases h⟩
    have : c'.length = R.names.length := h3.1
    rw [List.getElem?_set_self (by rw [this]; simp [Regex.names])]
  · exact ⟨_, _, h1, fun h => (by cases h), fun _ => searchPath_none h2⟩

/-- An attempt with captures that hold no text. -/
theorem attempt_paths {R : Regex} {cat : Cat} {s : List Byte} (hR : R.Ok cat) (ht : traceable R.ast = true) {i : Nat} (hi : i ≤ s.length) {c : Ctx}
    (hc : c.length = R.names.length) (hn : NoGroups c) (h0 : ∀ g, c[0]? = some g → NoText g) :
    match firstEnd R.fl s R.ast i with
    | some j => ∃ c', Method.matchPrefix.invoke (R.env cat s) (fuelFor R.ast s) R.ast i c = .ok ⟨j, true⟩ c'
    | none => ∃ q c', Method.matchPrefix.invoke (R.env cat s) (fuelFor R.ast s) R.ast i c = .ok ⟨q, false⟩ c' := by
  have ha : Agrees (R.env cat s) (Again R.ast) [] [] c := by
    refine ⟨hc, fun k g _ hg => ?_⟩
    simp only [held]
    by_cases hk : k = 0
    · subst hk; exact h0 g hg
    · exact hn k g hk hg
  unfold firstEnd
  rcases (prefix_paths (s := s) (denC_root hR ht) hi ha).elim with ⟨q, c', h1, y, h2, rfl, _⟩ | ⟨q, c', h1, h2, _⟩
  · rw [show (paths R.fl s R.ast (i, [])).head? = some y from h2]
    simp only [Option.map_some, Method.invoke, prefixMethod, h1, setGroup0]
    exact ⟨_, rfl⟩
  · rw [show (paths R.fl s R.ast (i, [])).head? = none from h2]
    simp only [Option.map_none, Method.invoke, prefixMethod, h1, setGroup0]
    exact ⟨_, _, rfl⟩

/-- **C05, partial**, with references (missing: regexes with groups or references in lookarounds and possessive constructs, or with references to groups that may be
tried again, for which it is false).  If `search` reports `[i,j)`, a fresh attempt at `i` ends at `j`, and fresh attempts at all earlier positions fail.  If `search`
fails, fresh attempts fail everywhere. -/
theorem C05_references_partial (R : Regex) (cat : Cat) (hR : R.Ok cat) (ht : traceable R.ast = true) (s : List Byte) (res : Result) (h : R.search s cat = some res) :
    (res.matched = true → ∃ i j, res.group 0 = some (some (i, j)) ∧ i ≤ s.length ∧
      (∃ c', Method.matchPrefix.invoke (R.env cat s) (fuelFor R.ast s) R.ast i (initCtx R.names) = .ok ⟨j, true⟩ c') ∧
      ∀ k, k < i → ∃ q c', Method.matchPrefix.invoke (R.env cat s) (fuelFor R.ast s) R.ast k (initCtx R.names) = .ok ⟨q, false⟩ c') ∧
    (res.matched = false → ∀ k, k ≤ s.length →
      ∃ q c', Method.matchPrefix.invoke (R.env cat s) (fuelFor R.ast s) R.ast k (initCtx R.names) = .ok ⟨q, false⟩ c') := by
  have hat : ∀ {i}, i ≤ s.length → _ := fun {i} (hi : i ≤ s.length) => attempt_paths hR ht hi (length_init R.names)
    (fun k g _ hg => by rw [getElem?_init hg]; trivial) (fun g hg => by rw [getElem?_init hg]; trivial)
  obtain ⟨r, c, h1, h2, h3⟩ := searchView_paths (s := s) hR ht 0 (Nat.zero_le _)
  simp only [Regex.search, Regex.invoke, h1, Option.some.injEq] at h
  subst h
  refine ⟨fun hm => ?_, fun hm k hk => ?_⟩
  · obtain ⟨i, _, k2, k3, k4, k5⟩ := h2 hm
    refine ⟨i, r.pos, k3, k2, ?_, fun k hk => ?_⟩
    · have := hat k2
      rw [k4] at this
      exact this
    · have := hat (i := k) (by omega)
      rw [k5 k (Nat.zero_le _) hk] at this
      exact this
  · have := hat hk
    rw [h3 hm k (Nat.zero_le _) hk] at this
    exact this

/-- **C31, partial**, with references (missing: the search goes on after an empty match, which is false). -/
theorem C31_references_partial (R : Regex) (cat : Cat) (hR : R.Ok cat) (ht : traceable R.ast = true) (s : List Byte) (k : Nat) (hk : s.length + 2 ≤ k) :
    ∃ rs ranges, rangeElements R findAllMethod cat s k = some (rs, true) ∧ rs.map (·.group 0) = ranges.map (fun x => some (some x)) ∧
      Finds s.length (firstEnd R.fl s R.ast) 0 ranges :=
  finds_of_view hR (searchView_paths hR ht) k hk

/-- `(a|b)\1` in `abbaa`: two results. -/
def exDouble : Regex := ⟨.seq [.cap 1 none (.alt [.lit (ch 'a'), .lit (ch 'b')]), .backref 1], []⟩
example : exDouble.Ok .randomAccess ∧ traceable exDouble.ast = true ∧
    rangeElements exDouble .search .randomAccess [ch 'a', ch 'b', ch 'b', ch 'a', ch 'a'] 7 =
      some ([⟨[some (1, 3), some (1, 2)], true⟩, ⟨[some (3, 5), some (3, 4)], true⟩], true) :=
  ⟨Regex.ok_of_okb (by decide), by decide, by decide⟩

/-! ## C11 -/

/-- **C11** fails: the group of `(a)*` is empty after matching `aa`, although it took part twice. -/
theorem C11_false : ∃ (R : Regex) (s : List Byte) (res : Result), R.Ok .randomAccess ∧ traceable R.ast = true ∧ R.match s = some res ∧
    res.matched = true ∧ methodPath R.fl s R.ast .match = some (0, 2, [(1, 0, 1), (1, 1, 2)]) ∧ ∃ b, res.group 1 = some (some (b, b)) :=
  ⟨⟨star (.cap 1 none (.lit (ch 'a'))), []⟩, [ch 'a', ch 'a'], ⟨[some (0, 2), some (1, 1)], true⟩, Regex.ok_of_okb (by decide), by decide,
    by decide, rfl, by decide, 1, rfl⟩

/-- **C11** fails for every group that is the body of an unbounded greedy iteration, and for every group that such a body begins with: whatever the regex and the
text, after a match the group holds no text.  (The iteration ends with an attempt of the group that fails and clears it.) -/
theorem C11_iterations_forget (R : Regex) (cat : Cat) (hR : R.Ok cat) (s : List Byte) (M : Method) (res : Result) (h : R.invoke M cat s = some res)
    (hm : res.matched = true) (k : Nat) (h0 : k ≠ 0) (hk : forgets R.fl.ungreedy k R.ast = true) (g : Cap) (hg : res.group k = some g) : NoText g :=
  method_lost hR hk h0 h hm hg

/-- `x(?:(a)b|(c))*y` on `xabcaby`; both groups have the number 1. -/
def exForget : Regex :=
  ⟨.seq [.lit (ch 'x'), star (.alt [.seq [.cap 1 none (.lit (ch 'a')), .lit (ch 'b')], .cap 1 none (.lit (ch 'c'))]), .lit (ch 'y')], []⟩
example : exForget.Ok .randomAccess ∧ forgets exForget.fl.ungreedy 1 exForget.ast = true ∧
    exForget.match [ch 'x', ch 'a', ch 'b', ch 'c', ch 'a', ch 'b', ch 'y'] = some ⟨[some (0, 7), some (4, 4), none], true⟩ :=
  ⟨Regex.ok_of_okb (by decide), by decide, by decide⟩

/-- **C11**, partial: a group that takes part in the path of the match, and cannot be tried again on the way, holds exactly the range of its participation;
a group that can be tried again holds the range of its last participation or has lost its text.
Missing: that groups inside of iterated parts keep their text (false, `C11_false`); groups inside of lookarounds and possessive constructs are in `C11_trails_partial`. -/
theorem C11_last_participation_partial (R : Regex) (cat : Cat) (hR : R.Ok cat) (ht : traceable R.ast = true) (s : List Byte) (M : Method)
    (res : Result) (h : R.invoke M cat s = some res) (i : Nat) (y : Place) (hy : methodPath R.fl s R.ast M = some (i, y))
    (k : Nat) (hk : k ≠ 0) (v : Nat × Nat) (hv : held k y.2 = some v) (g : Cap) (hg : res.group k = some g) :
    (visitedOnce k R.ast = true → g = some v) ∧ (g = some v ∨ NoText g) := by
  obtain ⟨res', h1, ⟨i', y', h2, h3, h4, h5⟩ | ⟨h2, _⟩⟩ := method_paths (s := s) hR ht M
  · rw [h1] at h; cases h
    rw [show Flags.ofList R.flags = R.fl from rfl, hy] at h2
    cases h2
    have := h5 k g hk hg
    rw [hv] at this
    rcases this with h | ⟨h, h'⟩
    · exact ⟨fun _ => h, .inl h⟩
    · exact ⟨fun e => (by rw [e] at h; cases h), .inr h'⟩
  · rw [show Flags.ofList R.flags = R.fl from rfl, hy] at h2
    cases h2

/-- In the example above the second group takes part with the range from 2 to 3. -/
example : exTrace.Ok .randomAccess ∧ traceable exTrace.ast = true ∧ visitedOnce 2 exTrace.ast = true ∧
    held 2 [(1, 0, 2), (2, 2, 3), (3, 3, 3)] = some (2, 3) := ⟨exTrace_ok, exTrace_trace, by decide, by decide⟩

/-- **C11**, partial: groups in iterated parts that hold exactly the range of their last participation.  `keeps` covers groups in a fixed number of rounds, `((a)|(b)){3}`,
and in lazy iterations, `(?:(a)b)*?`.
Missing: iterations that prefer more rounds (false for all of them that begin with the group, `C11_iterations_forget`), and lazy ones that can be left in several ways
after the group has taken part (false, `C11_lazy_false`). -/
theorem C11_keeps_partial (R : Regex) (cat : Cat) (hR : R.Ok cat) (ht : traceable R.ast = true) (s : List Byte) (M : Method)
    (res : Result) (h : R.invoke M cat s = some res) (i : Nat) (y : Place) (hy : methodPath R.fl s R.ast M = some (i, y))
    (k : Nat) (h0 : k ≠ 0) (hk : keeps R.fl.ungreedy k R.ast = true) (v : Nat × Nat) (hv : held k y.2 = some v) : ∀ g, res.group k = some g → g = some v := by
  intro g hg
  obtain ⟨res', h1, ⟨i', y', h2, _, c, h3, h4⟩ | ⟨h2, _⟩⟩ := method_keeps (s := s) hR ht hk M
  · rw [h1] at h; cases h
    rw [show Flags.ofList R.flags = R.fl from rfl, hy] at h2
    cases h2
    rw [Result.group, h4, List.getElem?_set, if_neg (Ne.symm h0)] at hg
    have := h3.2 k g (by simp) hg
    rw [hv] at this
    exact this.resolve_right (fun h => h.1.2 rfl)
  · rw [show Flags.ofList R.flags = R.fl from rfl, hy] at h2
    cases h2

/-- `(?:(a)|(?:(b)c){1,2}?){2}(c)*?d` on `abcccd`.  Both groups of the alternation have the number 1. -/
def exKeeps : Regex :=
  ⟨.seq [.rep .greedy 2 (.fin 2) (.alt [.cap 1 none (.lit (ch 'a')), .rep .lazy 1 (.fin 2) (.seq [.cap 1 none (.lit (ch 'b')), .lit (ch 'c')])]),
    .rep .lazy 0 .inf (.cap 2 none (.lit (ch 'c'))), .lit (ch 'd')], []⟩
example : exKeeps.Ok .randomAccess ∧ traceable exKeeps.ast = true ∧ keeps exKeeps.fl.ungreedy 1 exKeeps.ast = true ∧ keeps exKeeps.fl.ungreedy 2 exKeeps.ast = true ∧
    visitedOnce 1 exKeeps.ast = false ∧ visitedOnce 2 exKeeps.ast = false ∧
    methodPath exKeeps.fl [ch 'a', ch 'b', ch 'c', ch 'c', ch 'c', ch 'd'] exKeeps.ast .match = some (0, 6, [(1, 0, 1), (1, 1, 2), (2, 3, 4), (2, 4, 5)]) ∧
    exKeeps.match [ch 'a', ch 'b', ch 'c', ch 'c', ch 'c', ch 'd'] = some ⟨[some (0, 6), some (1, 2), some (4, 5), none], true⟩ :=
  ⟨Regex.ok_of_okb (by decide), by decide, by decide, by decide, by decide, by decide, by decide, by decide⟩

/-- Lazy iterations may lose a group, too: `(?:(a)(?:x|xy))*?z` on `axyz`.  After `ax` another round is tried, which clears the group; then `axy` is taken. -/
theorem C11_lazy_false : ∃ (R : Regex) (s : List Byte) (res : Result), R.Ok .randomAccess ∧ traceable R.ast = true ∧ R.match s = some res ∧
    res.matched = true ∧ methodPath R.fl s R.ast .match = some (0, 4, [(1, 0, 1)]) ∧ ∃ b, res.group 1 = some (some (b, b)) :=
  ⟨⟨.seq [.rep .lazy 0 .inf (.seq [.cap 1 none (.lit (ch 'a')), .alt [.lit (ch 'x'), .seq [.lit (ch 'x'), .lit (ch 'y')]]]), .lit (ch 'z')], []⟩,
    [ch 'a', ch 'x', ch 'y', ch 'z'], ⟨[some (0, 4), some (0, 0)], true⟩, Regex.ok_of_okb (by decide), by decide,
    by decide, rfl, by decide, 0, rfl⟩

/-! ## C12 -/

/-- `(?>(a))b|ac`. -/
def exStale : Regex :=
  ⟨.alt [.seq [.rep .possessive 1 (.fin 1) (.cap 1 none (.lit (ch 'a'))), .lit (ch 'b')], .seq [.lit (ch 'a'), .lit (ch 'c')]], []⟩

/-- **C12** fails: `(?>(a))b|ac` matches `ac` by its second branch, and the group of the first branch holds `a`. -/
theorem C12_false : ∃ (R : Regex) (s : List Byte) (res : Result), R.Ok .randomAccess ∧ R.match s = some res ∧ res.matched = true ∧
    (∃ A B, R.ast = .alt [A, B] ∧ 1 ∉ groupIds B ∧ ∀ j, ¬ Matches R.fl s A 0 j) ∧ res.group 1 = some (some (0, 1)) := by
  refine ⟨exStale, [ch 'a', ch 'c'], ⟨[some (0, 2), some (0, 1)], true⟩, Regex.ok_of_okb (by decide), by decide, rfl,
    ⟨_, _, rfl, by decide, fun j => ?_⟩, rfl⟩
  simp only [Matches, MatchesAll]
  rintro ⟨t, ⟨k, h1, h2, h3⟩, t', ⟨rfl, x, hx, hc⟩, _⟩
  obtain rfl : k = 1 := Nat.le_antisymm h2 h1
  obtain ⟨_, ⟨rfl, _⟩, rfl⟩ := h3
  simp only [List.getElem?_cons_succ, List.getElem?_cons_zero, Option.some.injEq] at hx
  subst hx
  revert hc
  simp only [CharEq]
  decide

/-- **C12** fails: after the failure of `a(?=(\w))x` on `abc` the group still holds `b`. -/
theorem C12_failure_false : ∃ (R : Regex) (s : List Byte) (res : Result), R.Ok .randomAccess ∧ R.matchPrefix s = some res ∧
    res.matched = false ∧ res.group 1 = some (some (1, 2)) :=
  ⟨⟨.seq [.lit (ch 'a'), .look .ahead (.cap 1 none word), .lit (ch 'x')], []⟩, [ch 'a', ch 'b', ch 'c'],
    ⟨[some (0, 1), some (1, 2)], false⟩, Regex.ok_of_okb (by decide), by decide, rfl, rfl⟩

/-- **C12**, partial: a group that does not take part in the path of the match holds no text, and after a failure no group does.
Missing: groups inside of lookarounds and possessive constructs, which do leave text behind (`C12_false`, `C12_failure_false`). -/
theorem C12_no_leftovers_partial (R : Regex) (cat : Cat) (hR : R.Ok cat) (ht : traceable R.ast = true) (s : List Byte) (M : Method)
    (res : Result) (h : R.invoke M cat s = some res) (k : Nat) (hk : k ≠ 0) (g : Cap) (hg : res.group k = some g) :
    (∀ i y, methodPath R.fl s R.ast M = some (i, y) → held k y.2 = none → NoText g) ∧ (res.matched = false → NoText g) := by
  obtain ⟨res', h1, ⟨i', y', h2, h3, h4, h5⟩ | ⟨h2, h3, h4⟩⟩ := method_paths (s := s) hR ht M
  · rw [h1] at h; cases h
    refine ⟨fun i y hy hv => ?_, fun hm => (by rw [h3] at hm; cases hm)⟩
    rw [show Flags.ofList R.flags = R.fl from rfl, hy] at h2
    cases h2
    have := h5 k g hk hg
    rw [hv] at this
    exact this
  · rw [h1] at h; cases h
    exact ⟨fun _ _ _ _ => h4 k g hk hg, fun _ => h4 k g hk hg⟩

/-- `(ab)?(a)x|aby` on `aby`: both groups take part in abandoned attempts only. -/
def exLeft : Regex :=
  ⟨.alt [.seq [.rep .greedy 0 (.fin 1) (.cap 1 none (.seq [.lit (ch 'a'), .lit (ch 'b')])), .cap 2 none (.lit (ch 'y')), .lit (ch 'x')],
    .seq [.lit (ch 'a'), .lit (ch 'b'), .lit (ch 'y')]], []⟩

example : exLeft.Ok .randomAccess ∧ traceable exLeft.ast = true ∧
    methodPath exLeft.fl [ch 'a', ch 'b', ch 'y'] exLeft.ast .match = some (0, 3, []) ∧
    exLeft.match [ch 'a', ch 'b', ch 'y'] = some ⟨[some (0, 3), some (0, 0), some (2, 2)], true⟩ :=
  ⟨Regex.ok_of_okb (by decide), by decide, by decide, by decide⟩

/-! ## C27 -/

/-- **C27**, partial: a reference that is read forwards either consumes a copy of the text that its group holds, or fails.
Missing: references inside of lookaheads inside of lookbehinds, see `C27_two_layers_false`. -/
theorem C27_forward_partial (E : Env) (hcat : E.cat ≠ .forward) (fuel k p : Nat) (hp : p ≤ E.inp.length) (c : Ctx) (g : Cap)
    (hg : c[k]? = some g) (cont : Cont) :
    (SameText E.flags.icase (heldText E.inp g) ((E.inp.drop p).take (heldText E.inp g).length) ∧
      mtch E (fuel + 1) (.backref k) 0 p c cont = cont (p + (heldText E.inp g).length) c) ∨
    (¬SameText E.flags.icase (heldText E.inp g) ((E.inp.drop p).take (heldText E.inp g).length) ∧
      ∃ q, mtch E (fuel + 1) (.backref k) 0 p c cont = .ok ⟨q, false⟩ c) := by
  have ht : heldText E.inp g = capText E.inp g := by cases g <;> rfl
  have hm : mtch E (fuel + 1) (.backref k) 0 p c cont = backrefMatch E 0 g p c cont := by simp only [mtch, hg]
  rw [ht, hm]
  exact backrefMatch_forward hcat hp g c cont

/-- **C27**, partial: a reference that is read backwards (in a lookbehind) consumes a copy that ends at the current position, or fails. -/
theorem C27_backward_partial (E : Env) (hcat : E.cat ≠ .forward) (fuel k p : Nat) (hp : p ≤ E.inp.length) (c : Ctx) (g : Cap)
    (hg : c[k]? = some g) (cont : Cont) :
    ((heldText E.inp g).length ≤ p ∧ SameText E.flags.icase (heldText E.inp g) ((E.inp.take p).drop (p - (heldText E.inp g).length)) ∧
      mtch E (fuel + 1) (.backref k) 1 p c cont = cont (p - (heldText E.inp g).length) c) ∨
    (¬((heldText E.inp g).length ≤ p ∧ SameText E.flags.icase (heldText E.inp g) ((E.inp.take p).drop (p - (heldText E.inp g).length))) ∧
      ∃ q, mtch E (fuel + 1) (.backref k) 1 p c cont = .ok ⟨q, false⟩ c) := by
  have ht : heldText E.inp g = capText E.inp g := by cases g <;> rfl
  have hm : mtch E (fuel + 1) (.backref k) 1 p c cont = backrefMatch E 1 g p c cont := by simp only [mtch, hg]
  rw [ht, hm]
  exact backrefMatch_backward hcat hp g c cont

/-- **C27** for groups that hold no text: the reference matches the empty string, at every iterator layer. -/
theorem C27_unset (E : Env) (hcat : E.cat ≠ .forward) (fuel k r p : Nat) (hp : p ≤ E.inp.length) (c : Ctx) (g : Cap)
    (hg : c[k]? = some g) (hn : NoText g) (cont : Cont) : mtch E (fuel + 1) (.backref k) r p c cont = cont p c := by
  have ht : capText E.inp g = [] := by
    match g, hn with
    | none, _ => rfl
    | some (b, e), hn => rw [show b = e from hn]; simp [capText]
  simp only [mtch, hg, backrefMatch, hcat, if_false, ht]
  rw [Env.distanceLessThan_eq _ hp]
  by_cases hr : r = 0 <;> simp [hr, backrefLoop]

theorem backrefLoop_parity (E : Env) (r : Nat) (w : List Byte) : ∀ p, backrefLoop E r w p = backrefLoop E (r % 2) w p := by
  have hd : ∀ p, E.deref r p = E.deref (r % 2) p := fun p => by simp only [Env.deref, Nat.mod_mod]
  have hn : ∀ p, Env.next r p = Env.next (r % 2) p := fun p => by simp only [Env.next, Nat.mod_mod]
  induction w with
  | nil => exact fun _ => rfl
  | cons x w ih => intro p; simp only [backrefLoop, hd, hn, ih]

/-- **C27**, partial: in all parts that are read backwards, however deep in lookarounds they are, references do the same as in a lookbehind. -/
theorem C27_odd_partial (E : Env) (fuel k r p : Nat) (hp : p ≤ E.inp.length) (hr : r % 2 = 1) (c : Ctx) (cont : Cont) :
    mtch E (fuel + 1) (.backref k) r p c cont = mtch E (fuel + 1) (.backref k) 1 p c cont := by
  simp only [mtch]
  cases c[k]? with
  | none => rfl
  | some g =>
    have h0 : r ≠ 0 := by omega
    simp only [backrefMatch, h0, Nat.one_ne_zero, if_false, backrefLoop_parity E r, hr]
    rw [Env.distanceLessThan_eq _ hp, Env.distanceLessThan_eq _ hp, show E.remaining r p = E.remaining 1 p by simp only [Env.remaining, hr]]

/-- **C27**, the other case: where the text is read forwards although the part is inside of a lookbehind, a reference takes a copy of the reversed text of its group, or fails. -/
theorem C27_even (E : Env) (hcat : E.cat ≠ .forward) (fuel k r p : Nat) (hp : p ≤ E.inp.length) (hr : r % 2 = 0) (h0 : r ≠ 0) (c : Ctx) (g : Cap)
    (hg : c[k]? = some g) (cont : Cont) :
    (SameText E.flags.icase (heldText E.inp g).reverse ((E.inp.drop p).take (heldText E.inp g).length) ∧
      mtch E (fuel + 1) (.backref k) r p c cont = cont (p + (heldText E.inp g).length) c) ∨
    (¬SameText E.flags.icase (heldText E.inp g).reverse ((E.inp.drop p).take (heldText E.inp g).length) ∧
      ∃ q, mtch E (fuel + 1) (.backref k) r p c cont = .ok ⟨q, false⟩ c) := by
  have ht : heldText E.inp g = capText E.inp g := by cases g <;> rfl
  have hm : mtch E (fuel + 1) (.backref k) r p c cont = backrefMatch E r g p c cont := by simp only [mtch, hg]
  rw [ht, hm]
  unfold backrefMatch
  simp only [hcat, if_false, h0, backrefLoop_parity E r, hr]
  rw [Env.distanceLessThan_eq _ hp, show E.remaining r p = E.inp.length - p by simp [Env.remaining, hr]]
  generalize capText E.inp g = w
  split
  · next hlt =>
    simp only [decide_eq_true_eq] at hlt
    refine .inr ⟨fun h => ?_, p, rfl⟩
    have := sameText_length h
    simp only [List.length_take, List.length_drop, List.length_reverse] at this
    omega
  · next hlt =>
    simp only [decide_eq_true_eq, Nat.not_lt] at hlt
    have h := backrefLoop_forward (E := E) w.reverse p (by simpa using hlt)
    rw [beginsWith_iff, List.length_reverse] at h
    cases hb : beginsWith E.flags.icase w.reverse (E.inp.drop p) with
    | true =>
      have hb' := beginsWith_iff.1 hb
      rw [List.length_reverse] at hb'
      refine .inl ⟨hb', ?_⟩
      rw [h.1 hb']
    | false =>
      refine .inr ⟨fun e => ?_, ?_⟩
      · have := (beginsWith_iff (icase := E.flags.icase) (w := w.reverse) (l := E.inp.drop p)).2 (by rw [List.length_reverse]; exact e)
        rw [hb] at this
        cases this
      · obtain ⟨q, hq⟩ := h.2 hb
        exact ⟨q, by rw [hq]; rfl⟩

/-- **C27**, partial: so the claim holds there for a text that reads the same in both directions. -/
theorem C27_palindromes_partial (E : Env) (hcat : E.cat ≠ .forward) (fuel k r p : Nat) (hp : p ≤ E.inp.length) (hr : r % 2 = 0) (c : Ctx) (g : Cap)
    (hg : c[k]? = some g) (hpal : (heldText E.inp g).reverse = heldText E.inp g) (cont : Cont) :
    (SameText E.flags.icase (heldText E.inp g) ((E.inp.drop p).take (heldText E.inp g).length) ∧
      mtch E (fuel + 1) (.backref k) r p c cont = cont (p + (heldText E.inp g).length) c) ∨
    (¬SameText E.flags.icase (heldText E.inp g) ((E.inp.drop p).take (heldText E.inp g).length) ∧
      ∃ q, mtch E (fuel + 1) (.backref k) r p c cont = .ok ⟨q, false⟩ c) := by
  by_cases h0 : r = 0
  · subst h0; exact C27_forward_partial E hcat fuel k p hp c g hg cont
  · have := C27_even E hcat fuel k r p hp hr h0 c g hg cont
    rw [hpal] at this
    exact this

/-- `(aba)(?<=(?=\1)aba)`: two layers deep, `aba` is found. -/
example : ∃ (E : Env) (c : Ctx), E.inp = [ch 'a', ch 'b', ch 'a'] ∧ c[1]? = some (some (0, 3)) ∧ mtch E 1 (.backref 1) 2 0 c success = success 3 c :=
  ⟨{ inp := [ch 'a', ch 'b', ch 'a'] }, [none, some (0, 3)], rfl, rfl, by rfl⟩

/-- **C27** for references by name: they behave like references to the number of the only group with this name. -/
theorem C27_named (E : Env) (fuel r p : Nat) (name : List Byte) (k : Nat) (hk : E.names[k]? = some (some name))
    (huniq : ∀ j, E.names[j]? = some (some name) → j = k) (c : Ctx) (cont : Cont) :
    mtch E (fuel + 1) (.namedBackref name) r p c cont = mtch E (fuel + 1) (.backref k) r p c cont := by
  have hlt : k < E.names.length := by
    rcases Nat.lt_or_ge k E.names.length with h | h
    · exact h
    · rw [List.getElem?_eq_none h] at hk; cases hk
  have hmem : some name ∈ E.names := List.mem_of_getElem? hk
  have hidx : E.names.idxOf (some name) = k := by
    apply huniq
    rw [List.getElem?_eq_getElem (List.idxOf_lt_length_iff.2 hmem), List.getElem_idxOf]
  have hcount : E.names.count (some name) = 1 := by
    have h1 : E.names = E.names.take k ++ some name :: E.names.drop (k + 1) := by
      have := List.getElem?_eq_some_iff.1 hk
      obtain ⟨h, e⟩ := this
      rw [← e, ← List.drop_eq_getElem_cons h, List.take_append_drop]
    rw [h1, List.count_append, List.count_cons_self, List.count_eq_zero_of_not_mem, List.count_eq_zero_of_not_mem]
    · intro hm
      obtain ⟨j, hj⟩ := List.mem_iff_getElem?.1 hm
      rw [List.getElem?_drop] at hj
      have := huniq _ hj
      omega
    · intro hm
      obtain ⟨j, hj⟩ := List.mem_iff_getElem?.1 hm
      rw [List.getElem?_take] at hj
      split at hj
      · have := huniq _ hj
        omega
      · cases hj
  have : nameIndex E.names name = some k := by simp only [nameIndex, hcount, if_true, hidx]
  simp only [mtch, this]

/-- `(ab)(?<=(?=\1)ab)`. -/
def exLayers : Regex :=
  ⟨.seq [.cap 1 none (.seq [.lit (ch 'a'), .lit (ch 'b')]), .look .behind (.seq [.look .ahead (.backref 1), .lit (ch 'a'), .lit (ch 'b')])], []⟩

/-- **C27** fails two layers deep: `(ab)(?<=(?=\1)ab)` does not match a prefix of `ab`, although `ab` stands before the position and `\1` follows its begin.
There the captured text is compared in reverse order with the input read forwards. -/
theorem C27_two_layers_false : exLayers.Ok .randomAccess ∧
    (exLayers.matchPrefix [ch 'a', ch 'b']).map Result.matched = some false ∧
    ∃ (E : Env) (c : Ctx), E.inp = [ch 'a', ch 'b'] ∧ c[1]? = some (some (0, 2)) ∧
      ∃ q, mtch E 1 (.backref 1) 2 0 c success = .ok ⟨q, false⟩ c :=
  ⟨Regex.ok_of_okb (by decide), by decide, { inp := [ch 'a', ch 'b'] }, [none, some (0, 2)], rfl, rfl, 0, by decide⟩

/-- `(?<x>aB)` followed by a reference, ignoring case. -/
example : SameText true (heldText [ch 'a', ch 'B', ch 'A', ch 'b'] (some (0, 2))) (([ch 'a', ch 'B', ch 'A', ch 'b'].drop 2).take 2) := by
  refine ⟨.inr ⟨rfl, by decide⟩, .inr ⟨rfl, by decide⟩, trivial⟩

/-! ## C28 -/

/-- **C28**: `(X)\1` matches exactly the texts that consist of a text matched by `X` and a copy of it. -/
theorem C28_squares (X : Ast) (flags : List RegexFlag) (cat : Cat) (hX : selfContained X = true) (hp : noPossessive X = true)
    (hi : groupIds X = []) (hR : (Regex.mk (.seq [.cap 1 none X, .backref 1]) flags).Ok cat) (s : List Byte) :
    ∃ res, (Regex.mk (.seq [.cap 1 none X, .backref 1]) flags).match s cat = some res ∧
      (res.matched = true ↔ ∃ w w', s = w ++ w' ∧ Matches (Flags.ofList flags) w X 0 w.length ∧ SameText (Flags.ofList flags).icase w w') := by
  have hb := selfContained_noBackref hX
  have h1 : (1 : Nat) ∉ groupIds X := by simp [hi]
  have ht : traceable (.seq [.cap 1 none X, .backref 1]) = true := by
    simp [traceable, commitsClosed, commitsClosedAll, commitsClosed_of_closed hi hb, refsTo, refsToAll, refsTo_of_noBackref hb,
      visitedOnce, visitedOnceAll, visitedOnce_of_not_mem h1, groupIds, groupIdsAll, hi]
  obtain ⟨res, h2, h3, _⟩ := C53_first_path _ cat hR ht s .match
  refine ⟨res, h2, h3.trans ?_⟩
  generalize hf : Flags.ofList flags = f
  have hok : Ok ((Regex.mk (.seq [.cap 1 none X, .backref 1]) flags).env cat s) 0 X := by
    cases hR s with | seq _ h => ?_
    cases h _ (List.mem_cons_self ..) with | cap _ _ h => exact h
  have hends : ∀ q, q ∈ ends f s X true false 0 ↔ Matches f s X 0 q := fun q => by
    have := ends_iff (E := (Regex.mk (.seq [.cap 1 none X, .backref 1]) flags).env cat s) (fwd := true) (inv := false) (q := q) (wf_of_ok hok) hb hp
      (.inl ⟨rfl, rfl, selfContained_behindOk hX⟩) (Nat.zero_le _)
    simpa [DM, Regex.env, hf] using this
  simp only [methodPath, fullPath, Option.isSome_map, List.find?_isSome, Regex.fl, hf, paths, pathsAll, paths_closed hi hb, List.map_map,
    List.mem_flatMap, List.mem_map, Function.comp]
  constructor
  · rintro ⟨y, ⟨x, ⟨q, hq, rfl⟩, z, hz, hy⟩, hlen⟩
    simp only [List.mem_singleton] at hy
    subst hy
    simp only [held, List.nil_append, if_true, Option.none_or, heldText, List.drop_zero, Nat.sub_zero] at hz
    split at hz
    · next hw =>
      simp only [List.mem_singleton] at hz
      subst hz
      have hql := ends_bounds (Nat.zero_le _) hq
      simp only [List.length_take, beq_iff_eq] at hlen
      rw [beginsWith_iff] at hw
      refine ⟨s.take q, s.drop q, (List.take_append_drop _ _).symm, ?_, ?_⟩
      · have hm := (hends q).1 hq
        have := (matches_window (f := f) hX (s := s) (s' := s.take q) (i := 0) (i' := 0) (n := q) (fun k hk => by
          rw [List.getElem?_take]; simp [hk])).1 (by simpa using hm)
        rw [List.length_take, Nat.min_eq_left hql.2]
        simpa using this
      · have : (s.drop q).take (s.take q).length = s.drop q :=
          List.take_of_length_le (by rw [List.length_drop, List.length_take]; omega)
        rwa [this] at hw
    · cases hz
  · rintro ⟨w, w', rfl, hm, hw⟩
    have hl := sameText_length hw
    refine ⟨(w.length + w.length, [(1, 0, w.length)]), ⟨_, ⟨w.length, ?_, rfl⟩, _, ?_, List.mem_singleton_self _⟩, ?_⟩
    · rw [hends]
      have := (matches_window (f := f) hX (s := w) (s' := w ++ w') (i := 0) (i' := 0) (n := w.length) (fun k hk => by
        rw [List.getElem?_append_left (by omega)])).1 (by simpa using hm)
      simpa using this
    · have hb : beginsWith f.icase w w' = true := beginsWith_iff.2 (by rw [hl, List.take_length]; exact hw)
      simp [held, heldText, hb]
    · simp [hl]

/-- **C28** without `icase`: exactly the squares. -/
theorem C28_exact_squares (X : Ast) (flags : List RegexFlag) (cat : Cat) (hX : selfContained X = true) (hp : noPossessive X = true)
    (hi : groupIds X = []) (hR : (Regex.mk (.seq [.cap 1 none X, .backref 1]) flags).Ok cat) (hf : RegexFlag.icase ∉ flags) (s : List Byte) :
    ∃ res, (Regex.mk (.seq [.cap 1 none X, .backref 1]) flags).match s cat = some res ∧
      (res.matched = true ↔ ∃ w, s = w ++ w ∧ ∃ res', (Regex.mk X flags).match w cat = some res' ∧ res'.matched = true) := by
  obtain ⟨res, h1, h2⟩ := C28_squares X flags cat hX hp hi hR s
  refine ⟨res, h1, h2.trans ?_⟩
  have hic : (Flags.ofList flags).icase = false := by
    simp only [Flags.ofList, List.any_eq_false, beq_iff_eq]
    intro x hx e
    exact hf (e ▸ hx)
  have hXok : (Regex.mk X flags).Ok cat := by
    intro w
    cases hR w with | seq _ h => ?_
    cases h _ (List.mem_cons_self ..) with | cap _ _ h => ?_
    exact ok_of_closed (E := (Regex.mk (.seq [.cap 1 none X, .backref 1]) flags).env cat w) (E' := (Regex.mk X flags).env cat w) rfl rfl h hi (selfContained_noBackref hX)
  have hd : declarative X = true := by simp [declarative, selfContained_noBackref hX, hp, selfContained_behindOk hX]
  simp only [hic, sameText_false]
  constructor
  · rintro ⟨w, _, rfl, hm, rfl⟩
    obtain ⟨res', h3, h4⟩ := C02_match_language ⟨X, flags⟩ cat hXok hd w
    exact ⟨w, rfl, res', h3, h4.2 hm⟩
  · rintro ⟨w, rfl, res', h3, h4⟩
    obtain ⟨res'', h5, h6⟩ := C02_match_language ⟨X, flags⟩ cat hXok hd w
    rw [h3] at h5
    cases h5
    exact ⟨w, w, rfl, h6.1 h4, rfl⟩

/-- `(a+b?)\1` on `aabaab`. -/
example : let X : Ast := .seq [plus (.lit (ch 'a')), .rep .greedy 0 (.fin 1) (.lit (ch 'b'))]
    selfContained X = true ∧ noPossessive X = true ∧ groupIds X = [] ∧ (Regex.mk (.seq [.cap 1 none X, .backref 1]) []).Ok .randomAccess ∧
    ((Regex.mk (.seq [.cap 1 none X, .backref 1]) []).match [ch 'a', ch 'a', ch 'b', ch 'a', ch 'a', ch 'b']).map Result.matched = some true :=
  ⟨by decide, by decide, by decide, Regex.ok_of_okb (by decide), by decide⟩

end Mregex
