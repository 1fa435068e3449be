import Verif.Props.Safety

/-!
# C02 - C06, C25, C26: the three methods against the declarative and the priority-ordered semantics
-/

namespace Mregex
open Ast Spec

/-- The flags of a regex as a record. -/
abbrev Regex.fl (R : Regex) : Flags := Flags.ofList R.flags

/-! ## Examples used below -/

/-- `(a|ab)(c|bcd)*(?=d)$?\w` with groups, choice, repetition, lookahead. -/
def exLang : Regex :=
  ⟨.seq [.cap 1 none (.alt [.lit (ch 'a'), .seq [.lit (ch 'a'), .lit (ch 'b')]]),
    star (.alt [.lit (ch 'c'), .seq [.lit (ch 'b'), .lit (ch 'c')]]),
    .look .ahead (.lit (ch 'd')), .look .behind (.seq [.lit (ch 'b'), .lit (ch 'c')]), .wildcard], [.icase]⟩

theorem exLang_ok : exLang.Ok .randomAccess := Regex.ok_of_okb (by decide)
theorem exLang_decl : declarative exLang.ast = true := by decide

theorem declarative_iff {a : Ast} :
    declarative a = true ↔ noBackref a = true ∧ noPossessive a = true ∧ behindOk a = true := by
  simp [declarative, and_assoc]

theorem mem_ends_iff {R : Regex} {cat : Cat} (hR : R.Ok cat) (hd : declarative R.ast = true) {s : List Byte} {i j : Nat}
    (hi : i ≤ s.length) : j ∈ ends R.fl s R.ast true false i ↔ Matches R.fl s R.ast i j := by
  obtain ⟨h1, h2, h3⟩ := declarative_iff.1 hd
  exact ends_iff (E := R.env cat s) (fwd := true) (inv := false) (wf_of_ok (hR s)) h1 h2 (.inl ⟨rfl, rfl, h3⟩) hi

theorem ends_le {R : Regex} {s : List Byte} {i j : Nat} (hi : i ≤ s.length)
    (h : j ∈ ends R.fl s R.ast true false i) : i ≤ j ∧ j ≤ s.length := by
  have := ends_inside (E := R.env .randomAccess s) (r := 0) rfl _ _ _ _ hi h
  unfold Env.Reach at this
  simp only [Regex.env] at this
  omega

/-! ## C06 -/

/-- **C06** for `match_prefix`, from any position and with any captures: the verdict and the end are those of the
first element of the priority-ordered list of possible ends. -/
theorem C06_matchPrefix (R : Regex) (cat : Cat) (hR : R.Ok cat) (hb : noBackref R.ast = true) (s : List Byte)
    (cur : Nat) (hcur : cur ≤ s.length) (c : Ctx) (hc : c.length = R.names.length) :
    ∃ res c', Method.matchPrefix.invoke (R.env cat s) (fuelFor R.ast s) R.ast cur c = .ok res c' ∧
      (if res.matched then some res.pos else none) = (ends R.fl s R.ast true false cur).head? := by
  have h := Regex.prefix_view (s := s) (fun _ h => h) hR hb capStable_len hcur hc
  rcases h.elim with ⟨q, c', h1, h2⟩ | ⟨q, c', h1, h2⟩
  · exact ⟨⟨q, true⟩, c'.set 0 (some (cur, q)), by simp only [Method.invoke, prefixMethod, h1, setGroup0],
      by simpa using h2.1.symm⟩
  · exact ⟨⟨q, false⟩, c'.set 0 (some (cur, q)), by simp only [Method.invoke, prefixMethod, h1, setGroup0],
      by simpa using h2.1.symm⟩

/-- **C06** for `match`: success iff the end of the input is among the possible ends. -/
theorem C06_match (R : Regex) (cat : Cat) (hR : R.Ok cat) (hb : noBackref R.ast = true) (s : List Byte)
    (cur : Nat) (hcur : cur ≤ s.length) (c : Ctx) (hc : c.length = R.names.length) :
    ∃ res c', Method.match.invoke (R.env cat s) (fuelFor R.ast s) R.ast cur c = .ok res c' ∧
      (res.matched = true ↔ s.length ∈ ends R.fl s R.ast true false cur) ∧ (res.matched = true → res.pos = s.length) := by
  have h := Regex.match_view (s := s) (fun _ h => h) hR hb capStable_len hcur hc
  rcases h.elim with ⟨q, c', h1, h2, _⟩ | ⟨q, c', h1, h2, _⟩
  · refine ⟨⟨q, true⟩, c'.set 0 (some (cur, q)), ?_, ?_⟩
    · simp only [Method.invoke, matchMethod, show (R.env cat s).inp = s from rfl, h1, setGroup0]
    · split at h2
      · next hn => simp only [Option.some.injEq] at h2; exact ⟨⟨fun _ => hn, fun _ => rfl⟩, fun _ => h2.symm⟩
      · cases h2
  · refine ⟨⟨q, false⟩, c'.set 0 (some (cur, q)), ?_, ?_⟩
    · simp only [Method.invoke, matchMethod, show (R.env cat s).inp = s from rfl, h1, setGroup0]
    · split at h2
      · cases h2
      · next hn => exact ⟨⟨fun h => (by cases h), fun h => absurd h hn⟩, fun h => (by cases h)⟩

/-- **C06** for `search`: the first start position with a possible end, and the first of the ends there. -/
theorem C06_search (R : Regex) (cat : Cat) (hR : R.Ok cat) (hb : noBackref R.ast = true) (s : List Byte)
    (cur : Nat) (hcur : cur ≤ s.length) (c : Ctx) (hc : c.length = R.names.length) :
    ∃ res c', Method.search.invoke (R.env cat s) (fuelFor R.ast s) R.ast cur c = .ok res c' ∧
      (res.matched = true → ∃ i, cur ≤ i ∧ i ≤ s.length ∧ c'[0]? = some (some (i, res.pos)) ∧
        (ends R.fl s R.ast true false i).head? = some res.pos ∧
        ∀ j, cur ≤ j → j < i → ends R.fl s R.ast true false j = []) ∧
      (res.matched = false → ∀ j, cur ≤ j → j ≤ s.length → ends R.fl s R.ast true false j = []) := by
  have h := Regex.search_view (s := s) (fun _ h => h) hR hb capStable_len hcur hc
  rcases h.elim with ⟨q, c', h1, i, c'', h2, h3, h4⟩ | ⟨q, c', h1, h2, h3, h4⟩
  · obtain ⟨h5, h6, h7, h8⟩ := firstFrom_some h2
    refine ⟨⟨q, true⟩, c', h1, fun _ => ⟨i, h5, by omega, ?_, h7, h8⟩, fun h => (by cases h)⟩
    rw [h4, List.getElem?_set]
    simp [h3, Regex.names]
  · exact ⟨⟨q, false⟩, c', h1, fun h => (by cases h), fun _ j h5 h6 => firstFrom_none h3 j h5 (by omega)⟩

/-- `a|ab` prefers its first alternative, `a*` the longest run, `a*?` the shortest. -/
example : (Regex.mk (.alt [.lit (ch 'a'), .seq [.lit (ch 'a'), .lit (ch 'b')]]) []).matchPrefix [ch 'a', ch 'b'] =
      some ⟨[some (0, 1)], true⟩ ∧
    ends {} [ch 'a', ch 'b'] (.alt [.lit (ch 'a'), .seq [.lit (ch 'a'), .lit (ch 'b')]]) true false 0 = [1, 2] ∧
    ends {} [ch 'a', ch 'a'] (star (.lit (ch 'a'))) true false 0 = [2, 1, 0] ∧
    ends {} [ch 'a', ch 'a'] (.rep .lazy 0 .inf (.lit (ch 'a'))) true false 0 = [0, 1, 2] := by
  decide

/-! ## C02 -/

/-- **C02.** `match` succeeds iff the regex matches from the beginning to the end of the input. -/
theorem C02_match_language (R : Regex) (cat : Cat) (hR : R.Ok cat) (hd : declarative R.ast = true) (s : List Byte) :
    ∃ res, R.match s cat = some res ∧ (res.matched = true ↔ Matches R.fl s R.ast 0 s.length) := by
  obtain ⟨res, c', h1, h2, _⟩ := C06_match R cat hR (declarative_iff.1 hd).1 s 0 (Nat.zero_le _) _ (length_init _)
  refine ⟨⟨c', res.matched⟩, ?_, ?_⟩
  · simp only [Regex.match, Regex.invoke, h1]
  · rw [h2, mem_ends_iff hR hd (Nat.zero_le _)]

example : ∃ res, exLang.match [ch 'A', ch 'B', ch 'c', ch 'D'] = some res ∧
    (res.matched = true ↔ Matches exLang.fl [ch 'A', ch 'B', ch 'c', ch 'D'] exLang.ast 0 4) :=
  C02_match_language exLang _ exLang_ok exLang_decl _

example : exLang.match [ch 'A', ch 'B', ch 'c', ch 'D'] = some ⟨[some (0, 4), some (0, 1)], true⟩ := by decide

/-! ## C03 -/

/-- **C03.** `match_prefix` succeeds iff the regex matches some prefix, and then group 0 is such a prefix. -/
theorem C03_matchPrefix_language (R : Regex) (cat : Cat) (hR : R.Ok cat) (hd : declarative R.ast = true)
    (s : List Byte) :
    ∃ res, R.matchPrefix s cat = some res ∧ (res.matched = true ↔ ∃ j, Matches R.fl s R.ast 0 j) ∧
      (res.matched = true → ∃ j, j ≤ s.length ∧ res.group 0 = some (some (0, j)) ∧ Matches R.fl s R.ast 0 j) := by
  have h := Regex.prefix_view (s := s) (fun _ h => h) hR (declarative_iff.1 hd).1 capStable_len (Nat.zero_le _)
    (length_init R.names)
  rcases h.elim with ⟨q, c', h1, h2⟩ | ⟨q, c', h1, h2⟩
  · have hq : q ∈ ends R.fl s R.ast true false 0 := List.mem_of_head? h2.1
    refine ⟨⟨c'.set 0 (some (0, q)), true⟩, ?_, ⟨fun _ => ⟨q, (mem_ends_iff hR hd (Nat.zero_le _)).1 hq⟩, fun _ => rfl⟩,
      fun _ => ⟨q, (ends_le (Nat.zero_le _) hq).2, ?_, (mem_ends_iff hR hd (Nat.zero_le _)).1 hq⟩⟩
    · simp only [Regex.matchPrefix, Regex.invoke, Method.invoke, prefixMethod, h1, setGroup0]
    · simp [Result.group, h2.2, Regex.names]
  · refine ⟨⟨c'.set 0 (some (0, q)), false⟩, ?_, ⟨fun h => (by cases h), fun ⟨j, hj⟩ => ?_⟩, fun h => (by cases h)⟩
    · simp only [Regex.matchPrefix, Regex.invoke, Method.invoke, prefixMethod, h1, setGroup0]
    · have := (mem_ends_iff hR hd (Nat.zero_le _)).2 hj
      rw [List.head?_eq_none_iff.1 h2.1] at this
      cases this

example : exLang.matchPrefix [ch 'a', ch 'b', ch 'c', ch 'd', ch 'e'] = some ⟨[some (0, 4), some (0, 1)], true⟩ := by
  decide

/-! ## C04 -/

/-- **C04.** `search` succeeds iff the regex matches somewhere; then group 0 starts at the smallest position at which a
match exists and is one. -/
theorem C04_search_leftmost (R : Regex) (cat : Cat) (hR : R.Ok cat) (hd : declarative R.ast = true) (s : List Byte) :
    ∃ res, R.search s cat = some res ∧
      (res.matched = true ↔ ∃ i j, i ≤ s.length ∧ Matches R.fl s R.ast i j) ∧
      (res.matched = true → ∃ i j, i ≤ j ∧ j ≤ s.length ∧ res.group 0 = some (some (i, j)) ∧
        Matches R.fl s R.ast i j ∧ ∀ i' j', i' < i → ¬ Matches R.fl s R.ast i' j') := by
  obtain ⟨res, c', h1, h2, h3⟩ := C06_search R cat hR (declarative_iff.1 hd).1 s 0 (Nat.zero_le _) _ (length_init R.names)
  refine ⟨⟨c', res.matched⟩, by simp only [Regex.search, Regex.invoke, h1], ?_, ?_⟩
  · constructor
    · intro h
      obtain ⟨i, _, hi, _, h4, _⟩ := h2 h
      exact ⟨i, res.pos, hi, (mem_ends_iff hR hd hi).1 (List.mem_of_head? h4)⟩
    · rintro ⟨i, j, hi, hm⟩
      cases hres : res.matched with
      | true => rfl
      | false =>
        have := (mem_ends_iff hR hd hi).2 hm
        rw [h3 hres i (Nat.zero_le _) hi] at this
        cases this
  · intro h
    obtain ⟨i, _, hi, h5, h4, h6⟩ := h2 h
    have hq := List.mem_of_head? h4
    refine ⟨i, res.pos, (ends_le hi hq).1, (ends_le hi hq).2, h5, (mem_ends_iff hR hd hi).1 hq, fun i' j' hi' hm => ?_⟩
    have := (mem_ends_iff hR hd (by omega : i' ≤ s.length)).2 hm
    rw [h6 i' (Nat.zero_le _) hi'] at this
    cases this

example : exLang.search [ch 'x', ch 'a', ch 'a', ch 'b', ch 'c', ch 'd'] = some ⟨[some (2, 6), some (2, 3)], true⟩ := by
  decide

/-! ## C05 -/

/-- `b\1|(?=(a))x`. -/
def exLeak : Regex :=
  ⟨.alt [.seq [.lit (ch 'b'), .backref 1], .seq [.look .ahead (.cap 1 none (.lit (ch 'a'))), .lit (ch 'x')]], []⟩

/-- `b\1c|(?=(a))x`. -/
def exLeak' : Regex :=
  ⟨.alt [.seq [.lit (ch 'b'), .backref 1, .lit (ch 'c')],
    .seq [.look .ahead (.cap 1 none (.lit (ch 'a'))), .lit (ch 'x')]], []⟩

/-- **C05** is false with backreferences: a capture set by the failed attempt at position 0 is still there in the attempt at
position 1, so `search` reports `[1,3)` although a fresh attempt at position 1 ends at 2. -/
theorem C05_end_false :
    exLeak.Ok .randomAccess ∧
    exLeak.search [ch 'a', ch 'b', ch 'a'] = some ⟨[some (1, 3), some (0, 1)], true⟩ ∧
    ∃ c, Method.matchPrefix.invoke (exLeak.env .randomAccess [ch 'a', ch 'b', ch 'a']) 20 exLeak.ast 1
      (initCtx exLeak.names) = .ok ⟨2, true⟩ c :=
  ⟨Regex.ok_of_okb (by decide), by decide, [some (1, 2), none], by decide⟩

/-- **C05** is false with backreferences: here `search` even misses a match. -/
theorem C05_verdict_false :
    exLeak'.Ok .randomAccess ∧
    (∃ res, exLeak'.search [ch 'a', ch 'b', ch 'c'] = some res ∧ res.matched = false) ∧
    ∃ c, Method.matchPrefix.invoke (exLeak'.env .randomAccess [ch 'a', ch 'b', ch 'c']) 20 exLeak'.ast 1
      (initCtx exLeak'.names) = .ok ⟨3, true⟩ c :=
  ⟨Regex.ok_of_okb (by decide), ⟨⟨[none, some (0, 0)], false⟩, by decide⟩, [some (1, 3), none], by decide⟩

/-- **C05, partial** (regexes without backreferences; missing: regexes with them, for which it is false).  If `search` reports
`[i,j)`, an attempt at `i` with any captures ends at `j`, and attempts at all earlier positions fail. If `search` fails,
attempts fail everywhere. -/
theorem C05_search_fresh_partial (R : Regex) (cat : Cat) (hR : R.Ok cat) (hb : noBackref R.ast = true) (s : List Byte)
    (res : Result) (h : R.search s cat = some res) (c : Ctx) (hc : c.length = R.names.length) :
    (res.matched = true → ∃ i j, res.group 0 = some (some (i, j)) ∧ i ≤ s.length ∧
      (∃ c', Method.matchPrefix.invoke (R.env cat s) (fuelFor R.ast s) R.ast i c = .ok ⟨j, true⟩ c') ∧
      ∀ k, k < i → ∃ q c', Method.matchPrefix.invoke (R.env cat s) (fuelFor R.ast s) R.ast k c = .ok ⟨q, false⟩ c') ∧
    (res.matched = false → ∀ k, k ≤ s.length →
      ∃ q c', Method.matchPrefix.invoke (R.env cat s) (fuelFor R.ast s) R.ast k c = .ok ⟨q, false⟩ c') := by
  have hfail : ∀ k, k ≤ s.length → ends R.fl s R.ast true false k = [] →
      ∃ q c', Method.matchPrefix.invoke (R.env cat s) (fuelFor R.ast s) R.ast k c = .ok ⟨q, false⟩ c' := by
    intro k hk he
    obtain ⟨⟨q, b⟩, c', h1, h2⟩ := C06_matchPrefix R cat hR hb s k hk c hc
    rw [he] at h2
    cases b with
    | true => simp at h2
    | false => exact ⟨q, c', h1⟩
  obtain ⟨r, c', h1, h2, h3⟩ := C06_search R cat hR hb s 0 (Nat.zero_le _) _ (length_init R.names)
  have hres : res = ⟨c', r.matched⟩ := by
    simp only [Regex.search, Regex.invoke, h1, Option.some.injEq] at h
    exact h.symm
  subst hres
  refine ⟨fun hm => ?_, fun hm k hk => hfail k hk (h3 hm k (Nat.zero_le _) hk)⟩
  obtain ⟨i, _, hi, h4, h5, h6⟩ := h2 hm
  refine ⟨i, r.pos, h4, hi, ?_, fun k hk => hfail k (by omega) (h6 k (Nat.zero_le _) hk)⟩
  obtain ⟨⟨q, b⟩, c'', h7, h8⟩ := C06_matchPrefix R cat hR hb s i hi c hc
  rw [h5] at h8
  cases b with
  | false => simp at h8
  | true =>
    simp only [if_true, Option.some.injEq] at h8
    exact ⟨c'', by rw [← h8]; exact h7⟩

example : noBackref exLang.ast = true := by decide

/-! ## C25 -/

/-- **C25.** `X{lo,hi}`, greedy or lazy, accepts exactly the inputs that are a sequence of `k` consecutive matches of `X`
for some `k` between the bounds. -/
theorem C25_quantifier_bounds (X : Ast) (m : Mode) (hm : m ≠ .possessive) (lo : Nat) (hi : Bound) (fl : List RegexFlag)
    (cat : Cat) (hR : (Regex.mk (.rep m lo hi X) fl).Ok cat) (hd : declarative X = true) (s : List Byte) :
    ∃ res, (Regex.mk (.rep m lo hi X) fl).match s cat = some res ∧
      (res.matched = true ↔
        ∃ k, lo ≤ k ∧ (∀ h, hi = .fin h → k ≤ h) ∧ Iter (Matches (Flags.ofList fl) s X) k 0 s.length) := by
  have hd' : declarative (.rep m lo hi X) = true := by
    rw [declarative_iff] at hd ⊢
    cases m with
    | possessive => exact absurd rfl hm
    | greedy => simpa [noBackref, noPossessive, behindOk] using hd
    | lazy => simpa [noBackref, noPossessive, behindOk] using hd
  obtain ⟨res, h1, h2⟩ := C02_match_language _ cat hR hd' s
  refine ⟨res, h1, h2.trans ?_⟩
  simp only [Matches]
  refine exists_congr fun k => ?_
  cases hi with
  | inf => simp [AtMost]
  | fin h => simp [AtMost]

/-- **C25**, the possessive forms do not leave the bounds either: the possible end is reached by `k` consecutive matches. -/
theorem C25_possessive_bounds (f : Flags) (s : List Byte) (X : Ast) (lo : Nat) (hi : Bound)
    (hv : ∀ h, hi = .fin h → lo ≤ h) (p q : Nat) (h : q ∈ ends f s (.rep .possessive lo hi X) true false p) :
    ∃ k, lo ≤ k ∧ (∀ h, hi = .fin h → k ≤ h) ∧ Iter (fun i j => j ∈ ends f s X true false i) k p q := by
  simp only [ends] at h
  obtain ⟨i, h1, h2, h3⟩ := mem_quantified h
  exact ⟨i, h1, fun b hb => h2 b hb (hv b hb), pow_iter.2 h3⟩

/-- **C25**: `X{n}` means `n` copies of `X`. -/
theorem C25_copies (f : Flags) (s : List Byte) (X : Ast) (m : Mode) (n i j : Nat) :
    Matches f s (.rep m n (.fin n) X) i j ↔ Matches f s (.seq (List.replicate n X)) i j := by
  simp only [Matches, AtMost]
  have : ∀ n i, Iter (Matches f s X) n i j ↔ MatchesAll f s (List.replicate n X) i j := by
    intro n
    induction n with
    | zero => intro i; simp [Iter, MatchesAll]
    | succ n ih => intro i; simp only [Iter, List.replicate_succ, MatchesAll, ih]
  constructor
  · rintro ⟨k, h1, h2, h3⟩
    obtain rfl : k = n := by omega
    exact (this _ _).1 h3
  · exact fun h => ⟨n, Nat.le_refl _, Nat.le_refl _, (this _ _).2 h⟩

example : (Regex.mk (.rep .lazy 2 (.fin 3) (.seq [.lit (ch 'a'), optional (.lit (ch 'b'))])) []).Ok .forward ∧
    (Regex.mk (.rep .lazy 2 (.fin 3) (.seq [.lit (ch 'a'), optional (.lit (ch 'b'))])) []).match
      [ch 'a', ch 'b', ch 'a', ch 'a'] .forward = some ⟨[some (0, 4)], true⟩ ∧
    (Regex.mk (.rep .lazy 2 (.fin 3) (.seq [.lit (ch 'a'), optional (.lit (ch 'b'))])) []).match
      [ch 'a', ch 'a', ch 'a', ch 'a'] .forward = some ⟨[some (0, 3)], false⟩ :=
  ⟨Regex.ok_of_okb (by decide), by decide, by decide⟩

/-! ## C26 -/

mutual
/-- Make every lazy quantifier greedy. -/
def allGreedy : Ast → Ast
  | .rep .lazy lo hi a => .rep .greedy lo hi (allGreedy a)
  | .rep m lo hi a => .rep m lo hi (allGreedy a)
  | .set l => .set (allGreedyAll l)
  | .seq l => .seq (allGreedyAll l)
  | .alt l => .alt (allGreedyAll l)
  | .neg a => .neg (allGreedy a)
  | .cap id n a => .cap id n (allGreedy a)
  | .look d a => .look d (allGreedy a)
  | a => a
def allGreedyAll : List Ast → List Ast
  | [] => []
  | a :: l => allGreedy a :: allGreedyAll l
end

theorem allGreedyAll_eq (l : List Ast) : allGreedyAll l = l.map allGreedy := by
  induction l with
  | nil => rfl
  | cons a l ih => simp [allGreedyAll, ih]

theorem assertion_allGreedy (a : Ast) : assertion (allGreedy a) = assertion a := by
  induction a using ind with
  | rep m lo hi a ih =>
    match m, lo, hi with
    | .possessive, _, _ => simp only [allGreedy, assertion]
    | .greedy, 1, .fin 1 => simpa only [allGreedy, assertion] using ih
    | .lazy, 1, .fin 1 => simpa only [allGreedy, assertion] using ih
    | .greedy, 0, _ | .greedy, _ + 2, _ | .greedy, 1, .inf | .greedy, 1, .fin 0 | .greedy, 1, .fin (_ + 2) =>
      simp [allGreedy, assertion]
    | .lazy, 0, _ | .lazy, _ + 2, _ | .lazy, 1, .inf | .lazy, 1, .fin 0 | .lazy, 1, .fin (_ + 2) =>
      simp [allGreedy, assertion]
  | seq l ih =>
    match l with
    | [] => rfl
    | [a] => simpa only [allGreedy, allGreedyAll, assertion] using ih a (by simp)
    | _ :: _ :: _ => rfl
  | alt l ih =>
    match l with
    | [] => rfl
    | [a] => simpa only [allGreedy, allGreedyAll, assertion] using ih a (by simp)
    | _ :: _ :: _ => rfl
  | neg a ih => simpa only [allGreedy, assertion] using ih
  | _ => simp only [allGreedy, assertion]

theorem matches_allGreedy (f : Flags) (s : List Byte) (a : Ast) : Matches f s (allGreedy a) = Matches f s a := by
  have hall : ∀ l : List Ast, (∀ a ∈ l, Matches f s (allGreedy a) = Matches f s a) →
      MatchesAll f s (l.map allGreedy) = MatchesAll f s l := by
    intro l h
    induction l with
    | nil => rfl
    | cons a l ih =>
      funext i j
      simp only [List.map_cons, MatchesAll, h a (by simp), ih (fun b hb => h b (by simp [hb]))]
  have hany : ∀ l : List Ast, (∀ a ∈ l, Matches f s (allGreedy a) = Matches f s a) →
      MatchesAny f s (l.map allGreedy) = MatchesAny f s l := by
    intro l h
    induction l with
    | nil => rfl
    | cons a l ih =>
      funext i j
      simp only [List.map_cons, MatchesAny, h a (by simp), ih (fun b hb => h b (by simp [hb]))]
  induction a using ind with
  | rep m lo hi a ih => cases m <;> simp only [allGreedy, Matches, ih]
  | seq l ih => simp only [allGreedy, allGreedyAll_eq, Matches, hall l ih]
  | alt l ih => simp only [allGreedy, allGreedyAll_eq, Matches, hany l ih]
  | set l ih => simp only [allGreedy, allGreedyAll_eq, Matches, hany l ih]
  | neg a ih => simp only [allGreedy, Matches, ih, assertion_allGreedy]
  | look d a ih => cases d <;> simp only [allGreedy, Matches, ih]
  | cap id n a ih => simp only [allGreedy, Matches, ih]
  | _ => simp only [allGreedy]

theorem matches_flags {f f' : Flags} (hi : f.icase = f'.icase) (hd : f.dotall = f'.dotall)
    (hm : f.multiline = f'.multiline) (s : List Byte) (a : Ast) : Matches f s a = Matches f' s a := by
  have hall : ∀ l : List Ast, (∀ a ∈ l, Matches f s a = Matches f' s a) → MatchesAll f s l = MatchesAll f' s l := by
    intro l h
    induction l with
    | nil => rfl
    | cons a l ih => funext i j; simp only [MatchesAll, h a (by simp), ih (fun b hb => h b (by simp [hb]))]
  have hany : ∀ l : List Ast, (∀ a ∈ l, Matches f s a = Matches f' s a) → MatchesAny f s l = MatchesAny f' s l := by
    intro l h
    induction l with
    | nil => rfl
    | cons a l ih => funext i j; simp only [MatchesAny, h a (by simp), ih (fun b hb => h b (by simp [hb]))]
  induction a using ind with
  | rep m lo hi a ih => simp only [Matches, ih]
  | seq l ih => simp only [Matches, hall l ih]
  | alt l ih => simp only [Matches, hany l ih]
  | set l ih => simp only [Matches, hany l ih]
  | neg a ih => simp only [Matches, ih]
  | look d a ih => cases d <;> simp only [Matches, ih]
  | cap id n a ih => simp only [Matches, ih]
  | _ => simp only [Matches, hi, hd, hm]

/-- **C26.** Two regexes that differ in the greediness of quantifiers only (including a global `ungreedy` or `unroll`
flag) agree on the verdict of all three methods. -/
theorem C26_greediness_verdict (R R' : Regex) (cat : Cat) (hR : R.Ok cat) (hR' : R'.Ok cat)
    (hd : declarative R.ast = true) (hd' : declarative R'.ast = true) (ha : allGreedy R.ast = allGreedy R'.ast)
    (hfi : R.fl.icase = R'.fl.icase) (hfd : R.fl.dotall = R'.fl.dotall) (hfm : R.fl.multiline = R'.fl.multiline)
    (M : Method) (s : List Byte) :
    ∃ res res', R.invoke M cat s = some res ∧ R'.invoke M cat s = some res' ∧ res.matched = res'.matched := by
  have hM : Matches R.fl s R.ast = Matches R'.fl s R'.ast := by
    rw [← matches_allGreedy, ha, matches_allGreedy, matches_flags hfi hfd hfm]
  have key : ∀ {a b : Bool} {P : Prop}, (a = true ↔ P) → (b = true ↔ P) → a = b := by
    intro a b P h1 h2
    cases a <;> cases b <;> simp_all
  cases M with
  | «match» =>
    obtain ⟨res, h1, h2⟩ := C02_match_language R cat hR hd s
    obtain ⟨res', h1', h2'⟩ := C02_match_language R' cat hR' hd' s
    rw [hM] at h2
    exact ⟨res, res', h1, h1', key h2 h2'⟩
  | matchPrefix =>
    obtain ⟨res, h1, h2, _⟩ := C03_matchPrefix_language R cat hR hd s
    obtain ⟨res', h1', h2', _⟩ := C03_matchPrefix_language R' cat hR' hd' s
    rw [hM] at h2
    exact ⟨res, res', h1, h1', key h2 h2'⟩
  | search =>
    obtain ⟨res, h1, h2, _⟩ := C04_search_leftmost R cat hR hd s
    obtain ⟨res', h1', h2', _⟩ := C04_search_leftmost R' cat hR' hd' s
    rw [hM] at h2
    exact ⟨res, res', h1, h1', key h2 h2'⟩

example : allGreedy (.seq [star (.lit (ch 'a')), .rep .lazy 1 (.fin 2) (.lit (ch 'b'))]) =
    allGreedy (.seq [.rep .lazy 0 .inf (.lit (ch 'a')), .rep .greedy 1 (.fin 2) (.lit (ch 'b'))]) := by
  simp [allGreedy, allGreedyAll, star]

end Mregex
