import Verif.Proof.Says
import Verif.Props.Captures
import Verif.Props.Traits

/-!
# C92: words and memories
-/

namespace Mregex
open Ast Spec

section
variable {R : Regex} {cat : Cat} {s : List Byte}

theorem heldText_noText {g : Cap} (h : NoText g) : heldText s g = [] := by
  cases g with
  | none => rfl
  | some v =>
    obtain ⟨b, e⟩ := v
    have h : b = e := h
    simp [heldText, h]

theorem wf_regex (hR : R.Ok cat) : wf R.ast = true := wf_of_ok (hR [])

/-- There is a path from `i` to `j` exactly if the text between them is said. -/
theorem path_iff_says (hR : R.Ok cat) (ha : wordy R.ast = true) (ht : traceable R.ast = true) {i j : Nat} (hi : i ≤ s.length) :
    (∃ ev, (j, ev) ∈ paths R.fl s R.ast (i, [])) ↔ ∃ w r e, s.drop i = w ++ r ∧ j = i + w.length ∧ Says R.fl R.ast [] w e := by
  constructor
  · rintro ⟨ev, h⟩
    obtain ⟨_, w, h1, h2, h3⟩ := told_paths ha (wf_regex hR) h hi
    exact ⟨w, _, _, h1, h2, h3⟩
  · rintro ⟨w, r, e, h1, rfl, h3⟩
    simp only [traceable, Bool.and_eq_true] at ht
    obtain ⟨ev, h4, _⟩ := offers_paths (s := s) ha ht.2 (fun k h => h) h3 i [] r hi h1 (fun k _ => rfl)
    exact ⟨ev, h4⟩

/-- What a method reports is said. -/
def SaidResult (R : Regex) (s : List Byte) (i : Nat) (res : Result) : Prop :=
  ∃ t w r e, s = t ++ (w ++ r) ∧ t.length = i ∧ res.group 0 = some (some (i, i + w.length)) ∧ Says R.fl R.ast [] w e ∧
    ∀ k g, k ≠ 0 → res.group k = some g → heldText s g = recall k e ∨ (visitedOnce k R.ast = false ∧ heldText s g = [])

theorem said_of_path (hR : R.Ok cat) (ha : wordy R.ast = true) {i : Nat} {y : Place} (hi : i ≤ s.length) (hy : y ∈ paths R.fl s R.ast (i, []))
    {res : Result} (h0 : res.group 0 = some (some (i, y.1))) (hr : Records R.ast y.2 res.groups) : SaidResult R s i res := by
  obtain ⟨_, w, h1, h2, h3⟩ := told_paths ha (wf_regex hR) hy hi
  refine ⟨s.take i, w, s.drop y.1, _, ?_, by simp; omega, by rw [h0, h2], h3, fun k g hk hg => ?_⟩
  · rw [← h1, List.take_append_drop]
  · have := hr k g hk hg
    rw [recall_notes]
    cases hh : held k y.2 with
    | none =>
      rw [hh] at this
      exact .inl (heldText_noText this)
    | some v =>
      rw [hh] at this
      rcases this with rfl | ⟨h4, h5⟩
      · exact .inl rfl
      · exact .inr ⟨h4, heldText_noText h5⟩

/-- **C92**, for `match`: it succeeds exactly on the texts that the regex says, and the groups are what a memory says that remembers it. -/
theorem C92_match (R : Regex) (cat : Cat) (hR : R.Ok cat) (ha : wordy R.ast = true) (ht : traceable R.ast = true) (s : List Byte) :
    ∃ res, R.invoke .match cat s = some res ∧ (res.matched = true ↔ ∃ e, Says R.fl R.ast [] s e) ∧
      (res.matched = true → ∃ e, Says R.fl R.ast [] s e ∧
        ∀ k g, k ≠ 0 → res.group k = some g → heldText s g = recall k e ∨ (visitedOnce k R.ast = false ∧ heldText s g = [])) := by
  obtain ⟨res, h1, ⟨i, y, h2, h3, h4, h5⟩ | ⟨h2, h3, h4⟩⟩ := method_paths (s := s) hR ht .match
  · simp only [methodPath, Option.map_eq_some_iff, Prod.mk.injEq] at h2
    obtain ⟨y', h2, rfl, rfl⟩ := h2
    have hm := List.mem_of_find?_eq_some h2
    have hl := List.find?_some h2
    obtain ⟨t, w, r, e, rfl, h6, h7, h8, h9⟩ := said_of_path hR ha (Nat.zero_le _) hm h4 h5
    obtain rfl : t = [] := List.length_eq_zero_iff.1 h6
    rw [h4] at h7
    simp only [beq_iff_eq] at hl
    have : r = [] := by
      simp only [Option.some.injEq, Prod.mk.injEq] at h7
      rw [h7.2] at hl
      simp at hl
      exact hl
    subst this
    simp only [List.nil_append, List.append_nil] at h8 h9 ⊢
    exact ⟨res, by simpa using h1, ⟨fun _ => ⟨e, h8⟩, fun _ => h3⟩, fun _ => ⟨e, h8, h9⟩⟩
  · refine ⟨res, h1, ⟨fun h => (by rw [h3] at h; cases h), fun ⟨e, h⟩ => ?_⟩, fun h => (by rw [h3] at h; cases h)⟩
    obtain ⟨ev, h5⟩ := (path_iff_says (i := 0) (j := s.length) hR ha ht (Nat.zero_le _)).2 ⟨s, [], e, (by simp : s.drop 0 = s ++ []), by simp, h⟩
    simp only [methodPath, Option.map_eq_none_iff, fullPath, List.find?_eq_none] at h2
    exact absurd (by simp) (h2 _ h5)

/-- **C92**, for `match_prefix`. -/
theorem C92_prefix (R : Regex) (cat : Cat) (hR : R.Ok cat) (ha : wordy R.ast = true) (ht : traceable R.ast = true) (s : List Byte) :
    ∃ res, R.invoke .matchPrefix cat s = some res ∧ (res.matched = true ↔ ∃ w r e, s = w ++ r ∧ Says R.fl R.ast [] w e) ∧
      (res.matched = true → SaidResult R s 0 res) := by
  obtain ⟨res, h1, ⟨i, y, h2, h3, h4, h5⟩ | ⟨h2, h3, h4⟩⟩ := method_paths (s := s) hR ht .matchPrefix
  · simp only [methodPath, Option.map_eq_some_iff, Prod.mk.injEq] at h2
    obtain ⟨y', h2, rfl, rfl⟩ := h2
    have hm := List.mem_of_head? h2
    have hs := said_of_path hR ha (Nat.zero_le _) hm h4 h5
    refine ⟨res, h1, ⟨fun _ => ?_, fun _ => h3⟩, fun _ => hs⟩
    obtain ⟨t, w, r, e, h5, h6, h7, h8, h9⟩ := hs
    obtain rfl : t = [] := List.length_eq_zero_iff.1 h6
    exact ⟨w, r, e, h5, h8⟩
  · refine ⟨res, h1, ⟨fun h => (by rw [h3] at h; cases h), fun ⟨w, r, e, h, h'⟩ => ?_⟩, fun h => (by rw [h3] at h; cases h)⟩
    obtain ⟨ev, h5⟩ := (path_iff_says (i := 0) hR ha ht (Nat.zero_le _)).2 ⟨w, r, e, by simpa using h, rfl, h'⟩
    simp only [methodPath, Option.map_eq_none_iff, prefixPath, List.head?_eq_none_iff] at h2
    rw [show Flags.ofList R.flags = R.fl from rfl] at h2
    rw [h2] at h5
    cases h5

/-- **C92**, for `search`: it reports a text that begins where the first text that is said begins. -/
theorem C92_search (R : Regex) (cat : Cat) (hR : R.Ok cat) (ha : wordy R.ast = true) (ht : traceable R.ast = true) (s : List Byte) :
    ∃ res, R.invoke .search cat s = some res ∧ (res.matched = true ↔ ∃ t w r e, s = t ++ (w ++ r) ∧ Says R.fl R.ast [] w e) ∧
      (res.matched = true → ∃ i, SaidResult R s i res ∧ ∀ t w r e, s = t ++ (w ++ r) → Says R.fl R.ast [] w e → i ≤ t.length) := by
  have hpath : ∀ {t w r e}, s = t ++ (w ++ r) → Says R.fl R.ast [] w e → t.length ≤ s.length ∧ ∃ y, y ∈ paths R.fl s R.ast (t.length, []) := by
    intro t w r e h h'
    have hl : t.length ≤ s.length := by rw [h]; simp
    obtain ⟨ev, h5⟩ := (path_iff_says (i := t.length) hR ha ht hl).2 ⟨w, r, e, by rw [h, List.drop_left], rfl, h'⟩
    exact ⟨hl, _, h5⟩
  obtain ⟨res, h1, ⟨i, y, h2, h3, h4, h5⟩ | ⟨h2, h3, h4⟩⟩ := method_paths (s := s) hR ht .search
  · simp only [methodPath, searchPath] at h2
    rw [show Flags.ofList R.flags = R.fl from rfl] at h2
    obtain ⟨l1, j, l2, h6, h7, h8⟩ := List.findSome?_eq_some_iff.1 h2
    simp only [Option.map_eq_some_iff, Prod.mk.injEq] at h7
    obtain ⟨y', h7, rfl, rfl⟩ := h7
    have hj : j ∈ List.range' 0 (s.length + 1 - 0) := by rw [h6]; simp
    simp only [List.mem_range'_1] at hj
    have hs := said_of_path hR ha (by omega) (List.mem_of_head? h7) h4 h5
    refine ⟨res, h1, ⟨fun _ => ?_, fun _ => h3⟩, fun _ => ⟨j, hs, fun t w r e h9 h10 => ?_⟩⟩
    · obtain ⟨t, w, r, e, h5, h6, h7, h8, h9⟩ := hs
      exact ⟨t, w, r, e, h5, h8⟩
    · obtain ⟨h11, y, h12⟩ := hpath h9 h10
      refine Nat.le_of_not_lt fun hlt => ?_
      have hpos : ∀ t, t < j → t ∈ l1 := by
        have hj1 : j = l1.length := by
          have : (List.range' 0 (s.length + 1 - 0))[l1.length]? = some j := by rw [h6]; simp
          rw [List.getElem?_eq_some_iff] at this
          obtain ⟨_, this⟩ := this
          simp at this
          exact this.symm
        intro t ht'
        have : (List.range' 0 (s.length + 1 - 0))[t]? = some t := by
          rw [List.getElem?_eq_getElem (by simp; omega)]
          simp
        rw [h6, List.getElem?_append_left (by omega)] at this
        exact List.mem_of_getElem? this
      have := h8 _ (hpos _ hlt)
      simp only [Option.map_eq_none_iff, List.head?_eq_none_iff] at this
      rw [this] at h12
      cases h12
  · refine ⟨res, h1, ⟨fun h => (by rw [h3] at h; cases h), fun ⟨t, w, r, e, h, h'⟩ => ?_⟩, fun h => (by rw [h3] at h; cases h)⟩
    obtain ⟨h5, y, h6⟩ := hpath h h'
    simp only [methodPath, searchPath, List.findSome?_eq_none_iff, Option.map_eq_none_iff, List.head?_eq_none_iff, List.mem_range'_1] at h2
    rw [show Flags.ofList R.flags = R.fl from rfl] at h2
    rw [h2 t.length (by omega)] at h6
    cases h6

/-- **C92**: if a text is said in one way only, `match` gives the groups that this way says, whatever the preferences are. -/
theorem C92_unambiguous (R : Regex) (cat : Cat) (hR : R.Ok cat) (ha : wordy R.ast = true) (ht : traceable R.ast = true) (s : List Byte) (e : Memory)
    (he : Says R.fl R.ast [] s e) :
    ∃ res, R.invoke .match cat s = some res ∧ res.matched = true ∧
      ∀ k g, k ≠ 0 → visitedOnce k R.ast = true → Unambiguous R.fl R.ast s k → res.group k = some g → heldText s g = recall k e := by
  obtain ⟨res, h1, h2, h3⟩ := C92_match R cat hR ha ht s
  have hm := h2.2 ⟨e, he⟩
  obtain ⟨e', h4, h5⟩ := h3 hm
  refine ⟨res, h1, hm, fun k g hk hv hu hg => ?_⟩
  rcases h5 k g hk hg with h | ⟨h, _⟩
  · exact h.trans (hu _ _ h4 he)
  · rw [hv] at h; cases h

end

/-! ### Preferences -/

theorem accepts_flags {f f' : Flags} (h1 : f.icase = f'.icase) (h2 : f.dotall = f'.dotall) (a : Ast) : accepts f a = accepts f' a := by
  have hany : ∀ l : List Ast, (∀ a ∈ l, accepts f a = accepts f' a) → acceptsAny f l = acceptsAny f' l := by
    intro l
    induction l with
    | nil => intro _; funext x; simp only [acceptsAny]
    | cons b l ih =>
      intro h
      funext x
      simp only [acceptsAny, h b (by simp), ih fun c hc => h c (List.mem_cons_of_mem _ hc)]
  induction a using ind with
  | lit | range => funext x; simp only [accepts, h1]
  | wildcard => funext x; simp only [accepts, h2]
  | set l ih | alt l ih => funext x; simp only [accepts, hany l ih]
  | neg a ih => funext x; simp only [accepts, ih]
  | seq l ih =>
    funext x
    match l, ih with
    | [], _ => rfl
    | [a], ih => simp only [accepts, acceptsOnly, ih a (by simp)]
    | _ :: _ :: _, _ => rfl
  | rep m lo hi a ih =>
    funext x
    match lo, hi with
    | 1, .fin 1 => simp only [accepts, ih]
    | 0, _ => simp only [accepts]
    | 1, .fin 0 => simp only [accepts]
    | 1, .fin (_ + 2) => simp only [accepts]
    | 1, .inf => simp only [accepts]
    | _ + 2, _ => simp only [accepts]
  | _ => funext x; simp only [accepts]

theorem repeats_iff {P Q : Memory → List Byte → Memory → Prop} (h : ∀ e w e', P e w e' ↔ Q e w e') (n : Nat) (e : Memory) (w : List Byte) (e' : Memory) :
    Repeats P n e w e' ↔ Repeats Q n e w e' := by
  have : P = Q := by funext e w e'; exact propext (h e w e')
  rw [this]

/-- What is said depends neither on the modes of the quantifiers nor on the flags that are about preferences. -/
theorem says_unbiased {f f' : Flags} (h1 : f.icase = f'.icase) (h2 : f.dotall = f'.dotall) (a : Ast) : ∀ e w e', Says f a e w e' ↔ Says f' (unbiased a) e w e' := by
  induction a using ind with
  | seq l ih =>
    simp only [unbiased, Says]
    induction l with
    | nil => simp only [unbiasedAll, SaysAll, implies_true]
    | cons a l ihl =>
      intro e w e'
      simp only [unbiasedAll, SaysAll, ih a (by simp), ihl fun b hb => ih b (List.mem_cons_of_mem _ hb)]
  | alt l ih =>
    simp only [unbiased, Says]
    induction l with
    | nil => simp only [unbiasedAll, SaysAny, implies_true]
    | cons a l ihl =>
      intro e w e'
      simp only [unbiasedAll, SaysAny, ih a (by simp), ihl fun b hb => ih b (List.mem_cons_of_mem _ hb)]
  | cap k n a ih => intro e w e'; simp only [unbiased, Says, ih]
  | rep m lo hi a ih =>
    intro e w e'
    simp only [unbiased, Says, repeats_iff ih]
  | backref k => intro e w e'; simp only [unbiased, Says, h1]
  | _ => intro e w e'; simp only [unbiased, Says, accepts_flags h1 h2]

/-- **C92**: two regexes that differ in the modes of quantifiers only (and in flags other than `icase` and `dotall`) accept the same texts, also with references,
and give the same groups for every text that is said in one way only. -/
theorem C92_preferences (R R' : Regex) (cat cat' : Cat) (hR : R.Ok cat) (hR' : R'.Ok cat') (ha : wordy R.ast = true) (ha' : wordy R'.ast = true)
    (ht : traceable R.ast = true) (ht' : traceable R'.ast = true) (h : unbiased R.ast = unbiased R'.ast) (hi : R.fl.icase = R'.fl.icase)
    (hd : R.fl.dotall = R'.fl.dotall) (s : List Byte) :
    ∃ res res', R.invoke .match cat s = some res ∧ R'.invoke .match cat' s = some res' ∧ res.matched = res'.matched ∧
      (res.matched = true → ∀ k g g', k ≠ 0 → visitedOnce k R.ast = true → visitedOnce k R'.ast = true → Unambiguous R.fl R.ast s k →
        res.group k = some g → res'.group k = some g' → heldText s g = heldText s g') := by
  have hs : ∀ e w e', Says R.fl R.ast e w e' ↔ Says R'.fl R'.ast e w e' := fun e w e' => by
    rw [says_unbiased (f := R.fl) (f' := R.fl) rfl rfl, says_unbiased (f := R'.fl) (f' := R.fl) hi.symm hd.symm, h]
  obtain ⟨res, h1, h2, h3⟩ := C92_match R cat hR ha ht s
  obtain ⟨res', h1', h2', h3'⟩ := C92_match R' cat' hR' ha' ht' s
  have hm : res.matched = true ↔ res'.matched = true := by rw [h2, h2']; simp only [hs]
  refine ⟨res, res', h1, h1', Bool.eq_iff_iff.2 hm, fun hmm k g g' hk hv hv' hu hg hg' => ?_⟩
  obtain ⟨e, h4, h5⟩ := h3 hmm
  obtain ⟨e', h4', h5'⟩ := h3' (hm.1 hmm)
  have e1 := (h5 k g hk hg).resolve_right (fun h => by rw [hv] at h; cases h.1)
  have e2 := (h5' k g' hk hg').resolve_right (fun h => by rw [hv'] at h; cases h.1)
  rw [e1, e2]
  exact hu _ _ h4 ((hs _ _ _).2 h4')

/-- `(a*)(b?)\1` says `aba` in one way. -/
def exSays : Regex := ⟨.seq [.cap 1 none (star (.lit (ch 'a'))), .cap 2 none (.rep .greedy 0 (.fin 1) (.lit (ch 'b'))), .backref 1], []⟩
example : exSays.Ok .randomAccess ∧ wordy exSays.ast = true ∧ traceable exSays.ast = true ∧ visitedOnce 1 exSays.ast = true ∧
    exSays.invoke .match .randomAccess [ch 'a', ch 'b', ch 'a'] = some ⟨[some (0, 3), some (0, 1), some (1, 2)], true⟩ :=
  ⟨Regex.ok_of_okb (by decide), by decide, by decide, by decide, by decide⟩

/-- **C92**, for ambiguous texts the preferences do matter: `(a*)(a*)` and `(a*?)(a*)` on `a`. -/
theorem C92_ambiguous_matters : ∃ (R R' : Regex) (s : List Byte) (res res' : Result), R.Ok .randomAccess ∧ R'.Ok .randomAccess ∧ wordy R.ast = true ∧
    wordy R'.ast = true ∧ traceable R.ast = true ∧ traceable R'.ast = true ∧ unbiased R.ast = unbiased R'.ast ∧ R.fl = R'.fl ∧
    R.invoke .match .randomAccess s = some res ∧ R'.invoke .match .randomAccess s = some res' ∧ res.matched = true ∧
    res.group 1 = some (some (0, 1)) ∧ res'.group 1 = some (some (0, 0)) :=
  ⟨⟨.seq [.cap 1 none (star (.lit (ch 'a'))), .cap 2 none (star (.lit (ch 'a')))], []⟩,
    ⟨.seq [.cap 1 none (.rep .lazy 0 .inf (.lit (ch 'a'))), .cap 2 none (star (.lit (ch 'a')))], []⟩, [ch 'a'], ⟨[some (0, 1), some (0, 1), some (1, 1)], true⟩,
    ⟨[some (0, 1), some (0, 0), some (0, 1)], true⟩, Regex.ok_of_okb (by decide), Regex.ok_of_okb (by decide), by decide, by decide, by decide, by decide, rfl, rfl,
    by decide, by decide, rfl, rfl, rfl⟩

end Mregex
