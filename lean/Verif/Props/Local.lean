import Verif.Proof.Local
import Verif.Props.Language

/-!
# C47, C48: matching is local; mirroring
-/

namespace Mregex
open Ast Spec

theorem selfContained_declarative {a : Ast} (hs : selfContained a = true) (hp : noPossessive a = true) : declarative a = true := by
  simp [declarative, selfContained_noBackref hs, hp, selfContained_behindOk hs]

/-- `(a|bc)*d?`. -/
def exLocal : Regex :=
  ⟨.seq [star (.cap 1 none (.alt [.lit (ch 'a'), .seq [.lit (ch 'b'), .lit (ch 'c')]])), .rep .greedy 0 (.fin 1) (.lit (ch 'd'))], []⟩

theorem exLocal_ok : exLocal.Ok .randomAccess := Regex.ok_of_okb (by decide)
theorem exLocal_local : selfContained exLocal.ast = true ∧ noPossessive exLocal.ast = true := by decide

/-! ## C47 -/

/-- **C47** fails with possessive quantifiers: `a*+` matches `a`, but not the first `a` of `aa`. -/
theorem C47_false : ∃ (R : Regex) (w v : List Byte) (res : Result), R.Ok .randomAccess ∧ selfContained R.ast = true ∧
    R.match w = some res ∧ res.matched = true ∧
    ∃ q c, mtch (R.env .randomAccess (w ++ v)) (fuelFor R.ast (w ++ v)) R.ast 0 0 (initCtx R.names) (equals w.length) = .ok ⟨q, false⟩ c :=
  ⟨⟨.rep .possessive 0 .inf (.lit (ch 'a')), []⟩, [ch 'a'], [ch 'a'], ⟨[some (0, 1)], true⟩, Regex.ok_of_okb (by decide), by decide,
    by decide, rfl, 2, [none], by decide⟩

/-- **C47**, partial: matching the stretch `w` of the text `u ++ w ++ v` (start after `u`, demand that the match ends before `v`) succeeds iff `match` succeeds on `w` alone.
Missing: possessive quantifiers and atomic groups, for which this is false (`C47_false`). -/
theorem C47_stretch_partial (R : Regex) (cat : Cat) (hR : R.Ok cat) (hs : selfContained R.ast = true) (hp : noPossessive R.ast = true)
    (u w v : List Byte) :
    ∃ res q b c, R.match w cat = some res ∧
      mtch (R.env cat (u ++ w ++ v)) (fuelFor R.ast (u ++ w ++ v)) R.ast 0 u.length (initCtx R.names) (equals (u.length + w.length)) = .ok ⟨q, b⟩ c ∧
      (b = true ↔ res.matched = true) := by
  have hd := selfContained_declarative hs hp
  obtain ⟨res, h1, h2⟩ := C02_match_language R cat hR hd w
  have hu : u.length ≤ (R.env cat (u ++ w ++ v)).inp.length := by simp only [Regex.env, List.length_append]; omega
  have hden := mtch_den (E := R.env cat (u ++ w ++ v)) (I := fun c => c.length = R.names.length) (fun _ h => h) (fuelFor R.ast (u ++ w ++ v)) R.ast 0 (hR _)
    (selfContained_noBackref hs) (Nat.le_refl _) capStable_len u.length (initCtx R.names) (equals (u.length + w.length))
    (fun q => if q = u.length + w.length then some q else none) hu (length_init _) (fun q c' _ hc' => by
      by_cases hq : q = u.length + w.length
      · simp [View, Post, equals, hq, hc']
      · have : (q == u.length + w.length) = false := by simpa using hq
        simp [View, Post, equals, this, hq, hc'])
  rw [findSome?_eq_end] at hden
  have hmem : u.length + w.length ∈ ends R.fl (u ++ w ++ v) R.ast true false u.length ↔ Matches R.fl w R.ast 0 w.length := by
    rw [mem_ends_iff hR hd (by simp only [List.length_append]; omega)]
    have := matches_window (f := R.fl) hs (s := u ++ w ++ v) (s' := w) (i := u.length) (i' := 0) (n := w.length) (fun k hk => by
      rw [List.append_assoc, List.getElem?_append_right (by omega), List.getElem?_append_left (by omega)]
      congr 1
      omega)
    simpa using this
  rw [← hmem] at h2
  rcases hden.elim with ⟨q, c, h3, h4, _⟩ | ⟨q, c, h3, h4, _⟩
  · refine ⟨res, q, true, c, h1, h3, ⟨fun _ => h2.2 ?_, fun _ => rfl⟩⟩
    split at h4
    · next h => exact h
    · cases h4
  · refine ⟨res, q, false, c, h1, h3, ⟨fun h => (by cases h), fun h => ?_⟩⟩
    split at h4
    · cases h4
    · next hn => exact absurd (h2.1 h) hn

/-- The stretch `aabcd` of `xaabcdd`. -/
example : exLocal.Ok .randomAccess ∧ selfContained exLocal.ast = true ∧ noPossessive exLocal.ast = true ∧
    (exLocal.match [ch 'a', ch 'a', ch 'b', ch 'c', ch 'd']).map Result.matched = some true :=
  ⟨exLocal_ok, exLocal_local.1, exLocal_local.2, by decide⟩

/-- **C47**, partial, for the results of the three methods: the text that a successful call reports is also matched on its own. -/
theorem C47_reported_partial (R : Regex) (cat : Cat) (hR : R.Ok cat) (hs : selfContained R.ast = true) (hp : noPossessive R.ast = true)
    (s : List Byte) (M : Method) (res : Result) (h : R.invoke M cat s = some res) (hm : res.matched = true) :
    ∃ b e res', res.group 0 = some (some (b, e)) ∧ b ≤ e ∧ e ≤ s.length ∧
      R.match ((s.drop b).take (e - b)) cat = some res' ∧ res'.matched = true := by
  have hd := selfContained_declarative hs hp
  have key : ∀ b e, b ≤ e → e ≤ s.length → Matches R.fl s R.ast b e →
      ∃ res', R.match ((s.drop b).take (e - b)) cat = some res' ∧ res'.matched = true := by
    intro b e hbe he hM
    obtain ⟨res', h1, h2⟩ := C02_match_language R cat hR hd ((s.drop b).take (e - b))
    refine ⟨res', h1, h2.2 ?_⟩
    have hl : ((s.drop b).take (e - b)).length = e - b := by simp only [List.length_take, List.length_drop]; omega
    have := (matches_window (f := R.fl) hs (s := s) (s' := (s.drop b).take (e - b)) (i := b) (i' := 0) (n := e - b) (fun k hk => by
      rw [List.getElem?_take, Nat.zero_add, if_pos hk, List.getElem?_drop])).1 (by rwa [Nat.add_sub_cancel' hbe])
    rw [hl]
    simpa using this
  cases M with
  | «match» =>
    obtain ⟨r, h1, h2⟩ := C02_match_language R cat hR hd s
    rw [show R.match s cat = some res from h] at h1
    cases h1
    obtain ⟨q, c, h3, h4⟩ := Regex.match_eq h
    have hv := Regex.match_view (s := s) (fun _ h => h) hR (selfContained_noBackref hs) capStable_len (Nat.zero_le _) (length_init R.names)
    rw [h3, hm] at hv
    have hv := hv.of_true
    split at hv
    · have hq : s.length = q := Option.some.inj hv.1
      subst hq
      obtain ⟨res', h5, h6⟩ := key 0 s.length (Nat.zero_le _) (Nat.le_refl _) (h2.1 hm)
      refine ⟨0, s.length, res', ?_, Nat.zero_le _, Nat.le_refl _, h5, h6⟩
      simp [Result.group, h4, hv.2, Regex.names]
    · cases hv.1
  | matchPrefix =>
    obtain ⟨r, h1, _, h2⟩ := C03_matchPrefix_language R cat hR hd s
    rw [show R.matchPrefix s cat = some res from h] at h1
    cases h1
    obtain ⟨j, h3, h4, h5⟩ := h2 hm
    obtain ⟨res', h6, h7⟩ := key 0 j (Nat.zero_le _) h3 h5
    exact ⟨0, j, res', h4, Nat.zero_le _, h3, h6, h7⟩
  | search =>
    obtain ⟨r, h1, _, h2⟩ := C04_search_leftmost R cat hR hd s
    rw [show R.search s cat = some res from h] at h1
    cases h1
    obtain ⟨i, j, h3, h4, h5, h6, _⟩ := h2 hm
    obtain ⟨res', h7, h8⟩ := key i j h3 h4 h6
    exact ⟨i, j, res', h5, h3, h4, h7, h8⟩

/-- **C47**, partial: a text that is matched on its own is found in every text that contains it, there or earlier. -/
theorem C47_found_partial (R : Regex) (cat : Cat) (hR : R.Ok cat) (hs : selfContained R.ast = true) (hp : noPossessive R.ast = true)
    (u w v : List Byte) (res : Result) (h : R.match w cat = some res) (hm : res.matched = true) :
    ∃ res' b e, R.search (u ++ w ++ v) cat = some res' ∧ res'.matched = true ∧ res'.group 0 = some (some (b, e)) ∧ b ≤ u.length := by
  have hd := selfContained_declarative hs hp
  obtain ⟨r, h1, h2⟩ := C02_match_language R cat hR hd w
  rw [h] at h1
  cases h1
  obtain ⟨res', h3, h4, h5⟩ := C04_search_leftmost R cat hR hd (u ++ w ++ v)
  have hM : Matches R.fl (u ++ w ++ v) R.ast u.length (u.length + w.length) := by
    refine (matches_window (f := R.fl) hs (s := u ++ w ++ v) (s' := w) (i := u.length) (i' := 0) (n := w.length) (fun k hk => ?_)).2 ?_
    · rw [List.append_assoc, List.getElem?_append_right (by omega), List.getElem?_append_left (by omega)]
      congr 1
      omega
    · simpa using h2.1 hm
  have hm' := h4.2 ⟨u.length, _, by simp only [List.length_append]; omega, hM⟩
  obtain ⟨i, j, _, _, h6, _, h7⟩ := h5 hm'
  refine ⟨res', i, j, h3, hm', h6, Nat.le_of_not_lt (fun hlt => h7 _ _ hlt hM)⟩

/-- **C47** for the text before, including possessive constructs: the attempt to match a prefix of `w` inside of `u ++ w` gives the same verdict and the same end
as on `w` alone. -/
theorem C47_before (R : Regex) (cat : Cat) (hR : R.Ok cat) (hs : selfContained R.ast = true) (u w : List Byte) :
    ∃ q b c q' c',
      Method.matchPrefix.invoke (R.env cat (u ++ w)) (fuelFor R.ast (u ++ w)) R.ast u.length (initCtx R.names) = .ok ⟨q, b⟩ c ∧
      Method.matchPrefix.invoke (R.env cat w) (fuelFor R.ast w) R.ast 0 (initCtx R.names) = .ok ⟨q', b⟩ c' ∧ (b = true → q = u.length + q') := by
  obtain ⟨⟨q, b⟩, c, h1, h2⟩ := C06_matchPrefix R cat hR (selfContained_noBackref hs) (u ++ w) u.length (by simp) _ (length_init _)
  obtain ⟨⟨q', b'⟩, c', h3, h4⟩ := C06_matchPrefix R cat hR (selfContained_noBackref hs) w 0 (Nat.zero_le _) _ (length_init _)
  have hsh := ends_shift (f := R.fl) hs u w 0 (Nat.zero_le _)
  rw [Nat.add_zero] at hsh
  rw [hsh, List.head?_map, ← h4] at h2
  dsimp only at h2
  cases b <;> cases b' <;> simp at h2
  · exact ⟨q, false, c, q', c', h1, h3, fun h => (by cases h)⟩
  · exact ⟨q, true, c, q', c', h1, h3, fun _ => h2⟩

/-- `a*+b` after `xa`. -/
example : (Regex.mk (.seq [.rep .possessive 0 .inf (.lit (ch 'a')), .lit (ch 'b')]) []).Ok .randomAccess ∧
    selfContained (.seq [.rep .possessive 0 .inf (.lit (ch 'a')), .lit (ch 'b')]) = true := ⟨Regex.ok_of_okb (by decide), by decide⟩

/-! ## C48 -/

/-- **C48**: the mirrored regex matches exactly the reversed texts. -/
theorem C48_mirror (a : Ast) (flags : List RegexFlag) (cat : Cat) (hs : selfContained a = true) (hp : noPossessive a = true)
    (hR : (Regex.mk a flags).Ok cat) (hR' : (Regex.mk (invert a) flags).Ok cat) (s : List Byte) :
    ∃ res res', (Regex.mk a flags).match s cat = some res ∧ (Regex.mk (invert a) flags).match s.reverse cat = some res' ∧
      (res'.matched = true ↔ res.matched = true) := by
  have hs' : declarative (invert a) = true :=
    selfContained_declarative (by rw [selfContained_invert]; exact hs) (by rw [noPossessive_invert]; exact hp)
  obtain ⟨res, h1, h2⟩ := C02_match_language _ cat hR (selfContained_declarative hs hp) s
  obtain ⟨res', h3, h4⟩ := C02_match_language _ cat hR' hs' s.reverse
  refine ⟨res, res', h1, h3, ?_⟩
  rw [h2, h4]
  exact matches_mirror hs (by simp) (by simp)

/-- **C48**: mirroring twice gives the regex back, for every regex. -/
theorem C48_involution (a : Ast) : invert (invert a) = a := invert_invert

/-- `exLocal` and its mirror image. -/
example : exLocal.Ok .randomAccess ∧ (Regex.mk (invert exLocal.ast) []).Ok .randomAccess ∧
    ((Regex.mk (invert exLocal.ast) []).match [ch 'd', ch 'c', ch 'b', ch 'a']).map Result.matched = some true :=
  ⟨exLocal_ok, Regex.ok_of_okb (by decide), by decide⟩

end Mregex
