import Verif.Proof.UnicodeOrder
import Verif.Props.Unicode
import Verif.Props.Ways

/-!
# The order of preference over Unicode characters
-/

namespace Mregex
open Ast Spec

/-! ## C113 -/

variable {e : UExpr} {fl : List RegexFlag} {cat : Cat}

/-- **C113**: `match_prefix` reports the preferred one of the prefixes; with all quantifiers. -/
theorem C113_matchPrefix (he : e.Ranged) (hR : (Regex.mk e.tree fl).Ok cat) (u : List Char) :
    ∃ res, (Regex.mk e.tree fl).matchPrefix (utf8 u) cat = some res ∧
      ∀ l, l = e.ends (Flags.ofList fl).icase (Flags.ofList fl).ungreedy u 0 →
        (res.matched = true ↔ l ≠ []) ∧ ∀ q, l.head? = some q → q ≤ u.length ∧ res.group 0 = some (some (0, byteAt u q)) := by
  have h := Regex.prefix_view (s := utf8 u) (fun _ h => h) hR (noBackref_tree e) capStable_len (Nat.zero_le _) (length_init (Regex.mk e.tree fl).names)
  have ha := (alike_ends (Flags.ofList fl) u he (wf_of_ok (hR (utf8 u))) 0 (Nat.zero_le _)).head?
  rw [byteAt_zero, List.head?_map] at ha
  rcases h.elim with ⟨q, c', h1, h2⟩ | ⟨q, c', h1, h2⟩
  · refine ⟨⟨c'.set 0 (some (0, q)), true⟩, by simp only [Regex.matchPrefix, Regex.invoke, Method.invoke, prefixMethod, h1, setGroup0], ?_⟩
    rintro l rfl
    have h3 := ha.symm.trans h2.1
    refine ⟨⟨fun _ h => (by rw [h] at h3; cases h3), fun _ => rfl⟩, fun r hr => ?_⟩
    rw [hr, Option.map_some, Option.some.injEq] at h3
    subst h3
    exact ⟨(onwards_ends _ _ u e 0 r (Nat.zero_le _) (List.mem_of_head? hr)).2, by simp [Result.group, h2.2, Regex.names]⟩
  · refine ⟨⟨c'.set 0 (some (0, q)), false⟩, by simp only [Regex.matchPrefix, Regex.invoke, Method.invoke, prefixMethod, h1, setGroup0], ?_⟩
    rintro l rfl
    have h3 := ha.symm.trans h2.1
    rw [Option.map_eq_none_iff] at h3
    exact ⟨⟨fun h => (by cases h), fun h => absurd (List.head?_eq_none_iff.1 h3) h⟩, fun r hr => by rw [h3] at hr; cases hr⟩

/-- **C113**: `match` accepts exactly if an attempt ends at the end of the text; with all quantifiers. -/
theorem C113_match (he : e.Ranged) (hR : (Regex.mk e.tree fl).Ok cat) (u : List Char) :
    ∃ res, (Regex.mk e.tree fl).match (utf8 u) cat = some res ∧
      (res.matched = true ↔ u.length ∈ e.ends (Flags.ofList fl).icase (Flags.ofList fl).ungreedy u 0) := by
  obtain ⟨res, c', h1, h2, _⟩ := C06_match ⟨e.tree, fl⟩ cat hR (noBackref_tree e) (utf8 u) 0 (Nat.zero_le _) _ (length_init _)
  refine ⟨⟨c', res.matched⟩, by simp only [Regex.match, Regex.invoke, h1], h2.trans ?_⟩
  have ha := (alike_ends (Flags.ofList fl) u he (wf_of_ok (hR (utf8 u))) 0 (Nat.zero_le _)).mem (q := (utf8 u).length)
  rw [byteAt_zero] at ha
  refine ha.trans ?_
  rw [List.mem_map]
  constructor
  · rintro ⟨q, hq, h⟩
    rw [← byteAt_end] at h
    rw [← (alike_inj byteAt_lt (onwards_ends _ _ u e 0 q (Nat.zero_le _) hq).2 (Nat.le_refl _)).1 h]
    exact hq
  · exact fun h => ⟨_, h, byteAt_end u⟩

/-- **C113**: the attempts end where the language allows it. -/
theorem C113_attempts (he : e.Fine) (hR : (Regex.mk e.tree fl).Ok cat) (u : List Char) (p q : Nat) (hp : p ≤ q) (hq : q ≤ u.length) :
    q ∈ e.ends (Flags.ofList fl).icase (Flags.ofList fl).ungreedy u p ↔ (u.take q).drop p ∈ e.lang (Flags.ofList fl).icase := by
  have hs := simple_tree he
  have ha := (alike_ends (Flags.ofList fl) u (ranged_of_fine he) (wf_of_ok (hR (utf8 u))) p (by omega)).mem (q := byteAt u q)
  have h1 : byteAt u q ∈ (e.ends (Flags.ofList fl).icase (Flags.ofList fl).ungreedy u p).map (byteAt u) ↔ q ∈ e.ends (Flags.ofList fl).icase (Flags.ofList fl).ungreedy u p := by
    rw [List.mem_map]
    constructor
    · rintro ⟨r, hr, h⟩
      rw [← (alike_inj byteAt_lt (onwards_ends _ _ u e p r (by omega) hr).2 hq).1 h]
      exact hr
    · exact fun h => ⟨_, h, rfl⟩
  rw [← h1, ← ha]
  refine (mem_ends_iff hR (selfContained_declarative hs.1 hs.2) (byteAt_le p (by omega))).trans ?_
  have e1 : u.take q = u.take p ++ (u.take q).drop p := by
    have := (List.take_append_drop p (u.take q)).symm
    rwa [List.take_take, Nat.min_eq_left hp] at this
  have e2 : byteAt u q = (utf8 (u.take p)).length + (utf8 ((u.take q).drop p)).length := by
    unfold byteAt; rw [← List.length_append, ← utf8_append, ← e1]
  rw [e2]
  exact (matches_tree (f := Flags.ofList fl) he (pre := utf8 (u.take p)) (w := utf8 ((u.take q).drop p)) (post := utf8 (u.drop q))
    (by rw [← utf8_append, ← utf8_append, ← e1, List.take_append_drop])).trans utf8_mem_encoded

/-- **C113**: `search` reports the preferred one of the leftmost parts; with all quantifiers. -/
theorem C113_search (he : e.Ranged) (hR : (Regex.mk e.tree fl).Ok cat) (u : List Char) :
    ∃ res, (Regex.mk e.tree fl).search (utf8 u) cat = some res ∧
      (res.matched = true → ∃ p q, p ≤ q ∧ q ≤ u.length ∧ res.group 0 = some (some (byteAt u p, byteAt u q)) ∧
        (e.ends (Flags.ofList fl).icase (Flags.ofList fl).ungreedy u p).head? = some q ∧
        ∀ p' < p, e.ends (Flags.ofList fl).icase (Flags.ofList fl).ungreedy u p' = []) ∧
      (res.matched = false → ∀ p ≤ u.length, e.ends (Flags.ofList fl).icase (Flags.ofList fl).ungreedy u p = []) := by
  obtain ⟨res, c', k1, k2, k3⟩ := C06_search ⟨e.tree, fl⟩ cat hR (noBackref_tree e) (utf8 u) 0 (Nat.zero_le _) _ (length_init _)
  have ha := alike_ends (Flags.ofList fl) u he (wf_of_ok (hR (utf8 u)))
  have hz : ∀ p, p ≤ u.length → ends (Flags.ofList fl) (utf8 u) e.tree true false (byteAt u p) = [] → e.ends (Flags.ofList fl).icase (Flags.ofList fl).ungreedy u p = [] := by
    intro p hp h
    have := (ha p hp).isEmpty
    rw [h] at this
    simpa using this
  refine ⟨⟨c', res.matched⟩, by simp only [Regex.search, Regex.invoke, k1], fun hm => ?_, fun hm p hp => hz p hp (k3 hm _ (Nat.zero_le _) (byteAt_le p hp))⟩
  obtain ⟨i, _, hi, k4, k5, k6⟩ := k2 hm
  obtain ⟨p, _, hp, rfl⟩ := leftmost_boundary he (wf_of_ok (hR (utf8 u))) (Nat.zero_le _) (by rw [byteAt_zero]; exact Nat.zero_le _) hi
    (List.ne_nil_of_mem (List.mem_of_head? k5)) (fun i' _ h => k6 i' (Nat.zero_le _) h)
  have h4 := (ha p hp).head?
  have k5' : (ends (Flags.ofList fl) (utf8 u) e.tree true false (byteAt u p)).head? = some res.pos := k5
  rw [k5', List.head?_map] at h4
  obtain ⟨q, hq, hq'⟩ := Option.map_eq_some_iff.1 h4.symm
  have h5 := onwards_ends _ _ u e _ q hp (List.mem_of_head? hq)
  exact ⟨p, q, h5.1, h5.2, by rw [hq']; exact k4, hq, fun p' hp' => hz p' (by omega) (k6 _ (Nat.zero_le _) (byteAt_lt _ _ hp' hp))⟩

/-- **C113**: a loop over `tokenize` visits the preferred pieces, one directly after the other; with all quantifiers. -/
theorem C113_tokenize (he : e.Ranged) (hR : (Regex.mk e.tree fl).Ok cat) (u : List Char) (rounds : Nat) (hr : (utf8 u).length + 2 ≤ rounds) :
    ∃ rs l, rangeElements ⟨e.tree, fl⟩ tokenizeMethod cat (utf8 u) rounds = some (rs, true) ∧
      rs.map (·.group 0) = l.map (fun x => some (some (byteAt u x.1, byteAt u x.2))) ∧
      Takes (fun p => (e.ends (Flags.ofList fl).icase (Flags.ofList fl).ungreedy u p).head?) 0 l := by
  have ha := alike_ends (Flags.ofList fl) u he (wf_of_ok (hR (utf8 u)))
  obtain ⟨rs, ranges, h1, h2, h3⟩ := C96_tokens ⟨e.tree, fl⟩ cat hR (noBackref_tree e) (utf8 u) rounds hr
  obtain ⟨l, h4, rfl⟩ := takes_alike (n := u.length) (o := byteAt u) byteAt_lt
    (first' := fun p => (e.ends (Flags.ofList fl).icase (Flags.ofList fl).ungreedy u p).head?)
    (fun p hp => by
      have := (ha p hp).head?
      rw [List.head?_map] at this
      exact this)
    (fun p q hp h => onwards_ends _ _ u e p q hp (List.mem_of_head? h)) h3 0 (Nat.zero_le _) rfl
  exact ⟨rs, l, h1, by rw [h2, List.map_map]; rfl, h4⟩

/-- **C113**: a loop over `find_all` visits the preferred one of the leftmost pieces of what is left; with all quantifiers. -/
theorem C113_findAll (he : e.Ranged) (hR : (Regex.mk e.tree fl).Ok cat) (u : List Char) (rounds : Nat) (hr : (utf8 u).length + 2 ≤ rounds) :
    ∃ rs l, rangeElements ⟨e.tree, fl⟩ findAllMethod cat (utf8 u) rounds = some (rs, true) ∧
      rs.map (·.group 0) = l.map (fun x => some (some (byteAt u x.1, byteAt u x.2))) ∧
      Finds u.length (fun p => (e.ends (Flags.ofList fl).icase (Flags.ofList fl).ungreedy u p).head?) 0 l := by
  have ha := alike_ends (Flags.ofList fl) u he (wf_of_ok (hR (utf8 u)))
  obtain ⟨rs, ranges, h1, h2, h3⟩ := C31_find_all_partial ⟨e.tree, fl⟩ cat hR (noBackref_tree e) (utf8 u) rounds hr
  obtain ⟨l, h4, rfl⟩ := finds_alike (n := u.length) (o := byteAt u) byteAt_lt
    (first' := fun p => (e.ends (Flags.ofList fl).icase (Flags.ofList fl).ungreedy u p).head?)
    (fun p hp => by
      have := (ha p hp).head?
      rw [List.head?_map] at this
      exact this)
    (fun p q hp h => onwards_ends _ _ u e p q hp (List.mem_of_head? h)) byteAt_le
    (fun p i j hp hpi hi h hn => leftmost_boundary he (wf_of_ok (hR (utf8 u))) hp hpi hi (List.ne_nil_of_mem (List.mem_of_head? h))
      (fun i' h1 h2 => List.head?_eq_none_iff.1 (hn i' h1 h2))) h3 0 (Nat.zero_le _) rfl
  exact ⟨rs, l, h1, by rw [h2, List.map_map]; rfl, h4⟩

/-- **C113**: groups hold whole characters: text of a group is a part of the text that is in the language of the group; in every result of every call of a generator. -/
theorem C113_groups_generators (hR : (Regex.mk e.tree fl).Ok cat) (M : Method) (u : List Char) (g : Gen) (hc : g.current ≤ (utf8 u).length) (res : Result) (g' : Gen)
    (h : genNext ⟨e.tree, fl⟩ M cat (utf8 u) g = some (res, g')) (k b t : Nat)
    (hk : k ≠ 0) (hk' : k ≤ captureCount e.tree) (ha : ∀ a, UExpr.Around k a e → a.Fine) (hg : res.group k = some (some (b, t))) (hbt : b < t) :
    ∃ a p q, UExpr.Around k a e ∧ p < q ∧ q ≤ u.length ∧ b = byteAt u p ∧ t = byteAt u q ∧ (u.take q).drop p ∈ a.lang (Flags.ofList fl).icase := by
  obtain ⟨body, h1, h2⟩ := C10_group_partial ⟨e.tree, fl⟩ cat hR (behindOk_tree e) M (utf8 u) g hc res g' h k b t hk hk'
    (fun body hb => by
      obtain ⟨a, rfl, h1⟩ := groupBody_tree hb
      exact ⟨noBackref_tree a, (simple_tree (ha a h1)).2⟩) hg hbt
  obtain ⟨a, rfl, h3⟩ := groupBody_tree h1
  have ht := (C09_generators ⟨e.tree, fl⟩ cat hR M (utf8 u) g hc res g' h k b t hk hk' hg).2 hbt
  obtain ⟨x, v, y, hu, hv, hne, hx, hy⟩ := piece_of_matches (ha a h3) hbt ht h2
  refine ⟨a, x.length, x.length + v.length, h3, ?_, ?_, ?_, ?_, ?_⟩
  · have := List.length_pos_iff.2 hne; omega
  · rw [hu]; simp only [List.length_append]; omega
  · rw [← hx, byteAt, hu]; simp
  · rw [← hy, byteAt, hu, ← List.length_append, ← utf8_append, ← List.length_append, List.take_left' rfl]
  · rw [hu, ← List.length_append, List.take_left' rfl, List.drop_left' rfl]; exact hv

/-- **C113**: the same for the methods, also for those that fail. -/
theorem C113_groups (hR : (Regex.mk e.tree fl).Ok cat) (M : Method) (u : List Char) (res : Result) (h : (Regex.mk e.tree fl).invoke M cat (utf8 u) = some res) (k b t : Nat)
    (hk : k ≠ 0) (hk' : k ≤ captureCount e.tree) (ha : ∀ a, UExpr.Around k a e → a.Fine) (hg : res.group k = some (some (b, t))) (hbt : b < t) :
    ∃ a p q, UExpr.Around k a e ∧ p < q ∧ q ≤ u.length ∧ b = byteAt u p ∧ t = byteAt u q ∧ (u.take q).drop p ∈ a.lang (Flags.ofList fl).icase := by
  obtain ⟨g, hn⟩ := genNext_of_invoke h
  exact C113_groups_generators hR M u {} (Nat.zero_le _) res g hn k b t hk hk' ha hg hbt

/-! Examples. -/

/-- `.*?é`: the first é is preferred, although there is a second one. -/
def exNearest : UExpr := .cat (.rep .lazy 0 .inf .any) (.char 'é')

theorem exNearest_ranged : exNearest.Ranged := ⟨trivial, trivial⟩
theorem exNearest_ok : (Regex.mk exNearest.tree []).Ok .forward := Regex.ok_of_okb (by decide)

open Classical in
theorem exNearest_ends : (exNearest.ends false false ['ü', 'é', 'é'] 0).head? = some 2 := by
  have h1 : ∀ d : Char, [d] ∈ UExpr.any.lang false := fun d => ⟨d, rfl, trivial⟩
  have h2 : ∀ d : Char, [d] ∈ (UExpr.char 'é').lang false ↔ d = 'é' := by
    intro d
    constructor
    · rintro ⟨d', h, h' | h'⟩
      · cases h; exact h'.symm
      · simp at h'
    · rintro rfl; exact ⟨_, rfl, .inl rfl⟩
  simp [exNearest, UExpr.ends, quantified, exactly, extra, lazyStar, letterEnds, h1, h2]

example : ∃ res, (Regex.mk exNearest.tree []).matchPrefix (utf8 ['ü', 'é', 'é']) .forward = some res ∧ res.group 0 = some (some (0, 4)) := by
  obtain ⟨res, h, h'⟩ := C113_matchPrefix exNearest_ranged exNearest_ok ['ü', 'é', 'é']
  exact ⟨res, h, ((h' _ rfl).2 2 exNearest_ends).2⟩

example : ∃ res, (Regex.mk exNearest.tree []).match (utf8 ['ü', 'é', 'é']) .forward = some res ∧
    (res.matched = true ↔ 3 ∈ exNearest.ends false false ['ü', 'é', 'é'] 0) := C113_match exNearest_ranged exNearest_ok _

theorem exNearest_fine : exNearest.Fine := ⟨⟨by decide, trivial⟩, trivial⟩

example : ∃ res, (Regex.mk exNearest.tree []).search (utf8 ['ü', 'é', 'é']) .forward = some res ∧ (res.matched = true → res.group 0 = some (some (0, 4))) := by
  obtain ⟨res, h, h', _⟩ := C113_search exNearest_ranged exNearest_ok ['ü', 'é', 'é']
  refine ⟨res, h, fun hm => ?_⟩
  obtain ⟨p, q, _, _, h1, h2, h3⟩ := h' hm
  rcases Nat.eq_zero_or_pos p with rfl | hp
  · obtain rfl : 2 = q := Option.some.inj (exNearest_ends.symm.trans h2)
    exact h1
  · have := exNearest_ends
    have h4 : exNearest.ends false false ['ü', 'é', 'é'] 0 = [] := h3 0 hp
    rw [h4] at this
    cases this

example : 3 ∈ exNearest.ends false false ['ü', 'é', 'é'] 0 ↔ ['ü', 'é', 'é'] ∈ exNearest.lang false :=
  C113_attempts (fl := []) exNearest_fine exNearest_ok ['ü', 'é', 'é'] 0 3 (by decide) (by decide)

example : ∃ rs l, rangeElements ⟨exNearest.tree, []⟩ tokenizeMethod .forward (utf8 ['ü', 'é', 'é']) 9 = some (rs, true) ∧
    rs.map (·.group 0) = l.map (fun x => some (some (byteAt ['ü', 'é', 'é'] x.1, byteAt ['ü', 'é', 'é'] x.2))) ∧
    Takes (fun p => (exNearest.ends false false ['ü', 'é', 'é'] p).head?) 0 l := C113_tokenize exNearest_ranged exNearest_ok _ 9 (by decide)

example : ∃ rs l, rangeElements ⟨exNearest.tree, []⟩ findAllMethod .forward (utf8 ['ü', 'é', 'é']) 9 = some (rs, true) ∧
    rs.map (·.group 0) = l.map (fun x => some (some (byteAt ['ü', 'é', 'é'] x.1, byteAt ['ü', 'é', 'é'] x.2))) ∧
    Finds 3 (fun p => (exNearest.ends false false ['ü', 'é', 'é'] p).head?) 0 l := C113_findAll exNearest_ranged exNearest_ok _ 9 (by decide)

/-- `é*+é`: nothing is given back. -/
def exGreedyLetters : UExpr := .cat (.rep .possessive 0 .inf (.char 'é')) (.char 'é')

theorem exGreedyLetters_ranged : exGreedyLetters.Ranged := ⟨trivial, trivial⟩
theorem exGreedyLetters_ok : (Regex.mk exGreedyLetters.tree []).Ok .forward := Regex.ok_of_okb (by decide)

open Classical in
theorem exGreedyLetters_ends : exGreedyLetters.ends false false ['é', 'é'] 0 = [] := by
  have h2 : ['é'] ∈ (UExpr.char 'é').lang false := ⟨_, rfl, .inl rfl⟩
  simp [exGreedyLetters, UExpr.ends, quantified, exactly, extra, possessiveStar, letterEnds, h2]

example : ∃ res, (Regex.mk exGreedyLetters.tree []).matchPrefix (utf8 ['é', 'é']) .forward = some res ∧ res.matched = false := by
  obtain ⟨res, h, h'⟩ := C113_matchPrefix exGreedyLetters_ranged exGreedyLetters_ok ['é', 'é']
  refine ⟨res, h, ?_⟩
  have := (h' _ rfl).1
  cases hm : res.matched with
  | false => rfl
  | true => exact absurd exGreedyLetters_ends (this.1 hm)

/-- `x*+(é?)`. -/
def exAccent : UExpr := .cat (.rep .possessive 0 .inf (.char 'x')) (.group 1 none (.rep .greedy 0 (.fin 1) (.char 'é')))

theorem exAccent_ok : (Regex.mk exAccent.tree []).Ok .forward := Regex.ok_of_okb (by decide)

theorem exAccent_around {a : UExpr} (h : UExpr.Around 1 a exAccent) : a.Fine := by
  unfold exAccent at h
  cases h with
  | catL h => cases h with | rep h => cases h
  | catR h =>
    cases h with
    | here => exact ⟨by decide, trivial⟩
    | group h => cases h with | rep h => cases h

theorem exAccent_match : (Regex.mk exAccent.tree []).invoke .match .forward (utf8 ['x', 'é']) = some ⟨[some (0, 3), some (1, 3)], true⟩ := by decide +kernel

example : ∃ a p q, UExpr.Around 1 a exAccent ∧ p < q ∧ q ≤ 2 ∧ 1 = byteAt ['x', 'é'] p ∧ 3 = byteAt ['x', 'é'] q ∧ (['x', 'é'].take q).drop p ∈ a.lang false :=
  C113_groups exAccent_ok .match ['x', 'é'] _ exAccent_match 1 1 3 (by decide) (by decide) (fun _ => exAccent_around) rfl (by decide)

end Mregex
