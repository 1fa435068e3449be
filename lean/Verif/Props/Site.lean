import Verif.Proof.DateSearch
import Verif.Props.Says
import Verif.Props.Parsing

/-!
# C112: example/using_expressions.cpp, example/basic.cpp and example/structured_bindings.cpp
-/

namespace Mregex
open Ast Spec

theorem site_facts : wordy urlAst = true ∧ traceable urlAst = true ∧ visitedOnce 1 urlAst = true := ⟨by decide, by decide, by decide⟩

theorem site_ok (cat : Cat) : (Regex.mk urlAst []).Ok cat := by
  cases cat <;> exact Regex.ok_of_okb rfl

theorem site_named (res : Result) : res.groupNamed (Regex.mk urlAst []).names (txt "domain") = res.group 1 :=
  C42_group _ .randomAccess (site_ok _) (k := 1) (.seq (a := .cap 1 (some (txt "domain")) (.seq (.rep .greedy 1 .inf domainClass :: (txt ".com").map .lit))) (by simp) .here) (by decide) res

/-- **C112**: the expression that example/using_expressions.cpp puts together, with any iterators: a text matches exactly if it is the text of a URL with one of the four
schemas, a name in `.com` and possibly a path.  There is only one such URL, and the group `domain` holds its name with `.com`. -/
theorem C112_expression (cat : Cat) (s : List Byte) :
    ∃ R, Xpr.eval urlExpr = some R ∧ R.Ok cat ∧ ∃ res, R.invoke .match cat s = some res ∧ (res.matched = true ↔ ∃ u : ComSite, u.Fine ∧ s = u.text) ∧
      ∀ u : ComSite, u.Fine → s = u.text → (res.groupNamed R.names (txt "domain")).map (heldText s) = some (u.name ++ txt ".com") := by
  have hR := site_ok cat
  obtain ⟨hw, ht, hv⟩ := site_facts
  obtain ⟨res, h1, h2, h3⟩ := C92_match ⟨urlAst, []⟩ cat hR hw ht s
  have hs : ∀ e, Says (Regex.mk urlAst []).fl urlAst [] s e ↔ _ := says_site s
  refine ⟨⟨urlAst, []⟩, eval_url, hR, res, h1, ?_, fun u hu hus => ?_⟩
  · rw [h2]
    simp only [hs]
    exact ⟨fun ⟨e, u, a1, a2, _⟩ => ⟨u, a1, a2⟩, fun ⟨u, a1, a2⟩ => ⟨_, u, a1, a2, rfl⟩⟩
  · have hlen : res.groups.length = 2 := (invoke_inBounds _ cat hR .match s res h1).1
    obtain ⟨e, h4, h5⟩ := h3 (h2.2 ⟨_, (hs _).2 ⟨u, hu, hus, rfl⟩⟩)
    obtain ⟨u', a1, a2, rfl⟩ := (hs e).1 h4
    obtain rfl : u' = u := site_unique a1 hu (a2.symm.trans hus)
    have hg : res.group 1 = some res.groups[1] := List.getElem?_eq_getElem (by omega)
    rw [site_named, hg, Option.map_some]
    rcases h5 1 _ (by decide) hg with h | ⟨h, _⟩
    · rw [h]; rfl
    · rw [show visitedOnce 1 urlAst = true from hv] at h
      cases h

/-- **C112**: no text is the text of two such URLs. -/
theorem C112_unique (u u' : ComSite) (hu : u.Fine) (hu' : u'.Fine) (h : u.text = u'.text) : u = u' := site_unique hu hu' h

/-- The URL of the example (example/using_expressions.cpp:30), and one with a path and dots in the name. -/
def exSite : ComSite := ⟨txt "https", txt "google", none⟩
def exSite' : ComSite := ⟨txt "ssh", txt "a.com.b-c", some (txt "x.com?y")⟩
theorem exSite_fine : exSite.Fine ∧ exSite'.Fine := by
  refine ⟨⟨by decide, ⟨by decide, by decide⟩, fun w h => by cases h⟩, ⟨by decide, ⟨by decide, by decide⟩, fun w h => ?_⟩⟩
  cases h
  decide
example : exSite.text = txt "https://google.com" ∧ exSite'.text = txt "ssh://a.com.b-c.com/x.com?y" := ⟨rfl, rfl⟩
/-- Nothing else matches: capital letters, a name that is missing, a blank in the path. -/
example : (∃ R, Xpr.eval urlExpr = some R ∧ ∀ s ∈ [txt "https://Google.com", txt "ftp://.com", txt "ssh://a.com/b c", txt "httpss://a.com"],
    (R.invoke .match .forward s).map (·.matched) = some false) := ⟨⟨urlAst, []⟩, eval_url, by decide +kernel⟩

/-- `ab+` (example/basic.cpp:7). -/
def basicAst : Ast := .seq [.lit (ch 'a'), .rep .greedy 1 .inf (.lit (ch 'b'))]

/-- **C112**: the regex of example/basic.cpp matches exactly the texts of an `a` and one or more `b`. -/
theorem C112_basic (cat : Cat) (s : List Byte) :
    ∃ a, parse (txt "ab+") = .result a .success ∧ ∃ res, (Regex.mk a []).invoke .match cat s = some res ∧
      (res.matched = true ↔ ∃ n, s = ch 'a' :: List.replicate (n + 1) (ch 'b')) := by
  have hR : (Regex.mk basicAst []).Ok cat := by cases cat <;> exact Regex.ok_of_okb rfl
  obtain ⟨res, h1, h2, _⟩ := C92_match ⟨basicAst, []⟩ cat hR (by decide) (by decide) s
  refine ⟨basicAst, rfl, res, h1, h2.trans ?_⟩
  have hb : ∀ x, accepts {} (.lit (ch 'b')) x = true ↔ x = ch 'b' := fun x => by
    simp only [accepts, Bool.false_and, Bool.or_false, beq_iff_eq]
    exact eq_comm
  have hs : ∀ e, Says (Regex.mk basicAst []).fl basicAst [] s e ↔ ∃ w, s = ch 'a' :: w ∧ Series (· = ch 'b') w ∧ e = [] := fun e => by
    show Says {} basicAst [] s e ↔ _
    simp only [basicAst, Says.eq_2, SaysAll, says_char, says_plus (f := {}) (cls := .lit (ch 'b')) (P := (· = ch 'b')) (by intros; simp only [Says]) hb]
    constructor
    · rintro ⟨_, _, _, rfl, ⟨rfl, rfl⟩, w, _, _, rfl, ⟨h, rfl⟩, rfl, rfl⟩
      exact ⟨w, by simp, h, rfl⟩
    · rintro ⟨w, rfl, h, rfl⟩
      exact ⟨[ch 'a'], w, [], rfl, ⟨rfl, rfl⟩, w, [], [], by simp, ⟨h, rfl⟩, rfl, rfl⟩
  simp only [hs]
  constructor
  · rintro ⟨_, w, h, ⟨h3, h4⟩, _⟩
    refine ⟨w.length - 1, ?_⟩
    rw [h, Nat.sub_add_cancel (List.length_pos_iff.2 h3), List.eq_replicate_of_mem h4]
    simp
  · rintro ⟨n, h⟩
    exact ⟨[], _, h, ⟨by simp, fun x hx => List.eq_of_mem_replicate hx⟩, rfl⟩

theorem slash_no_digit : ¬Digit (ch '/') := by unfold Digit; decide

/-- **C112**: the regex of example/structured_bindings.cpp, searched in a text with a date behind a text without digits, in any iterators: the date is found, and the groups hold
day, month and year.  The year is followed by something other than a digit or has four digits. -/
theorem C112_date (cat : Cat) (u d m y v : List Byte) (hu : ∀ x ∈ u, ¬Digit x) (hd : DigitsOf 1 2 d) (hm : DigitsOf 1 2 m) (hy : DigitsOf 2 4 y)
    (hv : y.length = 4 ∨ ∀ x, v.head? = some x → ¬Digit x) :
    ∃ a, parse (txt "(\\d{1,2})/(\\d{1,2})/(\\d{2,4})") = .result a .success ∧ ∃ res, (Regex.mk a []).invoke .search cat (u ++ (dateText d m y ++ v)) = some res ∧
      res.matched = true ∧ res.group 0 = some (some (u.length, u.length + (dateText d m y).length)) ∧ res.groups.length = 4 ∧
      ∀ k w, [(1, d), (2, m), (3, y)].lookup k = some w → (res.group k).map (heldText (u ++ (dateText d m y ++ v))) = some w := by
  have hR := date_ok cat
  have ht : traceable (template dateFields []) = true := by decide
  have hvis : ∀ k, k ≤ 3 → visitedOnce k (template dateFields []) = true := by decide
  generalize hs : u ++ (dateText d m y ++ v) = s
  have hus : u.length ≤ s.length := by rw [← hs]; simp
  obtain ⟨res, h1, h2, h3⟩ := C92_search ⟨template dateFields [], []⟩ cat hR (by decide) ht s
  have hmat : res.matched = true := h2.2 ⟨u, _, v, _, hs.symm, (says_date _ _).2 ⟨d, m, y, hd, hm, hy, rfl, rfl⟩⟩
  obtain ⟨i, ⟨t, w, r, e, a1, a2, a3, a4, a5⟩, h4⟩ := h3 hmat
  have hi := h4 u _ v _ hs.symm ((says_date _ _).2 ⟨d, m, y, hd, hm, hy, rfl, rfl⟩)
  obtain ⟨d', m', y', b1, b2, b3, rfl, rfl⟩ := (says_date w e).1 a4
  -- it begins with the date, since there is no digit before it
  obtain rfl : t = u := by
    have hpos : 0 < d'.length := b1.2.1
    have hc : (t ++ (dateText d' m' y' ++ r))[t.length]? = some d'[0] := by
      rw [List.getElem?_append_right (Nat.le_refl _), Nat.sub_self, dateText, List.append_assoc, List.getElem?_append_left hpos, List.getElem?_eq_getElem hpos]
    rw [← a1, ← hs] at hc
    by_cases hlt : t.length < u.length
    · rw [List.getElem?_append_left hlt] at hc
      exact absurd (b1.1 _ (List.getElem_mem hpos)) (hu _ (List.mem_of_getElem? hc))
    · exact (List.append_inj (a1.symm.trans hs.symm) (by omega)).1
  -- it ends with the date, since as many digits as possible are taken
  have hend : t.length + (dateText d m y).length = i + (dateText d' m' y').length := by
    have hb : noBackref (template dateFields []) = true := by decide
    obtain ⟨r', c', i1, i2, _⟩ := C06_search ⟨template dateFields [], []⟩ cat hR hb s 0 (Nat.zero_le _) _ (length_init _)
    have hinv : res = ⟨c', r'.matched⟩ := by
      simp only [Regex.invoke, i1, Option.some.injEq] at h1
      exact h1.symm
    subst hinv
    obtain ⟨j, _, _, i3, i4, _⟩ := i2 hmat
    have i5 : c'[0]? = some (some (i, i + (dateText d' m' y').length)) := a3
    rw [i5] at i3
    simp only [Option.some.injEq, Prod.mk.injEq] at i3
    obtain ⟨rfl, i6⟩ := i3
    have := head_date (u := t) (v := v) hd hm hy hv
    rw [hs, a2] at this
    rw [a2]
    have i4 : (ends {} s (template dateFields []) true false i).head? = _ := i4
    rw [i4, ← i6] at this
    exact (Option.some.inj this).symm
  rw [a2] at hend
  have hw : dateText d m y = dateText d' m' y' :=
    (List.append_inj (List.append_cancel_left (hs.trans a1)) (by omega)).1
  obtain ⟨rfl, hw1⟩ := cut_unique hw hd.1 b1.1 (stops_cons slash_no_digit _) (stops_cons slash_no_digit _)
  obtain ⟨rfl, hw2⟩ := cut_unique (List.cons.inj hw1).2 hm.1 b2.1 (stops_cons slash_no_digit _) (stops_cons slash_no_digit _)
  obtain rfl := (List.cons.inj hw2).2
  have hlen : res.groups.length = 4 := (invoke_inBounds _ cat hR .search s res h1).1
  refine ⟨template dateFields [], rfl, res, h1, hmat, by rw [a2]; exact a3, hlen, fun k w hk => ?_⟩
  have hk' : (k = 1 ∧ w = d) ∨ (k = 2 ∧ w = m) ∨ (k = 3 ∧ w = y) := by
    simp only [List.lookup] at hk
    split at hk
    · exact .inl ⟨by simp_all, by simp_all⟩
    · split at hk
      · exact .inr (.inl ⟨by simp_all, by simp_all⟩)
      · split at hk
        · exact .inr (.inr ⟨by simp_all, by simp_all⟩)
        · cases hk
  have hk3 : k ≠ 0 ∧ k ≤ 3 := by omega
  have hg : res.group k = some res.groups[k] := List.getElem?_eq_getElem (by omega)
  rw [hg, Option.map_some]
  rcases a5 k _ hk3.1 hg with h | ⟨h, _⟩
  · rw [h]
    rcases hk' with ⟨rfl, rfl⟩ | ⟨rfl, rfl⟩ | ⟨rfl, rfl⟩ <;> rfl
  · rw [show visitedOnce k (template dateFields []) = true from hvis k hk3.2] at h
    cases h

/-- The text of the example (example/structured_bindings.cpp:11). -/
example := C112_date .forward (txt "Today is ") (txt "07") (txt "08") (txt "2021") [] (by unfold Digit; decide) ⟨by unfold Digit; decide, by decide⟩ ⟨by unfold Digit; decide, by decide⟩
  ⟨by unfold Digit; decide, by decide⟩ (.inl rfl)
example : txt "Today is 07/08/2021" = txt "Today is " ++ (dateText (txt "07") (txt "08") (txt "2021") ++ []) := rfl

end Mregex
