import Verif.Proof.Unicode
import Verif.Props.Kleene
import Verif.Proof.OkCheck

/-!
# Regular expressions over Unicode characters
-/

namespace Mregex
open Ast Spec

/-! ## C111 -/

variable {e : UExpr} {fl : List RegexFlag} {cat : Cat}

/-- **C111**: `match` accepts the encodings of exactly the texts of the language. -/
theorem C111_match (he : e.Fine) (hR : (Regex.mk e.tree fl).Ok cat) (u : List Char) :
    ∃ res, (Regex.mk e.tree fl).match (utf8 u) cat = some res ∧ (res.matched = true ↔ u ∈ e.lang (Flags.ofList fl).icase) := by
  have hs := simple_tree he
  obtain ⟨res, h1, h2⟩ := C54_match ⟨e.tree, fl⟩ cat hR hs.1 hs.2 (utf8 u)
  refine ⟨res, h1, h2.trans ?_⟩
  show utf8 u ∈ denote (Flags.ofList fl) e.tree ↔ _
  rw [denote_tree _ he, utf8_mem_encoded]

/-- **C111**: bytes that encode no text are never accepted by `match`. -/
theorem C111_match_bytes (he : e.Fine) (hR : (Regex.mk e.tree fl).Ok cat) (s : List Byte) :
    ∃ res, (Regex.mk e.tree fl).match s cat = some res ∧ (res.matched = true ↔ ∃ u, s = utf8 u ∧ u ∈ e.lang (Flags.ofList fl).icase) := by
  have hs := simple_tree he
  obtain ⟨res, h1, h2⟩ := C54_match ⟨e.tree, fl⟩ cat hR hs.1 hs.2 s
  refine ⟨res, h1, h2.trans ?_⟩
  show s ∈ denote (Flags.ofList fl) e.tree ↔ _
  rw [denote_tree _ he, mem_encoded]
  exact ⟨fun ⟨u, h, h'⟩ => ⟨u, h', h⟩, fun ⟨u, h, h'⟩ => ⟨u, h', h⟩⟩

/-- **C111**: `match_prefix` finds a prefix of the text that is in the language, if there is one. -/
theorem C111_matchPrefix (he : e.Fine) (hR : (Regex.mk e.tree fl).Ok cat) (u : List Char) :
    ∃ res, (Regex.mk e.tree fl).matchPrefix (utf8 u) cat = some res ∧
      (res.matched = true ↔ ∃ v w, u = v ++ w ∧ v ∈ e.lang (Flags.ofList fl).icase) ∧
      (res.matched = true → ∃ v w, u = v ++ w ∧ v ∈ e.lang (Flags.ofList fl).icase ∧ res.group 0 = some (some (0, (utf8 v).length))) := by
  have hs := simple_tree he
  obtain ⟨res, h1, h2, h3⟩ := C03_matchPrefix_language ⟨e.tree, fl⟩ cat hR (selfContained_declarative hs.1 hs.2) (utf8 u)
  have key : res.matched = true → ∃ v w, u = v ++ w ∧ v ∈ e.lang (Flags.ofList fl).icase ∧ res.group 0 = some (some (0, (utf8 v).length)) := by
    intro h
    obtain ⟨j, hj, hg, hm⟩ := h3 h
    have := (matches_tree (f := Flags.ofList fl) he (s := utf8 u) (pre := []) (w := (utf8 u).take j) (post := (utf8 u).drop j) (by simp)).1
      (by rw [List.length_take, Nat.min_eq_left hj, List.length_nil, Nat.zero_add]; exact hm)
    obtain ⟨v, hv, hv'⟩ := (mem_encoded).1 this
    obtain ⟨w, hw, _⟩ := utf8_prefix (u := u) (v := v) (rest := (utf8 u).drop j) (by rw [← hv', List.take_append_drop])
    refine ⟨v, w, hw, hv, ?_⟩
    rw [hg, ← hv', List.length_take, Nat.min_eq_left hj]
  refine ⟨res, h1, ⟨fun h => ?_, ?_⟩, key⟩
  · obtain ⟨v, w, h4, h5, _⟩ := key h
    exact ⟨v, w, h4, h5⟩
  · rintro ⟨v, w, rfl, hv⟩
    exact h2.2 ⟨0 + (utf8 v).length, (matches_tree (f := Flags.ofList fl) he (pre := []) (w := utf8 v) (post := utf8 w) (by rw [utf8_append]; rfl)).2 (utf8_mem_encoded.2 hv)⟩

/-- **C111**: `search` finds a leftmost part of the text that is in the language, if there is one. -/
theorem C111_search (he : e.Fine) (hR : (Regex.mk e.tree fl).Ok cat) (u : List Char) :
    ∃ res, (Regex.mk e.tree fl).search (utf8 u) cat = some res ∧
      (res.matched = true ↔ ∃ x v y, u = x ++ v ++ y ∧ v ∈ e.lang (Flags.ofList fl).icase) ∧
      (res.matched = true → ∃ x v y, u = x ++ v ++ y ∧ v ∈ e.lang (Flags.ofList fl).icase ∧
        res.group 0 = some (some ((utf8 x).length, (utf8 x).length + (utf8 v).length)) ∧
        ∀ x' v' y', u = x' ++ v' ++ y' → v' ∈ e.lang (Flags.ofList fl).icase → x.length ≤ x'.length) := by
  have hs := simple_tree he
  obtain ⟨res, h1, h2, h3⟩ := C04_search_leftmost ⟨e.tree, fl⟩ cat hR (selfContained_declarative hs.1 hs.2) (utf8 u)
  have here : ∀ {x v y : List Char}, u = x ++ v ++ y → v ∈ e.lang (Flags.ofList fl).icase →
      Matches (Flags.ofList fl) (utf8 u) e.tree (utf8 x).length ((utf8 x).length + (utf8 v).length) := by
    intro x v y hu hv
    exact (matches_tree he (post := utf8 y) (by rw [hu, utf8_append, utf8_append])).2 (utf8_mem_encoded.2 hv)
  have key : res.matched = true → ∃ x v y, u = x ++ v ++ y ∧ v ∈ e.lang (Flags.ofList fl).icase ∧
        res.group 0 = some (some ((utf8 x).length, (utf8 x).length + (utf8 v).length)) ∧
        ∀ x' v' y', u = x' ++ v' ++ y' → v' ∈ e.lang (Flags.ofList fl).icase → x.length ≤ x'.length := by
    intro h
    obtain ⟨i, j, hij, hj, hg, hm, hl⟩ := h3 h
    have e1 : (utf8 u).take i ++ ((utf8 u).drop i).take (j - i) ++ (utf8 u).drop j = utf8 u := by
      have : (utf8 u).drop j = ((utf8 u).drop i).drop (j - i) := by rw [List.drop_drop]; congr 1; omega
      rw [this, List.append_assoc, List.take_append_drop, List.take_append_drop]
    have e2 : ((utf8 u).take i).length = i := by simp; omega
    have e3 : (((utf8 u).drop i).take (j - i)).length = j - i := by simp; omega
    have := (matches_tree (f := Flags.ofList fl) he e1.symm).1 (by rw [e2, e3, show i + (j - i) = j by omega]; exact hm)
    obtain ⟨v, hv, hv'⟩ := (mem_encoded).1 this
    have hx : ∃ x y, u = x ++ v ++ y ∧ (utf8 u).take i = utf8 x := by
      by_cases hn : ([] : List Char) ∈ e.lang (Flags.ofList fl).icase
      · have h0 : i = 0 := by
          rcases Nat.eq_zero_or_pos i with h | h
          · exact h
          · exact absurd (here (x := []) (v := []) (y := u) rfl hn) (hl _ _ h)
        subst h0
        obtain ⟨y, hy, _⟩ := utf8_prefix (u := u) (v := v) (rest := (utf8 u).drop j) (by rw [← hv']; simp)
        exact ⟨[], y, hy, rfl⟩
      · have hne : v ≠ [] := fun h => hn (h ▸ hv)
        rw [hv'] at e1
        exact utf8_middle e1.symm hne
    obtain ⟨x, y, hu, hx⟩ := hx
    have hxi : (utf8 x).length = i := by rw [← hx, e2]
    have hvj : (utf8 v).length = j - i := by rw [← hv', e3]
    refine ⟨x, v, y, hu, hv, by rw [hg, hxi, hvj, show i + (j - i) = j by omega], fun x' v' y' hu' hv'' => ?_⟩
    rcases Nat.lt_or_ge x'.length x.length with h | h
    · refine absurd (here hu' hv'') (hl _ _ ?_)
      obtain ⟨t, ht⟩ := List.prefix_of_prefix_length_le (l₁ := x') (l₂ := x) (l₃ := u) ⟨v' ++ y', by rw [hu', List.append_assoc]⟩ ⟨v ++ y, by rw [hu, List.append_assoc]⟩ (Nat.le_of_lt h)
      have htn : t ≠ [] := by rintro rfl; rw [List.append_nil] at ht; rw [ht] at h; exact Nat.lt_irrefl _ h
      have := List.length_pos_iff.2 (utf8_ne_nil htn)
      rw [← hxi, ← ht, utf8_append, List.length_append]
      omega
    · exact h
  refine ⟨res, h1, ⟨fun h => ?_, ?_⟩, key⟩
  · obtain ⟨x, v, y, h4, h5, _⟩ := key h
    exact ⟨x, v, y, h4, h5⟩
  · rintro ⟨x, v, y, hu, hv⟩
    refine h2.2 ⟨_, _, ?_, here hu hv⟩
    rw [hu, utf8_append, utf8_append]
    simp only [List.length_append]
    omega

/-- **C111**: a loop over `find_all` visits the encodings of pieces of the text that are in the language, always a leftmost one in what is left. -/
theorem C111_findAll (he : e.Fine) (hR : (Regex.mk e.tree fl).Ok cat) (u : List Char) (rounds : Nat) (hr : (utf8 u).length + 2 ≤ rounds) :
    ∃ rs l, rangeElements ⟨e.tree, fl⟩ findAllMethod cat (utf8 u) rounds = some (rs, true) ∧ rs.map (·.group 0) = (byteRanges 0 l).map (fun x => some (some x)) ∧
      FoundIn (e.lang (Flags.ofList fl).icase) u l := by
  have hs := simple_tree he
  have hd := selfContained_declarative hs.1 hs.2
  obtain ⟨rs, ranges, h1, h2, h3⟩ := C31_find_all_partial ⟨e.tree, fl⟩ cat hR (declarative_iff.1 hd).1 (utf8 u) rounds hr
  obtain ⟨l, rfl, h4⟩ := finds_pieces (f := Flags.ofList fl) he (fun i j hi h => (mem_ends_iff hR hd hi).1 (List.mem_of_head? h))
    (fun i j hi h hm => by
      have := (mem_ends_iff hR hd hi).2 hm
      rw [List.head?_eq_none_iff.1 h] at this
      cases this) h3 [] u rfl rfl
  exact ⟨rs, l, h1, h2, h4⟩

/-- **C111**: a loop over `tokenize` visits the encodings of pieces of the text that are in the language, one directly after the other. -/
theorem C111_tokenize (he : e.Fine) (hR : (Regex.mk e.tree fl).Ok cat) (u : List Char) (rounds : Nat) (hr : (utf8 u).length + 2 ≤ rounds) :
    ∃ rs l, rangeElements ⟨e.tree, fl⟩ tokenizeMethod cat (utf8 u) rounds = some (rs, true) ∧ rs.map (·.group 0) = (byteRanges 0 l).map (fun x => some (some x)) ∧
      TakenFrom (e.lang (Flags.ofList fl).icase) u l := by
  have hs := simple_tree he
  have hd := selfContained_declarative hs.1 hs.2
  obtain ⟨rs, ranges, h1, h2, h3⟩ := C96_tokens ⟨e.tree, fl⟩ cat hR (declarative_iff.1 hd).1 (utf8 u) rounds hr
  obtain ⟨l, rfl, h4⟩ := takes_pieces (f := Flags.ofList fl) he (fun i j hi h => ⟨(mem_ends_iff hR hd hi).1 (List.mem_of_head? h), (ends_le hi (List.mem_of_head? h)).2⟩)
    (fun i j hi h hm => by
      have := (mem_ends_iff hR hd hi).2 hm
      rw [List.head?_eq_none_iff.1 h] at this
      cases this) h3 [] u rfl rfl
  exact ⟨rs, l, h1, h2, h4⟩

/-! Examples. -/

/-- `((?:é|x)+)`. -/
def exUnicode : UExpr := .group 1 none (.rep .greedy 1 .inf (.alt (.char 'é') (.char 'x')))

theorem exUnicode_fine : exUnicode.Fine := ⟨by decide, trivial, trivial⟩
theorem exUnicode_ok : (Regex.mk exUnicode.tree []).Ok .forward := Regex.ok_of_okb (by decide)

/-- It is what the pattern says. -/
example : parse (utf8 "((?:é|x)+)".toList) = .result exUnicode.tree .success := rfl

example := C111_match exUnicode_fine exUnicode_ok "xéé".toList
example := C111_search exUnicode_fine exUnicode_ok "aéx".toList
example : (Regex.mk exUnicode.tree []).search (utf8 "aéx".toList) .forward = some ⟨[some (1, 4), some (1, 4)], true⟩ := by decide
example := C111_findAll exUnicode_fine exUnicode_ok "aéxbé".toList
example := C111_tokenize exUnicode_fine exUnicode_ok "éxbé".toList
example : ['é'] ∈ exUnicode.lang false := by
  simp only [exUnicode, UExpr.lang, pow_one]
  exact ⟨['é'], .inl ⟨'é', rfl, .inl rfl⟩, [], Language.nil_mem_kstar _, rfl⟩

end Mregex
