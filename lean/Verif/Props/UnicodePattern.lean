import Verif.Proof.UnicodePattern
import Verif.Props.Regular
import Verif.Props.Unicode
import Verif.Proof.Automata

/-!
# Regular languages over Unicode characters have patterns
-/

namespace Mregex
open Ast Spec

/-! ## C114 -/

set_option maxRecDepth 20000 in
/-- **C114**: the pattern for an arbitrary character is parsed as the tree that C111 uses. -/
theorem C114_any : parse (txt charPattern) = .result anyTree .success := rfl

/-- **C114**: for every Unicode expression without groups there is a pattern that the library accepts and that can be used with all
iterators; `match` then accepts exactly the encoded texts of the language of the expression, and nothing else. -/
theorem C114_pattern {e : UExpr} (he : e.Fine) (hp : e.Plain) (fl : List RegexFlag) (cat : Cat) :
    ∃ w b, parse w = .result b .success ∧ (Regex.mk b fl).Ok cat ∧
      ∀ s, ∃ res, (Regex.mk b fl).match s cat = some res ∧
        (res.matched = true ↔ ∃ u, s = utf8 u ∧ u ∈ e.lang (Flags.ofList fl).icase) := by
  have hR : (Regex.mk e.tree fl).Ok cat := fun _ => ok_tree (ranged_of_fine he) hp
  obtain ⟨w, b, h1, h2, _, h3, _⟩ := C60_pattern hR (writable_tree hp) (index_none 1 _ (captureCount_tree hp))
  refine ⟨w, b, h1, h2, fun s => ?_⟩
  obtain ⟨res, h4, h5⟩ := C111_match_bytes he hR s
  obtain ⟨r, r', h6, h7, h8, _⟩ := h3 .match s
  have h9 : some res = some r := h4.symm.trans h6
  cases h9
  exact ⟨r', h7, by rw [← h5, h8]⟩

/-- **C114**: for every regular expression of the theory of formal languages over Unicode characters there is a pattern with which `match`
accepts exactly the encoded texts that the expression denotes. -/
theorem C114_expression (P : RegularExpression Char) (cat : Cat) :
    ∃ w b, parse w = .result b .success ∧ (Regex.mk b []).Ok cat ∧
      ∀ s, ∃ res, (Regex.mk b []).match s cat = some res ∧ (res.matched = true ↔ ∃ u, s = utf8 u ∧ u ∈ P.matches') := by
  have h := plain_ofExpression P
  have := C114_pattern h.1 h.2 [] cat
  rw [show (Flags.ofList []).icase = false from rfl, lang_ofExpression] at this
  exact this

/-- All characters. -/
def allChars : List Char := (List.range 0x110000).map Char.ofNat

theorem mem_allChars (c : Char) : c ∈ allChars := by
  refine List.mem_map.2 ⟨c.toNat, List.mem_range.2 ?_, Char.ofNat_toNat c⟩
  have h : c.toNat.isValidChar := c.valid
  rcases h with h | h
  · omega
  · exact h.2

/-- **C114**: for every regular language over Unicode characters there is a pattern with which `match` accepts exactly its encoded
texts. -/
theorem C114_language (L : Language Char) (hL : L.IsRegular) (cat : Cat) :
    ∃ w b, parse w = .result b .success ∧ (Regex.mk b []).Ok cat ∧
      ∀ s, ∃ res, (Regex.mk b []).match s cat = some res ∧ (res.matched = true ↔ ∃ u, s = utf8 u ∧ u ∈ L) := by
  obtain ⟨P, rfl⟩ := exists_expression allChars mem_allChars hL
  exact C114_expression P cat

/-- **C114**: there is also a pattern for which each of the three methods reports a match for exactly the encoded texts of the language. -/
theorem C114_methods (L : Language Char) (hL : L.IsRegular) (cat : Cat) :
    ∃ w b, parse w = .result b .success ∧ (Regex.mk b []).Ok cat ∧
      ∀ M s, s ∈ accepted ⟨b, []⟩ M cat ↔ ∃ u, s = utf8 u ∧ u ∈ L := by
  obtain ⟨P, rfl⟩ := exists_expression allChars mem_allChars hL
  obtain ⟨w, b, h1, h2, h3⟩ := C74_expression (encodedExpression P) cat
  refine ⟨w, b, h1, h2, fun M s => ?_⟩
  rw [h3, matches_encodedExpression, mem_encoded]
  exact ⟨fun ⟨u, h, h'⟩ => ⟨u, h', h⟩, fun ⟨u, h, h'⟩ => ⟨u, h', h⟩⟩

/-- **C114**: the texts over Unicode characters whose encodings a regex without references accepts form a regular language, whatever the
regex does with the bytes; and every regular language is obtained in this way. -/
theorem C114_exactly (L : Language Char) (cat : Cat) (M : Method) :
    L.IsRegular ↔ ∃ R : Regex, R.Ok cat ∧ noBackref R.ast = true ∧ acceptedChars R M cat = L := by
  constructor
  · intro hL
    obtain ⟨P, rfl⟩ := exists_expression allChars mem_allChars hL
    have hr : (encodedExpression P).matches'.IsRegular :=
      (C74_exactly _ cat M).2 ⟨_, ok_wholeText _ cat, (declarative_iff.1 (declarative_wholeText _)).1, accepted_wholeText _ cat M⟩
    obtain ⟨R, h1, h2, h3⟩ := (C74_exactly _ cat M).1 hr
    refine ⟨R, h1, h2, ?_⟩
    ext u
    show utf8 u ∈ accepted R M cat ↔ _
    rw [h3, matches_encodedExpression, utf8_mem_encoded]
  · rintro ⟨R, hR, hb, rfl⟩
    exact isRegular_chars (C73_regular R cat hR hb M)

/-- `.` is not a Unicode expression, but what it accepts is a regular language over characters, here without `é`. -/
example : (acceptedChars ⟨.wildcard, []⟩ .match .forward).IsRegular ∧ ['a'] ∈ acceptedChars ⟨.wildcard, []⟩ .match .forward ∧
    ['é'] ∉ acceptedChars ⟨.wildcard, []⟩ .match .forward :=
  ⟨(C114_exactly _ .forward .match).2 ⟨_, Regex.ok_of_okb (by decide), by decide, rfl⟩,
    ⟨⟨[some (0, 1)], true⟩, by decide, rfl⟩,
    fun ⟨res, h1, h2⟩ => by
      have h : ((Regex.mk .wildcard []).invoke .match .forward (utf8 ['é'])).map (·.matched) = some false := by decide
      rw [h1, Option.map_some, h2] at h
      cases h⟩

/-- The texts with an even number of characters. -/
def evenChars : DFA Char Bool := ⟨fun q _ => !q, false, {false}⟩

/-- A regular language that is neither empty nor everything; it counts characters, not bytes. -/
example : evenChars.accepts.IsRegular ∧ ['é', 'a'] ∈ evenChars.accepts ∧ ['é'] ∉ evenChars.accepts ∧ (utf8 ['é']).length = 2 :=
  ⟨⟨Bool, inferInstance, evenChars, rfl⟩, by simp [DFA.mem_accepts, DFA.eval, DFA.evalFrom, evenChars], by simp [DFA.mem_accepts, DFA.eval, DFA.evalFrom, evenChars], by decide⟩

/-- `é*` as an expression over characters. -/
example : (UExpr.ofExpression (.star (.char 'é'))).Fine ∧ (UExpr.ofExpression (.star (.char 'é'))).Plain ∧
    ((Regex.mk (UExpr.ofExpression (.star (.char 'é'))).tree []).match (utf8 ['é', 'é'])).map (·.matched) = some true ∧
    ((Regex.mk (UExpr.ofExpression (.star (.char 'é'))).tree []).match ((utf8 ['é', 'é']).take 3)).map (·.matched) = some false :=
  ⟨(plain_ofExpression _).1, (plain_ofExpression _).2, by decide, by decide⟩

/-! ## C111 on arbitrary bytes -/

variable {e : UExpr} {fl : List RegexFlag} {cat : Cat}

/-- **C111**: `match_prefix` on arbitrary bytes: what it reports is always encoded text in the language, and it finds such a prefix whenever
there is one, whatever follows. -/
theorem C111_matchPrefix_bytes (he : e.Fine) (hR : (Regex.mk e.tree fl).Ok cat) (s : List Byte) :
    ∃ res, (Regex.mk e.tree fl).matchPrefix s cat = some res ∧
      (res.matched = true ↔ ∃ v y, s = utf8 v ++ y ∧ v ∈ e.lang (Flags.ofList fl).icase) ∧
      (res.matched = true → ∃ v y, s = utf8 v ++ y ∧ v ∈ e.lang (Flags.ofList fl).icase ∧ res.group 0 = some (some (0, (utf8 v).length))) := by
  have hs := simple_tree he
  obtain ⟨res, h1, h2, h3⟩ := C03_matchPrefix_language ⟨e.tree, fl⟩ cat hR (selfContained_declarative hs.1 hs.2) s
  have key : res.matched = true → ∃ v y, s = utf8 v ++ y ∧ v ∈ e.lang (Flags.ofList fl).icase ∧ res.group 0 = some (some (0, (utf8 v).length)) := by
    intro h
    obtain ⟨j, hj, hg, hm⟩ := h3 h
    have := (matches_tree (f := Flags.ofList fl) he (s := s) (pre := []) (w := s.take j) (post := s.drop j) (by simp)).1
      (by rw [List.length_take, Nat.min_eq_left hj, List.length_nil, Nat.zero_add]; exact hm)
    obtain ⟨v, hv, hv'⟩ := (mem_encoded).1 this
    refine ⟨v, s.drop j, by rw [← hv', List.take_append_drop], hv, ?_⟩
    rw [hg, ← hv', List.length_take, Nat.min_eq_left hj]
  refine ⟨res, h1, ⟨fun h => ?_, ?_⟩, key⟩
  · obtain ⟨v, y, h4, h5, _⟩ := key h
    exact ⟨v, y, h4, h5⟩
  · rintro ⟨v, y, rfl, hv⟩
    exact h2.2 ⟨0 + (utf8 v).length, (matches_tree (f := Flags.ofList fl) he (pre := []) (w := utf8 v) (post := y) rfl).2 (utf8_mem_encoded.2 hv)⟩

/-- **C111**: `search` on arbitrary bytes: what it reports is always encoded text in the language, the leftmost such part, and it finds one
whenever there is one, whatever is before and after. -/
theorem C111_search_bytes (he : e.Fine) (hR : (Regex.mk e.tree fl).Ok cat) (s : List Byte) :
    ∃ res, (Regex.mk e.tree fl).search s cat = some res ∧
      (res.matched = true ↔ ∃ x v y, s = x ++ utf8 v ++ y ∧ v ∈ e.lang (Flags.ofList fl).icase) ∧
      (res.matched = true → ∃ x v y, s = x ++ utf8 v ++ y ∧ v ∈ e.lang (Flags.ofList fl).icase ∧
        res.group 0 = some (some (x.length, x.length + (utf8 v).length)) ∧
        ∀ x' v' y', s = x' ++ utf8 v' ++ y' → v' ∈ e.lang (Flags.ofList fl).icase → x.length ≤ x'.length) := by
  have hs := simple_tree he
  obtain ⟨res, h1, h2, h3⟩ := C04_search_leftmost ⟨e.tree, fl⟩ cat hR (selfContained_declarative hs.1 hs.2) s
  have here : ∀ {x : List Byte} {v : List Char} {y : List Byte}, s = x ++ utf8 v ++ y → v ∈ e.lang (Flags.ofList fl).icase →
      Matches (Flags.ofList fl) s e.tree x.length (x.length + (utf8 v).length) :=
    fun hu hv => (matches_tree he hu).2 (utf8_mem_encoded.2 hv)
  have key : res.matched = true → ∃ x v y, s = x ++ utf8 v ++ y ∧ v ∈ e.lang (Flags.ofList fl).icase ∧
        res.group 0 = some (some (x.length, x.length + (utf8 v).length)) ∧
        ∀ x' v' y', s = x' ++ utf8 v' ++ y' → v' ∈ e.lang (Flags.ofList fl).icase → x.length ≤ x'.length := by
    intro h
    obtain ⟨i, j, hij, hj, hg, hm, hl⟩ := h3 h
    have e1 : s.take i ++ (s.drop i).take (j - i) ++ s.drop j = s := by
      have : s.drop j = (s.drop i).drop (j - i) := by rw [List.drop_drop]; congr 1; omega
      rw [this, List.append_assoc, List.take_append_drop, List.take_append_drop]
    have e2 : (s.take i).length = i := by simp; omega
    have e3 : ((s.drop i).take (j - i)).length = j - i := by simp; omega
    have := (matches_tree (f := Flags.ofList fl) he e1.symm).1 (by rw [e2, e3, show i + (j - i) = j by omega]; exact hm)
    obtain ⟨v, hv, hv'⟩ := (mem_encoded).1 this
    refine ⟨s.take i, v, s.drop j, by rw [← hv', e1], hv, by rw [hg, e2, ← hv', e3, show i + (j - i) = j by omega], fun x' v' y' hu' hv'' => ?_⟩
    rcases Nat.lt_or_ge x'.length (s.take i).length with h | h
    · exact absurd (here hu' hv'') (hl _ _ (by rw [e2] at h; exact h))
    · exact h
  refine ⟨res, h1, ⟨fun h => ?_, ?_⟩, key⟩
  · obtain ⟨x, v, y, h4, h5, _⟩ := key h
    exact ⟨x, v, y, h4, h5⟩
  · rintro ⟨x, v, y, hu, hv⟩
    refine h2.2 ⟨_, _, ?_, here hu hv⟩
    rw [hu]
    simp only [List.length_append]
    omega

theorem first_of_finds {n : Nat} {first : Nat → Option Nat} {p : Nat} {l : List (Nat × Nat)} (h : Finds n first p l) :
    ∀ r ∈ l, r.1 ≤ n ∧ first r.1 = some r.2 := by
  induction h with
  | none _ => intro r hr; cases hr
  | empty h1 h2 h3 h4 =>
    intro r hr
    rw [List.mem_singleton.1 hr]
    exact ⟨h2, h3⟩
  | cons h1 h2 h3 h4 h5 _ ih =>
    intro r hr
    rcases List.mem_cons.1 hr with rfl | hr
    · exact ⟨by show _ ≤ _; omega, h4⟩
    · exact ih r hr

/-- **C111**: a loop over `find_all` on arbitrary bytes visits only encoded texts in the language, and if the empty text is not in the
language, every place where such a text begins is inside of one that is visited. -/
theorem C111_findAll_bytes (he : e.Fine) (hR : (Regex.mk e.tree fl).Ok cat) (s : List Byte) (rounds : Nat) (hr : s.length + 2 ≤ rounds) :
    ∃ (rs : List Result) (ranges : List (Nat × Nat)), rangeElements ⟨e.tree, fl⟩ findAllMethod cat s rounds = some (rs, true) ∧
      rs.map (·.group 0) = ranges.map (fun x => some (some x)) ∧
      (∀ r ∈ ranges, ∃ x v y, s = x ++ utf8 v ++ y ∧ v ∈ e.lang (Flags.ofList fl).icase ∧ r = (x.length, x.length + (utf8 v).length)) ∧
      ([] ∉ e.lang (Flags.ofList fl).icase → ∀ x v y, s = x ++ utf8 v ++ y → v ∈ e.lang (Flags.ofList fl).icase →
        ∃ r ∈ ranges, r.1 ≤ x.length ∧ x.length < r.2) := by
  have hs := simple_tree he
  have hd := selfContained_declarative hs.1 hs.2
  obtain ⟨rs, ranges, h1, h2, h3⟩ := C31_find_all_partial ⟨e.tree, fl⟩ cat hR (declarative_iff.1 hd).1 s rounds hr
  have key : ∀ r ∈ ranges, ∃ x v y, s = x ++ utf8 v ++ y ∧ v ∈ e.lang (Flags.ofList fl).icase ∧ r = (x.length, x.length + (utf8 v).length) := by
    rintro ⟨i, j⟩ hr
    obtain ⟨hi, h⟩ := first_of_finds h3 _ hr
    dsimp only at hi h
    have hm : Matches (Flags.ofList fl) s e.tree i j := (mem_ends_iff hR hd hi).1 (List.mem_of_head? h)
    obtain ⟨hij, hj⟩ := ends_le hi (List.mem_of_head? h)
    have e1 : s.take i ++ (s.drop i).take (j - i) ++ s.drop j = s := by
      have : s.drop j = (s.drop i).drop (j - i) := by rw [List.drop_drop]; congr 1; omega
      rw [this, List.append_assoc, List.take_append_drop, List.take_append_drop]
    have e2 : (s.take i).length = i := by simp; omega
    have e3 : ((s.drop i).take (j - i)).length = j - i := by simp; omega
    have := (matches_tree (f := Flags.ofList fl) he e1.symm).1 (by rw [e2, e3, show i + (j - i) = j by omega]; exact hm)
    obtain ⟨v, hv, hv'⟩ := (mem_encoded).1 this
    exact ⟨s.take i, v, s.drop j, by rw [← hv', e1], hv, by rw [e2, ← hv', e3, show i + (j - i) = j by omega]⟩
  refine ⟨rs, ranges, h1, h2, key, fun hn x v y hx hv => finds_all h3 (fun r hr => ?_) x.length (Nat.zero_le _) ?_ fun h => ?_⟩
  · obtain ⟨x, v, y, _, hv, rfl⟩ := key r hr
    have hne : v ≠ [] := fun h => hn (h ▸ hv)
    have := List.length_pos_iff.2 (utf8_ne_nil hne)
    dsimp only
    omega
  · rw [hx]
    simp only [List.length_append]
    omega
  · have hm : Matches (Flags.ofList fl) s e.tree x.length (x.length + (utf8 v).length) := (matches_tree he hx).2 (utf8_mem_encoded.2 hv)
    have := (mem_ends_iff hR hd (by rw [hx]; simp only [List.length_append]; omega)).2 hm
    rw [List.head?_eq_none_iff.1 h] at this
    cases this

theorem takes_bytes {f : Flags} (he : e.Fine) {s : List Byte} {first : Nat → Option Nat}
    (hS : ∀ i j, i ≤ s.length → first i = some j → Matches f s e.tree i j ∧ j ≤ s.length)
    (hN : ∀ i j, i ≤ s.length → first i = none → ¬ Matches f s e.tree i j) {p : Nat} {ranges : List (Nat × Nat)} (h : Takes first p ranges) :
    ∀ pre r, s = pre ++ r → p = pre.length → ∃ l, ranges = byteRanges p (l.map fun v => ([], v)) ∧ TakenBytes (e.lang f.icase) r l := by
  induction h with
  | none h =>
    rintro pre r rfl rfl
    refine ⟨[], rfl, .none fun v y hr hv => ?_⟩
    exact hN _ _ (by simp) h ((matches_tree he (by rw [hr, List.append_assoc])).2 (utf8_mem_encoded.2 hv))
  | empty h =>
    rintro pre r rfl rfl
    exact ⟨[[]], by simp [byteRanges, utf8], .empty (nil_of_matches he (by simp) (hS _ _ (by simp) h).1)⟩
  | @cons p j l h1 h2 _ ih =>
    rintro pre r rfl rfl
    obtain ⟨hm, hj⟩ := hS _ _ (by simp) h1
    rw [List.length_append] at hj
    obtain ⟨n, rfl⟩ : ∃ n, j = pre.length + n := ⟨j - pre.length, by omega⟩
    have hn : (r.take n).length = n := by simp; omega
    obtain ⟨v, hv, hv'⟩ := mem_encoded.1 ((matches_tree (f := f) he (s := pre ++ r) (pre := pre) (w := r.take n) (post := r.drop n)
      (by rw [List.append_assoc, List.take_append_drop])).1 (by rw [hn]; exact hm))
    have hl : (utf8 v).length = n := by rw [← hv', hn]
    obtain ⟨l', h3, h4⟩ := ih (pre ++ utf8 v) (r.drop n) (by rw [← hv', List.append_assoc, List.take_append_drop]) (by rw [List.length_append, hl])
    refine ⟨v :: l', ?_, ?_⟩
    · rw [h3]
      simp only [List.map_cons, byteRanges, show (utf8 []).length = 0 from rfl, Nat.add_zero, hl]
    · have : r = utf8 v ++ r.drop n := by rw [← hv', List.take_append_drop]
      rw [this]
      refine .cons hv ?_ h4
      rintro rfl
      simp [utf8] at hl
      omega

/-- **C111**: a loop over `tokenize` on arbitrary bytes visits encoded texts in the language, one directly after the other, and ends where no
such text begins or with an empty one. -/
theorem C111_tokenize_bytes (he : e.Fine) (hR : (Regex.mk e.tree fl).Ok cat) (s : List Byte) (rounds : Nat) (hr : s.length + 2 ≤ rounds) :
    ∃ rs l, rangeElements ⟨e.tree, fl⟩ tokenizeMethod cat s rounds = some (rs, true) ∧
      rs.map (·.group 0) = (byteRanges 0 (l.map fun v => ([], v))).map (fun x => some (some x)) ∧
      TakenBytes (e.lang (Flags.ofList fl).icase) s l := by
  have hs := simple_tree he
  have hd := selfContained_declarative hs.1 hs.2
  obtain ⟨rs, ranges, h1, h2, h3⟩ := C96_tokens ⟨e.tree, fl⟩ cat hR (declarative_iff.1 hd).1 s rounds hr
  obtain ⟨l, rfl, h4⟩ := takes_bytes (f := Flags.ofList fl) he
    (fun i j hi h => ⟨(mem_ends_iff hR hd hi).1 (List.mem_of_head? h), (ends_le hi (List.mem_of_head? h)).2⟩)
    (fun i j hi h hm => by
      have := (mem_ends_iff hR hd hi).2 hm
      rw [List.head?_eq_none_iff.1 h] at this
      cases this) h3 [] s rfl rfl
  exact ⟨rs, l, h1, h2, h4⟩

/-- `é+` in bytes that are no text: half a character, then `éé`, then half a character. -/
example : (UExpr.rep .greedy 1 .inf (.char 'é')).Fine ∧ (Regex.mk (UExpr.rep .greedy 1 .inf (.char 'é')).tree []).Ok .forward ∧
    ((Regex.mk (UExpr.rep .greedy 1 .inf (.char 'é')).tree []).search ([0xC3#8] ++ utf8 ['é', 'é'] ++ [0xC3#8])) = some ⟨[some (1, 5)], true⟩ ∧
    rangeElements ⟨(UExpr.rep .greedy 1 .inf (.char 'é')).tree, []⟩ findAllMethod .forward (utf8 ['é'] ++ [0xC3#8] ++ utf8 ['é', 'é']) 10 =
      some ([⟨[some (0, 2)], true⟩, ⟨[some (3, 7)], true⟩], true) :=
  ⟨⟨by decide, trivial⟩, Regex.ok_of_okb (by decide), by decide, by decide⟩

end Mregex
