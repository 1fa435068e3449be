import Verif.Proof.Formula

/-!
# C89: "and", "or" and "not"
-/

namespace Mregex
open Ast Spec

variable {fl : List RegexFlag} {cat : Cat}

/-- **C89.** Every formula made of patterns is itself a pattern: the text `F.write` is accepted by the library, can be used with the same flags
and iterators, is again a pattern of which formulas can be made, and `match` reports a match exactly for the texts for which the formula holds. -/
theorem C89_formula (F : Formula) (hF : ∀ w ∈ F.patterns, Plain fl cat w) :
    Plain fl cat F.write ∧ ∃ a, parse F.write = .result a .success ∧ ∀ s, s ∈ accepted ⟨a, fl⟩ .match cat ↔ F.Holds fl cat s := by
  obtain ⟨x, hx⟩ := read_formula F hF
  obtain ⟨h1, h2, h3, h4, h5⟩ := hx.result
  exact ⟨⟨_, h1, h2, h3, h4⟩, _, h1, h5⟩

/-- **C89.** `(?:(?=(?:p)\Z)(?:q))` accepts the texts that `p` and `q` accept, `(?:(?:p)|(?:q))` those that one of them accepts and `(?:(?!(?:p)\Z)[^]*)`
those that `p` does not accept. -/
theorem C89_operations {p q : List Byte} (hp : Plain fl cat p) (hq : Plain fl cat q) :
    ∃ a b c d e, parse p = .result a .success ∧ parse q = .result b .success ∧
      parse (txt "(?:(?=(?:" ++ p ++ txt ")\\Z)(?:" ++ q ++ txt "))") = .result c .success ∧
      parse (txt "(?:(?:" ++ p ++ txt ")|(?:" ++ q ++ txt "))") = .result d .success ∧
      parse (txt "(?:(?!(?:" ++ p ++ txt ")\\Z)[^]*)") = .result e .success ∧
      accepted ⟨c, fl⟩ .match cat = accepted ⟨a, fl⟩ .match cat ⊓ accepted ⟨b, fl⟩ .match cat ∧
      accepted ⟨d, fl⟩ .match cat = accepted ⟨a, fl⟩ .match cat ⊔ accepted ⟨b, fl⟩ .match cat ∧
      accepted ⟨e, fl⟩ .match cat = (accepted ⟨a, fl⟩ .match cat)ᶜ := by
  obtain ⟨a, ha, _⟩ := id hp
  obtain ⟨b, hb, _⟩ := id hq
  have H : ∀ {w a}, parse w = .result a .success → ∀ s, (Formula.pattern w).Holds fl cat s ↔ s ∈ accepted ⟨a, fl⟩ .match cat :=
    fun {w a} h s => ⟨fun ⟨b, h1, h2⟩ => by rw [h] at h1; cases h1; exact h2, fun h1 => ⟨a, h, h1⟩⟩
  obtain ⟨_, c, h1, h2⟩ := C89_formula (.and (.pattern p) (.pattern q)) (fl := fl) (cat := cat) (by simp [Formula.patterns, hp, hq])
  obtain ⟨_, d, h3, h4⟩ := C89_formula (.or (.pattern p) (.pattern q)) (fl := fl) (cat := cat) (by simp [Formula.patterns, hp, hq])
  obtain ⟨_, e, h5, h6⟩ := C89_formula (.not (.pattern p)) (fl := fl) (cat := cat) (by simp [Formula.patterns, hp])
  refine ⟨a, b, c, d, e, ha, hb, ?_, ?_, ?_, ?_, ?_, ?_⟩
  · simpa [Formula.write, txt] using h1
  · simpa [Formula.write, txt] using h3
  · simpa [Formula.write, txt] using h5
  · ext s
    exact (h2 s).trans (and_congr (H ha s) (H hb s))
  · ext s
    exact (h4 s).trans (or_congr (H ha s) (H hb s))
  · ext s
    exact (h6 s).trans (not_congr (H ha s))

/-- `p` or `q`, but not both. -/
def Formula.differ (p q : List Byte) : Formula := .or (.and (.pattern p) (.not (.pattern q))) (.and (.pattern q) (.not (.pattern p)))

/-- **C89.** Two patterns accept the same texts if and only if one pattern, made of both, accepts none. -/
theorem C89_equivalent {p q : List Byte} {a b : Ast} (hp : Plain fl cat p) (hq : Plain fl cat q) (ha : parse p = .result a .success)
    (hb : parse q = .result b .success) :
    ∃ c, parse (Formula.differ p q).write = .result c .success ∧ (Regex.mk c fl).Ok cat ∧
      (accepted ⟨a, fl⟩ .match cat = accepted ⟨b, fl⟩ .match cat ↔ ∀ s res, (Regex.mk c fl).match s cat = some res → res.matched = false) := by
  obtain ⟨⟨c, h1, h2, _, _⟩, c', h3, h4⟩ := C89_formula (Formula.differ p q) (fl := fl) (cat := cat) (by simp [Formula.differ, Formula.patterns, hp, hq])
  rw [h1] at h3
  cases h3
  have H : ∀ {w a}, parse w = .result a .success → ∀ s, (Formula.pattern w).Holds fl cat s ↔ s ∈ accepted ⟨a, fl⟩ .match cat :=
    fun {w a} h s => ⟨fun ⟨b, h1, h2⟩ => by rw [h] at h1; cases h1; exact h2, fun h1 => ⟨a, h, h1⟩⟩
  have key : ∀ s, s ∈ accepted ⟨c, fl⟩ .match cat ↔
      (s ∈ accepted ⟨a, fl⟩ .match cat ∧ s ∉ accepted ⟨b, fl⟩ .match cat) ∨ (s ∈ accepted ⟨b, fl⟩ .match cat ∧ s ∉ accepted ⟨a, fl⟩ .match cat) := by
    intro s
    rw [h4 s]
    exact or_congr (and_congr (H ha s) (not_congr (H hb s))) (and_congr (H hb s) (not_congr (H ha s)))
  refine ⟨c, h1, h2, ?_, ?_⟩
  · intro he s res hr
    cases hm : res.matched with
    | false => rfl
    | true =>
      have := (key s).1 ((accepted_iff (M := .match) hr).2 hm)
      rw [he] at this
      exact absurd this (by simp)
  · intro h
    ext s
    obtain ⟨res, hr⟩ := C01_methods_return ⟨c, fl⟩ cat h2 .match s
    have h0 : s ∉ accepted ⟨c, fl⟩ .match cat := by
      rw [accepted_iff hr, h s res hr]; simp
    rw [key s] at h0
    by_cases h1 : s ∈ accepted ⟨a, fl⟩ .match cat <;> by_cases h2 : s ∈ accepted ⟨b, fl⟩ .match cat <;> simp_all

theorem indexSeq_append (o : Nat) (l l' : List Ast) : indexSeq o (l ++ l') = indexSeq o l ++ indexSeq (o + captureCountAll l) l' := by
  induction l generalizing o with
  | nil => simp [indexSeq, captureCountAll]
  | cons a l ih => simp [indexSeq, captureCountAll, ih, Nat.add_assoc]

theorem seqParts_index (o : Nat) (x : Ast) : Spec.seqParts (index o x) = indexSeq o (Spec.seqParts x) := by
  cases x <;> simp [Spec.seqParts, index, indexSeq]

/-- Around what is written before and after, groups keep their numbers. -/
theorem index_around {x : Ast} : indexCaptures (catAst x anything) = catAst (indexCaptures x) anything ∧
    indexCaptures (catAst (catAst anything x) anything) = catAst (catAst anything (indexCaptures x)) anything := by
  have h : ∀ o, indexSeq o (Spec.seqParts anything) = Spec.seqParts anything := fun _ => rfl
  have h0 : captureCountAll (Spec.seqParts anything) = 0 := rfl
  refine ⟨?_, ?_⟩
  · simp only [catAst, indexCaptures, index, indexSeq_append, h, seqParts_index]
  · have e : ∀ l, Spec.seqParts (.seq l) = l := fun _ => rfl
    simp only [catAst, indexCaptures, index, indexSeq_append, h, seqParts_index, h0, Nat.add_zero, e]

/-- **C89.** What `match_prefix` and `search` accept is what `match` accepts with `[^]*` written after the pattern, or around it. -/
theorem C89_methods {p : List Byte} {a : Ast} (hp : parse p = .result a .success) (hR : (Regex.mk a fl).Ok cat) (hb : noBackref a = true) :
    ∃ b c, parse (txt "(?:" ++ p ++ txt ")[^]*") = .result b .success ∧ parse (txt "[^]*(?:" ++ p ++ txt ")[^]*") = .result c .success ∧
      (Regex.mk b fl).Ok cat ∧ (Regex.mk c fl).Ok cat ∧
      accepted ⟨b, fl⟩ .match cat = accepted ⟨a, fl⟩ .matchPrefix cat ∧ accepted ⟨c, fl⟩ .match cat = accepted ⟨a, fl⟩ .search cat := by
  obtain ⟨x, hx, rfl⟩ := (parse_iff p a).1 hp
  have hg := reads_group .plain hx
  have hq : NoQuant (txt "[^]*").head? := noQuant_of (by decide)
  have h1 : Pattern (txt "(?:" ++ p ++ txt ")" ++ txt "[^]*") (catAst x anything) :=
    .alts (.single (.more (.one (.bare (hg _) hq)) (reads_everything _ noQuant_none)))
  have h2 : Pattern (txt "[^]*" ++ (txt "(?:" ++ p ++ txt ")") ++ txt "[^]*") (catAst (catAst anything x) anything) :=
    .alts (.single (.more (.more (.one (reads_everything _ (noQuant_of (c := ch '(') (by decide)))) (.bare (hg _) hq)) (reads_everything _ noQuant_none)))
  have e1 := parse_of_pattern h1
  have e2 := parse_of_pattern h2
  rw [index_around.1] at e1
  rw [index_around.2] at e2
  have hany : ∀ E : Env, Ok E 0 anything := fun E => .repInf (.neg (.inl rfl) (.set (fun _ h => nomatch h) (fun _ h => nomatch h)))
  have n1 : nameSpec (catAst (indexCaptures x) anything) = nameSpec (indexCaptures x) := by
    rw [nameSpec_catAst]; exact List.append_nil _
  have n2 : nameSpec (catAst (catAst anything (indexCaptures x)) anything) = nameSpec (indexCaptures x) := by
    rw [nameSpec_catAst, nameSpec_catAst]; exact List.append_nil _
  have o1 : (Regex.mk (catAst (indexCaptures x) anything) fl).Ok cat := by
    intro s
    rw [show (Regex.mk (catAst (indexCaptures x) anything) fl).env cat s = (Regex.mk (indexCaptures x) fl).env cat s by simp only [Regex.env, Regex.names, n1]]
    exact ok_cat (hR s) (hany _)
  have o2 : (Regex.mk (catAst (catAst anything (indexCaptures x)) anything) fl).Ok cat := by
    intro s
    rw [show (Regex.mk (catAst (catAst anything (indexCaptures x)) anything) fl).env cat s = (Regex.mk (indexCaptures x) fl).env cat s by
      simp only [Regex.env, Regex.names, n2]]
    exact ok_cat (ok_cat (hany _) (hR s)) (hany _)
  refine ⟨_, _, by simpa [txt] using e1, by simpa [txt] using e2, o1, o2, ?_, ?_⟩
  · ext s
    rw [accepted_match o1 (noBackref_cat hb rfl), accepted_matchPrefix hR hb]
    simp only [Regex.fl, ends_cat, List.mem_flatMap]
    constructor
    · rintro ⟨q, h1, _⟩ h2
      rw [h2] at h1; cases h1
    · intro h
      obtain ⟨q, l, hl⟩ := List.exists_cons_of_ne_nil h
      have hq : q ∈ ends (Flags.ofList fl) s (indexCaptures x) true false 0 := by rw [hl]; simp
      have := ends_bounds (Nat.zero_le _) hq
      exact ⟨q, hq, (mem_anything _ _ this.2).2 ⟨this.2, Nat.le_refl _⟩⟩
  · ext s
    rw [accepted_match o2 (noBackref_cat (noBackref_cat rfl hb) rfl), accepted_search hR hb]
    simp only [Regex.fl, ends_cat, List.mem_flatMap]
    constructor
    · rintro ⟨q, ⟨i, h1, h2⟩, _⟩
      exact ⟨i, (ends_bounds (Nat.zero_le _) h1).2, fun h3 => by rw [h3] at h2; cases h2⟩
    · rintro ⟨i, hi, h⟩
      obtain ⟨q, l, hl⟩ := List.exists_cons_of_ne_nil h
      have hq : q ∈ ends (Flags.ofList fl) s (indexCaptures x) true false i := by rw [hl]; simp
      have := ends_bounds hi hq
      exact ⟨q, ⟨i, (mem_anything _ _ (Nat.zero_le _)).2 ⟨Nat.zero_le _, hi⟩, hq⟩, (mem_anything _ _ this.2).2 ⟨this.2, Nat.le_refl _⟩⟩

example : ∃ a, parse (txt "(?<k>ab)|c") = .result a .success ∧ (Regex.mk a [.icase]).Ok .forward ∧ noBackref a = true :=
  ⟨_, rfl, Regex.ok_of_okb (by decide), by decide⟩

/-- `a*` and not `(?:aa)*`: an odd number of times `a`. -/
def exOdd : Formula := .and (.pattern (txt "a*")) (.not (.pattern (txt "(aa)*+")))

example : exOdd.write = txt "(?:(?=(?:a*)\\Z)(?:(?!(?:(aa)*+)\\Z)[^]*))" := by decide

theorem exOdd_plain : ∀ w ∈ exOdd.patterns, Plain [] .forward w := by
  have h1 : Plain [] .forward (txt "a*") := ⟨_, rfl, Regex.ok_of_okb (by decide), by decide, by decide⟩
  have h2 : Plain [] .forward (txt "(aa)*+") := ⟨_, rfl, Regex.ok_of_okb (by decide), by decide, by decide⟩
  simp [exOdd, Formula.patterns, h1, h2]

example : ∃ a, parse exOdd.write = .result a .success ∧ (∃ r, (Regex.mk a []).match (txt "aaa") .forward = some r ∧ r.matched = true) ∧
    ∃ r, (Regex.mk a []).match (txt "aa") .forward = some r ∧ r.matched = false := by
  refine ⟨_, rfl, ⟨_, rfl, by decide +kernel⟩, ⟨_, rfl, by decide +kernel⟩⟩

end Mregex
