import Verif.Proof.Words
import Verif.Props.Template

/-!
# Words

What the regexes of the examples that look for words find: exactly the words, for every text.
-/

namespace Mregex
open Ast Spec

/-- What `find_all` visits: the ranges of the results, all of them matches. -/
def FindsAll (R : Regex) (cat : Cat) (s : List Byte) (Q : Nat → Nat → Prop) : Prop :=
  ∀ rounds, s.length + 2 ≤ rounds → ∃ rs ranges, rangeElements R .search cat s rounds = some (rs, true) ∧ rs.map (·.group 0) = ranges.map (fun x => some (some x)) ∧
    Enumerates Q ranges

section
variable {fl : List RegexFlag} {cat : Cat} {s : List Byte} {m : Mode} {cls : Ast}

theorem parts_of_ok {l : List Ast} (hR : (Regex.mk (.seq l) fl).Ok cat) {a : Ast} (ha : a ∈ l) : wf a = true := by
  have hw := wf_of_ok (hR [])
  simp only [wf, wfAll_eq, Bool.and_eq_true, List.all_eq_true] at hw
  exact hw.2 a ha

/-- **C87**: `c+(?!c)`, for every class of characters `c` and every mode of the quantifier, greedy, lazy or possessive, with any flags: `find_all` visits exactly the longest
stretches of such characters, from left to right. -/
theorem C87_stretches (hR : (Regex.mk (.seq [.rep m 1 .inf cls, .neg (.look .ahead cls)]) fl).Ok cat) (hc : character cls = true) :
    FindsAll ⟨.seq [.rep m 1 .inf cls, .neg (.look .ahead cls)], fl⟩ cat s (Stretch (fun x => accepts (Flags.ofList fl) cls x = true) s) := by
  intro k hk
  have hw := parts_of_ok hR (a := .rep m 1 .inf cls) (by simp)
  have hnb := (closed_of_triv (wf_of_wf_rep hw).1 (by rw [← character_eq]; exact hc)).2
  obtain ⟨rs, ranges, h1, h2, h3⟩ := C31_find_all_partial _ cat hR (by simp [noBackref, noBackrefAll, hnb]) s k hk
  refine ⟨rs, ranges, h1, h2, stretches_of_finds h3 fun i j hi => ?_⟩
  refine head_of_single (Q := RestOf (fun x => accepts (Flags.ofList fl) cls x = true) s i) (fun q => ?_) (fun _ _ => restOf_unique) j
  show q ∈ ends (Flags.ofList fl) s (.seq [.rep m 1 .inf cls, .neg (.look .ahead cls)]) true false i ↔ _
  simp only [ends, mem_tail hw hc hi, AtMost, true_and]
  exact ⟨fun ⟨⟨a1, a2, a3⟩, a4⟩ => ⟨by omega, a3, a4⟩, fun ⟨a1, a3, a4⟩ => ⟨⟨by omega, by omega, a3⟩, a4⟩⟩

/-- **C87**: without the lookahead this still holds for the quantifiers that prefer more (with the flag `ungreedy` these are the lazy ones). -/
theorem C87_eager (hR : (Regex.mk (.rep m 1 .inf cls) fl).Ok cat) (hc : character cls = true) (hm : eager (Flags.ofList fl) m = true) :
    FindsAll ⟨.rep m 1 .inf cls, fl⟩ cat s (Stretch (fun x => accepts (Flags.ofList fl) cls x = true) s) := by
  intro k hk
  have hw := wf_of_ok (hR [])
  have hnb := (closed_of_triv (wf_of_wf_rep hw).1 (by rw [← character_eq]; exact hc)).2
  obtain ⟨rs, ranges, h1, h2, h3⟩ := C31_find_all_partial _ cat hR (by simpa [noBackref] using hnb) s k hk
  exact ⟨rs, ranges, h1, h2, stretches_of_finds h3 fun i j hi => head_eager hc hm hi⟩

/-- **C87**: `(?<!c)c{lo,hi}(?!c)`, with any bounds from 1 on and any mode: `find_all` visits exactly the longest stretches with a length within the bounds. -/
theorem C87_lengths {lo : Nat} {hi : Bound} (hR : (Regex.mk (.seq [.neg (.look .behind cls), .rep m lo hi cls, .neg (.look .ahead cls)]) fl).Ok cat) (hc : character cls = true)
    (hlo : 1 ≤ lo) :
    FindsAll ⟨.seq [.neg (.look .behind cls), .rep m lo hi cls, .neg (.look .ahead cls)], fl⟩ cat s
      (fun i j => Stretch (fun x => accepts (Flags.ofList fl) cls x = true) s i j ∧ lo ≤ j - i ∧ AtMost (j - i) hi) := by
  intro k hk
  have hw := parts_of_ok hR (a := .rep m lo hi cls) (by simp)
  have hnb := (closed_of_triv (wf_of_wf_rep hw).1 (by rw [← character_eq]; exact hc)).2
  obtain ⟨rs, ranges, h1, h2, h3⟩ := C31_find_all_partial _ cat hR (by simp [noBackref, noBackrefAll, hnb]) s k hk
  have hf : ∀ i j, i ≤ s.length → ((ends (Flags.ofList fl) s (.seq [.neg (.look .behind cls), .rep m lo hi cls, .neg (.look .ahead cls)]) true false i).head? = some j ↔
      Stretch (fun x => accepts (Flags.ofList fl) cls x = true) s i j ∧ lo ≤ j - i ∧ AtMost (j - i) hi) := by
    intro i j hi
    refine head_of_single (Q := fun j => Stretch (fun x => accepts (Flags.ofList fl) cls x = true) s i j ∧ lo ≤ j - i ∧ AtMost (j - i) _) (fun q => ?_)
      (fun _ _ h h' => (stretch_unique h.1 h'.1 (Nat.le_refl _) h.1.1).2) j
    simp only [ends]
    rw [endsAll]
    simp only [Bool.false_eq_true, if_false, List.mem_flatMap, mem_notBehind hc]
    constructor
    · rintro ⟨_, ⟨rfl, h⟩, h'⟩
      obtain ⟨⟨a1, a2, a3, a4⟩, a5⟩ := (mem_tail hw hc hi).1 h'
      exact ⟨⟨by omega, a4, h, a5⟩, a2, a3⟩
    · rintro ⟨⟨a1, a2, a3, a4⟩, a5, a6⟩
      exact ⟨i, ⟨rfl, a3⟩, (mem_tail hw hc hi).2 ⟨⟨by omega, a5, a6, a2⟩, a4⟩⟩
  refine ⟨rs, ranges, h1, h2, enumerates_of_finds h3 (fun x hx => ?_) (fun _ _ h => h.1) fun i j hij hn => ?_⟩
  · obtain ⟨a1, a2⟩ := finds_mem h3 x hx
    exact (hf _ _ a1).1 a2
  · have hi : i ≤ s.length := by
      obtain ⟨x, hx, _⟩ := hij.1.2.1 i (Nat.le_refl _) hij.1.1
      exact Nat.le_of_lt (List.getElem?_eq_some_iff.1 hx).1
    have := (hf i j hi).2 hij
    rw [show (ends (Flags.ofList fl) s (.seq [.neg (.look .behind cls), .rep m lo _ cls, .neg (.look .ahead cls)]) true false i).head? = none from hn] at this
    cases this

/-- The word characters are a class, with any flags. -/
theorem accepts_wordClass (f : Flags) (x : Byte) : accepts f wordClass x = true ↔ WordChar x := by
  have h : ∀ b : Bool, (List.range 256).all (fun n => accepts { icase := b } wordClass (BitVec.ofNat 8 n) ==
      decide ((48 ≤ n ∧ n ≤ 57) ∨ (65 ≤ n ∧ n ≤ 90) ∨ n = 95 ∨ (97 ≤ n ∧ n ≤ 122))) = true := by decide +kernel
  have := List.all_eq_true.1 (h f.icase) x.toNat (List.mem_range.2 x.isLt)
  have e : accepts f wordClass x = accepts { icase := f.icase } wordClass x := rfl
  rw [e]
  simp only [BitVec.ofNat_toNat, BitVec.setWidth_eq, beq_iff_eq] at this
  rw [this, decide_eq_true_eq]
  rfl

/-- **C87**: `\b\w{lo,hi}\b`, with any bounds from 1 on, any mode and any flags: `find_all` visits exactly the words with a length within the bounds. -/
theorem C87_words {lo : Nat} {hi : Bound} (hR : (Regex.mk (.seq [.wordB, .rep m lo hi wordClass, .wordB]) fl).Ok cat) (hlo : 1 ≤ lo) :
    FindsAll ⟨.seq [.wordB, .rep m lo hi wordClass, .wordB], fl⟩ cat s (fun i j => Stretch WordChar s i j ∧ lo ≤ j - i ∧ AtMost (j - i) hi) := by
  intro k hk
  have hw := parts_of_ok hR (a := .rep m lo hi wordClass) (by simp)
  obtain ⟨rs, ranges, h1, h2, h3⟩ := C31_find_all_partial _ cat hR (by simp [noBackref, noBackrefAll, wordClass]) s k hk
  have hca : ∀ t, CharAt s t (fun x => accepts (Flags.ofList fl) wordClass x = true) ↔ CharAt s t WordChar := fun t => by
    simp only [CharAt, accepts_wordClass]
  have hrun := fun {p q : Nat} (hp : p ≤ s.length) => mem_run (f := Flags.ofList fl) (s := s) (p := p) (q := q) hw rfl hp
  simp only [hca] at hrun
  have hsub : ∀ {p q : Nat}, q ∈ ends (Flags.ofList fl) s (.rep m lo hi wordClass) true false p → p < q ∧ ∀ t, p ≤ t → t < q → CharAt s t WordChar := by
    intro p q h
    obtain ⟨a1, a2⟩ := sub_run (f := Flags.ofList fl) (cls := wordClass) rfl h
    simp only [hca] at a2
    exact ⟨by omega, a2⟩
  have hf : ∀ i j, i ≤ s.length → ((ends (Flags.ofList fl) s (.seq [.wordB, .rep m lo hi wordClass, .wordB]) true false i).head? = some j ↔
      Stretch WordChar s i j ∧ lo ≤ j - i ∧ AtMost (j - i) hi) := by
    intro i j hi
    refine head_of_single (Q := fun j => Stretch WordChar s i j ∧ lo ≤ j - i ∧ AtMost (j - i) _) (fun q => ?_)
      (fun _ _ h h' => (stretch_unique h.1 h'.1 (Nat.le_refl _) h.1.1).2) j
    simp only [ends]
    simp only [endsAll, Bool.false_eq_true, if_false, List.mem_flatMap, List.mem_singleton, mem_wordB]
    constructor
    · rintro ⟨i', ⟨hi', h⟩, t, h', q', ⟨hq', h''⟩, hq''⟩
      subst hi' hq'' hq'
      obtain ⟨b1, b2⟩ := hsub h'
      have hbef : CharBefore s q WordChar := ⟨q - 1, by omega, b2 _ (by omega) (by omega)⟩
      have haft : ¬ CharAt s q WordChar := fun hh => h'' ⟨fun _ => hh, fun _ => hbef⟩
      have hst : ¬ CharBefore s i' WordChar := fun hh => h ⟨fun _ => b2 i' (Nat.le_refl _) b1, fun _ => hh⟩
      obtain ⟨a1, a2, a3, a4⟩ := (hrun hi haft).1 h'
      exact ⟨⟨b1, a4, hst, haft⟩, a2, a3⟩
    · rintro ⟨⟨a1, a2, a3, a4⟩, a5, a6⟩
      refine ⟨i, ⟨rfl, fun h => a3 (h.2 (a2 i (Nat.le_refl _) a1))⟩, q, (hrun hi a4).2 ⟨by omega, a5, a6, a2⟩, q, ⟨rfl, fun h => ?_⟩, rfl⟩
      exact a4 (h.1 ⟨q - 1, by omega, a2 _ (by omega) (by omega)⟩)
  refine ⟨rs, ranges, h1, h2, enumerates_of_finds h3 (fun x hx => ?_) (fun _ _ h => h.1) fun i j hij hn => ?_⟩
  · obtain ⟨a1, a2⟩ := finds_mem h3 x hx
    exact (hf _ _ a1).1 a2
  · have hi : i ≤ s.length := by
      obtain ⟨x, hx, _⟩ := hij.1.2.1 i (Nat.le_refl _) hij.1.1
      exact Nat.le_of_lt (List.getElem?_eq_some_iff.1 hx).1
    have := (hf i j hi).2 hij
    rw [show (ends (Flags.ofList fl) s (.seq [.wordB, .rep m lo _ wordClass, .wordB]) true false i).head? = none from hn] at this
    cases this

end

/-! ### The regexes of the examples -/

/-- `\w+?(?!\w)` (example/regex_range.cpp:6). -/
theorem word_range : parse (txt "\\w+?(?!\\w)") = .result (.seq [.rep .lazy 1 .inf wordClass, .neg (.look .ahead wordClass)]) .success := rfl

/-- `\b\w{4,5}+\b` (example/regex_searcher.cpp:9). -/
theorem word_searcher : parse (txt "\\b\\w{4,5}+\\b") = .result (.seq [.wordB, .rep .possessive 4 (.fin 5) wordClass, .wordB]) .success := rfl

/-- **C87**: the regex of example/regex_range.cpp finds exactly the words. -/
theorem C87_example_range {a : Ast} (h : parse (txt "\\w+?(?!\\w)") = .result a .success) (cat : Cat) (s : List Byte) : FindsAll ⟨a, []⟩ cat s (Stretch WordChar s) := by
  rw [word_range] at h
  cases h
  have := C87_stretches (fl := []) (cat := cat) (s := s) (m := .lazy) (cls := wordClass) (by cases cat <;> exact Regex.ok_of_okb (by decide)) rfl
  simpa only [accepts_wordClass] using this

/-- **C87**: the regex of example/regex_searcher.cpp finds exactly the words of four or five characters. -/
theorem C87_example_searcher {a : Ast} (h : parse (txt "\\b\\w{4,5}+\\b") = .result a .success) (cat : Cat) (hcat : cat ≠ .forward) (s : List Byte) :
    FindsAll ⟨a, []⟩ cat s (fun i j => Stretch WordChar s i j ∧ 4 ≤ j - i ∧ j - i ≤ 5) := by
  rw [word_searcher] at h
  cases h
  refine C87_words (fl := []) (m := .possessive) (hi := .fin 5) ?_ (by decide)
  cases cat
  · exact absurd rfl hcat
  · exact Regex.ok_of_okb (by decide)
  · exact Regex.ok_of_okb (by decide)

example : Stretch WordChar (txt "a, bc!") 3 5 := by
  refine ⟨by decide, fun t h1 h2 => ?_, ?_, ?_⟩
  · rw [← isWordAt_iff]
    obtain rfl | rfl : t = 3 ∨ t = 4 := by omega
    · decide
    · decide
  · rw [← charBefore_iff isWordAt_iff]; decide
  · rw [← isWordAt_iff]; decide
example := C87_eager (s := txt "12 345") (fl := [.ungreedy]) (cat := .forward) (m := .lazy) (cls := .range (ch '0') (ch '9')) (Regex.ok_of_okb (by decide)) rfl rfl
example := C87_lengths (s := txt "12 345") (fl := [.icase]) (cat := .bidirectional) (m := .lazy) (lo := 2) (hi := .fin 2) (cls := .neg (.range (ch 'a') (ch 'f')))
  (Regex.ok_of_okb (by decide)) rfl (by decide)

/-- Without the lookahead the lazy quantifier finds single characters. -/
example : (rangeElements ⟨.rep .lazy 1 .inf wordClass, []⟩ .search .randomAccess (txt "ab") 4).map (fun x => x.1.map (·.group 0)) =
    some [some (some (0, 1)), some (some (1, 2))] := by decide +kernel

end Mregex
