import Verif.Proof.Meaning
import Verif.Props.Traits
import Verif.Props.Tokens

/-!
# C100: What a pattern means

From the text of a pattern to the results of the calls, without a tree in between: `PatternMeans` (Spec/Meaning) composes a function from the text of the pattern; the functions of
the library report what this function says.
-/

namespace Mregex
open Ast Spec

/-- A pattern that has a meaning is accepted; wherever it can be used, every call reports the range its meaning says, and matches iff there is such a range. -/
theorem C100_means {pat : List Byte} {S : Sem} (h : PatternMeans pat S) : ∃ a, parse pat = .result a .success ∧
    ∀ (fl : List RegexFlag) (cat : Mregex.Cat), (Regex.mk a fl).Ok cat → ∀ (M : Method) (s : List Byte), ∃ res, (Regex.mk a fl).invoke M cat s = some res ∧
      (res.matched = true ↔ ∃ i j, Reported M s.length (S (Flags.ofList fl) s) i j) ∧
      ∀ i j, Reported M s.length (S (Flags.ofList fl) s) i j → res.group 0 = some (some (i, j)) := by
  obtain ⟨x, b, hp, ht⟩ := means_pattern h
  refine ⟨_, parse_of_pattern hp, fun fl cat hok M s => ?_⟩
  obtain ⟨res, h1, h2, h3⟩ := invoke_outcome (Regex.mk (indexCaptures x) fl) cat hok (by show noBackref (index 1 x) = true; rw [noBackref_number]; exact ht.nb) M s
  have he : outcome M s.length (ends (Flags.ofList fl) s (indexCaptures x) true false) = outcome M s.length (S (Flags.ofList fl) s) :=
    outcome_feq fun p hp => by
      show FEq (ends _ s (index 1 x) true false p) _
      rw [ends_index]
      exact ht.agree _ _ _ hp
  have hfl : (Regex.mk (indexCaptures x) fl).fl = Flags.ofList fl := rfl
  rw [hfl] at h2 h3
  dsimp only at h2 h3
  rw [he] at h2 h3
  have hm : res.matched = true ↔ ∃ i j, Reported M s.length (S (Flags.ofList fl) s) i j := by
    rw [h2, Option.isSome_iff_exists]
    constructor
    · rintro ⟨⟨i, j⟩, h⟩; exact ⟨i, j, outcome_reported.1 h⟩
    · rintro ⟨i, j, h⟩; exact ⟨(i, j), outcome_reported.2 h⟩
  exact ⟨res, h1, hm, fun i j h => by rw [h3 (hm.2 ⟨i, j, h⟩), outcome_reported.2 h]⟩

/-- A pattern that has a meaning, without names, can be used with every text that can be read in both directions. -/
theorem C100_usable {pat : List Byte} {S : Sem} (h : PatternMeans pat S) (hn : ∀ n, some n ∉ openedGroups pat) {a : Ast} (ha : parse pat = .result a .success)
    (fl : List RegexFlag) {cat : Mregex.Cat} (hc : cat ≠ .forward) : (Regex.mk a fl).Ok cat := by
  obtain ⟨x, b, hp, ht⟩ := means_pattern h
  have hx : a = indexCaptures x := by
    have := parse_of_pattern hp
    rw [ha] at this
    cases this
    rfl
  have hf : fits a = true := by rw [hx]; show fits (index 1 x) = true; rw [fits_number]; exact ht.fits
  rw [C57_usable ha]
  refine ⟨fun k u v hp => ?_, fun k m lo hi b hp => ?_, fun k id hp => ?_, fun k n hp => ?_, fun k id n b hp => ⟨C57_groups ha (.inl hn) k id n b hp, ?_⟩, fun h => absurd h hc⟩
  · simpa [fits] using (part_fits hp hf nofun).1
  · have := (part_fits hp hf nofun).1
    simp only [fits, Bool.and_eq_true, decide_eq_true_eq] at this
    exact this.1
  · exact absurd (part_fits hp hf nofun).1 (by simp [fits])
  · exact absurd (part_fits hp hf nofun).1 (by simp [fits])
  · simpa using (part_fits hp hf nofun).2

/-- Every accepted pattern that can be used has a meaning, if it has no references and nothing but characters, groups, alternatives, greedy and lazy quantifiers and `\b`, `\B` in its
lookbehinds. -/
theorem C100_every {pat : List Byte} {a : Ast} (ha : parse pat = .result a .success) {fl : List RegexFlag} {cat : Mregex.Cat} (hok : (Regex.mk a fl).Ok cat)
    (hn : noBackref a = true) (hc : calm a = true) : ∃ S, PatternMeans pat S := by
  obtain ⟨x, hp, hx⟩ := pattern_of_parse ha
  have hf := fits_of_ok (hok []) hn hc
  rw [hx] at hf
  exact pattern_means hp ((fits_number 1 x).symm.trans hf)

/-- A pattern has only one meaning: two meanings stop at the same positions, prefer the same one, and have the same ranges reported. -/
theorem C100_unique {pat : List Byte} {S T : Sem} (hS : PatternMeans pat S) (hT : PatternMeans pat T) (f : Flags) (s : List Byte) :
    (∀ p, p ≤ s.length → (∀ q, q ∈ S f s p ↔ q ∈ T f s p) ∧ (S f s p).head? = (T f s p).head?) ∧
      ∀ M i j, Reported M s.length (S f s) i j ↔ Reported M s.length (T f s) i j := by
  obtain ⟨x, b, hp, ht⟩ := means_pattern hS
  obtain ⟨y, c, hq, hu⟩ := means_pattern hT
  have hxy : ends f s x = ends f s y := by
    have h1 := parse_of_pattern hp
    rw [parse_of_pattern hq] at h1
    have : index 1 y = index 1 x := by injection h1
    rw [← ends_index f s 1 x, ← ends_index f s 1 y, this]
  have he : ∀ p, p ≤ s.length → FEq (S f s p) (T f s p) := fun p hp => (ht.agree f s p hp).symm.trans (by rw [hxy]; exact hu.agree f s p hp)
  refine ⟨fun p hp => ⟨fun q => (he p hp).mem, (he p hp).head?⟩, fun M i j => ?_⟩
  rw [← outcome_reported, ← outcome_reported, outcome_feq he]

theorem finds_congr {n : Nat} {first second : Nat → Option Nat} (he : ∀ i, i ≤ n → first i = second i) {p : Nat} {l : List (Nat × Nat)} (h : Finds n first p l) :
    Finds n second p l := by
  induction h with
  | none h => exact .none fun i h1 h2 => he i h2 ▸ h i h1 h2
  | empty h1 h2 h3 h4 => exact .empty h1 h2 (he _ h2 ▸ h3) fun i h5 h6 => he i (by omega) ▸ h4 i h5 h6
  | cons h1 h2 h3 h4 h5 _ ih => exact .cons h1 h2 h3 ((he _ (Nat.le_trans (Nat.le_of_lt h2) h3)) ▸ h4) (fun i h6 h7 => he i (by omega) ▸ h5 i h6 h7) ih

theorem takes_congr {n : Nat} {first second : Nat → Option Nat} (he : ∀ i, i ≤ n → first i = second i) (hb : ∀ i j, i ≤ n → first i = some j → j ≤ n)
    {p : Nat} (hp : p ≤ n) {l : List (Nat × Nat)} (h : Takes first p l) : Takes second p l := by
  induction h with
  | none h => exact .none (he _ hp ▸ h)
  | empty h => exact .empty (he _ hp ▸ h)
  | cons h1 h2 _ ih => exact .cons (he _ hp ▸ h1) h2 (ih (hb _ _ hp h1))

/-- The loops: `find_all` visits the preferred matches at the first positions that have one, each from the end of the one before, and `tokenize` the preferred matches side by side, up to
the first empty one. -/
theorem C100_loops {pat : List Byte} {S : Sem} (h : PatternMeans pat S) {a : Ast} (ha : parse pat = .result a .success) (fl : List RegexFlag) (cat : Mregex.Cat)
    (hok : (Regex.mk a fl).Ok cat) (s : List Byte) :
    (∀ rounds, s.length + 2 ≤ rounds → ∃ rs ranges, rangeElements ⟨a, fl⟩ findAllMethod cat s rounds = some (rs, true) ∧ rs.map (·.group 0) = ranges.map (fun x => some (some x)) ∧
      Finds s.length (fun i => (S (Flags.ofList fl) s i).head?) 0 ranges) ∧
    Tokenizes ⟨a, fl⟩ cat s (Takes (fun i => (S (Flags.ofList fl) s i).head?) 0) := by
  obtain ⟨x, b, hp, ht⟩ := means_pattern h
  have hx : a = indexCaptures x := by
    have := parse_of_pattern hp
    rw [ha] at this
    cases this
    rfl
  subst hx
  have hn : noBackref (indexCaptures x) = true := by show noBackref (index 1 x) = true; rw [noBackref_number]; exact ht.nb
  have he : ∀ i, i ≤ s.length → (ends (Flags.ofList fl) s (indexCaptures x) true false i).head? = (S (Flags.ofList fl) s i).head? := fun i hi => by
    show (ends _ s (index 1 x) true false i).head? = _
    rw [ends_index]
    exact (ht.agree _ _ _ hi).head?
  refine ⟨fun k hk => ?_, fun k hk => ?_⟩
  · obtain ⟨rs, rg, h1, h2, h3⟩ := C31_find_all_partial (Regex.mk (indexCaptures x) fl) cat hok hn s k hk
    exact ⟨rs, rg, h1, h2, finds_congr he h3⟩
  · obtain ⟨rs, rg, h1, h2, h3⟩ := C96_tokens (Regex.mk (indexCaptures x) fl) cat hok hn s k hk
    exact ⟨rs, rg, h1, h2, takes_congr he (fun i j hi hj => (ends_bounds hi (List.mem_of_head? hj)).2) (Nat.zero_le _) h3⟩

/-- At most one range is reported. -/
theorem C100_one {M : Method} {n : Nat} {e : Nat → List Nat} {i j i' j' : Nat} (h : Reported M n e i j) (h' : Reported M n e i' j') : i = i' ∧ j = j' := by
  rw [← outcome_reported] at h h'
  rw [h] at h'
  cases h'
  exact ⟨rfl, rfl⟩

/-! ## Examples -/

theorem noQuant_plain {c : Byte} (h : c ∉ txt "*+?{") : NoQuant (some c) := fun d hd => by cases hd; exact h

/-- `ab?|c` means: `a`, then preferably `b`; and otherwise `c`. -/
theorem means_abc : PatternMeans (txt "ab?|c") (semAlt (semSeq (semOne fun f x => CharEq f.icase (ch 'a') x) (semRep .greedy 0 (.fin 1) (semOne fun f x => CharEq f.icase (ch 'b') x)))
    (semOne fun f x => CharEq f.icase (ch 'c') x)) :=
  .alts (.or (w := txt "ab?") (v := txt "c")
    (.single (.more (w := txt "a") (v := txt "b?") (.one (.bare (.plain (c := ch 'a') (by decide)) (noQuant_plain (by decide))))
      (.quant (w := txt "b") (q := txt "?") (s := []) (.plain (c := ch 'b') (by decide)) .opt (by rintro n h; cases h; decide) .greedy (noQuant_plain (by decide)))))
    (.one (.bare (.plain (c := ch 'c') (by decide)) nofun)))

/-- `(?<!a)[b-d]` means: one of `b`, `c`, `d`, where no `a` stops. -/
theorem means_behind : PatternMeans (txt "(?<!a)[b-d]") (semSeq (semHere fun f s p => ¬CanStop (semOne fun f x => CharEq f.icase (ch 'a') x) f s p)
    (semOne fun f x => ∃ y, (False ∨ ((ch 'b').toNat ≤ y.toNat ∧ y.toNat ≤ (ch 'd').toNat)) ∧ CharEq f.icase y x)) :=
  .alts (.single (.more (w := txt "(?<!a)") (v := txt "[b-d]")
    (.one (.bare (.group (o := txt "(?<!") (w := txt "a") .negBehind (.single (.one (.bare (.plain (c := ch 'a') (by decide)) (noQuant_plain (by decide))))) (fun _ => rfl))
      (noQuant_plain (by decide))))
    (.bare (.set (w := txt "b-d") (.plain (.range (w := []) (u := txt "b") (v := txt "d") .nil (.plain (by decide) (by decide)) (by decide) (.plain (by decide) (by decide)) (by decide)))
      (by decide)) nofun)))

/-- The meaning of a set is the one of its text, exceptions included: the characters of `[\R-a]` are those from 10 to `a`. -/
example : PatternMeans (txt "[\\R-a]") (semOne fun f x => ∃ y, (((False ∨ y = 13#8) ∨ (10 ≤ y.toNat ∧ y.toNat ≤ (ch 'a').toNat))) ∧ CharEq f.icase y x) :=
  .alts (.single (.one (.bare (.set (w := txt "\\R-a") (.plain (.quirk (w := []) (v := txt "a") .nil (.plain (by decide) (by decide)) (by decide))) (by decide)) nofun)))

/-- The pattern can be used, with all flags. -/
example : ∃ a, parse (txt "(?<!a)[b-d]") = .result a .success ∧ (∀ fl, (Regex.mk a fl).Ok .randomAccess) ∧
    ∀ M s, ∃ res, (Regex.mk a []).invoke M .randomAccess s = some res := by
  obtain ⟨a, h1, h2⟩ := C100_means means_behind
  have hok := fun fl => C100_usable means_behind (by rw [show openedGroups (txt "(?<!a)[b-d]") = [] from rfl]; simp) h1 fl (cat := .randomAccess) (by decide)
  exact ⟨a, h1, hok, fun M s => by obtain ⟨res, h, _⟩ := h2 [] _ (hok []) M s; exact ⟨res, h⟩⟩

/-- What the meaning of `ab?|c` says about the text `xab`: from position 1 the preferred end is 3. -/
example : Reported .search 3 (fun p => if p = 1 then [3, 2] else []) 1 3 := ⟨⟨by decide, by decide, by decide⟩, by decide⟩

/-- A loop over `find_all` with the pattern `ab?|c` on `xabbc`, and what its meaning says. -/
example : rangeElements ⟨.alt [.seq [.lit (ch 'a'), .rep .greedy 0 (.fin 1) (.lit (ch 'b'))], .lit (ch 'c')], []⟩ .search .randomAccess (txt "xabbc") 7 =
    some ([⟨[some (1, 3)], true⟩, ⟨[some (4, 5)], true⟩], true) ∧
    parse (txt "ab?|c") = .result (.alt [.seq [.lit (ch 'a'), .rep .greedy 0 (.fin 1) (.lit (ch 'b'))], .lit (ch 'c')]) .success ∧
    Finds 5 (fun p => if p = 1 then some 3 else if p = 4 then some 5 else none) 0 [(1, 3), (4, 5)] :=
  ⟨by decide, rfl, .cons (i := 1) (j := 3) (by decide) (by decide) (by decide) rfl (fun i h1 h2 => by rw [if_neg (by omega), if_neg (by omega)])
    (.cons (i := 4) (j := 5) (by decide) (by decide) (by decide) rfl (fun i h1 h2 => by rw [if_neg (by omega), if_neg (by omega)]) (.none (fun i h1 h2 => by rw [if_neg (by omega), if_neg (by omega)])))⟩

/-- Meanings of patterns with lookaheads, atomic groups, named groups exist by `C100_every`. -/
example : ∃ S, PatternMeans (txt "(?<n>a+?)(?=b|$)(?>c*)") S :=
  C100_every (a := .seq [.cap 1 (some (txt "n")) (.rep .lazy 1 .inf (.lit (ch 'a'))), .look .ahead (.alt [.lit (ch 'b'), .eol]), .rep .possessive 1 (.fin 1) (.rep .greedy 0 .inf (.lit (ch 'c')))])
    rfl (fl := []) (cat := .forward) (Regex.ok_of_okb (by decide)) rfl rfl

end Mregex
