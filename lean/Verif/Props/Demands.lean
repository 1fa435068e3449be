import Verif.Proof.Counts
import Verif.Proof.OkCheck
import Verif.Props.Parsing

/-!
# C107: the demands of the functions that are instantiated
-/

namespace Mregex
open Ast Spec

/-- **C107**: all functions that a call instantiates are in order iff the tree meets the static requirements and no character is to be repeated 2^63 times or more.  (For trees in which nothing is repeated zero times; what is
repeated zero times is not instantiated.) -/
theorem C107_exact (S : InstSettings) (E : Env) (whole : Bool) (a : Ast) (hz : NoZero a) (hs : ShortSeqs a) : FullyFine S E (rootInst whole a) ↔ Ok E 0 a ∧ CountsFit a :=
  ⟨fun h => ok_of_fine S E (nodeCount a + 1) a (Nat.lt_succ_self _) hz 0 _ h,
    fun h => fine_of_ok S E (nodeCount a + 1) a (Nat.lt_succ_self _) 0 h.1 hs h.2 _⟩

/-- **C107**, all trees: the requirements are enough. -/
theorem C107_enough (S : InstSettings) (E : Env) (whole : Bool) (a : Ast) (hs : ShortSeqs a) (ho : Ok E 0 a) (hc : CountsFit a) : FullyFine S E (rootInst whole a) :=
  fine_of_ok S E (nodeCount a + 1) a (Nat.lt_succ_self _) 0 ho hs hc _

/-- **C107** for patterns (of less than 2^60 characters): with the requirements of C57, and with numerals less than 2^63, all functions are in order.  The flags of the instantiations and those of the regex need not be related. -/
theorem C107_patterns (S : InstSettings) (whole : Bool) {w : List Byte} {a : Ast} (h : parse w = .result a .success) (hl : w.length < 2 ^ 60) (hn : NumeralsFit w)
    (fl : List RegexFlag) (cat : Cat) (ho : (Regex.mk a fl).Ok cat) (s : List Byte) : FullyFine S ((Regex.mk a fl).env cat s) (rootInst whole a) := by
  have hk := C97_size w a h
  refine C107_enough S _ whole a (shortSeqs_of_count a (by omega)) (ho s) ?_
  obtain ⟨x, hx, rfl⟩ := (C52_grammar w a).1 h
  rw [indexCaptures, countsFit_index]
  cases hx with
  | empty => trivial
  | alts hx => exact reads_fit hx trivial hn

/-- **C107** for patterns, exactly. -/
theorem C107_patterns_exact (S : InstSettings) (whole : Bool) {w : List Byte} {a : Ast} (h : parse w = .result a .success) (hl : w.length < 2 ^ 60) (hz : NoZero a) (fl : List RegexFlag) (cat : Cat) :
    (∀ s, FullyFine S ((Regex.mk a fl).env cat s) (rootInst whole a)) ↔ (Regex.mk a fl).Ok cat ∧ CountsFit a := by
  have hk := C97_size w a h
  have he := fun s => C107_exact S ((Regex.mk a fl).env cat s) whole a hz (shortSeqs_of_count a (by omega))
  exact ⟨fun hf => ⟨fun s => ((he s).1 (hf s)).1, ((he []).1 (hf [])).2⟩, fun hf s => (he s).2 ⟨hf.1 s, hf.2⟩⟩

/-- The tree of `a{9223372036854775808}`. -/
def exMany : Ast := .rep .greedy (2 ^ 63) (.fin (2 ^ 63)) (.lit (ch 'a'))

/-- **C107**: the restriction is needed.  `a{9223372036854775808}` is accepted and meets the requirements of C57, but its `match` calls a `distance_less_than<9223372036854775808>`, which does not exist; for `(?:ab){9223372036854775808}` nothing of
the kind is called (there the limits of the compiler stand in the way). -/
theorem C107_counts (S : InstSettings) (whole : Bool) : parse (txt "a{9223372036854775808}") = .result exMany .success ∧ (∀ fl cat, (Regex.mk exMany fl).Ok cat) ∧
    (∀ E, ¬FullyFine S E (rootInst whole exMany)) ∧ ∀ E, FullyFine S E (rootInst whole (.rep .greedy (2 ^ 63) (.fin (2 ^ 63)) (.seq [.lit (ch 'a'), .lit (ch 'b')]))) := by
  refine ⟨rfl, fun fl cat s => .repFin (Nat.le_refl _) .lit, fun E hf => ?_, fun E => ?_⟩
  · have := ((C107_exact S E whole exMany ⟨by decide, trivial⟩ trivial).1 hf).2.1 rfl
    exact absurd this (by decide)
  · exact C107_enough S E whole _ ⟨by decide, trivial, trivial, trivial⟩ (.repFin (Nat.le_refl _) (.seq (by simp) (by simpa using ⟨.lit, .lit⟩))) ⟨fun h => absurd h (by decide), trivial, trivial, trivial⟩

/-- Numerals are read modulo 2^64: `a{18446744073709551617}` is `a{1}`, although its numeral is not less than 2^63. -/
example (S : InstSettings) (E : Env) : parse (txt "a{18446744073709551617}") = .result (.rep .greedy 1 (.fin 1) (.lit (ch 'a'))) .success ∧ FullyFine S E (rootInst true (.rep .greedy 1 (.fin 1) (.lit (ch 'a')))) :=
  ⟨rfl, C107_enough S E true _ trivial (.repFin (Nat.le_refl _) .lit) ⟨fun _ => by decide, trivial⟩⟩

/-- The functions for `(?<=(a)b{3})\1` are in order for texts that can be read backwards, whatever the flags; not for a `std::forward_list`. -/
example (S : InstSettings) (fl : List RegexFlag) (s : List Byte) :
    FullyFine S ((Regex.mk (.seq [.look .behind (.seq [.cap 1 none (.lit (ch 'a')), .rep .greedy 3 (.fin 3) (.lit (ch 'b'))]), .backref 1]) fl).env .randomAccess s)
      (rootInst true (.seq [.look .behind (.seq [.cap 1 none (.lit (ch 'a')), .rep .greedy 3 (.fin 3) (.lit (ch 'b'))]), .backref 1])) ∧
    ¬FullyFine S ((Regex.mk (.seq [.look .behind (.seq [.cap 1 none (.lit (ch 'a')), .rep .greedy 3 (.fin 3) (.lit (ch 'b'))]), .backref 1]) fl).env .forward s)
      (rootInst true (.seq [.look .behind (.seq [.cap 1 none (.lit (ch 'a')), .rep .greedy 3 (.fin 3) (.lit (ch 'b'))]), .backref 1])) := by
  have hn : NoZero (.seq [.look .behind (.seq [.cap 1 none (.lit (ch 'a')), .rep .greedy 3 (.fin 3) (.lit (ch 'b'))]), .backref 1]) := by simp [NoZero, NoZeros]
  have hs : ShortSeqs (.seq [.look .behind (.seq [.cap 1 none (.lit (ch 'a')), .rep .greedy 3 (.fin 3) (.lit (ch 'b'))]), .backref 1]) := by simp [ShortSeqs, ShortSeqsAll]
  refine ⟨(C107_exact S _ true _ hn hs).2 ⟨?_, by simp [CountsFit, CountsFits]⟩, fun h => ?_⟩
  · refine .seq (by simp) ?_
    intro a ha
    simp only [List.mem_cons, List.not_mem_nil, or_false] at ha
    rcases ha with rfl | rfl
    · refine .behind (fun h => nomatch h) (.seq (by simp [invertAll]) ?_)
      intro a ha
      simp only [List.mem_reverse, invertAll, invert, List.mem_cons, List.not_mem_nil, or_false] at ha
      rcases ha with rfl | rfl
      · exact .cap rfl (by decide) .lit
      · exact .repFin (Nat.le_refl _) .lit
    · exact .backref (fun h => nomatch h) (show 1 < 2 by decide)
  · cases ((C107_exact S _ true _ hn hs).1 h).1 with
    | seq _ h =>
      cases h (.backref 1) (by simp) with
      | backref h _ => exact h rfl

/-- What is repeated zero times is not instantiated: the functions for `[b-a]{0}` are in order. -/
example (S : InstSettings) (E : Env) : FullyFine S E (rootInst true (.rep .greedy 0 (.fin 0) (.set [.range (ch 'b') (ch 'a')]))) ∧ ¬Ok E 0 (.rep .greedy 0 (.fin 0) (.set [.range (ch 'b') (ch 'a')])) := by
  refine ⟨FullyFine.none rfl rfl, fun h => ?_⟩
  cases h with
  | repFin _ h => cases h with
    | set _ h => cases h _ (List.mem_cons_self ..) with
      | range h => exact absurd h (by decide)

end Mregex
