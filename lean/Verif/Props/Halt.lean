import Verif.Proof.HaltCompute
import Verif.Props.Says
import Verif.Props.Parsing
import Verif.Spec.Regular

/-!
# C105: with references, nothing can tell whether a pattern accepts every text
-/

namespace Mregex
open Ast Spec Turing.ToPartrec

section
variable (c : Code) (k : Nat) {cat : Cat}

/-- The regex that doubts a computation. -/
def doubtRegex : Regex := ⟨doubtA c k, []⟩

theorem doubt_accepted (hc : cat ≠ .forward) (s : List Byte) : s ∈ accepted (doubtRegex c k) .match cat ↔ ¬ GoodText c k s := by
  obtain ⟨res, h1, h2, _⟩ := C92_match (doubtRegex c k) cat (ok_doubt c k hc) (wordy_doubt c k) (traceable_doubt c k) s
  rw [← doubt_iff]
  refine Iff.trans ?_ h2
  constructor
  · rintro ⟨res', h3, h4⟩
    rw [h1] at h3
    cases h3
    exact h4
  · exact fun h => ⟨res, h1, h⟩

/-- **C105**: every program (of a basis for all computable functions) with a number has a pattern, with groups and references by number as its only means beyond regular
expressions, that accepts all texts exactly if the program does not halt for the number. -/
theorem C105_doubt (hc : cat ≠ .forward) : (∀ s, s ∈ accepted (doubtRegex c k) .match cat) ↔ ¬ (c.eval [k + 1]).Dom := by
  simp only [doubt_accepted c k hc]
  exact ⟨fun h h' => (good_of_halts h').elim h, fun h s hs => h (halts_of_good hs)⟩

/-- **C105**: the pattern compiles to this regex, it can be computed, and it has nothing but groups, references, sets, greedy repetitions, sequences and alternatives. -/
theorem C105_pattern : parse (print (doubtA c k)) = .result (doubtA c k) .success ∧ (∀ cat, cat ≠ .forward → (doubtRegex c k).Ok cat) ∧
    wordy (doubtA c k) = true ∧ traceable (doubtA c k) = true :=
  ⟨C36_parse_print (normal_doubt c k) (index_doubt c k), fun _ hc => ok_doubt c k hc, wordy_doubt c k, traceable_doubt c k⟩

/-- **C105**: the record of a run that ends is not accepted. -/
theorem C105_record (hc : cat ≠ .forward) {T : List Byte} (h : RecordFrom (startFrames c (k + 1)) T) : bar :: T ∉ accepted (doubtRegex c k) .match cat := by
  rw [doubt_accepted c k hc]
  exact fun h' => h' (good_record h)

end

/-- The pattern compiles, and `match` can be used with every input that can be read backwards. -/
def UsablePattern (p : List Byte) (a : Ast) : Prop :=
  parse p = .result a .success ∧ (∀ cat, cat ≠ .forward → (Regex.mk a []).Ok cat) ∧ wordy a = true ∧ traceable a = true

theorem usable_doubt (c : Code) (k : Nat) : UsablePattern (patternOf ((print (doubtA c k)).map BitVec.toNat)) (doubtA c k) := by
  rw [patternOf, ofNat_toNat]
  exact C105_pattern c k

/-- **C105**: whatever is proposed as a procedure that recognises the patterns that accept every text (it need not even stop for the others) is wrong about a pattern without
anchors, lookarounds and possessive parts. -/
theorem C105_errs (D : List Nat → Prop) (hD : REPred D) {cat : Cat} (hc : cat ≠ .forward) :
    ∃ l a, UsablePattern (patternOf l) a ∧ ¬ (D l ↔ ∀ s, s ∈ accepted ⟨a, []⟩ .match cat) := by
  obtain ⟨c, h⟩ := not_enumerable
  apply Classical.byContradiction
  intro hn
  refine h (fun k => D ((print (doubtA c k)).map BitVec.toNat)) (Partrec.comp hD (computable_doubt c)) fun k => ?_
  rw [← C105_doubt c k hc]
  exact Classical.byContradiction fun h' => hn ⟨_, _, usable_doubt c k, h'⟩

/-- **C105**: the patterns that accept every text cannot be enumerated. -/
theorem C105_not_enumerable {cat : Cat} (hc : cat ≠ .forward) :
    ¬ REPred fun l : List Nat => ∃ a, UsablePattern (patternOf l) a ∧ ∀ s, s ∈ accepted ⟨a, []⟩ .match cat := fun h => by
  obtain ⟨l, a, h1, h2⟩ := C105_errs _ h hc
  refine h2 ⟨fun ⟨b, h3, h4⟩ => ?_, fun h3 => ⟨a, h1, h3⟩⟩
  have : b = a := by
    have := h3.1.symm.trans h1.1
    simpa using this
  rw [← this]
  exact h4

/-- **C105**: so no procedure decides it. -/
theorem C105_undecidable {cat : Cat} (hc : cat ≠ .forward) :
    ¬ ComputablePred fun l : List Nat => ∃ a, UsablePattern (patternOf l) a ∧ ∀ s, s ∈ accepted ⟨a, []⟩ .match cat :=
  fun h => C105_not_enumerable hc h.to_re

/-- The pattern `[^]*`. -/
def anyPattern : List Nat := (txt "[^]*").map BitVec.toNat

theorem usable_any : UsablePattern (patternOf anyPattern) anythingA := by
  have h := plainPart_facts .anything
  refine ⟨by rw [anyPattern, patternOf, ofNat_toNat]; rfl, fun _ _ s => h.ok _ _, h.wordy, ?_⟩
  rw [traceable, h.commits, h.refs]
  rfl

theorem accepted_any {cat : Cat} (hc : cat ≠ .forward) (s : List Byte) : s ∈ accepted ⟨anythingA, []⟩ .match cat := by
  obtain ⟨res, h1, h2, _⟩ := C92_match ⟨anythingA, []⟩ cat (usable_any.2.1 cat hc) usable_any.2.2.1 usable_any.2.2.2 s
  exact ⟨res, h1, h2.2 ⟨[], says_anything.2 rfl⟩⟩

theorem pair_errs (D : List Nat → List Nat → Prop) (hD : REPred fun x : List Nat × List Nat => D x.1 x.2) {cat : Cat} (hc : cat ≠ .forward) :
    ∃ l a, UsablePattern (patternOf l) a ∧ ¬ (D anyPattern l ↔ ∀ s, s ∈ accepted ⟨a, []⟩ .match cat) :=
  C105_errs (fun l => D anyPattern l) (Partrec.comp (g := fun l => (anyPattern, l)) hD (Computable.pair (.const _) .id)) hc

/-- **C105**: no procedure recognises the pairs of patterns that accept the same texts. -/
theorem C105_same (D : List Nat → List Nat → Prop) (hD : REPred fun x : List Nat × List Nat => D x.1 x.2) {cat : Cat} (hc : cat ≠ .forward) :
    ∃ l a l' a', UsablePattern (patternOf l) a ∧ UsablePattern (patternOf l') a' ∧
      ¬ (D l l' ↔ accepted ⟨a, []⟩ .match cat = accepted ⟨a', []⟩ .match cat) := by
  obtain ⟨l, a, h1, h2⟩ := pair_errs D hD hc
  refine ⟨_, _, l, a, usable_any, h1, fun h => h2 (h.trans ⟨fun h s => ?_, fun h => Language.ext fun s => ?_⟩)⟩
  · rw [← h]; exact accepted_any hc s
  · exact ⟨fun _ => h s, fun _ => accepted_any hc s⟩

/-- **C105**: or the pairs of which the second accepts whatever the first accepts. -/
theorem C105_within (D : List Nat → List Nat → Prop) (hD : REPred fun x : List Nat × List Nat => D x.1 x.2) {cat : Cat} (hc : cat ≠ .forward) :
    ∃ l a l' a', UsablePattern (patternOf l) a ∧ UsablePattern (patternOf l') a' ∧
      ¬ (D l l' ↔ ∀ s ∈ accepted ⟨a, []⟩ .match cat, s ∈ accepted ⟨a', []⟩ .match cat) := by
  obtain ⟨l, a, h1, h2⟩ := pair_errs D hD hc
  exact ⟨_, _, l, a, usable_any, h1, fun h => h2 (h.trans ⟨fun h s => h s (accepted_any hc s), fun h s _ => h s⟩)⟩

/-- **C105**: whatever bound can be computed from the patterns, there is one that does not accept every text but accepts all texts up to the bound. -/
theorem C105_no_bound (b : List Nat → Nat) (hb : Computable b) {cat : Cat} (hc : cat ≠ .forward) :
    ∃ l a, UsablePattern (patternOf l) a ∧ (∃ s, s ∉ accepted ⟨a, []⟩ .match cat) ∧ ∀ s, s.length ≤ b l → s ∈ accepted ⟨a, []⟩ .match cat := by
  obtain ⟨c, h⟩ := exists_exceeding
  obtain ⟨k, h1⟩ := h _ (hb.comp (computable_doubt c))
  refine ⟨_, _, usable_doubt c k, ?_, fun s hs => Classical.byContradiction fun h2 => ?_⟩
  · apply Classical.byContradiction
    intro h2
    exact (C105_doubt c k hc).1 (fun s => Classical.byContradiction fun h3 => h2 ⟨s, h3⟩) (Part.dom_iff_mem.2 ⟨_, h1⟩)
  · have h3 : GoodText c k s := Classical.byContradiction fun h3 => h2 ((doubt_accepted c k hc s).2 h3)
    have := result_lt_good h3 h1 (List.mem_singleton.2 rfl)
    omega

/-- **C105**: or two that do not accept the same texts and agree on all texts up to the bound. -/
theorem C105_no_bound_same (b : List Nat → List Nat → Nat) (hb : Computable₂ b) {cat : Cat} (hc : cat ≠ .forward) :
    ∃ l a l' a', UsablePattern (patternOf l) a ∧ UsablePattern (patternOf l') a' ∧ accepted ⟨a, []⟩ .match cat ≠ accepted ⟨a', []⟩ .match cat ∧
      ∀ s, s.length ≤ b l l' → (s ∈ accepted ⟨a, []⟩ .match cat ↔ s ∈ accepted ⟨a', []⟩ .match cat) := by
  obtain ⟨l, a, h1, ⟨s, h2⟩, h3⟩ := C105_no_bound (b anyPattern) (hb.comp (.const _) .id) hc
  exact ⟨_, _, l, a, usable_any, h1, fun h => h2 (h ▸ accepted_any hc s), fun s hs => ⟨fun _ => h3 s hs, fun _ => accepted_any hc s⟩⟩

/-! ### Cases -/

/-- The program that drops the first number halts for 1, and this is the record of its run. -/
example : txt "#rT,ab,h,,#v,,h,,##" ∉ accepted (doubtRegex .tail 0) .match .bidirectional :=
  C105_record .tail 0 (by decide) (T := txt "rT,ab,h,,#v,,h,,##")
    (show RecordFrom _ (framesWord (startFrames .tail 1) ++ bar :: (framesWord [(.back, []), (.stop, [])] ++ bar :: [bar])) from .step rfl (.step rfl .done))

example : ¬ ∀ s, s ∈ accepted (doubtRegex .tail 0) .match .bidirectional := fun h =>
  (C105_doubt .tail 0 (by decide)).1 h trivial

/-- "Accepts no pattern" can be recognised, and is wrong about some pattern. -/
example : ∃ l a, UsablePattern (patternOf l) a ∧ ¬ (False ↔ ∀ s, s ∈ accepted ⟨a, []⟩ .match .bidirectional) :=
  C105_errs (fun _ => False) (Partrec.none.of_eq fun _ => Part.ext fun _ => by simp) (by decide)

/-- Some pattern accepts all texts of up to a hundred times its length, but not all texts. -/
example : ∃ l a, UsablePattern (patternOf l) a ∧ (∃ s, s ∉ accepted ⟨a, []⟩ .match .bidirectional) ∧
    ∀ s, s.length ≤ 100 * l.length → s ∈ accepted ⟨a, []⟩ .match .bidirectional :=
  C105_no_bound _ (Primrec.nat_mul.comp (.const 100) Primrec.list_length).to_comp (by decide)

end Mregex
