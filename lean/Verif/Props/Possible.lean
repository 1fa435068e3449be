import Verif.Proof.Possible
import Verif.Proof.Refusal
import Verif.Props.Halt

/-!
# C106: whether a pattern accepts any text
-/

namespace Mregex
open Ast Spec Turing.ToPartrec

/-! ### Without anchors and lookarounds: a look at the pattern is enough -/

section
variable {R : Regex} {cat : Cat} (hR : R.Ok cat) (ha : wordy R.ast = true) (ht : traceable R.ast = true)
include hR ha ht

/-- **C106**: the text written down by `sample` is accepted, as a whole. -/
theorem C106_sample {w : List Byte} {e : Memory} (h : sample R.fl R.ast [] = some (w, e)) : w ∈ accepted R .match cat := by
  obtain ⟨res, h1, h2, _⟩ := C92_match R cat hR ha ht w
  exact ⟨res, h1, h2.2 ⟨e, says_sample _ h⟩⟩

/-- **C106**: some text is accepted (by any of the methods) exactly if all necessary parts are possible, whatever the references are. -/
theorem C106_possible (M : Method) : (∃ s, s ∈ accepted R M cat) ↔ possible R.fl R.ast = true := by
  constructor
  · rintro ⟨s, res, h1, h2⟩
    cases M with
    | «match» =>
      obtain ⟨res', h3, h4, _⟩ := C92_match R cat hR ha ht s
      rw [h1] at h3
      cases h3
      obtain ⟨e, h5⟩ := h4.1 h2
      exact possible_of_says _ h5
    | matchPrefix =>
      obtain ⟨res', h3, h4, _⟩ := C92_prefix R cat hR ha ht s
      rw [h1] at h3
      cases h3
      obtain ⟨_, _, _, _, h5⟩ := h4.1 h2
      exact possible_of_says _ h5
    | search =>
      obtain ⟨res', h3, h4, _⟩ := C92_search R cat hR ha ht s
      rw [h1] at h3
      cases h3
      obtain ⟨_, _, _, _, _, h5⟩ := h4.1 h2
      exact possible_of_says _ h5
  · intro h
    obtain ⟨⟨w, e⟩, h1⟩ := Option.isSome_iff_exists.1 (sample_isSome _ h [])
    refine ⟨w, ?_⟩
    cases M with
    | «match» => exact C106_sample hR ha ht h1
    | matchPrefix =>
      obtain ⟨res, h2, h3, _⟩ := C92_prefix R cat hR ha ht w
      exact ⟨res, h2, h3.2 ⟨w, [], e, by simp, says_sample _ h1⟩⟩
    | search =>
      obtain ⟨res, h2, h3, _⟩ := C92_search R cat hR ha ht w
      exact ⟨res, h2, h3.2 ⟨[], w, [], e, by simp, says_sample _ h1⟩⟩

/-- **C106**: `sample` finds a text whenever there is one. -/
theorem C106_sample_found (h : ∃ s, s ∈ accepted R .match cat) : ∃ w e, sample R.fl R.ast [] = some (w, e) ∧ w ∈ accepted R .match cat := by
  obtain ⟨⟨w, e⟩, h1⟩ := Option.isSome_iff_exists.1 (sample_isSome _ ((C106_possible hR ha ht .match).1 h) [])
  exact ⟨w, e, h1, C106_sample hR ha ht h1⟩

end

/-! ### The texts that are not accepted -/

/-- **C106**: `(?!(?:P)\Z)[^]*` accepts the texts that `P` does not accept, with references too. -/
theorem C106_refusal {R : Regex} {cat : Cat} (hR : R.Ok cat) (s : List Byte) : s ∈ accepted (refusal R) .match cat ↔ s ∉ accepted R .match cat := by
  obtain ⟨res, res', h1, h2, h3⟩ := match_refusal hR s
  constructor
  · rintro ⟨r', h4, h5⟩ ⟨r, h6, h7⟩
    rw [h2] at h4
    rw [h1] at h6
    cases h4
    cases h6
    rw [h3, h7] at h5
    cases h5
  · intro h
    refine ⟨res', h2, ?_⟩
    rw [h3]
    cases hm : res.matched
    · rfl
    · exact absurd ⟨res, h1, hm⟩ h

/-- **C106**: and it can be used wherever `P` can be used. -/
theorem C106_refusal_ok {R : Regex} {cat : Cat} (hR : R.Ok cat) : (refusal R).Ok cat := ok_refusal hR

/-! ### With a lookahead nothing can tell -/

/-- The text of `(?!(?:P)\Z)[^]*`. -/
def refusalText (p : List Nat) : List Nat := (txt "(?!(?:").map BitVec.toNat ++ (p ++ (txt ")\\Z)[^]*").map BitVec.toNat)

/-- The pattern compiles, and `match` can be used with every input that can be read backwards. -/
def AnyUsable (p : List Byte) (a : Ast) : Prop := parse p = .result a .success ∧ ∀ cat, cat ≠ .forward → (Regex.mk a []).Ok cat

theorem print_refusal (c : Code) (k : Nat) : print (refusalA (doubtA c k)) = txt "(?!(?:" ++ (print (doubtA c k) ++ txt ")\\Z)[^]*") := by
  simp only [doubtA, refusalA, makeSequence, print, pr, prAll, joinParts, groupText, Printed.asItem, Printed.wrapped, Printed.asAtom]
  simp [quantText, suffixText, txt, setText]

theorem usable_refusal (c : Code) (k : Nat) : AnyUsable (patternOf (refusalText ((print (doubtA c k)).map BitVec.toNat))) (refusalA (doubtA c k)) := by
  have hp : patternOf (refusalText ((print (doubtA c k)).map BitVec.toNat)) = print (refusalA (doubtA c k)) := by
    rw [print_refusal, patternOf, refusalText, ← List.map_append, ← List.map_append, ofNat_toNat]
  rw [hp]
  refine ⟨C36_parse_print ?_ ?_, fun cat hc => ok_refusal (R := doubtRegex c k) (ok_doubt c k hc)⟩
  · have h : Normal (.seq [doubtA c k, .eoi]) := by
      refine .seq (by simp) ?_ ?_ <;> intro a ha <;> simp only [List.mem_cons, List.not_mem_nil, or_false] at ha <;> rcases ha with rfl | rfl
      · exact fun l => by simp [doubtA]
      · exact fun l => by simp
      · exact normal_doubt c k
      · exact .eoi
    refine .seq (by simp) ?_ ?_ <;> intro a ha <;> simp only [List.mem_cons, List.not_mem_nil, or_false] at ha <;> rcases ha with rfl | rfl
    · exact fun l => by simp
    · exact fun l => by simp
    · exact .negLook h
    · exact .repInf (by decide) (.negSet .nil)
  · have h := index_doubt c k
    rw [indexCaptures] at h
    have h2 : makeSequence .eoi (doubtA c k) = .seq [doubtA c k, .eoi] := rfl
    simp only [refusalA, h2, indexCaptures, index, indexSeq, indexSame, h]

theorem computable_refusal (c : Code) : Computable fun k => refusalText ((print (doubtA c k)).map BitVec.toNat) := by
  unfold refusalText
  exact (Primrec.list_append.comp (.const _) (Primrec.list_append.comp .id (.const _))).to_comp.comp (computable_doubt c)

/-- **C106**: whatever is proposed as a procedure that recognises the patterns that accept no text is wrong about a pattern. -/
theorem C106_errs (D : List Nat → Prop) (hD : REPred D) {cat : Cat} (hc : cat ≠ .forward) :
    ∃ l a, AnyUsable (patternOf l) a ∧ ¬ (D l ↔ ∀ s, s ∉ accepted ⟨a, []⟩ .match cat) := by
  obtain ⟨c, h⟩ := not_enumerable
  apply Classical.byContradiction
  intro hn
  refine h (fun k => D (refusalText ((print (doubtA c k)).map BitVec.toNat))) (Partrec.comp hD (computable_refusal c)) fun k => ?_
  rw [← C105_doubt c k hc]
  apply Classical.byContradiction
  refine fun h' => hn ⟨_, _, usable_refusal c k, fun h2 => h' (h2.trans ⟨fun h3 s => ?_, fun h3 s h4 => ?_⟩)⟩
  · exact Classical.byContradiction fun h4 => h3 s ((C106_refusal (R := doubtRegex c k) (ok_doubt c k hc) s).2 h4)
  · exact (C106_refusal (R := doubtRegex c k) (ok_doubt c k hc) s).1 h4 (h3 s)

/-- **C106**: so no procedure decides whether a pattern accepts any text. -/
theorem C106_undecidable {cat : Cat} (hc : cat ≠ .forward) :
    ¬ ComputablePred fun l : List Nat => ∃ a, AnyUsable (patternOf l) a ∧ ∃ s, s ∈ accepted ⟨a, []⟩ .match cat := fun h => by
  obtain ⟨l, a, h1, h2⟩ := C106_errs _ h.not.to_re hc
  refine h2 ⟨fun h3 s h4 => h3 ⟨a, h1, s, h4⟩, fun h3 ⟨b, h4, s, h5⟩ => ?_⟩
  have : b = a := by
    have := h4.1.symm.trans h1.1
    simpa using this
  rw [this] at h5
  exact h3 s h5

/-- **C106**: and whatever bound can be computed from the patterns, there is one that accepts texts, all of them longer than the bound. -/
theorem C106_no_bound (b : List Nat → Nat) (hb : Computable b) {cat : Cat} (hc : cat ≠ .forward) :
    ∃ l a, AnyUsable (patternOf l) a ∧ (∃ s, s ∈ accepted ⟨a, []⟩ .match cat) ∧ ∀ s ∈ accepted ⟨a, []⟩ .match cat, b l < s.length := by
  obtain ⟨c, h⟩ := exists_exceeding
  obtain ⟨k, h1⟩ := h _ (hb.comp (computable_refusal c))
  have hr := C106_refusal (R := doubtRegex c k) (ok_doubt c k hc)
  refine ⟨_, _, usable_refusal c k, ?_, fun s hs => ?_⟩
  · apply Classical.byContradiction
    intro h2
    exact (C105_doubt c k hc).1 (fun s => Classical.byContradiction fun h3 => h2 ⟨s, (hr s).2 h3⟩) (Part.dom_iff_mem.2 ⟨_, h1⟩)
  · have h2 := (hr s).1 hs
    have h3 : GoodText c k s := Classical.byContradiction fun h3 => h2 ((doubt_accepted c k hc s).2 h3)
    have := result_lt_good h3 h1 (List.mem_singleton.2 rfl)
    omega

/-! ### Cases -/

/-- `(?:[]|(a)\1+)[]?` accepts a text, for instance `aa`. -/
def possibleCase : Regex :=
  ⟨.seq [.alt [.set [], .seq [.cap 1 none (.lit (ch 'a')), .rep .greedy 1 .inf (.backref 1)]], .rep .greedy 0 (.fin 1) (.set [])], []⟩

example : txt "aa" ∈ accepted possibleCase .match .bidirectional :=
  C106_sample (Regex.ok_of_okb (by decide)) (by decide) (by decide) (e := [(1, txt "a")]) (by rfl)

example : ∃ s, s ∈ accepted possibleCase .search .bidirectional :=
  (C106_possible (Regex.ok_of_okb (by decide)) (by decide) (by decide) _).2 (by decide)

/-- `(a)\1[]` accepts none. -/
example : ¬ ∃ s, s ∈ accepted ⟨.seq [.cap 1 none (.lit (ch 'a')), .backref 1, .set []], []⟩ .search .bidirectional := fun h =>
  absurd ((C106_possible (Regex.ok_of_okb (by decide)) (by decide) (by decide) _).1 h) (by decide)

/-- `(?!(?:([ab]+)\1)\Z)[^]*` accepts `aba` and not `abab`. -/
example : txt "aba" ∈ accepted (refusal ⟨.seq [.cap 1 none (.rep .greedy 1 .inf (.set [.lit (ch 'b'), .lit (ch 'a')])), .backref 1], []⟩) .match .bidirectional :=
  ⟨_, rfl, rfl⟩

/-- Some pattern accepts texts only that are a hundred times as long as the pattern. -/
example : ∃ l a, AnyUsable (patternOf l) a ∧ (∃ s, s ∈ accepted ⟨a, []⟩ .match .bidirectional) ∧
    ∀ s ∈ accepted ⟨a, []⟩ .match .bidirectional, 100 * l.length < s.length :=
  C106_no_bound _ (Primrec.nat_mul.comp (.const 100) Primrec.list_length).to_comp (by decide)

end Mregex
