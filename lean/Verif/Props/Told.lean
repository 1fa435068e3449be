import Verif.Proof.Told
import Verif.Props.Unfold
import Verif.Props.Rewire
import Verif.Model.Parser

/-!
# References that follow their group at once
-/

namespace Mregex
open Ast Spec

theorem sameUses_of_told {a b : Ast} (h : Told a b) (fl : List RegexFlag) (cat : Cat) : SameUses cat ⟨a, fl⟩ ⟨b, fl⟩ := by
  have hn : (Regex.mk a fl).names = (Regex.mk b fl).names := by simp only [Regex.names, nameSpec_told h]
  have hE : ∀ s, (Regex.mk a fl).env cat s = (Regex.mk b fl).env cat s := fun s => by simp only [Regex.env, hn]
  refine ⟨fun hR s => ?_, fun hR M s cur hcur => ?_⟩
  · rw [← hE]; exact ok_told h (hR s)
  · have hR' := ok_told h (hR s)
    rw [← hE, ← hn]
    have hν : ∀ n id, nameIndex ((Regex.mk a fl).env cat s).names n = some id →
        (fun n => (nameIndex ((Regex.mk a fl).env cat s).names n).getD 0) n = id := fun n id h => by simp only [h]; rfl
    have h1 := invoke_follow (E := (Regex.mk a fl).env cat s) (hR s) hν M (Nat.le_refl _) hcur (fun _ => none)
    have h2 := invoke_follow (E := (Regex.mk a fl).env cat s) hR' hν M (Nat.le_refl _) hcur (fun _ => none)
    rw [← ctxOf_init] at h1 h2
    refine carriesOut_same (Nat.succ_pos _) h1 ?_
    unfold CarriesOut at h2 ⊢
    rw [Recalls.carryOut (recalls_told h (hR s) hν _ _)] at h2
    exact h2

/-! ## C102 -/

/-- **C102**: a regex in which `(?=(X))\k` has become `(?>(X))`, or `(w)\k` has become `(w)w`, can be used wherever the regex can. -/
theorem C102_usable {a b : Ast} (h : Told a b) (fl : List RegexFlag) {cat : Cat} (hR : (Regex.mk a fl).Ok cat) : (Regex.mk b fl).Ok cat :=
  (sameUses_of_told h fl cat).ok hR

/-- **C102**: every method returns the same; all groups hold the same, also after a failed call (except the whole match). -/
theorem C102_results {a b : Ast} (h : Told a b) (fl : List RegexFlag) {cat : Cat} (hR : (Regex.mk a fl).Ok cat) (M : Method) (s : List Byte) :
    SameCall ((Regex.mk a fl).invoke M cat s) ((Regex.mk b fl).invoke M cat s) := (sameUses_of_told h fl cat).results hR M s

/-- **C102**: `tokenize` and `find_all` visit the same. -/
theorem C102_ranges {a b : Ast} (h : Told a b) (fl : List RegexFlag) {cat : Cat} (hR : (Regex.mk a fl).Ok cat) (M : Method) (s : List Byte) (rounds : Nat) :
    rangeElements ⟨a, fl⟩ M cat s rounds = rangeElements ⟨b, fl⟩ M cat s rounds := (sameUses_of_told h fl cat).ranges hR M s rounds

/-- **C102**: if nothing else refers to the group, it is not needed any more: with plain parentheses instead (and the other groups renumbered), the verdict, the
range of the match and the other groups are those of the first regex. -/
theorem C102_without_group {a b : Ast} (h : Told a b) (fl : List RegexFlag) {cat : Cat} (hR : (Regex.mk a fl).Ok cat)
    {σ : Nat → Option (Nat × GroupName)} (hσ : Renumbering σ) {ν : List Byte → Nat}
    (hν : ∀ k n, b.nameSpec.count (some n) = 1 → HasGroup b k (some n) → ν n = k)
    (hk : refersKept σ ν b = true) (hb : branchesKept σ ν b = true) (hR' : (Regex.mk (rewire σ ν b) fl).Ok cat) (M : Method) (s : List Byte) :
    ∃ res res', (Regex.mk a fl).invoke M cat s = some res ∧ (Regex.mk (rewire σ ν b) fl).invoke M cat s = some res' ∧ res.matched = res'.matched ∧
      (res.matched = true → res.groups[0]? = res'.groups[0]?) ∧
      ∀ k n j n', k ≠ 0 → HasGroup b k n → σ k = some (j, n') → ∃ v, res.groups[k]? = some v ∧ res'.groups[j]? = some v := by
  obtain ⟨r1, r2, h1, h2, h3, h4, h5⟩ := C102_results h fl hR M s
  obtain ⟨r3, r4, h6, h7, h8⟩ := C69_methods (R := ⟨b, fl⟩) (R' := ⟨rewire σ ν b, fl⟩) hσ (C102_usable h fl hR) hR' rfl hν hk hb rfl M s
  have e : r3 = r2 := Option.some.inj (h6.symm.trans h2)
  subst e
  refine ⟨r1, r4, h1, h7, h3.trans h8.1, fun hm => by rw [h4 hm]; exact h8.2.1 (h3 ▸ hm), fun k n j n' hk0 hg hj => ?_⟩
  obtain ⟨v, h9, h10⟩ := h8.2.2 k n j n' hk0 hg hj
  refine ⟨v, ?_, h10⟩
  obtain ⟨k, rfl⟩ := Nat.exists_eq_succ_of_ne_zero hk0
  rw [Nat.succ_eq_add_one, ← List.getElem?_tail, h5, List.getElem?_tail]
  exact h9

/-- `(?=(a+))\1` and `(?>(a+))`. -/
def aheadThenRef : Ast := .seq [.look .ahead (.cap 1 none (.rep .greedy 1 .inf (.lit (ch 'a')))), .backref 1]
def atomicGroup : Ast := .seq [.rep .possessive 1 (.fin 1) (.cap 1 none (.rep .greedy 1 .inf (.lit (ch 'a'))))]

/-- **C102**: forward iterators have no references, but atomic groups. -/
theorem C102_forward : ¬ (Regex.mk aheadThenRef []).Ok .forward ∧ (Regex.mk atomicGroup []).Ok .forward := by
  refine ⟨fun h => ?_, Regex.ok_of_okb (by decide)⟩
  have := h []
  unfold aheadThenRef at this
  rw [ok_seq] at this
  have := this.2 (.backref 1) (by simp)
  cases this with | backref h => exact h rfl

/-- **C102**: in a lookbehind, the reference comes first, and this is different: `(?<=(a)\1)b` finds the `b` of `ab`, `(?<=(a)a)b` does not. -/
theorem C102_lookbehind : (Regex.mk (.seq [.look .behind (.seq [.cap 1 none (.lit (ch 'a')), .backref 1]), .lit (ch 'b')]) []).search (txt "ab") =
      some ⟨[some (1, 2), some (0, 1)], true⟩ ∧
    ((Regex.mk (.seq [.look .behind (.seq [.cap 1 none (.lit (ch 'a')), .lit (ch 'a')]), .lit (ch 'b')]) []).search (txt "ab")).map (·.matched) = some false := by
  decide

/-- The tree is that of the pattern `(?:(?=(a+))\1c)?(x)\2\1`. -/
example : parse (txt "(?:(?=(a+))\\1c)?(x)\\2\\1") = .result (.seq [
    .rep .greedy 0 (.fin 1) (.seq [.look .ahead (.cap 1 none (.rep .greedy 1 .inf (.lit (ch 'a')))), .backref 1, .lit (ch 'c')]),
    .cap 2 none (.lit (ch 'x')), .backref 2, .backref 1]) .success := rfl

/-- `(?:(?=(a+))\1c)?(x)\2\1` and `(?:(?>(a+))c)?(x)x\1`, in two steps, with another reference to the first group. -/
example := fun M s => C102_results (.seq [] [.cap 2 none (.lit (ch 'x')), .backref 2, .backref 1] (.rep .greedy 0 (.fin 1)
  (.atomic [] [.lit (ch 'c')] 1 none (.rep .greedy 1 .inf (.lit (ch 'a'))) .number))) [.icase] (cat := .bidirectional) (Regex.ok_of_okb (by decide)) M s
example := fun M s => C102_ranges (.word [.rep .greedy 0 (.fin 1) (.seq [.rep .possessive 1 (.fin 1) (.cap 1 none (.rep .greedy 1 .inf (.lit (ch 'a')))), .lit (ch 'c')])]
  [.backref 1] 2 none (.letter (ch 'x')) .number) [.icase] (cat := .bidirectional) (Regex.ok_of_okb (by decide)) M s

/-- A name, a word and a quantifier around: `(?:(?<n>ab)\k<n>)*?` and `(?:(?<n>ab)ab)*?`. -/
example := fun M s => C102_results (.rep .lazy 0 .inf (.word [] [] 1 (some (txt "n")) (.word (txt "ab")) (.name rfl))) [] (cat := .randomAccess)
  (Regex.ok_of_okb (by decide)) M s

/-- The group is dropped: `(?=(a+))\1(b)` and `(?>a+)(b)`. -/
example := fun M s => C102_without_group (.atomic [] [.cap 2 none (.lit (ch 'b'))] 1 none (.rep .greedy 1 .inf (.lit (ch 'a'))) .number) [] (cat := .bidirectional)
  (Regex.ok_of_okb (by decide)) (σ := fun k => if k = 2 then some (1, none) else none)
  ⟨fun k k' j n n' h h' => by
    simp only [Option.ite_none_right_eq_some] at h h'
    rw [h.1, h'.1], fun k n h => by simp at h⟩ (ν := fun _ => 0)
  (fun k n h => by simp [nameSpec, nameSpecAll] at h) (by decide) (by decide) (Regex.ok_of_okb (by decide)) M s

/-- On `aab`, the first one takes both letters and their group. -/
example : (Regex.mk (.seq [.look .ahead (.cap 1 none (.rep .greedy 1 .inf (.lit (ch 'a')))), .backref 1, .lit (ch 'b')]) []).search (txt "aab") =
    some ⟨[some (0, 3), some (0, 2)], true⟩ := by decide

end Mregex
