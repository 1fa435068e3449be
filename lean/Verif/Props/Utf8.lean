import Verif.Proof.Utf8
import Verif.Proof.Utf8Text
import Verif.Props.Derives
import Verif.Props.Parsing

/-!
# C110: texts in UTF-8
-/

namespace Mregex
open Ast Spec

/-- A result that divides no character: neither the match nor the text of a group. -/
def UndividedResult (R : Regex) (s : List Byte) (res : Result) : Prop :=
  (res.matched = true → ∃ b e, res.group 0 = some (some (b, e)) ∧ (b ≠ e → Undivided s b e)) ∧
  ∀ k b e, k ≠ 0 → k ≤ captureCount R.ast → res.group k = some (some (b, e)) → b ≠ e → Undivided s b e

/-- **C110**: the characters of the text are not divided by matches and groups that are not empty, for regexes in which the characters beyond ASCII are spelled out with all their bytes.
This holds for every call of a generator, with references, possessive quantifiers and lookarounds (with any lookaheads; lookbehinds that are read correctly, see C14), and with any flags. -/
theorem C110_generators (R : Regex) (cat : Mregex.Cat) (hR : R.Ok cat) (ho : orderly R.ast = true) (hw : Whole R.ast) (hg : ∀ k body, GroupBody R.ast k body → Whole body) (M : Method)
    {s : List Byte} (hs : Utf8 s) (g : Gen) (hc : g.current ≤ s.length) : ∃ res g', genNext R M cat s g = some (res, g') ∧ g'.current ≤ s.length ∧ UndividedResult R s res := by
  obtain ⟨ν, hν⟩ : ∃ ν : List Byte → Nat, R.Names ν := ⟨fun n => (nameIndex R.names n).getD 0, fun n id h => by simp only [h]; rfl⟩
  obtain ⟨res, g', h1, h2, h3, h4⟩ := C84_generators R cat hR ho ν hν M s g hc
  refine ⟨res, g', h1, h2, fun hm => ?_, fun k b e hk hk' hv hbe => ?_⟩
  · obtain ⟨b, e, h5, h6, h7, h8⟩ := h3 hm
    exact ⟨b, e, h5, fun hbe => hs.undivided (by omega) ((whole_derives hg h8).1 hw) h7⟩
  · obtain ⟨h5, h6, body, h7, h8⟩ := h4 k b e hk hk' hv hbe
    exact hs.undivided h5 ((whole_derives hg h8).1 (hg k body h7)) h6

/-- **C110** for the methods. -/
theorem C110_methods (R : Regex) (cat : Mregex.Cat) (hR : R.Ok cat) (ho : orderly R.ast = true) (hw : Whole R.ast) (hg : ∀ k body, GroupBody R.ast k body → Whole body) (M : Method)
    {s : List Byte} (hs : Utf8 s) : ∃ res, R.invoke M cat s = some res ∧ UndividedResult R s res := by
  obtain ⟨res, g', h1, _, h2⟩ := C110_generators R cat hR ho hw hg M hs {} (Nat.zero_le _)
  exact ⟨res, invoke_of_genNext h1, h2⟩

/-- **C110** for patterns: an accepted pattern in UTF-8 without `.`, sets, `\D \W \S \N`, hexadecimal escapes and quantifiers directly after characters beyond ASCII (these have to be
put in a group) satisfies the conditions on the tree.  Groups, references, names, braces that start no quantifier, lookarounds are allowed. -/
theorem C110_pattern {w : List Byte} (hu : Utf8 w) (hw : Careful w) {a : Ast} (hp : parse w = .result a .success) (fl : List RegexFlag) (cat : Mregex.Cat) (hR : (Regex.mk a fl).Ok cat)
    (ho : orderly a = true) (M : Method) {s : List Byte} (hs : Utf8 s) (g : Gen) (hc : g.current ≤ s.length) :
    ∃ res g', genNext (Regex.mk a fl) M cat s g = some (res, g') ∧ g'.current ≤ s.length ∧ UndividedResult (Regex.mk a fl) s res := by
  obtain ⟨h1, h2⟩ := parsed_whole hp hu hw
  exact C110_generators (Regex.mk a fl) cat hR ho h1 h2 M hs g hc

/-- The text `é`. -/
def eAcute : List Byte := [0xC3#8, 0xA9#8]

/-- Without the condition: `.` and `[é]` match the first byte of `é`, and the quantifier of `é+` belongs to the second byte, so that it matches only the first character of `éé`. -/
theorem C110_divided : Utf8 eAcute ∧ Utf8 (eAcute ++ eAcute) ∧ (∃ a res, parse (txt ".") = .result a .success ∧ (Regex.mk a []).search eAcute = some res ∧ res.groups = [some (0, 1)]) ∧
    (∃ a res, parse (txt "[" ++ eAcute ++ txt "]") = .result a .success ∧ (Regex.mk a []).search eAcute = some res ∧ res.groups = [some (0, 1)]) ∧
    (∃ a res, parse (eAcute ++ txt "+") = .result a .success ∧ (Regex.mk a []).search (eAcute ++ eAcute) = some res ∧ res.groups = [some (0, 2)]) ∧
    (∃ a res, parse (txt "(?:" ++ eAcute ++ txt ")+") = .result a .success ∧ (Regex.mk a []).search (eAcute ++ eAcute) = some res ∧ res.groups = [some (0, 4)]) ∧
    ¬Undivided eAcute 0 1 := by
  have hl : Leads 0xC3#8 := .inr (by decide)
  have ht : Trails 0xA9#8 := by unfold Trails; decide
  refine ⟨.leads rfl hl (.trails rfl ht .done), .leads rfl hl (.trails rfl ht (.leads rfl hl (.trails rfl ht .done))), ⟨_, _, rfl, rfl, rfl⟩, ⟨_, _, rfl, rfl, rfl⟩, ⟨_, _, rfl, rfl, rfl⟩,
    ⟨_, _, rfl, rfl, rfl⟩, ?_⟩
  rintro ⟨_, _, h⟩
  cases h with
  | leads hx hl' _ => cases hx; exact leads_not_trails hl' ht

/-- `((?:é|x)+)\1` -/
example : ∃ a, parse (txt "((?:" ++ eAcute ++ txt "|x)+)\\1") = .result a .success ∧ (∀ fl, (Regex.mk a fl).Ok .randomAccess) ∧ orderly a = true ∧ Whole a ∧
    ∀ k body, GroupBody a k body → Whole body := by
  have hx : Whole (.lit (ch 'x')) := .ascii rfl (fun f s i j ⟨h1, x, h2, h3⟩ => ⟨h1, x, h2, by
    rcases charEq_byte h3 with rfl | h
    · unfold Ascii; decide
    · exact h.2⟩)
  have he : Whole (.alt [.seq [.lit 0xC3#8, .lit 0xA9#8], .lit (ch 'x')]) := .alt (by
    intro a ha
    rcases List.mem_cons.1 ha with rfl | ha
    · exact .seq (.leads (.inr (by decide)) (.trails (by unfold Trails; decide) .nil))
    · cases List.mem_singleton.1 ha; exact hx)
  refine ⟨.seq [.cap 1 none (.rep .greedy 1 .inf (.alt [.seq [.lit 0xC3#8, .lit 0xA9#8], .lit (ch 'x')])), .backref 1], rfl, fun fl => Regex.ok_of_okb rfl, by decide,
    .seq (.part (.cap (.rep he)) (.part .backref .nil)), ?_⟩
  intro k body h
  cases h with
  | seq hm h =>
    simp only [List.mem_cons, List.not_mem_nil, or_false] at hm
    rcases hm with rfl | rfl
    · cases h with
      | here => exact .rep he
      | cap h =>
        cases h with
        | rep h =>
          cases h with
          | alt hm h =>
            simp only [List.mem_cons, List.not_mem_nil, or_false] at hm
            rcases hm with rfl | rfl
            · cases h with
              | seq hm h =>
                simp only [List.mem_cons, List.not_mem_nil, or_false] at hm
                rcases hm with rfl | rfl <;> cases h
            · cases h
    · cases h

/-- `((?:é|x)+)\1`, from its text -/
example : ∃ a, parse (txt "((?:" ++ eAcute ++ txt "|x)+)\\1") = .result a .success ∧ (∀ fl, (Regex.mk a fl).Ok .randomAccess) ∧ orderly a = true ∧
    Utf8 (txt "((?:" ++ eAcute ++ txt "|x)+)\\1") ∧ Careful (txt "((?:" ++ eAcute ++ txt "|x)+)\\1") := by
  have ha : ∀ {s : List Byte} {i n : Nat} {b : Byte}, s[i]? = some b → b.toNat < 128 → Chars s 0 (i + 1) n → Chars s 0 i n := by
    intro s i n b h1 h2 h3
    exact .leads h1 (ascii_leads h2).1 (by rw [(ascii_leads h2).2]; exact h3)
  refine ⟨_, rfl, fun fl => Regex.ok_of_okb rfl, by decide, ?_, careful_of (by decide)⟩
  exact ha rfl (by decide) (ha rfl (by decide) (ha rfl (by decide) (ha rfl (by decide) (.leads rfl (.inr (by decide)) (.trails rfl (by unfold Trails; decide)
    (ha rfl (by decide) (ha rfl (by decide) (ha rfl (by decide) (ha rfl (by decide) (ha rfl (by decide) (ha rfl (by decide) (ha rfl (by decide) .done))))))))))))

end Mregex
