import Verif.Proof.BraceExact
import Verif.Props.Parsing

/-!
# C39, exactly: how a brace that starts no quantifier is read
-/

namespace Mregex
open Ast Spec

/-- **C39**, what the parser does: if a part `w` that can be quantified is followed by a brace that starts no quantifier, then the text `q p w { u` up to the end of the pattern
(`f = none`) or of the group (`f = some ')'`) is read like `q p (?: w \{ u )`, where `q` are alternatives (maybe none), `p` is a sequence (maybe empty) and `u` anything, with
alternatives, that can follow an escaped brace. -/
theorem C39_exact {q p w u : List Byte} {f : Option Byte} {x y : Ast} (hq : q = [] ∨ ∃ q' x0, q = q' ++ txt "|" ∧ Reads (.alts none) q' (some (ch '|')) x0)
    (hp : p = [] ∨ ∃ y, Reads (.seq none) p w.head? y) (hw : Reads (.atom false) w (some (ch '{')) x) (hd : ∀ c, follow u f = some c → ¬DecDigit c) (hf : AtEnd f)
    (hu : Reads (.alts none) (txt "\\{" ++ u) f y) :
    ∃ z, Reads (.alts none) (q ++ p ++ (w ++ txt "{" ++ u)) f z ∧ Reads (.alts none) (q ++ p ++ (txt "(?:" ++ (w ++ txt "\\{" ++ u) ++ txt ")")) f z := by
  obtain ⟨z, h1, h2⟩ := brace_group hw hd hf hu f
  have hnq : NoQuant f := by
    rcases hf with rfl | rfl
    · exact noQuant_none
    · exact (paren_noQuant (.inr rfl)).1
  have h2 := Reads.bare h2 hnq
  have hs : ∃ z, Reads (.seq none) (p ++ (w ++ txt "{" ++ u)) f z ∧ Reads (.seq none) (p ++ (txt "(?:" ++ (w ++ txt "\\{" ++ u) ++ txt ")")) f z := by
    rcases hp with rfl | ⟨y', hp⟩
    · exact ⟨_, .one h1, .one h2⟩
    · have hh : (w ++ txt "{" ++ u).head? = w.head? := by
        have := brace_first.atom_ne_nil hw
        cases w with
        | nil => exact absurd rfl this
        | cons a w => rfl
      have hpp := paren_noQuant (f := some (ch '(')) (.inl rfl)
      exact ⟨_, .more (by rw [hh]; exact hp) h1, .more (reads_follow hp hpp.1 hpp.2 (fun h => absurd h (atom_head hw))) h2⟩
  obtain ⟨z, h1, h2⟩ := hs
  rcases hq with rfl | ⟨q', x0, rfl, hq⟩
  · exact ⟨z, by simpa using Reads.single h1, by simpa using Reads.single h2⟩
  · exact ⟨_, by simpa using Reads.or hq h1, by simpa using Reads.or hq h2⟩

/-- **C39**, the same for the whole pattern. -/
theorem C39_exact_pattern {q p w u : List Byte} {x y : Ast} (hq : q = [] ∨ ∃ q' x0, q = q' ++ txt "|" ∧ Reads (.alts none) q' (some (ch '|')) x0)
    (hp : p = [] ∨ ∃ y, Reads (.seq none) p w.head? y) (hw : Reads (.atom false) w (some (ch '{')) x) (hd : ∀ c, u.head? = some c → ¬DecDigit c)
    (hu : Reads (.alts none) (txt "\\{" ++ u) none y) :
    ∃ a, parse (q ++ p ++ (w ++ txt "{" ++ u)) = .result a .success ∧ parse (q ++ p ++ (txt "(?:" ++ (w ++ txt "\\{" ++ u) ++ txt ")")) = .result a .success := by
  obtain ⟨z, h1, h2⟩ := C39_exact hq hp hw (by simpa [follow] using hd) (.inl rfl) hu
  exact ⟨_, parse_of_pattern (.alts h1), parse_of_pattern (.alts h2)⟩

/-- `q|ba{x|c` is `q|b(?:a\{x|c)`. -/
example := C39_exact_pattern (q := txt "q|") (p := txt "b") (w := txt "a") (u := txt "x|c") (.inr ⟨txt "q", _, rfl, .single (.one (.bare (.plain (by decide)) (by intro c h; cases h; decide)))⟩)
  (.inr ⟨_, .one (.bare (.plain (by decide)) (by intro c h; cases h; decide))⟩) (.plain (by decide)) (by intro c h; cases h; unfold DecDigit; decide)
  (.or (w := txt "\\{x") (v := txt "c")
    (.single (.more (w := txt "\\{") (v := txt "x") (.one (.bare (.esc (.self (by decide))) (by intro c h; cases h; decide))) (.bare (.plain (by decide)) (by intro c h; cases h; decide))))
    (.one (.bare (.plain (by decide)) noQuant_none)))
example : ∃ a, parse (txt "q|ba{x|c") = .result a .success ∧ parse (txt "q|b(?:a\\{x|c)") = .result a .success := ⟨_, rfl, rfl⟩

end Mregex
