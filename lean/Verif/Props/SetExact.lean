import Verif.Proof.SetExact
import Verif.Props.Parsing

/-!
# C40, exactly: which texts between brackets are sets, and what they contain
-/

namespace Mregex
open Ast Spec

/-- **C40** with the exception for `\R-c` spelled out (`SetMeans`): `[items]`. -/
theorem C40_exact {w : List Byte} {P : Byte → Prop} (h : SetMeans w P) :
    (w.head? ≠ some (ch '^') → ∃ a, parse (txt "[" ++ w ++ txt "]") = .result a .success ∧ (∀ fl cat, (Regex.mk a fl).Ok cat) ∧
      TakesOne a (fun i x => ∃ y, P y ∧ CharEq i y x)) ∧
    ∃ a, parse (txt "[^" ++ w ++ txt "]") = .result a .success ∧ (∀ fl cat, (Regex.mk a fl).Ok cat) ∧ TakesOne a (fun i x => ¬∃ y, P y ∧ CharEq i y x) := by
  obtain ⟨l, h1, h2⟩ := setMeans_read h
  exact ⟨fun h0 => ⟨_, (parse_of_pattern (pattern_atom (.set (.pos h1 h0)))).trans (by rw [(index_set h2.toMembers).1]), fun _ _ _ => .set h2.triv (fun a ha => h2.ok a ha _ _), h2.takesOne⟩,
    _, (parse_of_pattern (pattern_atom (.set (.neg h1)))).trans (by rw [(index_set h2.toMembers).2]), fun _ _ _ => .neg (.inl rfl) (.set h2.triv (fun a ha => h2.ok a ha _ _)), h2.takesOne_neg⟩

/-- **C40**: what is accepted between brackets is a list of items, possibly after a sign of complement.  The text must not contain the bracket that closes the set; `Ok`: no range
is the wrong way round. -/
theorem C40_accepted {w : List Byte} {a : Ast} (hw : Unclosed w) (h : parse (txt "[" ++ w ++ txt "]") = .result a .success) {fl : List RegexFlag} {cat : Mregex.Cat}
    (hok : (Regex.mk a fl).Ok cat) :
    (w.head? ≠ some (ch '^') ∧ ∃ P, SetMeans w P) ∨ ∃ v P, w = ch '^' :: v ∧ SetMeans v P := by
  obtain ⟨x, hx, rfl⟩ := (parse_iff _ _).1 h
  have hb : ∃ v u y, txt "[" ++ w ++ txt "]" = v ++ u ∧ SetText v y := by
    revert hx
    generalize hz : txt "[" ++ w ++ txt "]" = z
    intro hx
    cases hx with
    | empty => simp [txt] at hz
    | alts hx => exact (reads_bracket hx (fun y => ⟨by nofun, by nofun⟩)).2 (by rw [← hz]; rfl)
  obtain ⟨v, u, y, e, hy⟩ := hb
  -- the set is the whole pattern
  have hu : u = [] ∧ ((w.head? ≠ some (ch '^') ∧ ∃ l, SetBody w l ∧ y = .set l) ∨ ∃ v' l, w = ch '^' :: v' ∧ SetBody v' l ∧ y = .neg (.set l)) := by
    cases hy with
    | @pos v l hl h0 =>
      have e' : w ++ ch ']' :: [] = v ++ ch ']' :: u := by simpa [txt] using e
      have := inside_unique hw (inside_setBody hl) e'
      subst this
      refine ⟨by simpa using e', .inl ⟨h0, l, hl, rfl⟩⟩
    | @neg v l hl =>
      have e' : w ++ ch ']' :: [] = (ch '^' :: v) ++ ch ']' :: u := by simpa [txt] using e
      have := inside_unique hw (.char (by decide) (by decide) (inside_setBody hl)) e'
      subst this
      refine ⟨by simpa using e', .inr ⟨v, l, rfl, hl, rfl⟩⟩
  obtain ⟨rfl, hu⟩ := hu
  rw [List.append_nil] at e
  have hp : Pattern (txt "[" ++ w ++ txt "]") y := by rw [e]; exact pattern_atom (.set hy)
  have hi := C52_unambiguous hx hp
  rw [hi] at hok
  rcases hu with ⟨h0, l, hl, rfl⟩ | ⟨v', l, rfl, hl, rfl⟩
  · obtain ⟨P, hP, _⟩ := read_setMeans hl (ok_ranges (hok []))
    exact .inl ⟨h0, P, hP⟩
  · have h1 := hok []
    have h2 : Ok (Regex.env ⟨indexCaptures (.neg (.set l)), fl⟩ cat []) 0 (.set (indexSame 1 l)) := by
      cases h1 with | neg _ h => exact h
    obtain ⟨P, hP, _⟩ := read_setMeans hl (ok_ranges h2)
    exact .inr ⟨v', P, rfl, hP⟩

/-- **C40**: every accepted list of items consists of the items that `SetContent` describes. -/
theorem C40_items {w : List Byte} {P : Byte → Prop} (h : SetMeans w P) : ∃ P', SetContent true w P' := setMeans_content h

/-- `[x\R-a]` -/
theorem C40_exact_example : SetMeans (txt "x\\R-a") (fun x => ((False ∨ x = ch 'x') ∨ x = 13#8) ∨ (10 ≤ x.toNat ∧ x.toNat ≤ (ch 'a').toNat)) :=
  .plain (.quirk (w := txt "x") (v := txt "a") (b := ch 'a') (.char (w := []) (v := txt "x") (c := ch 'x') .nil (.plain (by decide) (by decide)) (by decide)) (.plain (by decide) (by decide)) (by decide))

example := C40_exact C40_exact_example

/-- `[^a\]-z]` -/
example := C40_accepted (w := txt "^a\\]-z") (a := .neg (.set [.range (ch ']') (ch 'z'), .lit (ch 'a')]))
  (.char (by decide) (by decide) (.char (by decide) (by decide) (.esc (.char (by decide) (by decide) (.char (by decide) (by decide) .nil))))) rfl (fl := []) (cat := .randomAccess)
  (Regex.ok_of_okb (by decide))

/-- A class is no end of a range; ranges the wrong way round are accepted but can not be used. -/
example : parse (txt "[a-\\N]") = .result nothing (.syntaxError 4) ∧ parse (txt "[a-\\d]") = .result nothing (.syntaxError 4) ∧
    parse (txt "[z-a]") = .result (.set [.range (ch 'z') (ch 'a')]) .success := ⟨rfl, rfl, rfl⟩

end Mregex
