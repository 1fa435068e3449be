import Verif.Proof.Reading
import Verif.Props.Compose

/-!
# What parsed patterns match
-/

namespace Mregex
open Ast Spec

theorem matches_strAst (f : Flags) (s w : List Byte) (i j : Nat) : Matches f s (strAst w) i j ↔ MatchesAll f s (w.map .lit) i j := by
  match w with
  | [] => simp [strAst, Matches, MatchesAll]
  | [b] => simp [strAst, MatchesAll]
  | a :: b :: w => simp [strAst, Matches]

theorem strAst_ok (w : List Byte) (fl : List RegexFlag) (cat : Cat) : (Regex.mk (strAst w) fl).Ok cat := by
  intro s
  match w with
  | [] => exact .empty
  | [b] => exact .lit
  | a :: b :: w =>
    refine .seq (by simp) (fun a ha => ?_)
    obtain ⟨x, _, rfl⟩ := List.mem_map.1 ha
    exact .lit

theorem strAst_declarative (w : List Byte) : declarative (strAst w) = true := by
  match w with
  | [] => rfl
  | [b] => rfl
  | a :: b :: w =>
    simp [declarative, strAst, noBackref, noPossessive, behindOk, noBackrefAll_eq, noPossessiveAll_eq, behindOkAll_eq, List.all_map, List.all_eq_true]

/-- A string of characters matches itself, up to the case of letters if `icase` is set. -/
theorem strAst_match (w : List Byte) (fl : List RegexFlag) (cat : Cat) (s : List Byte) :
    ∃ res, (Regex.mk (strAst w) fl).match s cat = some res ∧
      (res.matched = true ↔ s.length = w.length ∧ ∀ (k : Nat) (x y : Byte), w[k]? = some x → s[k]? = some y → CharEq (Flags.ofList fl).icase x y) ∧
      (RegexFlag.icase ∉ fl → (res.matched = true ↔ s = w)) := by
  obtain ⟨res, h1, h2⟩ := C02_match_language (Regex.mk (strAst w) fl) cat (strAst_ok w fl cat) (strAst_declarative w) s
  have h3 : res.matched = true ↔ s.length = w.length ∧
      ∀ (k : Nat) (x y : Byte), w[k]? = some x → s[k]? = some y → CharEq (Flags.ofList fl).icase x y := by
    rw [h2, matches_strAst, matchesAll_lits, Nat.zero_add]
    refine and_congr_right fun hl => ⟨fun h k x y hx hy => ?_, fun h k x hx => ?_⟩
    · obtain ⟨y', hy', h⟩ := h k x hx
      rw [Nat.zero_add, hy] at hy'
      cases hy'
      exact h
    · have hk : k < s.length := by rw [hl]; exact (List.getElem?_eq_some_iff.1 hx).1
      rw [Nat.zero_add]
      exact ⟨s[k], List.getElem?_eq_getElem hk, h k x _ hx (List.getElem?_eq_getElem hk)⟩
  refine ⟨res, h1, h3, fun hi => h3.trans ?_⟩
  have hic : (Flags.ofList fl).icase = false := by
    simp only [Flags.ofList, List.any_eq_false, beq_iff_eq]
    exact fun x hx h => hi (h ▸ hx)
  constructor
  · rintro ⟨hl, h⟩
    refine List.ext_getElem hl (fun k h1 h2 => ?_)
    have := h k _ _ (List.getElem?_eq_getElem h2) (List.getElem?_eq_getElem h1)
    rw [hic] at this
    rcases this with h | h
    · exact h.symm
    · exact absurd h.1 (by decide)
  · rintro rfl
    refine ⟨rfl, fun k x y hx hy => .inl ?_⟩
    rw [hx] at hy; cases hy; rfl

end Mregex
