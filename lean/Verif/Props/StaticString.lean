import Verif.Model.StaticString
import Verif.Proof.Positions
import Verif.Proof.Flatten
import Verif.Spec.Openers

/-!
# C71: static strings hold the text they are made from, and the small range utilities
-/

namespace Mregex
open Spec

theorem copyArray_eq (text rest dest : List Byte) (h : dest.length = text.length) : copyArray text.length (text ++ rest) dest = some text := by
  induction text generalizing dest with
  | nil => cases dest with
    | nil => rfl
    | cons d dest => simp at h
  | cons x text ih =>
    cases dest with
    | nil => simp at h
    | cons d dest =>
      simp only [List.length_cons, List.cons_append, copyArray]
      rw [ih dest (by simpa using h)]
      rfl

theorem construct_eq (text rest : List Byte) (h : rest.length = 1) : StaticString.construct text.length (text ++ rest) = some ⟨text.length, text⟩ := by
  unfold StaticString.construct
  rw [if_pos (by simp [h])]
  split
  · next h0 =>
    have : text = [] := List.length_eq_zero_iff.1 h0
    subst this
    rfl
  · rw [copyArray_eq text rest _ (by simp)]
    rfl

/-- **C71** (literals): a static string made from a literal has the length of the text, the characters of the text at its indices and no others, in loops, through `string_view` and when it is printed -- null characters in the text included. -/
theorem C71_literal (text : List Byte) :
    ∃ s, StaticString.deduce (literalArray text) = some s ∧ s.length = text.length ∧ (∀ i, s.get i = text[i]?) ∧ s.iterate = text ∧
      s.view = some text ∧ ∀ i, s.token i = some (token text i) := by
  refine ⟨⟨text.length, text⟩, ?_, rfl, fun _ => rfl, rfl, ?_, ?_⟩
  · unfold StaticString.deduce literalArray
    rw [if_neg (by simp), show List.length (text ++ [(0 : Byte)]) - 1 = text.length by simp]
    exact construct_eq text [0] rfl
  · simp [StaticString.view]
  · intro i
    show (if i < text.length then (text[i]?).map some else some none) = some (text[i]?)
    split
    · next h => rw [List.getElem?_eq_getElem h]; rfl
    · next h => rw [List.getElem?_eq_none (by omega)]

example : (StaticString.deduce (literalArray (txt "a" ++ [0] ++ txt "b"))).bind (·.view) = some (txt "a" ++ [0] ++ txt "b") := by decide
example : (StaticString.deduce (literalArray [])).map (·.length) = some 0 := by decide
example : (StaticString.deduce (literalArray (txt "a|b"))).bind (·.token 1) = some (some 124) := by decide

/-- **C71** (packs): the string made from a pack of characters is the string of the literal with these characters; so a name that the parser has read and the same name given as a literal are one type. -/
theorem C71_pack (chars : List Byte) : StaticString.make chars = StaticString.deduce (literalArray chars) := by
  have h1 : StaticString.make chars = some ⟨chars.length, chars⟩ := construct_eq chars _ (by simp)
  have h2 : StaticString.deduce (literalArray chars) = some ⟨chars.length, chars⟩ := by
    unfold StaticString.deduce literalArray
    rw [if_neg (by simp), show List.length (chars ++ [(0 : Byte)]) - 1 = chars.length by simp]
    exact construct_eq chars [0] rfl
  rw [h1, h2]

example : StaticString.make (txt "year") = StaticString.deduce (literalArray (txt "year")) := by decide

/-- **C71** (types): different texts give different static strings. -/
theorem C71_same (t u : List Byte) : StaticString.make t = StaticString.make u ↔ t = u := by
  have h : ∀ x, StaticString.make x = some ⟨x.length, x⟩ := fun x => construct_eq x _ (by simp)
  constructor
  · intro he
    rw [h t, h u] at he
    simp only [Option.some.injEq, StaticString.mk.injEq] at he
    exact he.2
  · rintro rfl; rfl

example : StaticString.make (txt "a") ≠ StaticString.make (txt "a" ++ [0]) := by decide

/-- **C71** (names): looking up a group by the type of its name, or a reference by its name, is looking it up by the text of the name. -/
theorem C71_names (names : List GroupName) (name : List Byte) (types : List (Option StaticString)) (type : StaticString)
    (h : StaticString.make name = some type) (hs : types = names.map (fun n => n.bind StaticString.make)) : staticIndex types type = nameIndex names name := by
  have hm : ∀ x, StaticString.make x = some ⟨x.length, x⟩ := fun x => construct_eq x _ (by simp)
  subst hs
  have hf : ∀ n : GroupName, (n.bind StaticString.make == some type) = (n == some name) := by
    intro n
    rw [hm name, Option.some.injEq] at h
    subst h
    cases n with
    | none => rfl
    | some n =>
      show (StaticString.make n == _) = _
      rw [hm n, Bool.eq_iff_iff]
      simp only [beq_iff_eq, Option.some.injEq, StaticString.mk.injEq]
      constructor
      · exact fun h => h.2
      · rintro rfl; exact ⟨rfl, rfl⟩
  have hc : (names.map (fun n => n.bind StaticString.make)).count (some type) = names.count (some name) := by
    induction names with
    | nil => rfl
    | cons n l ih => rw [List.map_cons, List.count_cons, List.count_cons, ih, hf n]
  have hi : (names.map (fun n => n.bind StaticString.make)).idxOf (some type) = names.idxOf (some name) := by
    clear hc
    induction names with
    | nil => rfl
    | cons n l ih => rw [List.map_cons, List.idxOf_cons, List.idxOf_cons, ih, hf n]
  unfold staticIndex nameIndex
  rw [hc, hi]

example : staticIndex [none, StaticString.make (txt "y"), StaticString.make (txt "ym")] ⟨2, txt "ym"⟩ = some 2 := by decide

/-- **C71** (distances): the loop for forward iterators and the subtraction for random access iterators decide the same, in both directions: whether fewer than `N` characters are left. -/
theorem C71_distance (s : List Byte) (fl : Flags) (cat : Cat) (r N p : Nat) (h : p ≤ s.length) :
    Env.distanceLessThan { inp := s, flags := fl, cat := cat } r N p = decide ((if r % 2 = 0 then s.length - p else p) < N) :=
  Env.distanceLessThan_eq N h

example : Env.distanceLessThan { inp := txt "abc", cat := .forward } 0 3 1 = true := by decide
example : Env.distanceLessThan { inp := txt "abc", cat := .forward } 0 2 1 = false := by decide

theorem loop_eq (s : List Byte) (k : Nat) : ∀ b, b + k ≤ s.length → ReversedRange.loop s k (ReversedRange.of b (b + k)) = some ((s.drop b).take k).reverse := by
  induction k with
  | zero => intro b _; simp [ReversedRange.loop, ReversedRange.of]
  | succ k ih =>
    intro b hb
    have hlt : b + k < s.length := by omega
    show (if b + (k + 1) = b then some [] else if b + (k + 1) = 0 then none else
      match s[b + (k + 1) - 1]? with
      | some x => (ReversedRange.loop s k ⟨b + (k + 1) - 1, b⟩).map (x :: ·)
      | none => none) = _
    rw [if_neg (by omega), if_neg (by omega), show b + (k + 1) - 1 = b + k by omega, List.getElem?_eq_getElem hlt]
    have := ih b (by omega)
    simp only [ReversedRange.of] at this
    simp only [this, Option.map_some, Option.some.injEq]
    rw [List.take_add_one, List.reverse_append, List.getElem?_drop, List.getElem?_eq_getElem hlt]
    rfl

/-- **C71** (reversed views): a loop over the reversed view of a captured range reads its characters in the opposite order, each once, and nothing outside the range. -/
theorem C71_reversed (s : List Byte) (b e : Nat) (h : b ≤ e) (he : e ≤ s.length) :
    ReversedRange.loop s (e - b) (ReversedRange.of b e) = some ((capText s (some (b, e))).reverse) := by
  have := loop_eq s (e - b) b (by omega)
  rwa [show b + (e - b) = e by omega] at this

example : ReversedRange.loop (txt "xabcy") 3 (ReversedRange.of 1 4) = some (txt "cba") := by decide

end Mregex
