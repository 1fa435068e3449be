import Verif.Props.Safety

/-!
# C44, C45: conversions of results and captures, character utilities
-/

namespace Mregex
open Ast Spec

/-! ## C44 -/

/-- **C44.** `matched()`, the conversion to `bool` and `as_optional()` agree, and a non-empty optional holds the result itself. -/
theorem C44_verdict (res : Result) :
    res.toBool = res.matched ∧ (res.asOptional.isSome = res.matched) ∧ ∀ res', res.asOptional = some res' → res' = res := by
  obtain ⟨g, m⟩ := res
  cases m
  · exact ⟨rfl, rfl, fun res' h => by cases h⟩
  · exact ⟨rfl, rfl, fun res' h => (Option.some.inj h).symm⟩

/-- **C44.** `as_memory_owner()` of a result of any method preserves the verdict, the number of groups and the text of every group: the owned text of a group that
never captured is empty, and the owned text of a group with range `[b,e)` consists of the characters of the input at `b`, …, `e-1`. -/
theorem C44_as_memory_owner (R : Regex) (cat : Cat) (hR : R.Ok cat) (M : Method) (s : List Byte) (res : Result)
    (h : R.invoke M cat s = some res) :
    (res.asMemoryOwner s).matched = res.matched ∧ (res.asMemoryOwner s).groups.length = res.groups.length ∧
    (∀ k, res.group k = some none → (res.asMemoryOwner s).groups[k]? = some []) ∧
    (∀ k b e, res.group k = some (some (b, e)) → ∃ text, (res.asMemoryOwner s).groups[k]? = some text ∧ text.length = e - b ∧
      ∀ i, i < e - b → ∃ x, text[i]? = some x ∧ s[b + i]? = some x) := by
  refine ⟨rfl, by simp [Result.asMemoryOwner], fun k hk => ?_, fun k b e hk => ?_⟩
  · simp only [Result.group] at hk
    simp [Result.asMemoryOwner, hk, Cap.content, capText]
  · have hb := C09_groups_in_bounds R cat hR M s res h k _ hk
    simp only [reduceCtorEq, Option.some.injEq, Prod.mk.injEq, false_or] at hb
    obtain ⟨_, _, ⟨rfl, rfl⟩, h1, h2⟩ := hb
    simp only [Result.group] at hk
    refine ⟨(s.drop b).take (e - b), by simp [Result.asMemoryOwner, hk, Cap.content, capText], by simp; omega, fun i hi => ?_⟩
    refine ⟨s[b + i]'(by omega), ?_, by simp⟩
    simp [hi]

example : ((Regex.mk (.seq [.cap 1 none (plus (.lit (ch 'a'))), .lit (ch 'b')]) []).search [ch 'c', ch 'a', ch 'a', ch 'b']).map
    (·.asMemoryOwner [ch 'c', ch 'a', ch 'a', ch 'b']) = some ⟨[[ch 'a', ch 'a', ch 'b'], [ch 'a', ch 'a']], true⟩ := by decide

/-- **C44** is false for captures: the conversion to `bool` is `true` for a capture without text and `false` for "a" in "a". -/
theorem C44_capture_bool_false :
    Cap.toBool none = true ∧ Cap.content [ch 'a'] none = [] ∧
    Cap.toBool (some (0, 1)) = false ∧ Cap.content [ch 'a'] (some (0, 1)) = [ch 'a'] ∧
    ownedToBool [ch 'a'] = false ∧ ownedToBool [] = true := by decide

/-- **C44, partial** (the claim about captures holds for the negation of the conversion to `bool`).  For a capture inside the input, and for the owned copy of it, the conversion to `bool` is
`false` iff it holds a non-empty text. -/
theorem C44_capture_bool_partial (s : List Byte) (g : Cap) (hg : ∀ b e, g = some (b, e) → b ≤ e ∧ e ≤ s.length) :
    (g.toBool = false ↔ g.content s ≠ []) ∧ (ownedToBool (g.content s) = false ↔ g.content s ≠ []) ∧
    (g.toBool = false ↔ 0 < g.length) := by
  match g with
  | none => simp [Cap.toBool, Cap.isEmpty, Cap.content, capText, ownedToBool, Cap.length]
  | some (b, e) =>
    obtain ⟨h1, h2⟩ := hg b e rfl
    by_cases he : b = e
    · subst he
      simp [Cap.toBool, Cap.isEmpty, Cap.content, capText, ownedToBool, Cap.length]
    · have hne : (s.drop b).take (e - b) ≠ [] := by
        intro h
        have := congrArg List.length h
        simp at this
        omega
      simp only [Cap.toBool, Cap.isEmpty, Cap.content, capText, ownedToBool, Cap.length]
      refine ⟨⟨fun _ => hne, fun _ => by simpa using he⟩, ⟨fun _ => hne, fun _ => by simpa [List.isEmpty_iff] using hne⟩,
        ⟨fun _ => by omega, fun _ => by simpa using he⟩⟩

example : ∀ b e, (some (0, 1) : Cap) = some (b, e) → b ≤ e ∧ e ≤ [ch 'a'].length := by
  intro b e h; simp only [Option.some.injEq, Prod.mk.injEq] at h; simp [← h.1, ← h.2]

/-! ## C45 -/

/-- **C45.** Classification agrees with the ASCII table. -/
theorem C45_classification (c : Byte) :
    (isDigit c = true ↔ 0x30 ≤ c.toNat ∧ c.toNat ≤ 0x39) ∧
    (isLower c = true ↔ 0x61 ≤ c.toNat ∧ c.toNat ≤ 0x7A) ∧
    (isUpper c = true ↔ 0x41 ≤ c.toNat ∧ c.toNat ≤ 0x5A) ∧
    (isAlpha c = true ↔ (0x41 ≤ c.toNat ∧ c.toNat ≤ 0x5A) ∨ (0x61 ≤ c.toNat ∧ c.toNat ≤ 0x7A)) ∧
    (isHexdigit c = true ↔ (0x30 ≤ c.toNat ∧ c.toNat ≤ 0x39) ∨ (0x41 ≤ c.toNat ∧ c.toNat ≤ 0x46) ∨
      (0x61 ≤ c.toNat ∧ c.toNat ≤ 0x66)) ∧
    (isWord c = true ↔ (0x30 ≤ c.toNat ∧ c.toNat ≤ 0x39) ∨ (0x41 ≤ c.toNat ∧ c.toNat ≤ 0x5A) ∨ c.toNat = 0x5F ∨
      (0x61 ≤ c.toNat ∧ c.toNat ≤ 0x7A)) := by
  revert c; decide +kernel

/-- **C45.** Case conversion agrees with the ASCII table: the 26 letters are exchanged, everything else stays. -/
theorem C45_case (c : Byte) :
    ((toLower c).toNat = if 0x41 ≤ c.toNat ∧ c.toNat ≤ 0x5A then c.toNat + 0x20 else c.toNat) ∧
    ((toUpper c).toNat = if 0x61 ≤ c.toNat ∧ c.toNat ≤ 0x7A then c.toNat - 0x20 else c.toNat) ∧
    ((invertCase c).toNat = if 0x41 ≤ c.toNat ∧ c.toNat ≤ 0x5A then c.toNat + 0x20
      else if 0x61 ≤ c.toNat ∧ c.toNat ≤ 0x7A then c.toNat - 0x20 else c.toNat) := by
  revert c; decide +kernel

/-- **C45.** `invert_case` is an involution, and bytes from 0x80 on are never letters, digits or word characters and have no case. -/
theorem C45_invert_case (c : Byte) :
    invertCase (invertCase c) = c ∧
    (0x80 ≤ c.toNat → isAlpha c = false ∧ isLower c = false ∧ isUpper c = false ∧ isDigit c = false ∧ isHexdigit c = false ∧ isWord c = false ∧
      toLower c = c ∧ toUpper c = c ∧ invertCase c = c) := by
  revert c; decide +kernel

example : isAlpha (ch 'q') = true ∧ invertCase (ch 'q') = ch 'Q' ∧ isAlpha (ch '@') = false ∧ isAlpha 0xE1#8 = false := by decide

end Mregex
