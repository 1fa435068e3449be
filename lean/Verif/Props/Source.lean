import Verif.Model.Source
import Verif.Proof.OkCheck
import Verif.Props.Language

/-!
# C78: the text that is looked at
-/

namespace Mregex
open Ast Spec

theorem cString_terminated {w : List Byte} (h : (0 : Byte) ∉ w) (rest : List Byte) : cString (w ++ 0 :: rest) = some w := by
  induction w with
  | nil => rfl
  | cons x w ih =>
    simp only [List.mem_cons, not_or] at h
    simp only [List.cons_append, cString, show (x == 0) = false from beq_false_of_ne (Ne.symm h.1), Bool.false_eq_true, if_false, ih h.2,
      Option.map_some]

theorem cString_none {w : List Byte} (h : (0 : Byte) ∉ w) : cString w = none := by
  induction w with
  | nil => rfl
  | cons x w ih =>
    simp only [List.mem_cons, not_or] at h
    simp only [cString, show (x == 0) = false from beq_false_of_ne (Ne.symm h.1), Bool.false_eq_true, if_false, ih h.2, Option.map_none]

/-! ## C78 -/

theorem narrow_of_same {units : List CodeUnit} {s : List Byte} (hs : units.map BitVec.toNat = s.map BitVec.toNat) : units.map narrow = s := by
  induction units generalizing s with
  | nil => cases s with
    | nil => rfl
    | cons x s => simp at hs
  | cons u units ih => cases s with
    | nil => simp at hs
    | cons x s =>
      simp only [List.map_cons, List.cons.injEq] at hs ⊢
      refine ⟨?_, ih hs.2⟩
      apply BitVec.eq_of_toNat_eq
      simp only [narrow, BitVec.toNat_setWidth, hs.1]
      exact Nat.mod_eq_of_lt x.isLt

/-- **C78, partial** (missing: characters of more than 8 bits).  Ranges of characters: if the code units fit into 8 bits, which is always so
for `char`, the results are those for these bytes, whatever the kind of range; contiguous ranges have to consist of `char`s, otherwise the
call does not compile. -/
theorem C78_range_partial (R : Regex) (M : Method) (cat : Cat) (char contiguous : Bool) (hc : char = true ∨ contiguous = false)
    (units : List CodeUnit) (s : List Byte) (hs : units.map BitVec.toNat = s.map BitVec.toNat) :
    R.invokeOn M cat (.range char contiguous units) = R.invoke M cat s := by
  have he : units.map narrow = s := narrow_of_same hs
  have hcc : (char || !contiguous) = true := by rcases hc with rfl | rfl <;> simp
  simp only [Regex.invokeOn, Source.compiles, hcc, if_true, Source.text, he, Option.bind_some]

/-- **C78** is false for characters of more than 8 bits, of which only the last 8 bits are looked at: `a` matches `š` (U+0161) in a
`std::list<char32_t>`. -/
theorem C78_range_false : ∃ (R : Regex) (units : List CodeUnit) (res : Result), R.Ok .bidirectional ∧ R.ast = .lit (ch 'a') ∧ R.flags = [] ∧
    units.map BitVec.toNat = [0x161] ∧ R.invokeOn .match .bidirectional (.range false false units) = some res ∧ res.matched = true :=
  ⟨⟨.lit (ch 'a'), []⟩, [0x161], ⟨[some (0, 1)], true⟩, Regex.ok_of_okb (by decide), rfl, rfl, rfl, by decide, rfl⟩

/-- **C78**: in general the results are those for the remainders of the code units modulo 256. -/
theorem C78_modulo (R : Regex) (M : Method) (cat : Cat) (char contiguous : Bool) (hc : char = true ∨ contiguous = false)
    (units : List CodeUnit) : ∃ s : List Byte, s.map BitVec.toNat = units.map (·.toNat % 256) ∧
      R.invokeOn M cat (.range char contiguous units) = R.invoke M cat s := by
  have hcc : (char || !contiguous) = true := by rcases hc with rfl | rfl <;> simp
  refine ⟨units.map narrow, by simp [narrow, Function.comp_def], ?_⟩
  simp only [Regex.invokeOn, Source.compiles, hcc, if_true, Source.text, Option.bind_some]

/-- **C78, partial** (missing: zeros in the text).  String literals, arrays and pointers: the text is what comes before the first zero, so
a literal without zeros stands for its characters; what follows the zero does not matter. -/
theorem C78_literal_partial (R : Regex) (M : Method) (cat : Cat) (w rest : List Byte) (hw : (0 : Byte) ∉ w) :
    R.invokeOn M cat (.chars (w ++ 0 :: rest)) = R.invoke M cat w := by
  simp only [Regex.invokeOn, Source.compiles, if_true, Source.text, cString_terminated hw, Option.bind_some]

/-- **C78** is false for literals that contain zeros: `match` of `[ab\x00]+` and `"a\0b"` looks at the text `a` only; as a `std::string`,
the three characters are matched. -/
theorem C78_literal_false : ∃ (R : Regex) (w : List Byte) (res res' : Result), R.Ok .randomAccess ∧
    R.invokeOn .match .randomAccess (.chars (w ++ [0])) = some res ∧ res.matched = true ∧ res.group 0 = some (some (0, 1)) ∧
    R.invokeOn .match .randomAccess (.range true true (w.map (·.setWidth 32))) = some res' ∧ res'.matched = true ∧
    res'.group 0 = some (some (0, w.length)) ∧ w.length = 3 :=
  ⟨⟨.rep .greedy 1 .inf (.set [.lit (ch 'a'), .lit (ch 'b'), .lit 0]), []⟩, [ch 'a', 0, ch 'b'], ⟨[some (0, 1)], true⟩, ⟨[some (0, 3)], true⟩,
    Regex.ok_of_okb (by decide), by decide, rfl, rfl, by decide, rfl, rfl, rfl⟩

/-- **C78** is false for arrays of characters without a zero, which are accepted but read beyond their end. -/
theorem C78_array_false (R : Regex) (M : Method) (cat : Cat) (w : List Byte) (hw : (0 : Byte) ∉ w) : R.invokeOn M cat (.chars w) = none := by
  simp only [Regex.invokeOn, Source.compiles, if_true, Source.text, cString_none hw, Option.bind_none]

/-- **C78**: everything that holds for texts carries over, e.g. C02: `match` of a literal decides membership in the language of the regex. -/
theorem C78_language_partial (R : Regex) (cat : Cat) (hR : R.Ok cat) (hd : declarative R.ast = true) (w : List Byte) (hw : (0 : Byte) ∉ w) :
    ∃ res, R.invokeOn .match cat (.chars (w ++ [0])) = some res ∧ (res.matched = true ↔ Matches (Flags.ofList R.flags) w R.ast 0 w.length) := by
  rw [C78_literal_partial R .match cat w [] hw]
  exact C02_match_language R cat hR hd w

/-- The argument holds the text `s`: a range with these characters (contiguous only if they are `char`s), or an array with a zero after them and none in
between. -/
inductive Source.Holds : Source → List Byte → Prop
  | range (char contiguous : Bool) (units : List CodeUnit) (s : List Byte) : char = true ∨ contiguous = false →
      units.map BitVec.toNat = s.map BitVec.toNat → Source.Holds (.range char contiguous units) s
  | chars (w rest : List Byte) : (0 : Byte) ∉ w → Source.Holds (.chars (w ++ 0 :: rest)) w

theorem Source.Holds.seen {src : Source} {s : List Byte} (h : src.Holds s) : src.compiles = true ∧ src.text = some s := by
  cases h with
  | range char contiguous units s hc hs =>
    exact ⟨by rcases hc with rfl | rfl <;> simp [Source.compiles], by simp only [Source.text, narrow_of_same hs]⟩
  | chars w rest hw => exact ⟨rfl, cString_terminated hw rest⟩

/-- **C78, partial** (missing: characters of more than 8 bits and zeros in literals): the methods, any number of calls of the generators, and the loops give the results for
the text that was passed. -/
theorem C78_all_partial {src : Source} {s : List Byte} (h : src.Holds s) (R : Regex) (M : Method) (cat : Cat) :
    R.invokeOn M cat src = R.invoke M cat s ∧ (∀ k, R.callsOn M cat src k = genCalls R M cat s k {}) ∧
      ∀ rounds, R.elementsOn M cat src rounds = rangeElements R M cat s rounds := by
  obtain ⟨h1, h2⟩ := h.seen
  simp [Regex.invokeOn, Regex.callsOn, Regex.elementsOn, h1, h2]

/-- **C78** is false for contiguous ranges of characters other than `char`, as `std::u32string`: no call compiles. -/
theorem C78_wide_false (R : Regex) (M : Method) (cat : Cat) (units : List CodeUnit) :
    R.invokeOn M cat (.range false true units) = none ∧ (∀ k, R.callsOn M cat (.range false true units) k = none) ∧
      ∀ rounds, R.elementsOn M cat (.range false true units) rounds = none := by
  simp [Regex.invokeOn, Regex.callsOn, Regex.elementsOn, Source.compiles]

/-- **C78**: in general, generators and loops as well give the results for the remainders modulo 256. -/
theorem C78_modulo_all (R : Regex) (M : Method) (cat : Cat) (char contiguous : Bool) (hc : char = true ∨ contiguous = false)
    (units : List CodeUnit) : ∃ s : List Byte, s.map BitVec.toNat = units.map (·.toNat % 256) ∧
      (∀ k, R.callsOn M cat (.range char contiguous units) k = genCalls R M cat s k {}) ∧
      ∀ rounds, R.elementsOn M cat (.range char contiguous units) rounds = rangeElements R M cat s rounds := by
  have hcc : (char || !contiguous) = true := by rcases hc with rfl | rfl <;> simp
  refine ⟨units.map narrow, by simp [narrow, Function.comp_def], ?_⟩
  simp [Regex.callsOn, Regex.elementsOn, Source.compiles, hcc, Source.text]

example := C78_all_partial (.range false false [0x62, 0xe9, 0x41] [ch 'b', 0xe9, ch 'A'] (.inr rfl) rfl) ⟨.lit (ch 'a'), [.icase]⟩ .search .bidirectional
example := C78_all_partial (.chars [ch 'b', ch 'a'] [ch 'x'] (by decide)) ⟨.lit (ch 'a'), []⟩ .search .bidirectional
example := C78_range_partial ⟨.lit (ch 'a'), [.icase]⟩ .search .bidirectional false false (.inr rfl) [0x62, 0xe9, 0x41] [ch 'b', 0xe9, ch 'A'] rfl
example := C78_literal_partial ⟨.lit (ch 'a'), []⟩ .search .randomAccess [ch 'b', ch 'a'] [ch 'x'] (by decide)
example := C78_array_false ⟨.lit (ch 'a'), []⟩ .search .randomAccess [ch 'a', ch 'b'] (by decide)
example := C78_language_partial ⟨star (.lit (ch 'a')), []⟩ .forward (Regex.ok_of_okb (by decide)) (by decide) [ch 'a', ch 'a'] (by decide)

end Mregex
