import Verif.Props.Regular
import Verif.Spec.Decide

/-!
# C103: questions about all texts are answered by the texts up to a length
-/

namespace Mregex
open Ast Spec

/-- A use that the theorems below are about. -/
def Spec.Use.Plain (x : Use) : Prop := x.regex.Ok x.cat ∧ noBackref x.regex.ast = true

theorem verdict_iff {x : Use} {s : List Byte} : x.verdict s = true ↔ s ∈ accepted x.regex x.method x.cat := by
  rw [Use.verdict]
  constructor
  · intro h
    cases hr : x.regex.invoke x.method x.cat s with
    | none => simp [hr] at h
    | some res => rw [hr] at h; exact ⟨res, hr, h⟩
  · rintro ⟨res, h1, h2⟩
    rw [h1]; exact h2

theorem verdict_recog {x : Use} (hx : x.Plain) : ∃ T : List Byte → Nat → Bool, Recog x.bound T ∧ ∀ s, x.verdict s = T s 0 := by
  obtain ⟨T, h1, h2⟩ := accepted_recog hx.1 hx.2 x.method
  classical
  refine ⟨_, h1.map fun P => decide P, fun s => ?_⟩
  rw [Bool.eq_iff_iff, verdict_iff, h2, decide_eq_true_iff]

theorem verdicts_recog : ∀ {l : List Use}, (∀ x ∈ l, x.Plain) →
    ∃ T : List Byte → Nat → List Bool, Recog (boundAll l) T ∧ ∀ s, (l.map fun x => x.verdict s) = T s 0
  | [], _ => ⟨_, Recog.const [], fun _ => rfl⟩
  | x :: l, h => by
    obtain ⟨T, h1, h2⟩ := verdict_recog (h x (by simp))
    obtain ⟨T', h1', h2'⟩ := verdicts_recog (l := l) fun y hy => h y (List.mem_cons_of_mem _ hy)
    exact ⟨_, (h1.pair h1').map fun y => y.1 :: y.2, fun s => by rw [List.map_cons, h2, h2']⟩

theorem everyByte_all (c : Byte) : c ∈ everyByte := by
  refine List.mem_map.2 ⟨c.toNat, List.mem_range.2 c.isLt, ?_⟩
  simp

theorem mem_textsOf {n : Nat} {s : List Byte} : s ∈ textsOf n ↔ s.length = n := by
  induction n generalizing s with
  | zero => simp [textsOf]
  | succ n ih =>
    simp only [textsOf, List.mem_flatMap, List.mem_map]
    constructor
    · rintro ⟨t, h1, c, _, rfl⟩
      rw [List.length_cons, ih.1 h1]
    · intro h
      cases s with
      | nil => simp at h
      | cons c t => exact ⟨t, ih.2 (by simpa using h), c, everyByte_all c, rfl⟩

theorem mem_shorter {n : Nat} {s : List Byte} : s ∈ shorter n ↔ s.length < n := by
  simp only [shorter, List.mem_flatMap, List.mem_range, mem_textsOf]
  exact ⟨fun ⟨k, h1, h2⟩ => h2 ▸ h1, fun h => ⟨_, h, rfl⟩⟩

/-- **C103.** Whatever is asked about the verdicts of any number of calls for the same text: if there is a text with such verdicts, then
there is one that is shorter than the product of the numbers of classes. -/
theorem C103_short (l : List Use) (hl : ∀ x ∈ l, x.Plain) (P : List Bool → Prop) (s : List Byte) (h : P (l.map fun x => x.verdict s)) :
    ∃ s', s'.length < boundAll l ∧ P (l.map fun x => x.verdict s') := by
  obtain ⟨T, h1, h2⟩ := verdicts_recog hl
  rw [h2] at h
  obtain ⟨s', h3, h4⟩ := (h1.map P).short _ (Nat.le_refl _) h
  exact ⟨s', h3, by rw [h2]; exact h4⟩

/-- **C103**: so it can be found out by trying. -/
theorem C103_sometimes (l : List Use) (hl : ∀ x ∈ l, x.Plain) (f : List Bool → Bool) : sometimes l f = true ↔ ∃ s, f (l.map fun x => x.verdict s) = true := by
  rw [sometimes, List.any_eq_true]
  constructor
  · rintro ⟨s, _, h⟩; exact ⟨s, h⟩
  · rintro ⟨s, h⟩
    obtain ⟨s', h1, h2⟩ := C103_short l hl (fun v => f v = true) s h
    exact ⟨s', mem_shorter.2 h1, h2⟩

theorem not_sometimes {l : List Use} (hl : ∀ x ∈ l, x.Plain) (f : List Bool → Bool) : (!sometimes l f) = true ↔ ∀ s, f (l.map fun x => x.verdict s) = false := by
  rw [Bool.not_eq_true', ← Bool.not_eq_true, C103_sometimes l hl]
  simp

section questions
variable {x y : Use}

/-- **C103**: does a regex accept anything? -/
theorem C103_never (hx : x.Plain) : neverb x = true ↔ ∀ s, s ∉ accepted x.regex x.method x.cat := by
  rw [neverb, not_sometimes (by simpa using hx)]
  refine forall_congr' fun s => ?_
  rw [← verdict_iff]
  cases h : x.verdict s <;> simp [h]

/-- **C103**: does it accept everything? -/
theorem C103_always (hx : x.Plain) : alwaysb x = true ↔ ∀ s, s ∈ accepted x.regex x.method x.cat := by
  rw [alwaysb, not_sometimes (by simpa using hx)]
  refine forall_congr' fun s => ?_
  rw [← verdict_iff]
  cases h : x.verdict s <;> simp [h]

/-- **C103**: do two regexes accept the same texts? -/
theorem C103_same (hx : x.Plain) (hy : y.Plain) : sameb x y = true ↔ accepted x.regex x.method x.cat = accepted y.regex y.method y.cat := by
  rw [sameb, not_sometimes (by simpa using ⟨hx, hy⟩)]
  refine Iff.trans (forall_congr' fun s => ?_) ⟨fun h => Language.ext h, fun h s => by rw [h]⟩
  rw [← verdict_iff, ← verdict_iff]
  cases h : x.verdict s <;> cases h' : y.verdict s <;> simp [h, h']

/-- **C103**: does the second accept whatever the first accepts? -/
theorem C103_within (hx : x.Plain) (hy : y.Plain) : withinb x y = true ↔ ∀ s ∈ accepted x.regex x.method x.cat, s ∈ accepted y.regex y.method y.cat := by
  rw [withinb, not_sometimes (by simpa using ⟨hx, hy⟩)]
  refine forall_congr' fun s => ?_
  rw [← verdict_iff, ← verdict_iff]
  cases h : x.verdict s <;> cases h' : y.verdict s <;> simp [h, h']

/-- **C103**: can no text be accepted by both? -/
theorem C103_apart (hx : x.Plain) (hy : y.Plain) :
    apartb x y = true ↔ ∀ s, ¬(s ∈ accepted x.regex x.method x.cat ∧ s ∈ accepted y.regex y.method y.cat) := by
  rw [apartb, not_sometimes (by simpa using ⟨hx, hy⟩)]
  refine forall_congr' fun s => ?_
  rw [← verdict_iff, ← verdict_iff]
  cases h : x.verdict s <;> cases h' : y.verdict s <;> simp [h, h']

theorem endlessb_iff : endlessb x = true ↔ ∃ s, x.bound ≤ s.length ∧ s.length < 2 * x.bound ∧ x.verdict s = true := by
  simp only [endlessb, List.any_eq_true, List.mem_range, mem_textsOf]
  constructor
  · rintro ⟨k, hk, s, hs, h⟩; exact ⟨s, by omega, by omega, h⟩
  · rintro ⟨s, h1, h2, h⟩; exact ⟨s.length - x.bound, by omega, s, by omega, h⟩

theorem finite_shorter (n : Nat) : {s : List Byte | s.length < n}.Finite :=
  (List.finite_toSet (shorter n)).subset fun _ h => mem_shorter.2 h

/-- **C103**: does it accept infinitely many texts? -/
theorem C103_endless (hx : x.Plain) : endlessb x = true ↔ (accepted x.regex x.method x.cat : Set (List Byte)).Infinite := by
  obtain ⟨T, h1, h2⟩ := accepted_recog hx.1 hx.2 x.method
  rw [endlessb_iff]
  constructor
  · rintro ⟨s, h3, h4, h5⟩
    rw [verdict_iff, h2] at h5
    obtain ⟨i, j, hij, hj, hk⟩ := h1.pump h5
    have hj' : j ≤ s.length := Nat.le_trans hj h3
    refine Set.infinite_of_injective_forall_mem (f := pumped s i j) (fun k k' he => ?_) fun k => (h2 _).2 (hk k)
    have := congrArg List.length he
    rw [pumped_length (Nat.le_of_lt hij) hj', pumped_length (Nat.le_of_lt hij) hj'] at this
    exact Nat.eq_of_mul_eq_mul_right (show 0 < j - i by omega) (by omega)
  · intro hinf
    obtain ⟨s, h3, h4⟩ := hinf.exists_notMem_finite (finite_shorter x.bound)
    obtain ⟨s', h5, h6, h7⟩ := h1.medium _ (Nat.le_refl _) (Nat.not_lt.1 h4) ((h2 s).1 h3)
    exact ⟨s', h5, h6, verdict_iff.2 ((h2 s').2 h7)⟩

end questions

/-- `(?=a)b` never matches; `(?!b)[ab]+` and `a[ab]*` accept the same texts. -/
def exNever : Use := ⟨⟨.seq [.look .ahead (.lit (ch 'a')), .lit (ch 'b')], []⟩, .search, .forward⟩
def exSame : Use := ⟨⟨.seq [.neg (.look .ahead (.lit (ch 'b'))), .rep .possessive 1 .inf (.set [.lit (ch 'a'), .lit (ch 'b')])], []⟩, .match, .forward⟩
def exSame' : Use := ⟨⟨.seq [.lit (ch 'a'), .rep .lazy 0 .inf (.set [.lit (ch 'a'), .lit (ch 'b')])], []⟩, .match, .forward⟩

theorem exNever_plain : exNever.Plain := ⟨Regex.ok_of_okb (by decide), by decide⟩
theorem exSame_plain : exSame.Plain := ⟨Regex.ok_of_okb (by decide), by decide⟩
theorem exSame_plain' : exSame'.Plain := ⟨Regex.ok_of_okb (by decide), by decide⟩

example : neverb exNever = true ↔ ∀ s, s ∉ accepted exNever.regex .search .forward := C103_never exNever_plain
example : sameb exSame exSame' = true ↔ accepted exSame.regex .match .forward = accepted exSame'.regex .match .forward := C103_same exSame_plain exSame_plain'

/-- A text of length 2 is accepted, so one that is shorter than the bound is. -/
example : ∃ s, s.length < boundAll [exSame, exSame'] ∧ [exSame, exSame'].map (fun x => x.verdict s) = [true, true] :=
  C103_short [exSame, exSame'] (by simp [exSame_plain, exSame_plain']) (· = [true, true]) (txt "ab") (by decide)

end Mregex
