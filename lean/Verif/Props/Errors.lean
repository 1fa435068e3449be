import Verif.Proof.Viable

/-!
# Where syntax errors are reported
-/

namespace Mregex
open Ast Spec

/-! ## C64 -/

theorem viable_take {w : List Byte} {i j : Nat} (h : Viable (w.take j)) (hij : i ≤ j) : Viable (w.take i) := by
  have : w.take j = w.take i ++ (w.take j).drop i := by
    have := List.take_append_drop i (w.take j)
    rw [List.take_take, Nat.min_eq_left hij] at this
    exact this.symm
  rw [this] at h
  exact Viable.of_append h

theorem error_position {pat : List Byte} {i : Nat} (h : parse pat = .result nothing (.syntaxError i)) :
    Viable (pat.take i) ∧ (i < pat.length → ¬Viable (pat.take (i + 1))) := by
  refine ⟨error_before h, fun hi => ?_⟩
  rintro ⟨v, x, hv⟩
  have h1 := parse_of_pattern hv
  rw [error_upto h hi v] at h1
  injection h1 with _ h1
  cases h1

/-- **C64**: a syntax error is reported at a position exactly if the text before it is the beginning of a pattern, and, with the character at this position, is the beginning of no
pattern.  At the end of the text it is reported exactly if the text is the beginning of a pattern but no pattern itself (except for the texts of `C34_illFormed_iff`, for
which the program is ill-formed). -/
theorem C64_position (pat : List Byte) (i : Nat) : parse pat = .result nothing (.syntaxError i) ↔
    Viable (pat.take i) ∧ ((i < pat.length ∧ ¬Viable (pat.take (i + 1))) ∨
      (i = pat.length ∧ (¬∃ x, Pattern pat x) ∧ ¬∃ os o, Openers os ∧ ActingOpener o ∧ pat = os ++ o)) := by
  constructor
  · intro h
    obtain ⟨h1, h2⟩ := error_position h
    refine ⟨h1, ?_⟩
    have hi := (error_run h).1
    rcases Nat.lt_or_ge i pat.length with hlt | hge
    · exact .inl ⟨hlt, h2 hlt⟩
    · refine .inr ⟨by omega, ?_, ?_⟩
      · rintro ⟨x, hx⟩
        rw [parse_of_pattern hx] at h
        injection h with _ h
        cases h
      · rintro ⟨os, o, ho, ho', rfl⟩
        rw [parse_openers ho ho'] at h; cases h
  · rintro ⟨h1, h2⟩
    have hv : (∃ x, Pattern pat x) ∨ parse pat = .illFormed → Viable pat := by
      rintro (⟨x, hx⟩ | h)
      · exact ⟨[], x, by rw [List.append_nil]; exact hx⟩
      · exact viable_illFormed h
    rcases parse_total pat with ⟨a, h⟩ | ⟨j, hj, h⟩ | ⟨h, ho⟩
    · obtain ⟨x, hx, _⟩ := (parse_iff _ _).1 h
      rcases h2 with ⟨hi, h2⟩ | ⟨_, h2, _⟩
      · refine absurd (viable_take (j := pat.length) ?_ hi) h2
        rw [List.take_length]
        exact hv (.inl ⟨x, hx⟩)
      · exact absurd ⟨x, hx⟩ h2
    · obtain ⟨h3, h4⟩ := error_position h
      have : i = j := by
        rcases Nat.lt_trichotomy i j with hij | hij | hij
        · rcases h2 with ⟨hi, h2⟩ | ⟨hi, _⟩
          · exact absurd (viable_take h3 hij) h2
          · omega
        · exact hij
        · refine absurd (viable_take h1 hij) (h4 ?_)
          rcases h2 with ⟨hi, _⟩ | ⟨hi, _⟩ <;> omega
      rw [this]; exact h
    · rcases h2 with ⟨hi, h2⟩ | ⟨_, _, h2⟩
      · refine absurd (viable_take (j := pat.length) ?_ hi) h2
        rw [List.take_length]
        exact hv (.inr h)
      · exact absurd ho h2

/-- **C64**: the error depends on the text up to this character only. -/
theorem C64_upto (pat pat' : List Byte) (i : Nat) (h : parse pat = .result nothing (.syntaxError i)) (hi : i < pat.length)
    (he : pat'.take (i + 1) = pat.take (i + 1)) : parse pat' = .result nothing (.syntaxError i) := by
  rw [← List.take_append_drop (i + 1) pat', he]
  exact error_upto h hi _

/-- **C64**: there is a way to go on, as long as no error was reported: a text is the beginning of a pattern exactly if the parser reports no error within it. -/
theorem C64_viable (w : List Byte) : Viable w ↔ ∀ i, i < w.length → parse w ≠ .result nothing (.syntaxError i) := by
  constructor
  · intro h i hi he
    refine (error_position he).2 hi (viable_take (j := w.length) ?_ hi)
    rw [List.take_length]; exact h
  · intro h
    rcases parse_total w with ⟨a, h'⟩ | ⟨j, hj, h'⟩ | ⟨h', _⟩
    · obtain ⟨x, hx, _⟩ := (parse_iff _ _).1 h'
      exact ⟨[], x, by rw [List.append_nil]; exact hx⟩
    · have : j = w.length := by
        rcases Nat.lt_or_ge j w.length with hlt | hge
        · exact absurd h' (h j hlt)
        · omega
      have h3 := (error_position h').1
      rw [this, List.take_length] at h3
      exact h3
    · exact viable_illFormed h'

/-- `a(b|*c)`: the error is at the star; `a(b|` can be continued. -/
example : parse (txt "a(b|*c)") = .result nothing (.syntaxError 4) := rfl
/-- `[a-\d]`: a class cannot be the end of a range. -/
example : parse (txt "x[a-\\d]") = .result nothing (.syntaxError 5) := rfl
/-- `a{2,` lacks the end. -/
example : parse (txt "a{2,") = .result nothing (.syntaxError 4) := rfl

end Mregex
