import Verif.Proof.Parser
import Verif.Spec.Openers

/-!
# The semantic actions find what they need on the node stack
-/

namespace Mregex
open Ast Spec

/-- What symbols need and give: the least that has to hold of the node stack for a symbol to be carried out such that `Q` holds afterwards. -/
def wp : Sym → (List Ast → Prop) → List Ast → Prop
  | .act a, Q, N => ∀ t : Byte, ∃ N', build a (some t) N = some N' ∧ Q N'
  | .expect _, Q, N => Q N
  | .unquantifiable, Q, N => Q N
  | .begin, Q, N => ∀ x, Q (x :: N)
  | .groupBegin, Q, N => ∀ x, Q (x :: N)
  | .groupBeginOrMod, Q, N => ∀ x, Q (x :: N)
  | .groupMod, Q, N => ∀ x, Q (x :: N)
  | .groupModLessThan, Q, N => ∀ x, Q (x :: N)
  | .captureNameSeq _, Q, N => ∀ x, Q (x :: N)
  | .esc, Q, N => ∀ x, Q (x :: N)
  | .backrefNameBegin, Q, N => ∀ x, Q (x :: N)
  | .backrefId _, Q, N => ∀ x, Q (x :: N)
  | .backrefNameSeq _, Q, N => ∀ x, Q (x :: N)
  | .altSeq, Q, N => N ≠ [] ∧ ∀ x, Q (x :: N)
  | .hexEscSeq _, Q, N => ∀ c, Q (.lit c :: N)
  | .setRangeEsc, Q, N => ∀ c, Q (.lit c :: N)
  | .setEsc, Q, N => ∀ x, x ≠ .set [] → Q (x :: N)
  | .seq, Q, N => ∃ x N', N = x :: N' ∧ ∀ y, Q (y :: N')
  | .alt, Q, N => ∃ x N', N = x :: N' ∧ ∀ y, Q (y :: N')
  | .mod, Q, N => ∃ x N', N = x :: N' ∧ ∀ y, Q (y :: N')
  | .quantifierBegin, Q, N => ∃ x N', N = x :: N' ∧ ∀ y, Q (y :: N')
  | .quantifierMod _ _ _, Q, N => ∃ x N', N = x :: N' ∧ ∀ y, Q (y :: N')
  | .quantifierValue _, Q, N => ∃ x N', N = x :: N' ∧ ∀ y, Q (y :: N')
  | .quantifierRange _ _, Q, N => ∃ x N', N = x :: N' ∧ ∀ y, Q (y :: N')
  | .setBeginOrNeg, Q, N => ∃ l N', N = .set l :: N' ∧ ∀ y, Q (y :: N')
  | .setBegin, Q, N => ∃ l N', N = .set l :: N' ∧ ∀ y, Q (y :: N')
  | .setSeq, Q, N => ∃ x l N', N = .set (x :: l) :: N' ∧ ∀ x l, Q (.set (x :: l) :: N')
  | .setRangeBegin, Q, N => ∃ x l N', N = .set (x :: l) :: N' ∧ ∀ x l, Q (.set (x :: l) :: N')
  | .setRangeSeq, Q, N => ∃ x l N', N = .set (x :: l) :: N' ∧ ∀ x l, Q (.set (x :: l) :: N')

/-- Several symbols. -/
def wpL (l : List Sym) (Q : List Ast → Prop) : List Ast → Prop := l.foldr wp Q

theorem wpL_append (l l' : List Sym) (Q : List Ast → Prop) : wpL (l ++ l') Q = wpL l (wpL l' Q) := by
  simp [wpL]

/-- A rule gives what its symbol promises. -/
def Rule.sound (s : Sym) : Rule → Prop
  | .push l => ∀ Q N, wp s Q N → wpL l Q N
  | .advance l => ∀ Q N, wp s Q N → wpL l Q N
  | .ignore => ∀ Q N, wp s Q N → Q N
  | .reject => True
  | .accept => True

/-- What an escape can be. -/
def escapeRules : List Rule :=
  [.advance [.act .makeDigit], .advance [.act .makeDigit, .act .makeNegated], .advance [.act .makeWord], .advance [.act .makeWord, .act .makeNegated],
   .advance [.act .makeWhitespace], .advance [.act .makeWhitespace, .act .makeNegated],
   .advance [.act .makeLinebreak], .advance [.act .makeLinebreak, .act .makeNegated],
   .advance [.act .makeWordBoundary, .unquantifiable], .advance [.act .makeWordBoundary, .act .makeNegated, .unquantifiable],
   .advance [.act .makeBeginningOfInput, .unquantifiable], .advance [.act .makeEndOfInput, .unquantifiable]]

def literalRule : Rule → Bool
  | .advance [.act (.pushLiteral _)] => true
  | .advance [.act .makeLiteral] => true
  | .advance [.hexEscSeq []] => true
  | _ => false

theorem handleEscapedChar_cases : ∀ c : Byte, literalRule (handleEscapedChar c) = true ∨ handleEscapedChar c ∈ escapeRules := by decide +kernel

theorem handleSetEscapeSequence_cases : ∀ c : Byte, literalRule (handleSetEscapeSequence c) = true ∨ handleSetEscapeSequence c ∈ escapeRules.take 8 := by decide +kernel

theorem handleSetRangeEscapeSequence_cases : ∀ c : Byte, literalRule (handleSetRangeEscapeSequence c) = true ∨ handleSetRangeEscapeSequence c = .reject := by
  decide +kernel

theorem literalRule_cases {R : Rule} (h : literalRule R = true) : (∃ c, R = .advance [.act (.pushLiteral c)]) ∨ R = .advance [.act .makeLiteral] ∨ R = .advance [.hexEscSeq []] := by
  unfold literalRule at h
  split at h
  · exact .inl ⟨_, rfl⟩
  · exact .inr (.inl rfl)
  · exact .inr (.inr rfl)
  · cases h

theorem startRule_sound {s : Sym} (c : Byte) (post : List Sym) (h : ∀ Q N, wp s Q N → ∀ x, wpL post Q (x :: N)) : (startRule c post).sound s := by
  unfold startRule
  repeat' split
  all_goals
    intro Q N hw
    have h := h Q N hw
  · exact fun t => ⟨_, rfl, _, _, rfl, fun y => ⟨_, _, rfl, h⟩⟩
  · exact fun x => ⟨_, _, rfl, h⟩
  · exact fun x => ⟨_, _, rfl, h⟩
  · exact fun x => ⟨_, rfl, _, _, rfl, h⟩
  · exact fun x => ⟨_, rfl, h _⟩
  · exact fun x => ⟨_, rfl, h _⟩
  · exact fun x => ⟨_, rfl, _, _, rfl, h⟩

theorem setItemRule_sound {s : Sym} (c : Byte)
    (h : ∀ Q N, wp s Q N → ∃ l N', N = .set l :: N' ∧ (l ≠ [] → Q N) ∧ (l = [] → Q N) ∧ ∀ x l, Q (.set (x :: l) :: N')) : (setItemRule c).sound s := by
  unfold setItemRule
  repeat' split
  · intro Q N hw
    obtain ⟨l, N', rfl, h1, h2, _⟩ := h Q N hw
    by_cases hl : l = []
    · exact h2 hl
    · exact h1 hl
  · intro Q N hw
    obtain ⟨l, N', rfl, _, _, h3⟩ := h Q N hw
    simp only [wpL, List.foldr, wp]
    intro x hx t
    cases x with
    | set l' =>
      cases l' with
      | nil => exact absurd rfl hx
      | cons y l' => exact ⟨_, rfl, _, _, _, rfl, fun x l => h3 x l⟩
    | _ => exact ⟨_, rfl, _, _, _, rfl, fun x l => h3 x l⟩
  · intro Q N hw
    obtain ⟨l, N', rfl, _, _, h3⟩ := h Q N hw
    simp only [wpL, List.foldr, wp]
    intro t
    exact ⟨_, rfl, _, _, _, rfl, fun x l => h3 x l⟩

theorem rule_sound (s : Sym) (tok : Option Byte) (hs : tok = none → s ≠ .begin ∧ s ≠ .groupBegin ∧ s ≠ .groupBeginOrMod) :
    (rule (some s) tok).sound s := by
  cases s with
  | act a => cases tok <;> trivial
  | esc =>
    cases tok with
    | none => trivial
    | some c =>
      simp only [rule, handleEscapeSequence]
      repeat' split
      · intro Q N h; simpa [wpL, wp] using h
      · intro Q N h; simpa [wpL, wp] using fun c => h (.lit c)
      · intro Q N h; simpa [wpL, wp] using h
      · rcases handleEscapedChar_cases c with h | h
        · rcases literalRule_cases h with ⟨d, h⟩ | h | h <;> rw [h] <;> intro Q N h' <;> simp only [wp] at h' <;> simp [wpL, wp, build, h']
        · simp only [escapeRules, List.mem_cons, List.not_mem_nil, or_false] at h
          rcases h with h | h | h | h | h | h | h | h | h | h | h | h <;> rw [h] <;> intro Q N h' <;> simp only [wp] at h' <;> simp [wpL, wp, build, h']
  | setEsc =>
    cases tok with
    | none => trivial
    | some c =>
      simp only [rule]
      rcases handleSetEscapeSequence_cases c with h | h
      · rcases literalRule_cases h with ⟨d, h⟩ | h | h <;> rw [h] <;> intro Q N h' <;> simp only [wp] at h' <;> simp [wpL, wp, build, h']
      · simp only [escapeRules, List.take, List.mem_cons, List.not_mem_nil, or_false] at h
        rcases h with h | h | h | h | h | h | h | h <;> rw [h] <;> intro Q N h' <;> simp only [wp] at h' <;>
          simp [wpL, wp, build, digit, word, whitespace, linebreak, h']
  | setRangeEsc =>
    cases tok with
    | none => trivial
    | some c =>
      simp only [rule]
      rcases handleSetRangeEscapeSequence_cases c with h | h
      · rcases literalRule_cases h with ⟨d, h⟩ | h | h <;> rw [h] <;> intro Q N h' <;> simp only [wp] at h' <;> simp [wpL, wp, build, h']
      · rw [h]; trivial
  | begin =>
    cases tok with
    | none => exact absurd rfl (hs rfl).1
    | some c =>
      simp only [rule]
      split
      · trivial
      · refine startRule_sound c _ ?_
        intro Q N h x
        exact ⟨_, _, rfl, fun y => ⟨_, _, rfl, h⟩⟩
  | groupBegin =>
    cases tok with
    | none => exact absurd rfl (hs rfl).2.1
    | some c =>
      simp only [rule]
      repeat' split
      · intro Q N h; simp only [wp] at h; simp [wpL, wp, build, h]
      · trivial
      · refine startRule_sound c _ ?_
        intro Q N h x
        exact ⟨_, _, rfl, fun y => ⟨_, _, rfl, h⟩⟩
  | groupBeginOrMod =>
    cases tok with
    | none => exact absurd rfl (hs rfl).2.2
    | some c =>
      simp only [rule]
      repeat' split
      · intro Q N h; simp only [wp] at h; simp [wpL, wp, build, h]
      · trivial
      · intro Q N h; exact h
      · refine startRule_sound c _ ?_
        intro Q N h x
        exact ⟨_, _, rfl, fun y => ⟨_, _, rfl, fun z t => ⟨_, rfl, h _⟩⟩⟩
  | groupMod =>
    cases tok with
    | none => trivial
    | some c =>
      simp only [rule]
      repeat' split
      all_goals first
        | trivial
        | (intro Q N h; simp only [wp] at h; simp [wpL, wp, build, h])
  | groupModLessThan =>
    cases tok with
    | none => trivial
    | some c =>
      simp only [rule, beginName]
      repeat' split
      all_goals first
        | trivial
        | (intro Q N h; simp only [wp] at h; simp [wpL, wp, build, h])
  | captureNameSeq l =>
    cases tok with
    | none => trivial
    | some c =>
      simp only [rule, continueName]
      repeat' split
      all_goals first
        | trivial
        | (intro Q N h; simp only [wp] at h; simp [wpL, wp, build, h])
  | alt =>
    cases tok with
    | none => rintro Q N ⟨x, N', rfl, h⟩; exact h x
    | some c =>
      simp only [rule]
      repeat' split
      · rintro Q N ⟨x, N', rfl, h⟩; exact h x
      · rintro Q N ⟨x, N', rfl, h⟩
        exact ⟨by simp, fun y t => ⟨_, rfl, _, _, rfl, h⟩⟩
      · trivial
  | seq =>
    cases tok with
    | none => rintro Q N ⟨x, N', rfl, h⟩; exact h x
    | some c =>
      simp only [rule]
      repeat' split
      · rintro Q N ⟨x, N', rfl, h⟩; exact h x
      · trivial
      · refine startRule_sound c _ ?_
        rintro Q N ⟨x, N', rfl, h⟩ y t
        exact ⟨_, rfl, _, _, rfl, h⟩
  | altSeq =>
    cases tok with
    | none => trivial
    | some c =>
      simp only [rule]
      repeat' split
      · trivial
      · refine startRule_sound c _ ?_
        rintro Q N ⟨_, h⟩ x
        exact ⟨_, _, rfl, h⟩
  | mod =>
    cases tok with
    | none => rintro Q N ⟨x, N', rfl, h⟩; exact h x
    | some c =>
      simp only [rule]
      repeat' split
      all_goals first
        | (intro Q N h; exact h)
        | (rintro Q N ⟨x, N', rfl, h⟩; exact h x)
  | unquantifiable =>
    cases tok with
    | none => intro Q N h; exact h
    | some c =>
      simp only [rule]
      split
      · trivial
      · intro Q N h; exact h
  | quantifierBegin =>
    cases tok with
    | none =>
      rintro Q N ⟨x, N', rfl, h⟩ t
      exact ⟨_, rfl, _, _, rfl, fun y t => ⟨_, rfl, _, _, rfl, fun z => ⟨_, _, rfl, h⟩⟩⟩
    | some c =>
      simp only [rule, beginQuantifierValue]
      split
      · intro Q N h; exact h
      · rintro Q N ⟨x, N', rfl, h⟩ t
        exact ⟨_, rfl, _, _, rfl, fun y t => ⟨_, rfl, _, _, rfl, fun z => ⟨_, _, rfl, h⟩⟩⟩
  | quantifierValue n =>
    cases tok with
    | none => trivial
    | some c =>
      simp only [rule, continueQuantifierValue]
      repeat' split
      all_goals first
        | trivial
        | (intro Q N h; exact h)
  | quantifierRange lo hi =>
    cases tok with
    | none => trivial
    | some c =>
      simp only [rule, continueQuantifierRange]
      repeat' split
      all_goals first
        | trivial
        | (intro Q N h; exact h)
  | quantifierMod m lo hi =>
    simp only [rule]
    repeat' split
    all_goals
      rintro Q N ⟨x, N', rfl, h⟩ t
      exact ⟨_, rfl, h _⟩
  | setBeginOrNeg =>
    cases tok with
    | none => trivial
    | some c =>
      simp only [rule]
      split
      · rintro Q N ⟨l, N', rfl, h⟩
        exact ⟨_, _, rfl, fun y t => ⟨_, rfl, h _⟩⟩
      · refine setItemRule_sound c ?_
        rintro Q N ⟨l, N', rfl, h⟩
        exact ⟨_, _, rfl, fun _ => h _, fun _ => h _, fun _ _ => h _⟩
  | setBegin =>
    cases tok with
    | none => trivial
    | some c =>
      simp only [rule]
      refine setItemRule_sound c ?_
      rintro Q N ⟨l, N', rfl, h⟩
      exact ⟨_, _, rfl, fun _ => h _, fun _ => h _, fun _ _ => h _⟩
  | setSeq =>
    cases tok with
    | none => trivial
    | some c =>
      simp only [rule]
      split
      · rintro Q N ⟨x, l, N', rfl, h⟩
        exact ⟨_, _, _, rfl, fun y l => ⟨_, _, _, rfl, h⟩⟩
      · refine setItemRule_sound c ?_
        rintro Q N ⟨x, l, N', rfl, h⟩
        exact ⟨_, _, rfl, fun _ => h _ _, fun _ => h _ _, h⟩
  | setRangeSeq =>
    cases tok with
    | none => trivial
    | some c =>
      simp only [rule]
      refine setItemRule_sound c ?_
      rintro Q N ⟨x, l, N', rfl, h⟩
      exact ⟨_, _, rfl, fun _ => h _ _, fun _ => h _ _, h⟩
  | setRangeBegin =>
    cases tok with
    | none => trivial
    | some c =>
      simp only [rule]
      repeat' split
      · rintro Q N ⟨x, l, N', rfl, h⟩ t
        exact ⟨_, rfl, fun t => ⟨_, rfl, h _ _⟩⟩
      · rintro Q N ⟨x, l, N', rfl, h⟩ c t
        refine ⟨_, rfl, fun t => ?_⟩
        cases x <;> exact ⟨_, rfl, _, _, _, rfl, h⟩
      · rintro Q N ⟨x, l, N', rfl, h⟩ t
        cases x <;> exact ⟨_, rfl, _, _, _, rfl, h⟩
  | backrefNameBegin =>
    cases tok with
    | none => trivial
    | some c =>
      simp only [rule, beginName]
      split
      · intro Q N h; exact h
      · trivial
  | backrefId id =>
    cases tok with
    | none => intro Q N h t; exact ⟨_, rfl, h _⟩
    | some c =>
      simp only [rule, continueBackrefId]
      split
      · intro Q N h; exact h
      · intro Q N h t; exact ⟨_, rfl, h _⟩
  | backrefNameSeq l =>
    cases tok with
    | none => trivial
    | some c =>
      simp only [rule, continueName]
      repeat' split
      · intro Q N h t; exact ⟨_, rfl, h _⟩
      · intro Q N h; exact h
      · trivial
  | hexEscSeq l =>
    simp only [rule, continueHexEscapeSequence]
    repeat' split
    all_goals first
      | trivial
      | (intro Q N h; exact h)
      | (intro Q N h t; exact ⟨_, rfl, h _⟩)
  | expect c' =>
    cases tok with
    | none => trivial
    | some c =>
      simp only [rule]
      split
      · intro Q N h; exact h
      · trivial

/-! ## The shape of the symbol stack -/

/-- Symbols that stand for a part that may be missing at the end of the pattern, and what leads to them. -/
def Sym.groupy : Sym → Bool
  | .begin | .groupBegin | .groupBeginOrMod | .groupMod | .groupModLessThan | .captureNameSeq _ => true
  | _ => false

def noGroupy (l : List Sym) : Bool := l.all fun s => !s.groupy

@[simp] theorem noGroupy_cons (s l) : noGroupy (s :: l) = (!s.groupy && noGroupy l) := rfl
@[simp] theorem noGroupy_nil : noGroupy [] = true := rfl
@[simp] theorem noGroupy_append (l l') : noGroupy (l ++ l') = (noGroupy l && noGroupy l') := by simp [noGroupy]

def Action.unary : Action → Bool
  | .makeLookaround _ | .makeNegated | .makeCapture _ | .makeRepetition _ _ _ => true
  | _ => false

/-- What follows `groupBegin`. -/
def groupTail : List Sym → Bool
  | .act a :: l => a.unary && groupTail l
  | .expect _ :: l => noGroupy l
  | _ => false

/-- What follows the symbols that lead to `groupBegin`. -/
def expectTail : List Sym → Bool
  | .expect _ :: l => noGroupy l
  | _ => false

def shape : List Sym → Bool
  | .groupBegin :: l => groupTail l
  | .groupBeginOrMod :: l | .groupMod :: l | .groupModLessThan :: l | .captureNameSeq _ :: l => expectTail l
  | .begin :: l => l.isEmpty
  | l => noGroupy l

theorem shape_of_noGroupy {l : List Sym} (h : noGroupy l = true) : shape l = true := by
  match l with
  | [] => rfl
  | s :: l => cases s <;> first | exact h | simp [Sym.groupy] at h

theorem groupTail_of_expectTail {l : List Sym} (h : expectTail l = true) : groupTail l = true := by
  match l with
  | [] => cases h
  | s :: l => cases s <;> first | exact h | cases h

theorem noGroupy_of_groupTail {l : List Sym} (h : groupTail l = true) : noGroupy l = true := by
  induction l with
  | nil => cases h
  | cons s l ih =>
    cases s <;> first | cases h | skip
    · simp only [groupTail, Bool.and_eq_true] at h
      simpa [Sym.groupy] using ih h.2
    · exact h

theorem noGroupy_of_expectTail {l : List Sym} (h : expectTail l = true) : noGroupy l = true :=
  noGroupy_of_groupTail (groupTail_of_expectTail h)

theorem noGroupy_tail {s : Sym} {l : List Sym} (h : shape (s :: l) = true) : noGroupy l = true := by
  cases s <;> first
    | exact noGroupy_of_groupTail h
    | exact noGroupy_of_expectTail h
    | (simp only [shape, noGroupy_cons, Bool.and_eq_true] at h; exact h.2)
    | (simp only [shape, List.isEmpty_iff] at h; subst h; rfl)

/-- A rule keeps the shape. -/
def Rule.shaped (tl : List Sym) : Rule → Bool
  | .push l => shape (l ++ tl)
  | .advance l => shape (l ++ tl)
  | _ => true

theorem startRule_shaped {c : Byte} {post tl : List Sym} (h : noGroupy tl = true) (hp : noGroupy post = true) : (startRule c post).shaped tl = true := by
  unfold startRule
  repeat' split
  all_goals simp [Rule.shaped, shape, expectTail, Sym.groupy, h, hp]

theorem setItemRule_shaped {c : Byte} {tl : List Sym} (h : noGroupy tl = true) : (setItemRule c).shaped tl = true := by
  unfold setItemRule
  repeat' split
  all_goals simp [Rule.shaped, shape, Sym.groupy, h]

theorem rule_shaped (s : Sym) (tok : Option Byte) (tl : List Sym) (h : shape (s :: tl) = true) : (rule (some s) tok).shaped tl = true := by
  have ht := noGroupy_tail h
  cases s <;> cases tok <;> simp only [rule, beginName, continueName, continueQuantifierRange, continueQuantifierValue, continueBackrefId,
    beginQuantifierValue, abortQuantifierParsing, continueHexEscapeSequence, handleEscapeSequence]
  all_goals repeat' split
  all_goals first
    | rfl
    | exact startRule_shaped ht rfl
    | exact setItemRule_shaped ht
    | exact h
    | (simp [Rule.shaped, shape, Sym.groupy, ht]; done)
    | skip
  all_goals first
    | exact groupTail_of_expectTail h
    | (simp only [shape] at h; simp [Rule.shaped, shape, groupTail, Action.unary, groupTail_of_expectTail h]; done)
    | (next c _ _ _ =>
        rcases handleEscapedChar_cases c with h | h
        · rcases literalRule_cases h with ⟨d, h⟩ | h | h <;> rw [h] <;> simp [Rule.shaped, shape, Sym.groupy, ht]
        · simp only [escapeRules, List.mem_cons, List.not_mem_nil, or_false] at h
          rcases h with h | h | h | h | h | h | h | h | h | h | h | h <;> rw [h] <;> simp [Rule.shaped, shape, Sym.groupy, ht])
    | exact shape_of_noGroupy ht
    | skip
  · next c =>
    rcases handleSetEscapeSequence_cases c with h | h
    · rcases literalRule_cases h with ⟨d, h⟩ | h | h <;> rw [h] <;> simp [Rule.shaped, shape, Sym.groupy, ht]
    · simp only [escapeRules, List.take, List.mem_cons, List.not_mem_nil, or_false] at h
      rcases h with h | h | h | h | h | h | h | h <;> rw [h] <;> simp [Rule.shaped, shape, Sym.groupy, ht]
  · next c =>
    rcases handleSetRangeEscapeSequence_cases c with h | h
    · rcases literalRule_cases h with ⟨d, h⟩ | h | h <;> rw [h] <;> simp [Rule.shaped, shape, Sym.groupy, ht]
    · rw [h]; rfl

/-! ## The invariant -/

/-- What was read when nothing is on the node stack yet. -/
def Track (done : List Byte) : List Sym → Prop
  | .begin :: _ => done = []
  | .groupBeginOrMod :: _ => ∃ os, Openers os ∧ done = os ++ txt "("
  | .groupMod :: _ => ∃ os, Openers os ∧ done = os ++ txt "(?"
  | .groupModLessThan :: _ => ∃ os, Openers os ∧ done = os ++ txt "(?<"
  | .captureNameSeq l :: _ => ∃ os, Openers os ∧ IsName l ∧ done = os ++ (txt "(?<" ++ l)
  | .groupBegin :: tl => ∃ os o, Openers os ∧ Opener o ∧ done = os ++ o ∧ ((∃ a tl', tl = .act a :: tl') → ActingOpener o)
  | _ => True

theorem track_of_noGroupy {done : List Byte} {l : List Sym} (h : noGroupy l = true) : Track done l := by
  match l with
  | [] => trivial
  | s :: l => cases s <;> first | trivial | simp [Sym.groupy] at h

structure Typed (done : List Byte) (c : Cfg) : Prop where
  shape : shape c.syms = true
  typed : wpL c.syms (fun N => N.length ≤ 1) c.nodes
  last : c.last ≠ none ∨ c.syms = [.begin] ∨ c.syms = []
  track : c.nodes = [] → Track done c.syms

/-- The pattern ended where a group should have begun. -/
structure Ended (pat : List Byte) (c : Cfg) : Prop where
  rest : c.rest = []
  tail : groupTail c.syms = true
  track : c.nodes = [] → ∃ os o, Openers os ∧ Opener o ∧ pat = os ++ o ∧ ((∃ a tl', c.syms = .act a :: tl') → ActingOpener o)

def Inv (pat : List Byte) (c : Cfg) : Prop := (∃ done, pat = done ++ c.rest ∧ Typed done c) ∨ Ended pat c

theorem inv_init (pat : List Byte) : Inv pat (initCfg pat) :=
  .inl ⟨[], rfl, rfl, by intro x; simp [initCfg], .inr (.inl rfl), fun _ => rfl⟩

theorem Ended.step {pat : List Byte} {c : Cfg} (h : Ended pat c) :
    match sstep c with
    | .next c' => Inv pat c'
    | .accept _ => False
    | .reject => True
    | .illFormed => ∃ os o, Openers os ∧ ActingOpener o ∧ pat = os ++ o := by
  obtain ⟨last, rest, nodes, syms⟩ := c
  obtain ⟨hr, ht, htr⟩ := h
  dsimp only at hr ht htr
  subst hr
  match syms with
  | [] => cases ht
  | s :: tl =>
    cases s <;> try cases ht
    · next a =>
      simp only [groupTail, Bool.and_eq_true] at ht
      simp only [sstep]
      cases nodes with
      | nil =>
        obtain ⟨os, o, h1, h2, h3, h4⟩ := htr rfl
        have h4 := h4 ⟨_, _, rfl⟩
        have hb : build a last [] = none := by
          cases a <;> first | rfl | cases ht.1
        rw [hb]
        exact ⟨os, o, h1, h4, h3⟩
      | cons x N =>
        have hb : ∃ y, build a last (x :: N) = some (y :: N) := by
          cases a <;> first | exact ⟨_, rfl⟩ | cases ht.1
        obtain ⟨y, hb⟩ := hb
        rw [hb]
        exact .inr ⟨rfl, ht.2, fun h => by cases h⟩
    · trivial

theorem wordChar_of_isWord : ∀ c : Byte, isWord c = true → WordChar c := by unfold WordChar; decide +kernel
theorem not_digit_of_isDigit : ∀ c : Byte, isDigit c = false → ¬(48 ≤ c.toNat ∧ c.toNat ≤ 57) := by decide +kernel

theorem isName_append {l : List Byte} {c : Byte} (h : IsName l) (hc : isWord c = true) : IsName (l ++ [c]) := by
  obtain ⟨h1, d, h2, h3⟩ := h
  refine ⟨?_, d, ?_, h3⟩
  · intro x hx
    rcases List.mem_append.1 hx with hx | hx
    · exact h1 x hx
    · rw [List.mem_singleton.1 hx]; exact wordChar_of_isWord c hc
  · cases l with
    | nil => cases h2
    | cons y l => exact h2

/-- What is tracked is kept by rules that advance. -/
def Rule.tracked (done : List Byte) (c : Byte) (tl : List Sym) : Rule → Prop
  | .push l => Track done (l ++ tl)
  | .advance l => Track (done ++ [c]) (l ++ tl)
  | _ => True

theorem startRule_tracked {done : List Byte} {c : Byte} {post tl : List Sym} (ho : Openers done) : (startRule c post).tracked done c tl := by
  unfold startRule
  split
  · trivial
  · split
    · next h => exact ⟨done, ho, by rw [h]; rfl⟩
    · repeat' split
      all_goals trivial

theorem rule_tracked {s : Sym} {c : Byte} {done : List Byte} {tl : List Sym} (hs : s.groupy = true) (ht : noGroupy tl = true) (hx : s = .groupBegin ∨ s = .begin ∨ expectTail tl = true) (h : Track done (s :: tl)) :
    (rule (some s) (some c)).tracked done c tl := by
  cases s <;> try cases hs
  · -- begin
    have : done = [] := h
    subst this
    simp only [rule]
    split
    · trivial
    · exact startRule_tracked .nil
  · -- groupBeginOrMod
    obtain ⟨os, h1, rfl⟩ := h
    simp only [rule]
    repeat' split
    · trivial
    · trivial
    · next h => exact ⟨os, h1, by rw [h]; simp [txt]⟩
    · exact startRule_tracked (.snoc h1 .capture)
  · -- groupMod
    obtain ⟨os, h1, rfl⟩ := h
    have hna : ¬∃ a tl', tl = .act a :: tl' := by
      rintro ⟨a, tl', rfl⟩
      rcases hx with hx | hx | hx <;> cases hx
    simp only [rule]
    repeat' split
    · next h => exact ⟨os, txt "(?:", h1, .plain, by rw [h]; simp [txt], fun h => absurd h hna⟩
    · next h => exact ⟨os, h1, by rw [h]; simp [txt]⟩
    · next h => exact ⟨os, txt "(?>", h1, .acting .atomic, by rw [h]; simp [txt], fun _ => .atomic⟩
    · next h => exact ⟨os, txt "(?=", h1, .acting .ahead, by rw [h]; simp [txt], fun _ => .ahead⟩
    · next h => exact ⟨os, txt "(?!", h1, .acting .negAhead, by rw [h]; simp [txt], fun _ => .negAhead⟩
    · trivial
  · -- groupModLessThan
    obtain ⟨os, h1, rfl⟩ := h
    simp only [rule, beginName]
    repeat' split
    · next h => exact ⟨os, txt "(?<=", h1, .acting .behind, by rw [h]; simp [txt], fun _ => .behind⟩
    · next h => exact ⟨os, txt "(?<!", h1, .acting .negBehind, by rw [h]; simp [txt], fun _ => .negBehind⟩
    · next h =>
      simp only [Bool.and_eq_true, Bool.not_eq_true'] at h
      refine ⟨os, h1, ⟨?_, c, rfl, not_digit_of_isDigit c h.2⟩, by simp [txt]⟩
      intro x hx
      rw [List.mem_singleton.1 hx]
      exact wordChar_of_isWord c h.1
    · trivial
  · -- groupBegin
    obtain ⟨os, o, h1, h2, rfl, h3⟩ := h
    simp only [rule]
    repeat' split
    · trivial
    · trivial
    · exact startRule_tracked (.snoc h1 h2)
  · -- captureNameSeq
    next l =>
    obtain ⟨os, h1, h2, rfl⟩ := h
    simp only [rule, continueName]
    repeat' split
    · next h => exact ⟨os, txt "(?<" ++ l ++ txt ">", h1, .acting (.named l h2), by rw [h]; simp [txt], fun _ => .named l h2⟩
    · next h => exact ⟨os, h1, isName_append h2 h, by simp⟩
    · trivial

/-- The first symbol of a rule leads to a group only where a node is needed. -/
def Rule.plainHead : Rule → Bool
  | .push (s :: _) => !s.groupy
  | .advance (s :: _) => !s.groupy
  | _ => true

theorem handleEscapedChar_plainHead : ∀ c : Byte, (handleEscapedChar c).plainHead = true := by decide +kernel
theorem handleSetEscapeSequence_plainHead : ∀ c : Byte, (handleSetEscapeSequence c).plainHead = true := by decide +kernel
theorem handleSetRangeEscapeSequence_plainHead : ∀ c : Byte, (handleSetRangeEscapeSequence c).plainHead = true := by decide +kernel

theorem rule_plainHead {s : Sym} {tok : Option Byte} (hs : s.groupy = false) (h : s ≠ .seq) (h' : s ≠ .altSeq) : (rule (some s) tok).plainHead = true := by
  cases s <;> cases tok <;> simp only [rule, beginName, continueName, continueQuantifierRange, continueQuantifierValue, continueBackrefId,
    beginQuantifierValue, abortQuantifierParsing, continueHexEscapeSequence, handleEscapeSequence, setItemRule]
  all_goals repeat' split
  all_goals first
    | rfl
    | exact absurd rfl h
    | exact absurd rfl h'
    | exact handleEscapedChar_plainHead _
    | exact handleSetEscapeSequence_plainHead _
    | exact handleSetRangeEscapeSequence_plainHead _
    | cases hs

theorem track_plain {done : List Byte} {l tl : List Sym} (hl : ∀ s l', l = s :: l' → s.groupy = false) (ht : noGroupy tl = true) : Track done (l ++ tl) := by
  match l with
  | [] => exact track_of_noGroupy ht
  | s :: l =>
    have := hl s l rfl
    cases s <;> first | trivial | cases this

theorem sstep_sym {last : Option Byte} {rest : List Byte} {nodes : List Ast} {s : Sym} {tl : List Sym} (hs : ∀ a, s ≠ .act a) :
    sstep ⟨last, rest, nodes, s :: tl⟩ =
    match rule (some s) rest.head? with
    | .push l => .next ⟨last, rest, nodes, l ++ tl⟩
    | .ignore => .next ⟨last, rest, nodes, tl⟩
    | .advance l => .next ⟨rest.head?, rest.tail, nodes, l ++ tl⟩
    | .reject => .reject
    | .accept => .accept (acceptedAst nodes) := by
  cases s <;> first | rfl | exact absurd rfl (hs _)

def Rule.isAccept : Rule → Bool
  | .accept => true
  | _ => false

theorem handleEscapedChar_isAccept : ∀ c : Byte, (handleEscapedChar c).isAccept = false := by decide +kernel
theorem handleSetEscapeSequence_isAccept : ∀ c : Byte, (handleSetEscapeSequence c).isAccept = false := by decide +kernel
theorem handleSetRangeEscapeSequence_isAccept : ∀ c : Byte, (handleSetRangeEscapeSequence c).isAccept = false := by decide +kernel

theorem rule_isAccept (s : Sym) (tok : Option Byte) : (rule (some s) tok).isAccept = false := by
  cases s <;> cases tok <;> simp only [rule, beginName, continueName, continueQuantifierRange, continueQuantifierValue, continueBackrefId,
    beginQuantifierValue, abortQuantifierParsing, continueHexEscapeSequence, handleEscapeSequence, setItemRule, startRule]
  all_goals repeat' split
  all_goals first
    | rfl
    | exact handleEscapedChar_isAccept _
    | exact handleSetEscapeSequence_isAccept _
    | exact handleSetRangeEscapeSequence_isAccept _

theorem begin_push (tok : Option Byte) : (rule (some .begin) tok).isPush = false := by
  cases tok
  · rfl
  · simp only [rule, startRule]
    repeat' split
    all_goals rfl

theorem Typed.step {pat done : List Byte} {c : Cfg} (hp : pat = done ++ c.rest) (h : Typed done c) :
    match sstep c with
    | .next c' => Inv pat c'
    | .accept a => c.rest = [] ∧ (c.nodes = [] ∧ a = .empty ∨ ∃ x, c.nodes = [x] ∧ a = indexCaptures x)
    | .reject => True
    | .illFormed => False := by
  obtain ⟨last, rest, nodes, syms⟩ := c
  obtain ⟨hsh, hty, hla, htr⟩ := h
  dsimp only at hp hsh hty hla htr
  match syms with
  | [] =>
    cases rest with
    | cons c rest => trivial
    | nil =>
      have hty : nodes.length ≤ 1 := hty
      match nodes with
      | [] => exact ⟨rfl, .inl ⟨rfl, rfl⟩⟩
      | [x] => exact ⟨rfl, .inr ⟨x, rfl, rfl⟩⟩
      | _ :: _ :: _ => simp at hty
  | s :: tl =>
    by_cases hs : ∃ a, s = .act a
    · obtain ⟨a, rfl⟩ := hs
      have hla : last ≠ none := by simpa using hla
      obtain ⟨t, rfl⟩ := Option.ne_none_iff_exists'.1 hla
      obtain ⟨N', hb, hty⟩ := hty t
      simp only [sstep, hb]
      simp only [Mregex.shape, noGroupy_cons, Bool.and_eq_true] at hsh
      exact .inl ⟨done, hp, shape_of_noGroupy hsh.2, hty, .inl hla, fun _ => track_of_noGroupy hsh.2⟩
    · have hs' : ∀ a, s ≠ .act a := fun a ha => hs ⟨a, ha⟩
      rw [sstep_sym hs']
      have htl := noGroupy_tail hsh
      by_cases hend : rest = [] ∧ (s = .begin ∨ s = .groupBegin ∨ s = .groupBeginOrMod)
      · obtain ⟨rfl, hend⟩ := hend
        rcases hend with rfl | rfl | rfl
        · have : tl = [] := by simpa [Mregex.shape] using hsh
          subst this
          refine .inl ⟨done, hp, rfl, ?_, .inr (.inr rfl), fun _ => trivial⟩
          have := hty .empty
          simp only [wpL, List.foldr, List.length_cons] at this ⊢
          omega
        · refine .inr ⟨rfl, hsh, fun hn => ?_⟩
          obtain ⟨os, o, h1, h2, h3, h4⟩ := htr hn
          exact ⟨os, o, h1, h2, by simpa [h3] using hp, h4⟩
        · refine .inr ⟨rfl, groupTail_of_expectTail hsh, fun hn => ?_⟩
          obtain ⟨os, h1, h2⟩ := htr hn
          refine ⟨os, _, h1, .capture, by simpa [h2] using hp, ?_⟩
          rintro ⟨a, tl', rfl⟩
          cases hsh
      · have hrs := rule_sound s rest.head? (by
          intro hr
          have hr : rest = [] := by simpa using hr
          refine ⟨fun h => hend ⟨hr, .inl h⟩, fun h => hend ⟨hr, .inr (.inl h)⟩, fun h => hend ⟨hr, .inr (.inr h)⟩⟩)
        have hsp := rule_shaped s rest.head? tl hsh
        have hac := rule_isAccept s rest.head?
        have hwp : wp s (wpL tl fun N => N.length ≤ 1) nodes := hty
        -- what is tracked
        have htrack : nodes = [] → ∀ c, rest.head? = some c → (rule (some s) (some c)).tracked done c tl := by
          intro hn c hc
          by_cases hg : s.groupy = true
          · refine rule_tracked hg htl ?_ (htr hn)
            cases s <;> first | cases hg | skip
            · exact .inr (.inl rfl)
            · exact .inr (.inr hsh)
            · exact .inr (.inr hsh)
            · exact .inr (.inr hsh)
            · exact .inl rfl
            · exact .inr (.inr hsh)
          · have hg : s.groupy = false := by simpa using hg
            have hpl := rule_plainHead (tok := some c) hg (by
              rintro rfl
              obtain ⟨x, N', hN, _⟩ := hwp
              rw [hn] at hN; cases hN) (by
              rintro rfl
              exact hwp.1 hn)
            cases hr : rule (some s) (some c) with
            | push l =>
              refine track_plain ?_ htl
              rintro s' l' rfl
              rw [hr] at hpl
              simpa [Rule.plainHead] using hpl
            | advance l =>
              refine track_plain ?_ htl
              rintro s' l' rfl
              rw [hr] at hpl
              simpa [Rule.plainHead] using hpl
            | _ => trivial
        have htrackN : nodes = [] → rest.head? = none → ∀ l, rule (some s) none = .push l → Track done (l ++ tl) := by
          intro hn hr l hl
          by_cases hg : s.groupy = true
          · cases s <;> first | cases hg; done | (simp [rule] at hl; done)
          · have hg : s.groupy = false := by simpa using hg
            have hpl := rule_plainHead (tok := none) hg (by
              rintro rfl
              obtain ⟨x, N', hN, _⟩ := hwp
              rw [hn] at hN; cases hN) (by
              rintro rfl
              exact hwp.1 hn)
            refine track_plain ?_ htl
            rintro s' l' rfl
            rw [hl] at hpl
            simpa [Rule.plainHead] using hpl
        have hbp : s = .begin → (rule (some s) rest.head?).isPush = false := by rintro rfl; exact begin_push _
        cases hr : rule (some s) rest.head? with
        | reject => trivial
        | accept => rw [hr] at hac; cases hac
        | ignore =>
          rw [hr] at hrs
          have hb : s ≠ .begin := by
            rintro rfl
            cases rest with
            | nil => exact hend ⟨rfl, .inl rfl⟩
            | cons c rest =>
              simp only [List.head?_cons, rule, startRule] at hr
              revert hr
              repeat' split
              all_goals nofun
          refine .inl ⟨done, hp, shape_of_noGroupy htl, hrs _ _ hwp, .inl ?_, fun _ => track_of_noGroupy htl⟩
          rcases hla with h | h | h
          · exact h
          · exact absurd (List.cons.inj h).1 hb
          · cases h
        | push l =>
          rw [hr] at hrs hsp
          refine .inl ⟨done, hp, hsp, ?_, .inl ?_, ?_⟩
          · dsimp only
            rw [wpL_append]
            exact hrs _ _ hwp
          · rcases hla with h | h | h
            · exact h
            · have := hbp (List.cons.inj h).1
              rw [hr] at this
              cases this
            · cases h
          · intro hn
            cases ht : rest.head? with
            | none => rw [ht] at hr; exact htrackN hn ht l hr
            | some c =>
              have := htrack hn c ht
              rw [ht] at hr
              rw [hr] at this
              exact this
        | advance l =>
          rw [hr] at hrs hsp
          cases rest with
          | nil =>
            have := rule_none_advance (some s)
            rw [List.head?_nil] at hr
            rw [hr] at this
            cases this
          | cons c rest =>
            refine .inl ⟨done ++ [c], by simp [hp], hsp, ?_, .inl (by simp), ?_⟩
            · dsimp only
              rw [wpL_append]
              exact hrs _ _ hwp
            · intro hn
              have := htrack hn c rfl
              rw [List.head?_cons] at hr
              rw [hr] at this
              exact this

theorem inv_steps {pat : List Byte} {c c' : Cfg} (h : PSteps c c') : Inv pat c → Inv pat c' := by
  induction h with
  | refl => exact id
  | step hs _ ih =>
    intro hi
    refine ih ?_
    rcases hi with ⟨done, hp, ht⟩ | he
    · have := ht.step hp
      rw [hs] at this
      exact this
    · have := he.step
      rw [hs] at this
      exact this

/-- Every pattern is accepted, rejected at a position within it, or ends with an opener that has nothing to act on. -/
theorem parse_total (pat : List Byte) :
    (∃ a, parse pat = .result a .success) ∨
    (∃ i, i ≤ pat.length ∧ parse pat = .result nothing (.syntaxError i)) ∨
    (parse pat = .illFormed ∧ ∃ os o, Openers os ∧ ActingOpener o ∧ pat = os ++ o) := by
  obtain ⟨c, hs, hstop⟩ := machine_stops pat (pat.length + 1) (weights [.begin] + 1) 0 [] [.begin] (Nat.zero_le _) (by omega) (by omega)
  rw [← initCfg_eq] at hs
  have hi := inv_steps hs (inv_init pat)
  cases hr : sstep c with
  | next c' => exact absurd hr (hstop c')
  | accept a => exact .inl ⟨a, parse_accept hs hr⟩
  | reject => exact .inr (.inl ⟨_, Nat.sub_le _ _, parse_reject hs hr⟩)
  | illFormed =>
    refine .inr (.inr ⟨parse_illFormed hs hr, ?_⟩)
    rcases hi with ⟨done, hp, ht⟩ | he
    · have := ht.step hp
      rw [hr] at this
      exact this.elim
    · have := he.step
      rw [hr] at this
      exact this

/-! ## Openers at the end of the pattern -/

/-- A symbol in front of which nothing was read. -/
def isOpen (s : Sym) : Prop := s = .begin ∨ s = .groupBegin ∨ s = .groupBeginOrMod

theorem step_open {l : Option Byte} {rest : List Byte} {s : Sym} {tl : List Sym} (hs : isOpen s) :
    ∃ tl', sstep ⟨l, ch '(' :: rest, [], s :: tl⟩ = .next ⟨some (ch '('), rest, [], .groupBeginOrMod :: .expect (ch ')') :: tl'⟩ := by
  rcases hs with rfl | rfl | rfl <;> exact ⟨_, rfl⟩

theorem isName_cons {w : List Byte} (h : IsName w) : ∃ c l, w = c :: l ∧ isWord c = true ∧ isDigit c = false ∧ ∀ x ∈ l, isWord x = true := by
  have hw : ∀ c : Byte, WordChar c → isWord c = true := by unfold WordChar; decide +kernel
  have hd : ∀ c : Byte, ¬(48 ≤ c.toNat ∧ c.toNat ≤ 57) → isDigit c = false := by decide +kernel
  obtain ⟨h1, c, h2, h3⟩ := h
  cases w with
  | nil => cases h2
  | cons d l =>
    cases h2
    exact ⟨c, l, rfl, hw c (h1 c (by simp)), hd c h3, fun x hx => hw x (h1 x (by simp [hx]))⟩

theorem steps_captureName (w : List Byte) : ∀ (l : Option Byte) (pre rest : List Byte) (N : List Ast) (tl : List Sym), (∀ x ∈ w, isWord x = true) →
    PSteps ⟨l, w ++ ch '>' :: rest, N, .captureNameSeq pre :: tl⟩ ⟨some (ch '>'), rest, N, .groupBegin :: .act (.makeCapture (some (pre ++ w))) :: tl⟩ := by
  induction w with
  | nil =>
    intro l pre rest N tl _
    refine .one ?_
    simp only [List.append_nil]
    rfl
  | cons c w ih =>
    intro l pre rest N tl h
    have hc := h c (by simp)
    have hne : c ≠ ch '>' := by rintro rfl; exact absurd hc (by decide)
    have := ih (some c) (pre ++ [c]) rest N tl (fun x hx => h x (by simp [hx]))
    rw [List.append_assoc] at this
    refine .step ?_ this
    rw [sstep_sym (by nofun)]
    simp [rule, continueName, hne, hc]

theorem steps_acting {o : List Byte} (h : ActingOpener o) {l : Option Byte} {rest : List Byte} {s : Sym} {tl : List Sym} (hs : isOpen s) :
    ∃ l' a tl', PSteps ⟨l, o ++ rest, [], s :: tl⟩ ⟨l', rest, [], .groupBegin :: .act a :: tl'⟩ ∧ a.unary = true := by
  cases h with
  | atomic =>
    obtain ⟨tl', h⟩ := step_open (l := l) (rest := txt "?>" ++ rest) (tl := tl) hs
    exact ⟨_, _, _, .step h (.step rfl (.step rfl (.refl _))), rfl⟩
  | ahead =>
    obtain ⟨tl', h⟩ := step_open (l := l) (rest := txt "?=" ++ rest) (tl := tl) hs
    exact ⟨_, _, _, .step h (.step rfl (.step rfl (.refl _))), rfl⟩
  | negAhead =>
    obtain ⟨tl', h⟩ := step_open (l := l) (rest := txt "?!" ++ rest) (tl := tl) hs
    exact ⟨_, _, _, .step h (.step rfl (.step rfl (.refl _))), rfl⟩
  | behind =>
    obtain ⟨tl', h⟩ := step_open (l := l) (rest := txt "?<=" ++ rest) (tl := tl) hs
    exact ⟨_, _, _, .step h (.step rfl (.step rfl (.step rfl (.refl _)))), rfl⟩
  | negBehind =>
    obtain ⟨tl', h⟩ := step_open (l := l) (rest := txt "?<!" ++ rest) (tl := tl) hs
    exact ⟨_, _, _, .step h (.step rfl (.step rfl (.step rfl (.refl _)))), rfl⟩
  | named w hw =>
    obtain ⟨c, w, rfl, h1, h2, h3⟩ := isName_cons hw
    obtain ⟨tl', h⟩ := step_open (l := l) (rest := ch '?' :: ch '<' :: c :: (w ++ ch '>' :: rest)) (tl := tl) hs
    have he : txt "(?<" ++ c :: w ++ txt ">" ++ rest = ch '(' :: ch '?' :: ch '<' :: c :: (w ++ ch '>' :: rest) := by simp [txt]
    rw [he]
    have h4 : sstep ⟨some (ch '<'), c :: (w ++ ch '>' :: rest), [], .groupModLessThan :: .expect (ch ')') :: tl'⟩ =
        .next ⟨some c, w ++ ch '>' :: rest, [], .captureNameSeq [c] :: .expect (ch ')') :: tl'⟩ := by
      rw [sstep_sym (by nofun)]
      have e1 : c ≠ ch '=' := by rintro rfl; exact absurd h1 (by decide)
      have e2 : c ≠ ch '!' := by rintro rfl; exact absurd h1 (by decide)
      simp [rule, beginName, h1, h2, e1, e2]
    exact ⟨_, _, _, .step h (.step rfl (.step rfl (.step h4 (steps_captureName w (some c) [c] rest [] (.expect (ch ')') :: tl') h3)))), rfl⟩

theorem steps_opener {o : List Byte} (h : Opener o) {l : Option Byte} {rest : List Byte} {s : Sym} {tl : List Sym} (hs : isOpen s) :
    ∃ l' s' tl', PSteps ⟨l, o ++ rest, [], s :: tl⟩ ⟨l', rest, [], s' :: tl'⟩ ∧ isOpen s' := by
  cases h with
  | capture =>
    obtain ⟨tl', h⟩ := step_open (l := l) (rest := rest) (tl := tl) hs
    exact ⟨_, _, _, .one h, .inr (.inr rfl)⟩
  | plain =>
    obtain ⟨tl', h⟩ := step_open (l := l) (rest := txt "?:" ++ rest) (tl := tl) hs
    exact ⟨_, _, _, .step h (.step rfl (.step rfl (.refl _))), .inr (.inl rfl)⟩
  | acting h =>
    obtain ⟨l', a, tl', h, _⟩ := steps_acting h (l := l) (rest := rest) (tl := tl) hs
    exact ⟨_, _, _, h, .inr (.inl rfl)⟩

theorem steps_openers {w : List Byte} (h : Openers w) {l : Option Byte} {rest : List Byte} {s : Sym} {tl : List Sym} (hs : isOpen s) :
    ∃ l' s' tl', PSteps ⟨l, w ++ rest, [], s :: tl⟩ ⟨l', rest, [], s' :: tl'⟩ ∧ isOpen s' := by
  induction h generalizing rest with
  | nil => exact ⟨_, _, _, .refl _, hs⟩
  | @snoc w o _ ho ih =>
    obtain ⟨l1, s1, tl1, h1, hs1⟩ := ih (rest := o ++ rest)
    obtain ⟨l2, s2, tl2, h2, hs2⟩ := steps_opener ho (l := l1) (rest := rest) (tl := tl1) hs1
    refine ⟨l2, s2, tl2, ?_, hs2⟩
    rw [List.append_assoc]
    exact h1.trans h2

theorem parse_openers {os o : List Byte} (h : Openers os) (h' : ActingOpener o) : parse (os ++ o) = .illFormed := by
  obtain ⟨l1, s1, tl1, h1, hs1⟩ := steps_openers h (l := none) (rest := o) (s := .begin) (tl := []) (.inl rfl)
  obtain ⟨l2, a, tl2, h2, ha⟩ := steps_acting h' (l := l1) (rest := []) (tl := tl1) hs1
  rw [List.append_nil] at h2
  refine parse_illFormed ((h1.trans h2).trans (.one (c' := ⟨l2, [], [], .act a :: tl2⟩) rfl)) ?_
  cases a <;> first | rfl | cases ha

end Mregex
