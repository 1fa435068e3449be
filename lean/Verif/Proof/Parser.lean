import Verif.Model.Parser

/-!
# The parser as a machine that makes one step at a time
-/

namespace Mregex
open Ast

/-- The last token, the rest of the pattern, the node stack and the symbol stack. -/
structure Cfg where
  last : Option Byte
  rest : List Byte
  nodes : List Ast
  syms : List Sym

/-- What a step leads to. -/
inductive SRes
  | next (c : Cfg)
  | accept (a : Ast)
  | reject
  | illFormed

/-- One step of the parser. -/
def sstep (c : Cfg) : SRes :=
  match c.syms with
  | .act a :: s =>
    match build a c.last c.nodes with
    | some n => .next { c with nodes := n, syms := s }
    | none => .illFormed
  | syms =>
    match rule syms.head? c.rest.head? with
    | .push l => .next { c with syms := l ++ syms.tail }
    | .ignore => .next { c with syms := syms.tail }
    | .advance l => .next ⟨c.rest.head?, c.rest.tail, c.nodes, l ++ syms.tail⟩
    | .reject => .reject
    | .accept => .accept (acceptedAst c.nodes)

def Rule.isAdvance : Rule → Bool
  | .advance _ => true
  | _ => false

theorem rule_none_advance (s : Option Sym) : (rule s none).isAdvance = false := by
  unfold rule continueHexEscapeSequence abortQuantifierParsing
  repeat' split
  all_goals first | rfl | simp_all

def weights (l : List Sym) : Nat := (l.map Sym.weight).sum

@[simp] theorem weights_nil : weights [] = 0 := rfl
@[simp] theorem weights_cons (s : Sym) (l : List Sym) : weights (s :: l) = s.weight + weights l := by simp [weights]
@[simp] theorem weights_append (l l' : List Sym) : weights (l ++ l') = weights l + weights l' := by simp [weights]

theorem Sym.weight_pos (s : Sym) : 0 < s.weight := by cases s <;> simp [Sym.weight]

/-- Pushes less than `w`. -/
def Rule.lighter (w : Nat) : Rule → Bool
  | .push l => decide (weights l < w)
  | _ => true

def Rule.isPush : Rule → Bool
  | .push _ => true
  | _ => false

theorem lighter_of_not_push {R : Rule} {w : Nat} (h : R.isPush = false) : R.lighter w = true := by
  cases R <;> first | rfl | cases h

theorem startRule_lighter (w c post) : (startRule c post).lighter w = true := by
  unfold startRule; repeat' split
  all_goals rfl
theorem setItemRule_lighter (w c) : (setItemRule c).lighter w = true := by
  unfold setItemRule; repeat' split
  all_goals rfl
theorem handleEscapedChar_lighter (w c) : (handleEscapedChar c).lighter w = true := by
  refine lighter_of_not_push ?_
  revert c; decide +kernel
theorem handleEscapeSequence_lighter (w c) : (handleEscapeSequence c).lighter w = true := by
  unfold handleEscapeSequence; repeat' split
  all_goals first | rfl | exact handleEscapedChar_lighter _ _
theorem handleSetEscapeSequence_lighter (w c) : (handleSetEscapeSequence c).lighter w = true := by
  unfold handleSetEscapeSequence; repeat' split
  all_goals first | rfl | exact handleEscapedChar_lighter _ _
theorem handleSetRangeEscapeSequence_lighter (w c) : (handleSetRangeEscapeSequence c).lighter w = true := by
  unfold handleSetRangeEscapeSequence; repeat' split
  all_goals first | rfl | exact handleSetEscapeSequence_lighter _ _

/-- A rule that does not advance makes the stack lighter. -/
theorem rule_lighter (s : Sym) (tok : Option Byte) : (rule (some s) tok).lighter s.weight = true := by
  cases s <;> cases tok <;>
    simp only [rule, continueHexEscapeSequence, beginName, continueName, abortQuantifierParsing, beginQuantifierValue, continueQuantifierValue,
      continueQuantifierRange, continueBackrefId]
  all_goals repeat' split
  all_goals first
    | rfl
    | exact startRule_lighter _ _ _
    | exact setItemRule_lighter _ _
    | exact handleEscapeSequence_lighter _ _
    | exact handleSetEscapeSequence_lighter _ _
    | exact handleSetRangeEscapeSequence_lighter _ _

/-! ## Fuel -/

theorem parseT_zero (pat i nodes syms) : parseT pat 0 i nodes syms = .stuck := rfl
theorem parseT_act (pat k i nodes a syms) : parseT pat (k + 1) i nodes (.act a :: syms) =
    match build a (lastToken pat i) nodes with
    | some nodes' => parseT pat k i nodes' syms
    | none => .illFormed := rfl
theorem parseT_nil (pat k i nodes) : parseT pat (k + 1) i nodes [] =
    match rule none (token pat i) with
    | .push l => parseT pat k i nodes l
    | .ignore => parseT pat k i nodes []
    | .advance l => .state (i + 1) nodes l
    | .reject => .result nothing (.syntaxError i)
    | .accept => .result (acceptedAst nodes) .success := by
  rcases (by cases token pat i <;> simp [rule] : rule none (token pat i) = .accept ∨ rule none (token pat i) = .reject)
    with h | h <;> simp [parseT, h]
theorem parseT_cons (pat k i nodes s syms) (hs : ∀ a, s ≠ .act a) : parseT pat (k + 1) i nodes (s :: syms) =
    match rule (some s) (token pat i) with
    | .push l => parseT pat k i nodes (l ++ syms)
    | .ignore => parseT pat k i nodes syms
    | .advance l => .state (i + 1) nodes (l ++ syms)
    | .reject => .result nothing (.syntaxError i)
    | .accept => .result (acceptedAst nodes) .success := by
  cases s <;> first | rfl | exact absurd rfl (hs _)

theorem rule_nil (tok : Option Byte) : rule none tok = .accept ∨ rule none tok = .reject := by
  cases tok <;> simp [rule]

/-- With enough fuel the amount does not matter. -/
theorem parseT_fuel (pat : List Byte) (k : Nat) : ∀ k' i nodes syms, weights syms < k → weights syms < k' →
    parseT pat k i nodes syms = parseT pat k' i nodes syms := by
  induction k with
  | zero => intro k' i nodes syms h; omega
  | succ k ih =>
    intro k' i nodes syms h h'
    cases k' with
    | zero => omega
    | succ k' =>
      match syms with
      | [] =>
        rw [parseT_nil, parseT_nil]
        rcases rule_nil (token pat i) with h | h <;> rw [h]
      | s :: syms =>
        rw [weights_cons] at h h'
        have hp := s.weight_pos
        by_cases hs : ∃ a, s = .act a
        · obtain ⟨a, rfl⟩ := hs
          rw [parseT_act, parseT_act]
          split
          · exact ih _ _ _ _ (by omega) (by omega)
          · rfl
        · have hs' : ∀ a, s ≠ .act a := fun a ha => hs ⟨a, ha⟩
          rw [parseT_cons _ _ _ _ _ _ hs', parseT_cons _ _ _ _ _ _ hs']
          have hl := rule_lighter s (token pat i)
          split
          · next l hl' =>
            rw [hl'] at hl
            have : weights l < s.weight := by simpa [Rule.lighter] using hl
            exact ih _ _ _ _ (by rw [weights_append]; omega) (by rw [weights_append]; omega)
          · exact ih _ _ _ _ (by omega) (by omega)
          · rfl
          · rfl
          · rfl

/-! ## Running the machine -/

/-- The configuration of the machine at position `i` of the pattern. -/
def cfgAt (pat : List Byte) (i : Nat) (nodes : List Ast) (syms : List Sym) : Cfg := ⟨lastToken pat i, pat.drop i, nodes, syms⟩

/-- The result of the parser when it is in a given state at position `i`, with the steps that remain. -/
def finish (pat : List Byte) (i : Nat) (nodes : List Ast) (syms : List Sym) : PState :=
  advanceTimes pat (pat.length - i + 1) (.state i nodes syms)

theorem finish_eq (pat i nodes syms) : finish pat i nodes syms =
    advanceTimes pat (pat.length - i) (parseT pat (weights syms + 1) i nodes syms) := by
  simp only [finish, advanceTimes, advanceState, parseFuel, weights]

theorem advanceTimes_result (pat n a v) : advanceTimes pat n (.result a v) = .result a v := by
  induction n with
  | zero => rfl
  | succ n ih => simp only [advanceTimes, advanceState, ih]

theorem advanceTimes_illFormed (pat n) : advanceTimes pat n .illFormed = .illFormed := by
  induction n with
  | zero => rfl
  | succ n ih => simp only [advanceTimes, advanceState, ih]

theorem head_drop (pat : List Byte) (i : Nat) : (pat.drop i).head? = token pat i := by
  simp [token, List.head?_drop]

/-- What a step of the machine means for the parser. -/
theorem finish_step (pat : List Byte) (i : Nat) (nodes : List Ast) (syms : List Sym) (hi : i ≤ pat.length) :
    match sstep (cfgAt pat i nodes syms) with
    | .next c => ∃ i' nodes' syms', i' ≤ pat.length ∧ c = cfgAt pat i' nodes' syms' ∧ i ≤ i' ∧
        finish pat i nodes syms = finish pat i' nodes' syms' ∧
        (i < i' ∨ (i' = i ∧ weights syms' < weights syms))
    | .accept a => finish pat i nodes syms = .result a .success
    | .reject => finish pat i nodes syms = .result nothing (.syntaxError i)
    | .illFormed => finish pat i nodes syms = .illFormed := by
  match syms with
  | [] =>
    simp only [sstep, cfgAt, List.head?_nil, head_drop]
    rw [finish_eq, parseT_nil]
    rcases rule_nil (token pat i) with h | h <;> simp [h, advanceTimes_result]
  | s :: syms =>
    have hp := s.weight_pos
    by_cases hs : ∃ a, s = .act a
    · obtain ⟨a, rfl⟩ := hs
      have hb : sstep (cfgAt pat i nodes (.act a :: syms)) = (match build a (lastToken pat i) nodes with
        | some n => .next ⟨lastToken pat i, pat.drop i, n, syms⟩
        | none => .illFormed) := rfl
      rw [hb]
      have hf : finish pat i nodes (.act a :: syms) = advanceTimes pat (pat.length - i)
          (match build a (lastToken pat i) nodes with
          | some nodes' => parseT pat (weights (.act a :: syms)) i nodes' syms
          | none => .illFormed) := by rw [finish_eq, parseT_act]
      rw [hf]
      cases build a (lastToken pat i) nodes with
      | none => exact advanceTimes_illFormed _ _
      | some nodes' =>
        refine ⟨i, nodes', syms, hi, rfl, Nat.le_refl _, ?_, .inr ⟨rfl, by simp; omega⟩⟩
        rw [finish_eq]
        dsimp only
        rw [parseT_fuel pat _ (weights syms + 1)] <;> simp <;> omega
    · have hs' : ∀ a, s ≠ .act a := fun a ha => hs ⟨a, ha⟩
      have hb : sstep (cfgAt pat i nodes (s :: syms)) = (match rule (some s) (token pat i) with
        | .push l => .next ⟨lastToken pat i, pat.drop i, nodes, l ++ syms⟩
        | .ignore => .next ⟨lastToken pat i, pat.drop i, nodes, syms⟩
        | .advance l => .next ⟨token pat i, (pat.drop i).tail, nodes, l ++ syms⟩
        | .reject => .reject
        | .accept => .accept (acceptedAst nodes)) := by
        rw [← head_drop]
        cases s <;> first | rfl | exact absurd rfl (hs' _)
      rw [hb]
      have hf := finish_eq pat i nodes (s :: syms)
      rw [parseT_cons _ _ _ _ _ _ hs'] at hf
      rw [hf]
      have hl := rule_lighter s (token pat i)
      cases hr : rule (some s) (token pat i) with
      | reject => exact advanceTimes_result _ _ _ _
      | accept => exact advanceTimes_result _ _ _ _
      | ignore =>
        refine ⟨i, nodes, syms, hi, rfl, Nat.le_refl _, ?_, .inr ⟨rfl, by simp; omega⟩⟩
        rw [finish_eq]
        dsimp only
        rw [parseT_fuel pat _ (weights syms + 1)] <;> simp <;> omega
      | push l =>
        rw [hr] at hl
        have hl : weights l < s.weight := by simpa [Rule.lighter] using hl
        refine ⟨i, nodes, l ++ syms, hi, rfl, Nat.le_refl _, ?_, .inr ⟨rfl, by simp; omega⟩⟩
        rw [finish_eq]
        dsimp only
        rw [parseT_fuel pat _ (weights (l ++ syms) + 1)] <;> simp <;> omega
      | advance l =>
        have hlt : i < pat.length := by
          cases ht : token pat i with
          | none =>
            have := rule_none_advance (some s)
            rw [← ht, hr] at this
            cases this
          | some c => exact (List.getElem?_eq_some_iff.1 ht).1
        refine ⟨i + 1, nodes, l ++ syms, hlt, ?_, by omega, ?_, .inl (by omega)⟩
        · simp [cfgAt, lastToken, token, List.tail_drop]
        · dsimp only
          unfold finish
          have : pat.length - i = pat.length - (i + 1) + 1 := by omega
          rw [this]

/-- Several steps. -/
inductive PSteps : Cfg → Cfg → Prop
  | refl (c) : PSteps c c
  | step {c c' c''} : sstep c = .next c' → PSteps c' c'' → PSteps c c''

theorem PSteps.trans {c c' c'' : Cfg} (h : PSteps c c') (h' : PSteps c' c'') : PSteps c c'' := by
  induction h with
  | refl => exact h'
  | step h _ ih => exact .step h (ih h')

theorem PSteps.one {c c' : Cfg} (h : sstep c = .next c') : PSteps c c' := .step h (.refl _)

theorem steps_finish {pat : List Byte} {c c' : Cfg} (h : PSteps c c') : ∀ i nodes syms, i ≤ pat.length → c = cfgAt pat i nodes syms →
    ∃ i' nodes' syms', i' ≤ pat.length ∧ c' = cfgAt pat i' nodes' syms' ∧ finish pat i nodes syms = finish pat i' nodes' syms' := by
  induction h with
  | refl c => intro i nodes syms hi hc; exact ⟨i, nodes, syms, hi, hc, rfl⟩
  | step h _ ih =>
    intro i nodes syms hi hc
    have hf := finish_step pat i nodes syms hi
    rw [← hc, h] at hf
    obtain ⟨i1, n1, s1, h1, h2, _, h3, _⟩ := hf
    obtain ⟨i2, n2, s2, h4, h5, h6⟩ := ih i1 n1 s1 h1 h2
    exact ⟨i2, n2, s2, h4, h5, h3.trans h6⟩

/-- The initial configuration. -/
def initCfg (pat : List Byte) : Cfg := ⟨none, pat, [], [.begin]⟩

theorem initCfg_eq (pat : List Byte) : initCfg pat = cfgAt pat 0 [] [.begin] := rfl

theorem parse_eq (pat : List Byte) : parse pat = finish pat 0 [] [.begin] := rfl

theorem parse_accept {pat : List Byte} {c : Cfg} {a : Ast} (h : PSteps (initCfg pat) c) (ha : sstep c = .accept a) :
    parse pat = .result a .success := by
  obtain ⟨i, n, s, h1, h2, h3⟩ := steps_finish h 0 [] [.begin] (Nat.zero_le _) (initCfg_eq pat)
  have := finish_step pat i n s h1
  rw [← h2, ha] at this
  rw [parse_eq, h3, this]

theorem parse_reject {pat : List Byte} {c : Cfg} (h : PSteps (initCfg pat) c) (ha : sstep c = .reject) :
    parse pat = .result nothing (.syntaxError (pat.length - c.rest.length)) := by
  obtain ⟨i, n, s, h1, h2, h3⟩ := steps_finish h 0 [] [.begin] (Nat.zero_le _) (initCfg_eq pat)
  have := finish_step pat i n s h1
  rw [← h2, ha] at this
  rw [parse_eq, h3, this, h2]
  simp only [cfgAt, List.length_drop]
  congr 2
  omega

theorem parse_illFormed {pat : List Byte} {c : Cfg} (h : PSteps (initCfg pat) c) (ha : sstep c = .illFormed) :
    parse pat = .illFormed := by
  obtain ⟨i, n, s, h1, h2, h3⟩ := steps_finish h 0 [] [.begin] (Nat.zero_le _) (initCfg_eq pat)
  have := finish_step pat i n s h1
  rw [← h2, ha] at this
  rw [parse_eq, h3, this]

/-- The machine stops. -/
theorem machine_stops (pat : List Byte) (n : Nat) : ∀ m i nodes syms, i ≤ pat.length → pat.length - i < n → weights syms < m →
    ∃ c, PSteps (cfgAt pat i nodes syms) c ∧ ∀ c', sstep c ≠ .next c' := by
  induction n with
  | zero => intro m i nodes syms h h'; omega
  | succ n ihn =>
    intro m
    induction m with
    | zero => intro i nodes syms _ _ h; omega
    | succ m ihm =>
      intro i nodes syms hi hn hm
      have hf := finish_step pat i nodes syms hi
      cases hs : sstep (cfgAt pat i nodes syms) with
      | next c =>
        rw [hs] at hf
        obtain ⟨i', n', s', h1, h2, h3, _, h5⟩ := hf
        rcases h5 with h5 | ⟨rfl, h5⟩
        · obtain ⟨c', h6, h7⟩ := ihn (weights s' + 1) i' n' s' h1 (by omega) (by omega)
          exact ⟨c', .step hs (h2 ▸ h6), h7⟩
        · obtain ⟨c', h6, h7⟩ := ihm i' n' s' h1 hn (by omega)
          exact ⟨c', .step hs (h2 ▸ h6), h7⟩
      | accept a => exact ⟨_, .refl _, fun c' => by rw [hs]; nofun⟩
      | reject => exact ⟨_, .refl _, fun c' => by rw [hs]; nofun⟩
      | illFormed => exact ⟨_, .refl _, fun c' => by rw [hs]; nofun⟩

end Mregex
