import Verif.Model.Compile
import Verif.Spec.Compile
import Verif.Proof.Parser

/-!
# The symbol stack stays flat
-/

namespace Mregex
open Ast Spec

/-! ### The shape of the stack -/

/-- 3: has to be read; 2: at most one in what is between two that have to be read, unless there are braces or dashes; 1: at most one in what is between two of
these; 0: few in what is between two of these. -/
def cls : Sym → Nat
  | .expect _ => 3
  | .alt | .begin | .groupBeginOrMod | .groupMod | .groupModLessThan | .groupBegin | .captureNameSeq _
  | .setBeginOrNeg | .setBegin | .setSeq | .setRangeSeq => 2
  | .seq | .altSeq => 1
  | _ => 0

def cost : Sym → Nat
  | .esc => 3
  | .setRangeBegin => 4
  | .mod | .quantifierBegin | .quantifierMod _ _ _ | .quantifierValue _ | .quantifierRange _ _ => 2
  | .setEsc | .setRangeEsc | .hexEscSeq _ | .backrefId _ => 2
  | _ => 1

/-- How much of class 0 there may be immediately below. -/
def roomOf : Sym → Nat
  | .begin | .groupBeginOrMod | .groupMod | .groupModLessThan | .captureNameSeq _ | .setBeginOrNeg => 0
  | .setBegin | .seq | .altSeq | .mod | .quantifierBegin => 1
  | .setSeq | .setRangeSeq | .groupBegin | .alt => 2
  | _ => 6

/-- These become symbols of class 2. -/
def extraOf : Sym → Nat
  | .quantifierBegin | .setRangeBegin => 1
  | _ => 0

def top0 : List Sym → Nat
  | [] => 0
  | s :: l => if cls s = 0 then cost s + top0 l else 0

def top1 : List Sym → Nat
  | [] => 0
  | s :: l => if cls s = 0 then top1 l else if cls s = 1 then top1 l + 1 else 0

def top2 : List Sym → Nat
  | [] => 0
  | s :: l => if cls s ≤ 1 then extraOf s + top2 l else if cls s = 2 then top2 l + 1 else 0

/-- The shape of the stack, with at most `n` symbols of class 2 next to each other. -/
def Flat (n : Nat) : List Sym → Prop
  | [] => True
  | s :: l => Flat n l ∧ top0 (s :: l) ≤ 6 ∧ top1 (s :: l) ≤ 1 ∧ top2 (s :: l) ≤ n ∧ top0 l ≤ roomOf s

/-- The steps until something has to be read. -/
def segment : List Sym → Nat
  | [] => 1
  | s :: l => if cls s = 3 then 1 else s.weight + segment l

theorem Flat.bounds {n : Nat} {l : List Sym} (h : Flat n l) : top0 l ≤ 6 ∧ top1 l ≤ 1 ∧ top2 l ≤ n := by
  cases l with
  | nil => simp [top0, top1, top2]
  | cons s l => exact ⟨h.2.1, h.2.2.1, h.2.2.2.1⟩

theorem Flat.mono {n m : Nat} (hnm : n ≤ m) {l : List Sym} (h : Flat n l) : Flat m l := by
  induction l with
  | nil => trivial
  | cons s l ih => exact ⟨ih h.1, h.2.1, h.2.2.1, Nat.le_trans h.2.2.2.1 hnm, h.2.2.2.2⟩

theorem segment_le {n : Nat} {l : List Sym} (h : Flat n l) : segment l ≤ 1 + top0 l + 2 * top1 l + 6 * top2 l := by
  induction l with
  | nil => simp [segment, top0, top1, top2]
  | cons s l ih =>
    have ih := ih h.1
    have hr := h.2.2.2.2
    have hb := h.1.bounds
    cases s <;> simp [segment, top0, top1, top2, cls, cost, roomOf, extraOf, Sym.weight] at * <;> omega

/-- The rule keeps the stack flat, where `b` tells whether a brace or a dash is read. -/
def Rule.flat (n b : Nat) (l : List Sym) : Rule → Prop
  | .push l' => Flat n (l' ++ l)
  | .advance l' => Flat (n + b) (l' ++ l)
  | _ => True

def bump (tok : Option Byte) : Nat :=
  match tok with
  | some c => if c == ch '{' || c == ch '-' then 1 else 0
  | none => 0

theorem bump_mark {c : Byte} (h : (c == ch '{' || c == ch '-') = true) : bump (some c) = 1 := by
  simp only [bump, h, if_true]

/-- Nothing but a few symbols of class 0. -/
def plainSyms (k : Nat) (l : List Sym) : Bool := l.all (fun s => cls s == 0 && extraOf s == 0 && roomOf s == 6) && decide (top0 l ≤ k)

theorem flat_plain {n k : Nat} {l' l : List Sym} (h : plainSyms k l' = true) (hl : Flat n l) (hk : k + top0 l ≤ 6) :
    Flat n (l' ++ l) ∧ top0 (l' ++ l) ≤ k + top0 l ∧ top1 (l' ++ l) = top1 l ∧ top2 (l' ++ l) = top2 l := by
  induction l' generalizing k with
  | nil => exact ⟨hl, by simp, rfl, rfl⟩
  | cons s l' ih =>
    simp only [plainSyms, List.all_cons, Bool.and_eq_true, beq_iff_eq, decide_eq_true_eq] at h
    obtain ⟨⟨⟨⟨h1, h2⟩, h5⟩, h3⟩, h4⟩ := h
    simp only [top0, h1, if_true] at h4
    obtain ⟨i1, i2, i3, i4⟩ := ih (k := k - cost s) (by simp only [plainSyms, Bool.and_eq_true, decide_eq_true_eq]; exact ⟨h3, by omega⟩) (by omega)
    have hb := hl.bounds
    rw [List.cons_append]
    refine ⟨⟨i1, ?_, ?_, ?_, ?_⟩, ?_, ?_, ?_⟩ <;> simp only [ top0, top1, top2, h1, h2, h5, if_true, Nat.zero_le, i3, i4] <;> omega

theorem escaped_plain (c : Byte) : ∃ l, handleEscapedChar c = .advance l ∧ plainSyms 3 l = true ∧
    (c ≠ ch 'b' → c ≠ ch 'B' → c ≠ ch 'A' → c ≠ ch 'Z' → plainSyms 2 l = true) := by
  have : (match handleEscapedChar c with
    | .advance l => plainSyms 3 l && (c == ch 'b' || c == ch 'B' || c == ch 'A' || c == ch 'Z' || plainSyms 2 l)
    | _ => false) = true := by revert c; decide +kernel
  split at this
  · next l hl =>
    refine ⟨l, hl, ?_, fun h1 h2 h3 h4 => ?_⟩
    · simp only [Bool.and_eq_true] at this; exact this.1
    · simpa [h1, h2, h3, h4] using ((Bool.and_eq_true _ _).mp this).2
  · cases this

section
variable {n b : Nat} {l : List Sym}

theorem escaped_flat (hl : Flat n l) (h0 : top0 l ≤ 3) (c : Byte) : (handleEscapedChar c).flat n b l := by
  obtain ⟨l', h1, h2, _⟩ := escaped_plain c
  rw [h1]
  exact ((flat_plain h2 hl (by omega)).1).mono (by omega)

theorem escapeSequence_flat (hl : Flat n l) (h0 : top0 l ≤ 3) (c : Byte) : (handleEscapeSequence c).flat n b l := by
  have hb := hl.bounds
  have hl' : Flat (n + b) l := hl.mono (by omega)
  unfold handleEscapeSequence
  repeat' split
  all_goals first
    | exact escaped_flat hl h0 c
    | (simp [Rule.flat, Flat, top0, top1, top2, cls, cost, roomOf, extraOf, hl']; omega)

theorem setEscape_flat (hl : Flat n l) (h0 : top0 l ≤ 4) (c : Byte) : (handleSetEscapeSequence c).flat n b l := by
  have hb := hl.bounds
  have hl' : Flat (n + b) l := hl.mono (by omega)
  unfold handleSetEscapeSequence
  repeat' split
  all_goals first
    | (simp [Rule.flat, Flat, top0, top1, top2, cls, cost, roomOf, extraOf, hl']; omega)
    | (obtain ⟨l', h1, _, h2⟩ := escaped_plain c
       rw [h1]
       exact ((flat_plain (h2 (by assumption) (by assumption) (by assumption) (by assumption)) hl (by omega)).1).mono (by omega))

theorem setRangeEscape_flat (hl : Flat n l) (h0 : top0 l ≤ 4) (c : Byte) : (handleSetRangeEscapeSequence c).flat n b l := by
  unfold handleSetRangeEscapeSequence
  split
  · trivial
  · exact setEscape_flat hl h0 c

/-- What comes behind a part. -/
theorem start_flat {post : List Sym} (hn : 1 ≤ n) (hp : Flat n (post ++ l)) (h0 : top0 (post ++ l) ≤ 1) (c : Byte) : (startRule c post).flat n b l := by
  have hb := hp.bounds
  have hp' : Flat (n + b) (post ++ l) := hp.mono (by omega)
  unfold startRule
  repeat' split
  all_goals (simp [Rule.flat, Flat, top0, top1, top2, cls, cost, roomOf, extraOf, hp']; omega)

theorem setItem_flat (hl : Flat n l) (hn : top2 l + 1 ≤ n) (h0 : top0 l ≤ 2) (c : Byte) : (setItemRule c).flat n b l := by
  have hb := hl.bounds
  have hl' : Flat (n + b) l := hl.mono (by omega)
  unfold setItemRule
  repeat' split
  all_goals (simp [Rule.flat, Flat, top0, top1, top2, cls, cost, roomOf, extraOf, hl']; try omega)

end

/-- A rule keeps the stack flat. -/
theorem rule_flat {n : Nat} {s : Sym} {l : List Sym} (hn : 1 ≤ n) (h : Flat n (s :: l)) (tok : Option Byte) : (rule (some s) tok).flat n (bump tok) l := by
  obtain ⟨hl, h0, h1, h2, hr⟩ := h
  have hb := hl.bounds
  have hl' : Flat (n + bump tok) l := hl.mono (by omega)
  have hl1 : Flat (n + 1) l := hl.mono (by omega)
  cases s <;> cases tok <;>
    simp only [rule, continueHexEscapeSequence, beginName, continueName, abortQuantifierParsing, beginQuantifierValue, continueQuantifierValue,
      continueQuantifierRange, continueBackrefId]
  all_goals repeat' split
  all_goals simp only [top0, top1, top2, cls, cost, roomOf, extraOf] at h0 h1 h2 hr
  all_goals try simp at h0
  all_goals try simp at h1
  all_goals try simp at h2
  all_goals first
    | trivial
    | exact start_flat hn (by simp [Flat, top0, top1, top2, cls, cost, roomOf, extraOf, hl]; omega) (by simp [top0, cls, cost]) _
    | exact setItem_flat hl (by omega) hr _
    | exact setItem_flat hl (by omega) (by omega) _
    | exact escapeSequence_flat hl (by omega) _
    | exact setEscape_flat hl (by omega) _
    | exact setRangeEscape_flat hl (by omega) _
    | (simp [Rule.flat, Flat, top0, top1, top2, cls, cost, roomOf, extraOf, hl, hl'] at *; omega)
    | (rw [bump_mark (by simp [*])]; simp [Rule.flat, Flat, top0, top1, top2, cls, cost, roomOf, extraOf, hl1]; omega)

/-! ### What is read makes the stack heavier by a bounded amount -/

/-- Adds at most 6 by reading. -/
def Rule.limited (w : Nat) : Rule → Bool
  | .advance l => decide (weights l ≤ w + 6)
  | _ => true

theorem startRule_limited {w : Nat} {post : List Sym} (h : weights post + 5 ≤ w + 6) (c : Byte) : (startRule c post).limited w = true := by
  unfold startRule
  repeat' split
  all_goals (simp [Rule.limited, Sym.weight]; omega)
theorem setItemRule_limited (w c) : (setItemRule c).limited w = true := by
  unfold setItemRule
  repeat' split
  all_goals simp [Rule.limited, Sym.weight]
theorem handleEscapedChar_limited (w c) : (handleEscapedChar c).limited w = true := by
  have : (handleEscapedChar c).limited 0 = true := by revert c; decide +kernel
  cases h : handleEscapedChar c <;> simp_all [Rule.limited]
  omega
theorem handleEscapeSequence_limited (w c) : (handleEscapeSequence c).limited w = true := by
  unfold handleEscapeSequence; repeat' split
  all_goals first | exact handleEscapedChar_limited _ _ | (simp [Rule.limited, Sym.weight]; omega) | simp [Rule.limited, Sym.weight]
theorem handleSetEscapeSequence_limited (w c) : (handleSetEscapeSequence c).limited w = true := by
  unfold handleSetEscapeSequence; repeat' split
  all_goals first | exact handleEscapedChar_limited _ _ | (simp [Rule.limited, Sym.weight]; omega) | simp [Rule.limited, Sym.weight]
theorem handleSetRangeEscapeSequence_limited (w c) : (handleSetRangeEscapeSequence c).limited w = true := by
  unfold handleSetRangeEscapeSequence; repeat' split
  all_goals first | rfl | exact handleSetEscapeSequence_limited _ _

theorem rule_limited (s : Sym) (tok : Option Byte) : (rule (some s) tok).limited s.weight = true := by
  cases s <;> cases tok <;>
    simp only [rule, continueHexEscapeSequence, beginName, continueName, abortQuantifierParsing, beginQuantifierValue, continueQuantifierValue,
      continueQuantifierRange, continueBackrefId]
  all_goals repeat' split
  all_goals first
    | rfl
    | exact startRule_limited (by simp [Sym.weight]) _
    | exact setItemRule_limited _ _
    | exact handleEscapeSequence_limited _ _
    | exact handleSetEscapeSequence_limited _ _
    | exact handleSetRangeEscapeSequence_limited _ _

/-! ### What is read makes a bounded number of nodes -/

/-- How many nodes can come of a symbol without reading. -/
def gain : Sym → Nat
  | .act .makeWhitespace => 8
  | .act .makeWord => 5
  | .act .makeLinebreak => 3
  | .act .makeSetFromCurrentChar | .act .makeRange => 2
  | .act _ => 1
  | .esc | .setEsc => 4
  | .groupBeginOrMod | .quantifierBegin | .setRangeBegin => 2
  | .groupBegin | .quantifierMod _ _ _ | .backrefId _ | .hexEscSeq _ => 1
  | _ => 0

def gains (l : List Sym) : Nat := (l.map gain).sum

@[simp] theorem gains_nil : gains [] = 0 := rfl
@[simp] theorem gains_cons (s : Sym) (l : List Sym) : gains (s :: l) = gain s + gains l := by simp [gains]
@[simp] theorem gains_append (l l' : List Sym) : gains (l ++ l') = gains l + gains l' := by simp [gains]

def Rule.gainful (g : Nat) : Rule → Bool
  | .advance l => decide (gains l ≤ g + 5)
  | .push l => decide (gains l ≤ g)
  | _ => true

theorem startRule_gainful {g : Nat} {post : List Sym} (h : gains post ≤ g + 1) (c : Byte) : (startRule c post).gainful g = true := by
  unfold startRule
  repeat' split
  all_goals (simp [Rule.gainful, gain]; omega)
theorem setItemRule_gainful (g c) : (setItemRule c).gainful g = true := by
  unfold setItemRule
  repeat' split
  all_goals simp [Rule.gainful, gain]
theorem handleEscapedChar_gainful (c) : (handleEscapedChar c).gainful 4 = true := by
  revert c; decide +kernel
theorem handleEscapeSequence_gainful (c) : (handleEscapeSequence c).gainful 4 = true := by
  unfold handleEscapeSequence; repeat' split
  all_goals first | exact handleEscapedChar_gainful _ | simp [Rule.gainful, gain]
theorem handleSetEscapeSequence_gainful (c) : (handleSetEscapeSequence c).gainful 4 = true := by
  unfold handleSetEscapeSequence; repeat' split
  all_goals first | exact handleEscapedChar_gainful _ | simp [Rule.gainful, gain]
theorem handleSetRangeEscapeSequence_gainful (c) : (handleSetRangeEscapeSequence c).gainful 0 = true := by
  revert c; decide +kernel

theorem rule_gainful (s : Sym) (tok : Option Byte) : (rule (some s) tok).gainful (gain s) = true := by
  cases s <;> cases tok <;>
    simp only [rule, continueHexEscapeSequence, beginName, continueName, abortQuantifierParsing, beginQuantifierValue, continueQuantifierValue,
      continueQuantifierRange, continueBackrefId]
  all_goals repeat' split
  all_goals first
    | rfl
    | exact startRule_gainful (by simp [gain]) _
    | exact setItemRule_gainful _ _
    | exact handleEscapeSequence_gainful _
    | exact handleSetEscapeSequence_gainful _
    | exact handleSetRangeEscapeSequence_gainful _

theorem nodeCounts_append (l l' : List Ast) : nodeCounts (l ++ l') = nodeCounts l + nodeCounts l' := by
  induction l with
  | nil => simp [nodeCounts]
  | cons a l ih => simp [nodeCounts, ih, Nat.add_assoc]

theorem nodeCount_makeSequence (a b : Ast) : nodeCount (makeSequence a b) ≤ nodeCount a + nodeCount b + 1 := by
  unfold makeSequence
  split <;> simp [nodeCount, nodeCounts, nodeCounts_append] <;> omega

theorem nodeCount_makeAlternation (a b : Ast) : nodeCount (makeAlternation a b) ≤ nodeCount a + nodeCount b + 1 := by
  unfold makeAlternation
  split <;> simp [nodeCount, nodeCounts, nodeCounts_append] <;> omega

theorem build_count {a : Action} {tok : Option Byte} {nodes nodes' : List Ast} (h : build a tok nodes = some nodes') :
    nodeCounts nodes' ≤ nodeCounts nodes + gain (.act a) := by
  cases a <;> simp only [build] at h <;> (repeat' split at h) <;> first
    | (cases h; done)
    | (simp only [Option.some.injEq, Option.map_eq_some_iff] at h
       first
         | (obtain ⟨c, rfl, rfl⟩ := h; simp [nodeCounts, nodeCount, gain]; done)
         | (obtain ⟨c, rfl, rfl⟩ := h; simp [nodeCounts, nodeCount, gain]; omega)
         | (subst h; simp [nodeCounts, nodeCount, nodeCounts_append, gain, digit, word, whitespace, linebreak, lower, upper]; done)
         | (subst h; simp [nodeCounts, nodeCount, nodeCounts_append, gain, digit, word, whitespace, linebreak, lower, upper]; omega)
         | (subst h; rename_i x y z; have := nodeCount_makeSequence x y; simp [nodeCounts, gain]; omega)
         | (subst h; rename_i x y z; have := nodeCount_makeAlternation x y; simp [nodeCounts, gain]; omega))

mutual
theorem nodeCount_index (k : Nat) : ∀ a : Ast, nodeCount (index k a) = nodeCount a
  | .cap _ _ a => by simp only [index, nodeCount, nodeCount_index (k + 1) a]
  | .seq l => by simp only [index, nodeCount, nodeCounts_indexSeq k l]
  | .alt l => by simp only [index, nodeCount, nodeCounts_indexSame k l]
  | .set l => by simp only [index, nodeCount, nodeCounts_indexSame k l]
  | .neg a => by simp only [index, nodeCount, nodeCount_index k a]
  | .rep _ _ _ a => by simp only [index, nodeCount, nodeCount_index k a]
  | .look _ a => by simp only [index, nodeCount, nodeCount_index k a]
  | .empty | .lit _ | .range _ _ | .wildcard | .bol | .boi | .eol | .eoi | .wordB | .backref _ | .namedBackref _ => by simp only [index]
theorem nodeCounts_indexSeq (k : Nat) : ∀ l : List Ast, nodeCounts (indexSeq k l) = nodeCounts l
  | [] => by simp only [indexSeq]
  | a :: l => by simp only [indexSeq, nodeCounts, nodeCount_index k a, nodeCounts_indexSeq _ l]
theorem nodeCounts_indexSame (k : Nat) : ∀ l : List Ast, nodeCounts (indexSame k l) = nodeCounts l
  | [] => by simp only [indexSame]
  | a :: l => by simp only [indexSame, nodeCounts, nodeCount_index k a, nodeCounts_indexSame _ l]
end

theorem acceptedAst_count (nodes : List Ast) : nodeCount (acceptedAst nodes) ≤ nodeCounts nodes + 1 := by
  cases nodes with
  | nil => simp [acceptedAst, nodeCount, nodeCounts]
  | cons a l =>
    simp only [acceptedAst, indexCaptures, nodeCount_index, nodeCounts]
    omega

/-! ### One round -/

theorem parseCount_act (pat k i nodes a syms) : parseCount pat (k + 1) i nodes (.act a :: syms) =
    match build a (lastToken pat i) nodes with
    | some nodes' => parseCount pat k i nodes' syms + 1
    | none => 1 := rfl
theorem parseCount_nil (pat k i nodes) : parseCount pat (k + 1) i nodes [] = 1 := by
  rcases rule_nil (token pat i) with h | h <;> simp [parseCount, h]
theorem parseCount_cons (pat k i nodes s syms) (hs : ∀ a, s ≠ .act a) : parseCount pat (k + 1) i nodes (s :: syms) =
    match rule (some s) (token pat i) with
    | .push l => parseCount pat k i nodes (l ++ syms) + 1
    | .ignore => parseCount pat k i nodes syms + 1
    | _ => 1 := by
  cases s <;> first | rfl | exact absurd rfl (hs _)

def Rule.noExpect : Rule → Bool
  | .push l => l.all fun s => cls s != 3
  | _ => true

theorem rule_noExpect (s : Sym) (tok : Option Byte) : (rule (some s) tok).noExpect = true := by
  have h1 : ∀ c post, (startRule c post).noExpect = true := fun c post => by unfold startRule; (repeat' split) <;> rfl
  have h2 : ∀ c, (setItemRule c).noExpect = true := fun c => by unfold setItemRule; (repeat' split) <;> rfl
  have h3 : ∀ c, (handleEscapedChar c).noExpect = true := by decide +kernel
  have h4 : ∀ c, (handleSetEscapeSequence c).noExpect = true := by decide +kernel
  have h5 : ∀ c, (handleSetRangeEscapeSequence c).noExpect = true := by decide +kernel
  have h6 : ∀ c, (handleEscapeSequence c).noExpect = true := by decide +kernel
  cases s <;> cases tok <;>
    simp only [rule, continueHexEscapeSequence, beginName, continueName, abortQuantifierParsing, beginQuantifierValue, continueQuantifierValue,
      continueQuantifierRange, continueBackrefId]
  all_goals repeat' split
  all_goals first
    | rfl
    | exact h1 _ _
    | exact h2 _
    | exact h6 _
    | exact h4 _
    | exact h5 _

theorem segment_append {l' l : List Sym} (h : l'.all (fun s => cls s != 3) = true) : segment (l' ++ l) = weights l' + segment l := by
  induction l' with
  | nil => simp
  | cons s l' ih =>
    simp only [List.all_cons, Bool.and_eq_true, bne_iff_ne, ne_eq] at h
    simp only [List.cons_append, segment, if_neg h.1, weights_cons, ih h.2, Nat.add_assoc]

/-- A round takes no more steps than the stack allows until something has to be read. -/
theorem parseCount_segment (pat : List Byte) (k : Nat) : ∀ i nodes syms, parseCount pat k i nodes syms ≤ segment syms := by
  induction k with
  | zero => intro i nodes syms; simp [parseCount]
  | succ k ih =>
    intro i nodes syms
    match syms with
    | [] => rw [parseCount_nil]; simp [segment]
    | s :: syms =>
      by_cases hs : ∃ a, s = .act a
      · obtain ⟨a, rfl⟩ := hs
        rw [parseCount_act]
        simp only [segment, cls, Sym.weight]
        split
        · rename_i nodes' _
          have := ih i nodes' syms
          simp only [show ¬ (0 : Nat) = 3 by decide, if_false]
          show parseCount pat k i nodes' syms + 1 ≤ _
          omega
        · simp only [show ¬ (0 : Nat) = 3 by decide, if_false]
          omega
      · have hs' : ∀ a, s ≠ .act a := fun a ha => hs ⟨a, ha⟩
        rw [parseCount_cons _ _ _ _ _ _ hs']
        have hl := rule_lighter s (token pat i)
        have hx := rule_noExpect s (token pat i)
        have hp := s.weight_pos
        by_cases hc : cls s = 3
        · obtain ⟨c, rfl⟩ : ∃ c, s = .expect c := by cases s <;> first | exact ⟨_, rfl⟩ | (simp [cls] at hc)
          have : segment (.expect c :: syms) = 1 := by simp [segment, cls]
          rw [this]
          cases token pat i with
          | none => simp [rule]
          | some x =>
            simp only [rule]
            by_cases h : x = c <;> simp [h]
        · have hseg : segment (s :: syms) = s.weight + segment syms := by simp only [segment, if_neg hc]
          rw [hseg]
          split
          · next l' h' =>
            rw [h'] at hl hx
            have hl : weights l' < s.weight := by simpa [Rule.lighter] using hl
            have := ih i nodes (l' ++ syms)
            rw [segment_append hx] at this
            show parseCount pat k i nodes (l' ++ syms) + 1 ≤ _
            omega
          · have := ih i nodes syms
            show parseCount pat k i nodes syms + 1 ≤ _
            omega
          · omega

/-- What a round does to the stacks. -/
def RoundOk (pat : List Byte) (i n w g : Nat) (count : Nat) : PState → Prop
  | .state i' nodes' syms' => i' = i + 1 ∧ ∃ c, pat[i]? = some c ∧ Flat (n + bump (some c)) syms' ∧ count + weights syms' ≤ w + 7 ∧
      nodeCounts nodes' + gains syms' ≤ g + 5
  | .result a v => count ≤ w + 1 ∧ (v = .success → nodeCount a ≤ g + 1)
  | .illFormed => count ≤ w + 1
  | .stuck => False

theorem RoundOk.mono {pat : List Byte} {i n w g count w' g' count' : Nat} {p : PState} (h : RoundOk pat i n w g count p) (hw : count' + w ≤ count + w')
    (hg : g ≤ g') : RoundOk pat i n w' g' count' p := by
  cases p with
  | state i' nodes' syms' =>
    obtain ⟨h1, c, h2, h3, h4, h5⟩ := h
    exact ⟨h1, c, h2, h3, by omega, by omega⟩
  | result a v => exact ⟨by have := h.1; omega, fun hv => by have := h.2 hv; omega⟩
  | illFormed => have : count ≤ w + 1 := h; show count' ≤ w' + 1; omega
  | stuck => exact h

theorem parse_round (pat : List Byte) (k : Nat) : ∀ i nodes syms n, 1 ≤ n → weights syms < k → Flat n syms →
    RoundOk pat i n (weights syms) (nodeCounts nodes + gains syms) (parseCount pat k i nodes syms) (parseT pat k i nodes syms) := by
  induction k with
  | zero => intro i nodes syms n _ h; omega
  | succ k ih =>
    intro i nodes syms n hn hk hf
    match syms with
    | [] =>
      rw [parseCount_nil, parseT_nil]
      rcases rule_nil (token pat i) with h | h <;> rw [h]
      · refine ⟨by omega, fun _ => ?_⟩
        have := acceptedAst_count nodes
        omega
      · exact ⟨by omega, fun h => nomatch h⟩
    | s :: syms =>
      have hp := s.weight_pos
      rw [weights_cons] at hk
      by_cases hs : ∃ a, s = .act a
      · obtain ⟨a, rfl⟩ := hs
        rw [parseCount_act, parseT_act]
        cases hb : build a (lastToken pat i) nodes with
        | none => show (1 : Nat) ≤ _ + 1; omega
        | some nodes' =>
          refine (ih i nodes' syms n hn (by omega) hf.1).mono ?_ ?_
          · simp only [weights_cons, Sym.weight]; omega
          · have := build_count hb
            simp only [gains_cons]; omega
      · have hs' : ∀ a, s ≠ .act a := fun a ha => hs ⟨a, ha⟩
        rw [parseCount_cons _ _ _ _ _ _ hs', parseT_cons _ _ _ _ _ _ hs']
        have hl := rule_lighter s (token pat i)
        have hm := rule_limited s (token pat i)
        have hg := rule_gainful s (token pat i)
        have hfl := rule_flat hn hf (token pat i)
        cases hr : rule (some s) (token pat i) with
        | push l' =>
          rw [hr] at hl hg hfl
          have hl : weights l' < s.weight := by simpa [Rule.lighter] using hl
          have hg : gains l' ≤ gain s := by simpa [Rule.gainful] using hg
          refine (ih i nodes (l' ++ syms) n hn (by rw [weights_append]; omega) hfl).mono ?_ ?_
          · simp only [weights_cons, weights_append]; omega
          · simp only [gains_cons, gains_append]; omega
        | ignore =>
          refine (ih i nodes syms n hn (by omega) hf.1).mono ?_ ?_
          · simp only [weights_cons]; omega
          · simp only [gains_cons]; omega
        | reject => exact ⟨by show 1 ≤ _; omega, fun h => nomatch h⟩
        | accept =>
          refine ⟨by show 1 ≤ _; omega, fun _ => ?_⟩
          have := acceptedAst_count nodes
          simp only [gains_cons]; omega
        | advance l' =>
          rw [hr] at hm hg hfl
          have hm : weights l' ≤ s.weight + 6 := by simpa [Rule.limited] using hm
          have hg : gains l' ≤ gain s + 5 := by simpa [Rule.gainful] using hg
          cases ht : token pat i with
          | none =>
            have := rule_none_advance (some s)
            rw [← ht, hr] at this
            cases this
          | some c =>
            rw [ht] at hfl
            refine ⟨rfl, c, ht, hfl, ?_, ?_⟩
            · simp only [weights_cons, weights_append]; omega
            · simp only [gains_cons, gains_append]; omega

/-! ### All rounds -/

theorem marks_drop {pat : List Byte} {i : Nat} {c : Byte} (h : pat[i]? = some c) : marks (pat.drop i) = bump (some c) + marks (pat.drop (i + 1)) := by
  obtain ⟨hi, rfl⟩ := List.getElem?_eq_some_iff.1 h
  rw [List.drop_eq_getElem_cons hi]
  simp only [marks, List.countP_cons, bump]
  omega

theorem roundsFrom_done (pat : List Byte) (m : Nat) {p : PState} (h : ∀ i nodes syms, p ≠ .state i nodes syms) :
    (∀ x ∈ roundsFrom pat m p, x = 0) ∧ (roundsFrom pat m p).sum = 0 ∧ advanceTimes pat m p = p := by
  induction m with
  | zero => exact ⟨fun _ h => (nomatch h), rfl, rfl⟩
  | succ m ih =>
    have h1 : p.instantiations pat = 0 := by cases p <;> first | rfl | exact absurd rfl (h _ _ _)
    have h2 : advanceState pat p = p := by cases p <;> first | rfl | exact absurd rfl (h _ _ _)
    simp only [roundsFrom, advanceTimes, h1, h2, List.mem_cons, List.sum_cons]
    exact ⟨fun x hx => hx.elim id (ih.1 x), by simpa using ih.2.1, ih.2.2⟩

theorem rounds_bounds (pat : List Byte) (m : Nat) : ∀ i nodes syms n, 1 ≤ n → Flat n syms →
    (∀ x ∈ roundsFrom pat m (.state i nodes syms), x ≤ 9 + 6 * (n + marks (pat.drop i))) ∧
    (roundsFrom pat m (.state i nodes syms)).sum ≤ weights syms + 7 * (pat.length - i) + 1 ∧
    ∀ a, advanceTimes pat m (.state i nodes syms) = .result a .success → nodeCount a ≤ nodeCounts nodes + gains syms + 5 * (pat.length - i) + 1 := by
  induction m with
  | zero => intro i nodes syms n _ _; exact ⟨fun _ h => (nomatch h), by simp [roundsFrom], fun a h => by cases h⟩
  | succ m ih =>
    intro i nodes syms n hn hf
    have hk : parseFuel syms = weights syms + 1 := rfl
    have h1 := parse_round pat (parseFuel syms) i nodes syms n hn (by omega) hf
    have h2 := parseCount_segment pat (parseFuel syms) i nodes syms
    have h3 := segment_le hf
    have h4 := hf.bounds
    simp only [roundsFrom, PState.instantiations, advanceTimes, advanceState, List.mem_cons, List.sum_cons]
    cases hp : parseT pat (parseFuel syms) i nodes syms with
    | state i' nodes' syms' =>
      rw [hp] at h1
      obtain ⟨rfl, c, h5, h6, h7, h8⟩ := h1
      obtain ⟨i1, i2, i3⟩ := ih (i + 1) nodes' syms' _ (by omega) h6
      have hm := marks_drop h5
      have hlt := (List.getElem?_eq_some_iff.1 h5).1
      refine ⟨fun x hx => ?_, by omega, fun a ha => ?_⟩
      · rcases hx with rfl | hx
        · omega
        · have := i1 x hx
          omega
      · have := i3 a ha
        omega
    | result a v =>
      rw [hp] at h1
      obtain ⟨d1, d2, d3⟩ := roundsFrom_done pat m (p := .result a v) (by intros; nofun)
      refine ⟨fun x hx => ?_, by have := h1.1; omega, fun a' ha => ?_⟩
      · rcases hx with rfl | hx
        · omega
        · rw [d1 x hx]; omega
      · rw [d3] at ha
        cases ha
        have := h1.2 rfl
        omega
    | illFormed =>
      rw [hp] at h1
      obtain ⟨d1, d2, d3⟩ := roundsFrom_done pat m (p := .illFormed) (by intros; nofun)
      refine ⟨fun x hx => ?_, by have : parseCount pat (parseFuel syms) i nodes syms ≤ weights syms + 1 := h1; omega, fun a' ha => ?_⟩
      · rcases hx with rfl | hx
        · omega
        · rw [d1 x hx]; omega
      · rw [d3] at ha
        cases ha
    | stuck =>
      rw [hp] at h1
      exact h1.elim

end Mregex
