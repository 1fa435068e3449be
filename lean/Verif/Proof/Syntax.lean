import Verif.Proof.ParserSafe
import Verif.Spec.Syntax

/-!
# The parser reads what the grammar says
-/

namespace Mregex
open Ast Spec

/-! ## Trees without group numbers -/

namespace Ast
mutual
/-- Sets all group numbers to `0`. -/
def strip : Ast → Ast
  | .cap _ name a => .cap 0 name (strip a)
  | .seq l => .seq (stripAll l)
  | .alt l => .alt (stripAll l)
  | .set l => .set (stripAll l)
  | .neg a => .neg (strip a)
  | .rep m lo hi a => .rep m lo hi (strip a)
  | .look d a => .look d (strip a)
  | a => a
def stripAll : List Ast → List Ast
  | [] => []
  | a :: l => strip a :: stripAll l
end
end Ast

theorem stripAll_eq (l : List Ast) : stripAll l = l.map strip := by
  induction l with
  | nil => rfl
  | cons a l ih => simp [stripAll, ih]

mutual
theorem captureCount_strip : ∀ a : Ast, captureCount (strip a) = captureCount a
  | .cap _ _ a => by simp [strip, captureCount, captureCount_strip a]
  | .seq l => by simp [strip, captureCount, captureCountAll_strip l]
  | .alt l => by simp [strip, captureCount, captureCountAll_strip l]
  | .set l => by simp [strip, captureCount, captureCountAll_strip l]
  | .neg a => by simp [strip, captureCount, captureCount_strip a]
  | .rep _ _ _ a => by simp [strip, captureCount, captureCount_strip a]
  | .look _ a => by simp [strip, captureCount, captureCount_strip a]
  | .empty | .lit _ | .range _ _ | .wildcard | .bol | .boi | .eol | .eoi | .wordB | .backref _ | .namedBackref _ => rfl
theorem captureCountAll_strip : ∀ l : List Ast, captureCountAll (stripAll l) = captureCountAll l
  | [] => rfl
  | a :: l => by simp [stripAll, captureCountAll, captureCount_strip a, captureCountAll_strip l]
end

mutual
theorem index_strip : ∀ (o : Nat) (a : Ast), index o (strip a) = index o a
  | o, .cap _ _ a => by simp [strip, index, index_strip _ a]
  | o, .seq l => by simp [strip, index, indexSeq_strip _ l]
  | o, .alt l => by simp [strip, index, indexSame_strip _ l]
  | o, .set l => by simp [strip, index, indexSame_strip _ l]
  | o, .neg a => by simp [strip, index, index_strip _ a]
  | o, .rep _ _ _ a => by simp [strip, index, index_strip _ a]
  | o, .look _ a => by simp [strip, index, index_strip _ a]
  | _, .empty | _, .lit _ | _, .range _ _ | _, .wildcard | _, .bol | _, .boi | _, .eol | _, .eoi | _, .wordB | _, .backref _ | _, .namedBackref _ => rfl
theorem indexSeq_strip : ∀ (o : Nat) (l : List Ast), indexSeq o (stripAll l) = indexSeq o l
  | _, [] => rfl
  | o, a :: l => by simp [stripAll, indexSeq, index_strip _ a, captureCount_strip a, indexSeq_strip _ l]
theorem indexSame_strip : ∀ (o : Nat) (l : List Ast), indexSame o (stripAll l) = indexSame o l
  | _, [] => rfl
  | o, a :: l => by simp [stripAll, indexSame, index_strip _ a, indexSame_strip _ l]
end

theorem indexCaptures_strip (a : Ast) : indexCaptures (strip a) = indexCaptures a := index_strip 1 a

theorem makeSequence_eq (a b : Ast) : makeSequence a b = catAst b a := by
  cases a <;> cases b <;> rfl

theorem makeAlternation_eq (a b : Ast) : makeAlternation a b = altAst b a := by
  cases b <;> rfl

theorem strip_seqParts (a : Ast) : seqParts (strip a) = (seqParts a).map strip := by
  cases a <;> simp [strip, seqParts, stripAll_eq]

theorem strip_catAst (a b : Ast) : strip (catAst a b) = catAst (strip a) (strip b) := by
  simp [catAst, strip, stripAll_eq, strip_seqParts]

theorem strip_altAst (a b : Ast) : strip (altAst a b) = altAst (strip a) (strip b) := by
  cases a <;> simp [altAst, strip, stripAll_eq]

theorem build_sequence (t : Option Byte) (a b : Ast) (N : List Ast) : build .makeSequence t (a :: b :: N) = some (catAst b a :: N) := by
  simp [build, makeSequence_eq]

theorem build_alternation (t : Option Byte) (a b : Ast) (N : List Ast) : build .makeAlternation t (a :: b :: N) = some (altAst b a :: N) := by
  simp [build, makeAlternation_eq]

/-! ## Single steps -/

theorem step_act {l : Option Byte} {rest : List Byte} {N N' : List Ast} {a : Action} {K : List Sym} (h : build a l N = some N') :
    sstep ⟨l, rest, N, .act a :: K⟩ = .next ⟨l, rest, N', K⟩ := by
  simp [sstep, h]

theorem step_push {l : Option Byte} {rest : List Byte} {N : List Ast} {s : Sym} {K L : List Sym} (hs : ∀ a, s ≠ .act a) (h : rule (some s) rest.head? = .push L) :
    sstep ⟨l, rest, N, s :: K⟩ = .next ⟨l, rest, N, L ++ K⟩ := by
  rw [sstep_sym hs, h]

theorem step_ignore {l : Option Byte} {rest : List Byte} {N : List Ast} {s : Sym} {K : List Sym} (hs : ∀ a, s ≠ .act a) (h : rule (some s) rest.head? = .ignore) :
    sstep ⟨l, rest, N, s :: K⟩ = .next ⟨l, rest, N, K⟩ := by
  rw [sstep_sym hs, h]

theorem step_advance {l : Option Byte} {c : Byte} {rest : List Byte} {N : List Ast} {s : Sym} {K L : List Sym} (hs : ∀ a, s ≠ .act a)
    (h : rule (some s) (some c) = .advance L) : sstep ⟨l, c :: rest, N, s :: K⟩ = .next ⟨some c, rest, N, L ++ K⟩ := by
  rw [sstep_sym hs, List.head?_cons, h]; rfl

/-! ## Quantifiers -/

theorem isDigit_of_decDigit : ∀ c : Byte, DecDigit c → isDigit c = true := by unfold DecDigit; decide +kernel
theorem decDigit_of_isDigit : ∀ c : Byte, isDigit c = true → DecDigit c := by unfold DecDigit; decide +kernel
theorem decDigit_iff (c : Byte) : DecDigit c ↔ isDigit c = true := ⟨isDigit_of_decDigit c, decDigit_of_isDigit c⟩

theorem step_mod_none {f : Option Byte} (h : NoQuant f) : rule (some .mod) f = .ignore := by
  cases f with
  | none => rfl
  | some c =>
    have := h c rfl
    simp only [rule]
    have : c ≠ ch '*' ∧ c ≠ ch '+' ∧ c ≠ ch '?' ∧ c ≠ ch '{' := by
      have := h c rfl
      simpa [txt] using this
    simp [this]

theorem sizeT_step {m : Nat} {d : Byte} (h : DecDigit d) : sizeT (10 * (m % 2 ^ 64) + d.toNat - 48) = (10 * m + (d.toNat - 48)) % 2 ^ 64 := by
  unfold sizeT
  have := h.1
  omega

theorem sizeT_first {d : Byte} (h : DecDigit d) : d.toNat - 48 = (10 * 0 + (d.toNat - 48)) % 2 ^ 64 := by
  have := h.2
  omega

theorem steps_quantifierValue {w : List Byte} (hw : ∀ d ∈ w, DecDigit d) : ∀ (m : Nat) (l : Option Byte) (rest : List Byte) (N : List Ast) (K : List Sym),
    ∃ l', PSteps ⟨l, w ++ rest, N, .quantifierValue (m % 2 ^ 64) :: K⟩ ⟨l', rest, N, .quantifierValue (w.foldl (fun n d => 10 * n + (d.toNat - 48)) m % 2 ^ 64) :: K⟩ := by
  induction w with
  | nil => exact fun m l rest N K => ⟨l, .refl _⟩
  | cons d w ih =>
    intro m l rest N K
    have hd := hw d (by simp)
    obtain ⟨l', h⟩ := ih (fun d hd => hw d (by simp [hd])) (10 * m + (d.toNat - 48)) (some d) rest N K
    refine ⟨l', .step (step_advance (L := [.quantifierValue ((10 * m + (d.toNat - 48)) % 2 ^ 64)]) (by nofun) ?_) h⟩
    have hdig := isDigit_of_decDigit d hd
    have h1 : d ≠ ch '}' := by rintro rfl; exact absurd hdig (by decide)
    have h2 : d ≠ ch ',' := by rintro rfl; exact absurd hdig (by decide)
    simp only [rule, continueQuantifierValue, h1, h2, hdig, if_false, if_true, sizeT_step hd]

theorem steps_quantifierRange {w : List Byte} (hw : ∀ d ∈ w, DecDigit d) : ∀ (lo m : Nat) (l : Option Byte) (rest : List Byte) (N : List Ast) (K : List Sym),
    ∃ l', PSteps ⟨l, w ++ rest, N, .quantifierRange lo (.fin (m % 2 ^ 64)) :: K⟩
      ⟨l', rest, N, .quantifierRange lo (.fin (w.foldl (fun n d => 10 * n + (d.toNat - 48)) m % 2 ^ 64)) :: K⟩ := by
  induction w with
  | nil => exact fun lo m l rest N K => ⟨l, .refl _⟩
  | cons d w ih =>
    intro lo m l rest N K
    have hd := hw d (by simp)
    obtain ⟨l', h⟩ := ih (fun d hd => hw d (by simp [hd])) lo (10 * m + (d.toNat - 48)) (some d) rest N K
    refine ⟨l', .step (step_advance (L := [.quantifierRange lo (.fin ((10 * m + (d.toNat - 48)) % 2 ^ 64))]) (by nofun) ?_) h⟩
    have hdig := isDigit_of_decDigit d hd
    have h1 : d ≠ ch '}' := by rintro rfl; exact absurd hdig (by decide)
    simp only [rule, continueQuantifierRange, h1, hdig, if_false, if_true, sizeT_step hd]

/-- A numeral after the opening brace. -/
theorem steps_firstNumeral {w : List Byte} {n : Nat} (h : Numeral w n) (l : Option Byte) (rest : List Byte) (N : List Ast) (K : List Sym) :
    ∃ l', PSteps ⟨l, w ++ rest, N, .quantifierBegin :: K⟩ ⟨l', rest, N, .quantifierValue n :: K⟩ := by
  obtain ⟨h1, h2, rfl⟩ := h
  match w, h1 with
  | d :: w, _ =>
    have hd := h2 d (by simp)
    obtain ⟨l', h⟩ := steps_quantifierValue (w := w) (fun d hd => h2 d (by simp [hd])) (10 * 0 + (d.toNat - 48)) (some d) rest N K
    refine ⟨l', .step (step_advance (L := [.quantifierValue ((10 * 0 + (d.toNat - 48)) % 2 ^ 64)]) (by nofun) ?_) h⟩
    have hdig := isDigit_of_decDigit d hd
    rw [← sizeT_first hd]
    simp [rule, beginQuantifierValue, hdig]

/-- A numeral after the comma. -/
theorem steps_secondNumeral {w : List Byte} {n : Nat} (h : Numeral w n) (lo : Nat) (l : Option Byte) (rest : List Byte) (N : List Ast) (K : List Sym) :
    ∃ l', PSteps ⟨l, w ++ rest, N, .quantifierRange lo .inf :: K⟩ ⟨l', rest, N, .quantifierRange lo (.fin n) :: K⟩ := by
  obtain ⟨h1, h2, rfl⟩ := h
  match w, h1 with
  | d :: w, _ =>
    have hd := h2 d (by simp)
    obtain ⟨l', h⟩ := steps_quantifierRange (w := w) (fun d hd => h2 d (by simp [hd])) lo (10 * 0 + (d.toNat - 48)) (some d) rest N K
    refine ⟨l', .step (step_advance (L := [.quantifierRange lo (.fin ((10 * 0 + (d.toNat - 48)) % 2 ^ 64))]) (by nofun) ?_) h⟩
    have hdig := isDigit_of_decDigit d hd
    have h1 : d ≠ ch '}' := by rintro rfl; exact absurd hdig (by decide)
    rw [← sizeT_first hd]
    simp [rule, continueQuantifierRange, h1, hdig]

theorem steps_suffix {s : List Byte} {m : Mode} (hs : Suffix s m) {rest : List Byte} (hf : NoQuant rest.head?) (lo : Nat) (hi : Bound) (l : Option Byte) (x : Ast) (N : List Ast) (K : List Sym) :
    ∃ l', PSteps ⟨l, s ++ rest, x :: N, .quantifierMod .greedy lo hi :: K⟩ ⟨l', rest, .rep m lo hi x :: N, K⟩ := by
  cases hs with
  | greedy =>
    have h1 : rest.head? ≠ some (ch '?') := fun h => hf _ h (by simp [txt])
    have h2 : rest.head? ≠ some (ch '+') := fun h => hf _ h (by simp [txt])
    exact ⟨l, .step (step_push (by nofun) (by simp [rule, h1, h2]; rfl)) (.step rfl (.refl _))⟩
  | lazy => exact ⟨_, .step (step_advance (by nofun) (by simp [rule]; rfl)) (.step rfl (.refl _))⟩
  | possessive => exact ⟨_, .step (step_advance (by nofun) (by simp [rule]; rfl)) (.step rfl (.refl _))⟩

theorem steps_quantText {q : List Byte} {lo : Nat} {hi : Bound} (hq : Quant q lo hi) (l : Option Byte) (r : List Byte) (x : Ast) (N : List Ast) (K : List Sym) :
    ∃ l', PSteps ⟨l, q ++ r, x :: N, .mod :: K⟩ ⟨l', r, x :: N, .quantifierMod .greedy lo hi :: K⟩ := by
  cases hq with
  | star => exact ⟨_, .one rfl⟩
  | plus => exact ⟨_, .one rfl⟩
  | opt => exact ⟨_, .one rfl⟩
  | @exact w n hn =>
    obtain ⟨l1, h1⟩ := steps_firstNumeral hn (some (ch '{')) (txt "}" ++ r) (x :: N) K
    refine ⟨_, .step (c' := ⟨some (ch '{'), w ++ (txt "}" ++ r), x :: N, .quantifierBegin :: K⟩) ?_ (h1.trans (.one rfl))⟩
    rw [List.append_assoc, List.append_assoc]; rfl
  | @atLeast w n hn =>
    obtain ⟨l1, h1⟩ := steps_firstNumeral hn (some (ch '{')) (txt ",}" ++ r) (x :: N) K
    refine ⟨_, .step (c' := ⟨some (ch '{'), w ++ (txt ",}" ++ r), x :: N, .quantifierBegin :: K⟩) ?_ (h1.trans (.step rfl (.one rfl)))⟩
    rw [List.append_assoc, List.append_assoc]; rfl
  | @between w n v k hn hm =>
    obtain ⟨l1, h1⟩ := steps_firstNumeral hn (some (ch '{')) (txt "," ++ (v ++ (txt "}" ++ r))) (x :: N) K
    obtain ⟨l2, h2⟩ := steps_secondNumeral hm lo (some (ch ',')) (txt "}" ++ r) (x :: N) K
    refine ⟨_, .step (c' := ⟨some (ch '{'), w ++ (txt "," ++ (v ++ (txt "}" ++ r))), x :: N, .quantifierBegin :: K⟩) ?_ (h1.trans (.step rfl (h2.trans (.one rfl))))⟩
    simp only [List.append_assoc]; rfl

theorem steps_quant {q s : List Byte} {lo : Nat} {hi : Bound} {m : Mode} (hq : Quant q lo hi) (hs : Suffix s m) {rest : List Byte} (hf : NoQuant rest.head?) (l : Option Byte) (x : Ast)
    (N : List Ast) (K : List Sym) : ∃ l', PSteps ⟨l, q ++ s ++ rest, x :: N, .mod :: K⟩ ⟨l', rest, .rep m lo hi x :: N, K⟩ := by
  rw [List.append_assoc]
  obtain ⟨l1, h1⟩ := steps_quantText hq l (s ++ rest) x N K
  obtain ⟨l2, h2⟩ := steps_suffix hs hf lo hi l1 x N K
  exact ⟨l2, h1.trans h2⟩

/-! ## Escapes -/

/-- The value of a hexadecimal digit, as it is computed. -/
theorem hexDigit_value {h : Byte} {v : Nat} (hd : HexDigit h v) :
    isHexdigit h = true ∧ (if isDigit h then h - ch '0' else 10#8 + setLowercaseBit h - ch 'a') = BitVec.ofNat 8 v ∧ v < 16 := by
  have key : ∀ h : Byte, HexDigit h (h.toNat - 48) ∧ 48 ≤ h.toNat ∧ h.toNat ≤ 57 ∨ HexDigit h (h.toNat - 55) ∧ 65 ≤ h.toNat ∧ h.toNat ≤ 70 ∨ HexDigit h (h.toNat - 87) ∧ 97 ≤ h.toNat ∧ h.toNat ≤ 102 ∨
      ¬(48 ≤ h.toNat ∧ h.toNat ≤ 57 ∨ 65 ≤ h.toNat ∧ h.toNat ≤ 70 ∨ 97 ≤ h.toNat ∧ h.toNat ≤ 102) := by unfold HexDigit; decide +kernel
  have k1 : ∀ h : Byte, 48 ≤ h.toNat → h.toNat ≤ 57 → isHexdigit h = true ∧ (if isDigit h then h - ch '0' else 10#8 + setLowercaseBit h - ch 'a') = BitVec.ofNat 8 (h.toNat - 48) := by decide +kernel
  have k2 : ∀ h : Byte, 65 ≤ h.toNat → h.toNat ≤ 70 → isHexdigit h = true ∧ (if isDigit h then h - ch '0' else 10#8 + setLowercaseBit h - ch 'a') = BitVec.ofNat 8 (h.toNat - 55) := by decide +kernel
  have k3 : ∀ h : Byte, 97 ≤ h.toNat → h.toNat ≤ 102 → isHexdigit h = true ∧ (if isDigit h then h - ch '0' else 10#8 + setLowercaseBit h - ch 'a') = BitVec.ofNat 8 (h.toNat - 87) := by decide +kernel
  rcases hd with ⟨h1, h2, rfl⟩ | ⟨h1, h2, rfl⟩ | ⟨h1, h2, rfl⟩
  · exact ⟨(k1 h h1 h2).1, (k1 h h1 h2).2, by omega⟩
  · exact ⟨(k2 h h1 h2).1, (k2 h h1 h2).2, by omega⟩
  · exact ⟨(k3 h h1 h2).1, (k3 h h1 h2).2, by omega⟩

theorem steps_hex {h h' : Byte} {v v' : Nat} (hv : HexDigit h v) (hv' : HexDigit h' v') (l : Option Byte) (rest : List Byte) (N : List Ast) (K : List Sym) :
    ∃ l', PSteps ⟨l, h :: h' :: rest, N, .hexEscSeq [] :: K⟩ ⟨l', rest, .lit (BitVec.ofNat 8 (16 * v + v')) :: N, K⟩ := by
  obtain ⟨a1, a2, a3⟩ := hexDigit_value hv
  obtain ⟨b1, b2, b3⟩ := hexDigit_value hv'
  refine ⟨some h', .step (step_advance (by nofun) (L := [.hexEscSeq [BitVec.ofNat 8 v]]) ?_) (.step (step_advance (by nofun) (L := [.hexEscSeq [BitVec.ofNat 8 v, BitVec.ofNat 8 v']]) ?_)
    (.step (step_push (by nofun) (L := [.act (.pushLiteral (BitVec.ofNat 8 v * 16#8 + BitVec.ofNat 8 v'))]) ?_) (.one ?_)))⟩
  · simp [rule, continueHexEscapeSequence, a1, a2]
  · simp [rule, continueHexEscapeSequence, b1, b2]
  · simp [rule, continueHexEscapeSequence]
  · have : BitVec.ofNat 8 v * 16#8 + BitVec.ofNat 8 v' = BitVec.ofNat 8 (16 * v + v') := by
      apply BitVec.eq_of_toNat_eq
      simp
      omega
    rw [this]
    rfl

theorem rule_ctrl : ∀ p ∈ controls, handleEscapeSequence p.1 = .advance [.act (.pushLiteral p.2)] := by decide +kernel
theorem rule_ctrl_set : ∀ p ∈ controls, handleSetEscapeSequence p.1 = .advance [.act (.pushLiteral p.2)] := by decide +kernel
theorem rule_ctrl_range : ∀ p ∈ controls, handleSetRangeEscapeSequence p.1 = .advance [.act (.pushLiteral p.2)] := by decide +kernel
theorem rule_self : ∀ c : Byte, c ∉ reserved → handleEscapeSequence c = .advance [.act .makeLiteral] := by decide +kernel
theorem rule_self_set : ∀ c : Byte, c ∉ reservedInSet → handleSetEscapeSequence c = .advance [.act .makeLiteral] := by decide +kernel
theorem rule_self_range : ∀ c : Byte, c ∉ reservedInSet → handleSetRangeEscapeSequence c = .advance [.act .makeLiteral] := by decide +kernel

/-- The actions of a class escape. -/
def classActions : List (Byte × List Action × Ast) :=
  [(ch 'd', [.makeDigit], digit), (ch 'D', [.makeDigit, .makeNegated], .neg digit), (ch 'w', [.makeWord], word), (ch 'W', [.makeWord, .makeNegated], .neg word),
   (ch 's', [.makeWhitespace], whitespace), (ch 'S', [.makeWhitespace, .makeNegated], .neg whitespace),
   (ch 'R', [.makeLinebreak], linebreak), (ch 'N', [.makeLinebreak, .makeNegated], .neg linebreak)]

theorem steps_class {e : Byte} {x : Ast} (h : (e, x) ∈ classes) (l : Option Byte) (rest : List Byte) (N : List Ast) (K : List Sym) :
    ∃ l', PSteps ⟨l, e :: rest, N, .esc :: K⟩ ⟨l', rest, x :: N, K⟩ := by
  simp only [classes, List.mem_cons, Prod.mk.injEq, List.not_mem_nil, or_false] at h
  rcases h with ⟨rfl, rfl⟩ | ⟨rfl, rfl⟩ | ⟨rfl, rfl⟩ | ⟨rfl, rfl⟩ | ⟨rfl, rfl⟩ | ⟨rfl, rfl⟩ | ⟨rfl, rfl⟩ | ⟨rfl, rfl⟩
  all_goals first
    | exact ⟨_, .step rfl (.step rfl (.refl _))⟩
    | exact ⟨_, .step rfl (.step rfl (.step rfl (.refl _)))⟩

theorem steps_class_set {e : Byte} {x : Ast} (h : (e, x) ∈ classes) (l : Option Byte) (rest : List Byte) (N : List Ast) (K : List Sym) :
    ∃ l', PSteps ⟨l, e :: rest, N, .setEsc :: K⟩ ⟨l', rest, x :: N, K⟩ := by
  simp only [classes, List.mem_cons, Prod.mk.injEq, List.not_mem_nil, or_false] at h
  rcases h with ⟨rfl, rfl⟩ | ⟨rfl, rfl⟩ | ⟨rfl, rfl⟩ | ⟨rfl, rfl⟩ | ⟨rfl, rfl⟩ | ⟨rfl, rfl⟩ | ⟨rfl, rfl⟩ | ⟨rfl, rfl⟩
  all_goals first
    | exact ⟨_, .step rfl (.step rfl (.refl _))⟩
    | exact ⟨_, .step rfl (.step rfl (.step rfl (.refl _)))⟩

theorem steps_assertion {e : Byte} {x : Ast} (h : (e, x) ∈ assertions) (l : Option Byte) (rest : List Byte) (N : List Ast) (K : List Sym) (hf : NoQuant rest.head?) :
    ∃ l', PSteps ⟨l, e :: rest, N, .esc :: .mod :: K⟩ ⟨l', rest, x :: N, K⟩ := by
  have hu : rule (some .unquantifiable) rest.head? = .ignore := by
    cases hr : rest.head? with
    | none => rfl
    | some c =>
      have := hf c hr
      have : c ≠ ch '*' ∧ c ≠ ch '+' ∧ c ≠ ch '?' ∧ c ≠ ch '{' := by simpa [txt] using this
      simp [rule, this]
  have key : ∀ l x, PSteps ⟨l, rest, x :: N, .unquantifiable :: .mod :: K⟩ ⟨l, rest, x :: N, K⟩ :=
    fun l x => .step (step_ignore (by nofun) hu) (.one (step_ignore (by nofun) (step_mod_none hf)))
  simp only [assertions, List.mem_cons, Prod.mk.injEq, List.not_mem_nil, or_false] at h
  rcases h with ⟨rfl, rfl⟩ | ⟨rfl, rfl⟩ | ⟨rfl, rfl⟩ | ⟨rfl, rfl⟩
  all_goals first
    | exact ⟨_, .step rfl (.step rfl (key _ _))⟩
    | exact ⟨_, .step rfl (.step rfl (.step rfl (key _ _)))⟩

theorem steps_litEsc {w : List Byte} {c : Byte} (h : LitEsc w c) : ∃ w', w = ch '\\' :: w' ∧ ∀ (l : Option Byte) (rest : List Byte) (N : List Ast) (K : List Sym),
    ∃ l', PSteps ⟨l, w' ++ rest, N, .esc :: K⟩ ⟨l', rest, .lit c :: N, K⟩ := by
  cases h with
  | @ctrl e c h => exact ⟨[e], rfl, fun l rest N K => ⟨_, .step (step_advance (by nofun) (rule_ctrl _ h)) (.one rfl)⟩⟩
  | hex hv hv' =>
    refine ⟨[_, _, _], rfl, fun l rest N K => ?_⟩
    obtain ⟨l', h⟩ := steps_hex hv hv' (some (ch 'x')) rest N K
    exact ⟨_, .step rfl h⟩
  | self h => exact ⟨[c], rfl, fun l rest N K => ⟨_, .step (step_advance (by nofun) (rule_self _ h)) (.one rfl)⟩⟩

theorem steps_setLitEsc {w : List Byte} {c : Byte} (h : SetLitEsc w c) : ∃ w', w = ch '\\' :: w' ∧ ∀ (l : Option Byte) (rest : List Byte) (N : List Ast) (K : List Sym),
    (∃ l', PSteps ⟨l, w' ++ rest, N, .setEsc :: K⟩ ⟨l', rest, .lit c :: N, K⟩) ∧ (∃ l', PSteps ⟨l, w' ++ rest, N, .setRangeEsc :: K⟩ ⟨l', rest, .lit c :: N, K⟩) := by
  cases h with
  | @ctrl e c h => exact ⟨[e], rfl, fun l rest N K => ⟨⟨_, .step (step_advance (by nofun) (rule_ctrl_set _ h)) (.one rfl)⟩, ⟨_, .step (step_advance (by nofun) (rule_ctrl_range _ h)) (.one rfl)⟩⟩⟩
  | hex hv hv' =>
    refine ⟨[_, _, _], rfl, fun l rest N K => ?_⟩
    obtain ⟨l', h⟩ := steps_hex hv hv' (some (ch 'x')) rest N K
    exact ⟨⟨_, .step rfl h⟩, ⟨_, .step rfl h⟩⟩
  | backspace => exact ⟨[_], rfl, fun l rest N K => ⟨⟨_, .step rfl (.one rfl)⟩, ⟨_, .step rfl (.one rfl)⟩⟩⟩
  | self h => exact ⟨[c], rfl, fun l rest N K => ⟨⟨_, .step (step_advance (by nofun) (rule_self_set _ h)) (.one rfl)⟩, ⟨_, .step (step_advance (by nofun) (rule_self_range _ h)) (.one rfl)⟩⟩⟩

end Mregex
