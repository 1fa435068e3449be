import Verif.Proof.SyntaxSound
import Verif.Spec.Escape

/-!
# How texts are read
-/

namespace Mregex
open Ast Spec

/-- A sequence of parts, without a node around a single one. -/
def joinAst : List Ast → Ast
  | [a] => a
  | l => .seq (l.flatMap seqParts)

theorem seqParts_joinAst (l : List Ast) : seqParts (joinAst l) = l.flatMap seqParts := by
  match l with
  | [] => rfl
  | [a] => simp [joinAst]
  | a :: b :: l => rfl

theorem catAst_joinAst {l : List Ast} (hl : l ≠ []) (a : Ast) : catAst (joinAst l) a = joinAst (l ++ [a]) := by
  unfold catAst
  rw [seqParts_joinAst]
  match l, hl with
  | b :: l, _ =>
    cases l with
    | nil => simp [joinAst]
    | cons => simp [joinAst]

theorem noQuant_none : NoQuant none := by intro c h; cases h

/-- Parts one after the other. -/
theorem reads_items (l : List (List Byte × Ast)) (hl : l ≠ [])
    (h : ∀ p ∈ l, p.1 ≠ [] ∧ NoQuant p.1.head? ∧ ∀ f, NoQuant f → Reads (.item false) p.1 f p.2) (f : Option Byte) (hf : NoQuant f) :
    Reads (.seq none) (l.flatMap Prod.fst) f (joinAst (l.map Prod.snd)) := by
  generalize hn : l.length = n
  induction n generalizing l f with
  | zero => exact absurd (List.length_eq_zero_iff.1 hn) hl
  | succ n ih =>
    have hdl : l.dropLast ++ [l.getLast hl] = l := List.dropLast_concat_getLast hl
    generalize hd : l.dropLast = d at hdl
    generalize hp : l.getLast hl = p at hdl
    subst hdl
    have h3 := h p (by simp)
    cases d with
    | nil =>
      simp only [List.nil_append, List.flatMap_cons, List.flatMap_nil, List.append_nil, List.map_cons, List.map_nil]
      exact .one (h3.2.2 f hf)
    | cons q d =>
      have := ih (q :: d) (by simp) (fun p hp => h p (List.mem_append_left _ hp)) p.1.head? h3.2.1 (by simpa using hn)
      rw [List.flatMap_append, List.map_append]
      simp only [List.flatMap_cons, List.flatMap_nil, List.append_nil, List.map_cons, List.map_nil]
      have hc := catAst_joinAst (l := q.2 :: d.map Prod.snd) (by simp) p.2
      rw [← hc]
      exact .more this (h3.2.2 f hf)

/-- What can stand at the end of a pattern can stand at the end of a group. -/
theorem reads_inGroup {c : Spec.Cat} {w : List Byte} {f : Option Byte} {x : Ast} (h : Reads c w f x) (hf : f = none) : Reads c w (some (ch ')')) x := by
  have hq : NoQuant (some (ch ')')) := by intro c h; cases h; decide
  have hd : ∀ c, some (ch ')') = some c → ¬DecDigit c := by intro c h; cases h; unfold DecDigit; decide
  induction h with
  | plain h => exact .plain h
  | dot => exact .dot
  | esc h => exact .esc h
  | cls h => exact .cls h
  | set h => exact .set h
  | backref h h0 _ => exact .backref h h0 hd
  | namedBackref h => exact .namedBackref h
  | emptyGroup h => exact .emptyGroup h
  | group h h' _ => exact .group h h'
  | brace _ => exact .brace hd
  | bare h _ ih => exact .bare (ih hf) hq
  | quant h hq' hs _ _ => exact .quant h hq' hs hq
  | bol _ => exact .bol hq
  | eol _ => exact .eol hq
  | assertion h _ => exact .assertion h hq
  | @braced b w x v y u z f h1 h2 h3 _ _ ih2 ih3 =>
    subst hf
    refine .braced h1 ?_ (ih3 rfl) (.inr rfl)
    cases u with
    | nil => exact ih2 rfl
    | cons a u => exact h2
  | start => exact .start
  | one _ ih => exact .one (ih hf)
  | more h _ _ ih => exact .more h (ih hf)
  | single _ ih => exact .single (ih hf)
  | or h _ _ ih => exact .or h (ih hf)

/-- A pattern in a group. -/
theorem reads_group {o w : List Byte} {g : Ast → Ast} {x : Ast} (ho : GroupOpen o g) (h : Pattern w x) (f : Option Byte) : Reads (.atom false) (o ++ w ++ txt ")") f (g x) := by
  cases h with
  | empty => simpa using Reads.emptyGroup ho
  | alts h => exact .group ho (reads_inGroup h rfl)

/-- A single part is a pattern. -/
theorem pattern_item {w : List Byte} {x : Ast} (h : Reads (.item false) w none x) : Pattern w x := .alts (.single (.one h))

theorem pattern_atom {w : List Byte} {x : Ast} (h : Reads (.atom false) w none x) : Pattern w x := pattern_item (.bare h noQuant_none)

/-! ## Strings of characters -/

theorem hexDigitOf_spec : ∀ v < 16, HexDigit (hexDigitOf v) v ∧ HexDigit (upperHexDigitOf v) v := by unfold HexDigit; decide +kernel

theorem litEsc_hexEscape (b : Byte) : LitEsc (hexEscape b) b := by
  have h1 := (hexDigitOf_spec (b.toNat / 16) (by have := b.isLt; omega)).1
  have h2 := (hexDigitOf_spec (b.toNat % 16) (by omega)).1
  have := LitEsc.hex h1 h2
  rw [show BitVec.ofNat 8 (16 * (b.toNat / 16) + b.toNat % 16) = b by rw [Nat.div_add_mod]; simp] at this
  exact this

theorem alnum_table : ∀ b : Byte, (Alnum b → b ∉ special ∧ b ∉ txt "*+?{") ∧ (¬Alnum b → b ∉ reserved) := by
  unfold Alnum; decide +kernel

theorem reads_backslashEscape (b : Byte) (f : Option Byte) : Reads (.atom false) (backslashEscape b) f (.lit b) := by
  unfold backslashEscape
  split
  · next h => exact .plain ((alnum_table b).1 h).1
  · next h => exact .esc (.self ((alnum_table b).2 h))

/-- The tree of a string of characters. -/
def strAst : List Byte → Ast
  | [] => .empty
  | [b] => .lit b
  | w => .seq (w.map .lit)

theorem strAst_eq {w : List Byte} (hw : w ≠ []) : joinAst (w.map .lit) = strAst w := by
  have : ∀ w : List Byte, (w.map Ast.lit).flatMap seqParts = w.map .lit := by
    intro w
    induction w with
    | nil => rfl
    | cons a w ih => simp [seqParts, ih]
  match w, hw with
  | [b], _ => rfl
  | a :: b :: w, _ =>
    show Ast.seq (((a :: b :: w).map Ast.lit).flatMap seqParts) = _
    rw [this]; rfl

theorem pattern_chars {enc : Byte → List Byte} (h : ∀ b f, Reads (.atom false) (enc b) f (.lit b)) (h0 : ∀ b, enc b ≠ [] ∧ NoQuant (enc b).head?) (w : List Byte) :
    Pattern (w.flatMap enc) (strAst w) := by
  cases hw : w with
  | nil => exact .empty
  | cons a v =>
    rw [← hw]
    have hne : w ≠ [] := by rw [hw]; simp
    have := reads_items (w.map fun b => (enc b, Ast.lit b)) (by simpa using hne) (by
      intro p hp
      obtain ⟨b, _, rfl⟩ := List.mem_map.1 hp
      exact ⟨(h0 b).1, (h0 b).2, fun f hf => .bare (h b f) hf⟩) none noQuant_none
    rw [List.map_map, List.flatMap_map] at this
    rw [show (Prod.snd ∘ fun b => (enc b, Ast.lit b)) = Ast.lit from rfl, strAst_eq hne] at this
    exact .alts (.single this)

theorem indexCaptures_strAst (w : List Byte) : indexCaptures (strAst w) = strAst w := by
  have : ∀ (w : List Byte) (o : Nat), indexSeq o (w.map Ast.lit) = w.map .lit := by
    intro w
    induction w with
    | nil => intro; rfl
    | cons a w ih => intro o; simp [indexSeq, index, ih]
  match w with
  | [] => rfl
  | [a] => rfl
  | a :: b :: w =>
    show Ast.seq (indexSeq 1 ((a :: b :: w).map Ast.lit)) = _
    rw [this]; rfl

end Mregex
