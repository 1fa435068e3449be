import Verif.Proof.Expressions
import Verif.Proof.Preference
import Verif.Proof.OkCheck
import Verif.Props.Language

/-!
# Expressions mean what they say

The expression-based API builds trees out of C++ expressions.  `Spec/Expressions` gives the meaning of the expressions themselves.
-/

namespace Mregex
open Ast Spec Xpr

/-! ## C58 -/

/-- **C58**: exactly the well-formed expressions compile. -/
theorem C58_compiles (e : Expr) : (∃ R, eval e = some R) ↔ WellFormed e := by
  rw [← eval_isSome, Option.isSome_iff_exists]

/-- **C58**: the regex has the flags that were added last, in the order of adding. -/
theorem C58_flags {e : Expr} {R : Regex} (h : eval e = some R) : R.flags = flagsOf e := (eval_facts e R h).flags

/-- **C58**: the groups of the regex are the written ones, in the order of writing. -/
theorem C58_groups {e : Expr} {R : Regex} (h : eval e = some R) :
    nameSpec R.ast = groupsOf e ∧ captureCount R.ast = (groupsOf e).length := by
  have h1 := (eval_facts e R h).names
  exact ⟨h1, by rw [← h1, length_nameSpec]⟩

/-- **C58**: what the tree describes is what the expression means, part of the input by part of the input. -/
theorem C58_means {e : Expr} {R : Regex} (h : eval e = some R) (f : Flags) (s : List Byte) (i j : Nat) :
    Matches f s R.ast i j ↔ Means f s e i j := by rw [(eval_facts e R h).means]

/-- **C58**: the verdicts of the methods are given by the meaning of the expression. -/
theorem C58_language {e : Expr} {R : Regex} (h : eval e = some R) {cat : Cat} (hR : R.Ok cat) (hd : declarative R.ast = true) (s : List Byte) :
    (∃ res, R.match s cat = some res ∧ (res.matched = true ↔ Means (Flags.ofList (flagsOf e)) s e 0 s.length)) ∧
    (∃ res, R.matchPrefix s cat = some res ∧ (res.matched = true ↔ ∃ j, Means (Flags.ofList (flagsOf e)) s e 0 j)) ∧
    (∃ res, R.search s cat = some res ∧ (res.matched = true ↔ ∃ i j, i ≤ s.length ∧ Means (Flags.ofList (flagsOf e)) s e i j)) := by
  have hm := (eval_facts e R h).means
  have hf : Flags.ofList (flagsOf e) = R.fl := by rw [← C58_flags h, Regex.fl]
  rw [hf]
  obtain ⟨r₁, h1, h1'⟩ := C02_match_language R cat hR hd s
  obtain ⟨r₂, h2, h2', _⟩ := C03_matchPrefix_language R cat hR hd s
  obtain ⟨r₃, h3, h3', _⟩ := C04_search_leftmost R cat hR hd s
  simp only [hm] at h1' h2' h3'
  exact ⟨⟨r₁, h1, h1'⟩, ⟨r₂, h2, h2'⟩, ⟨r₃, h3, h3'⟩⟩

/-- **C58**: the ends that the tree prefers are those that the expression prefers, in this order; possessive repetitions, atomic groups and tests included. -/
theorem C58_order {e : Expr} {R : Regex} (h : eval e = some R) {cat : Cat} (hR : R.Ok cat) (f : Flags) (s : List Byte) (fwd inv : Bool) (p : Nat) :
    ends f s R.ast fwd inv p = prefs f s e fwd inv p := by
  rw [eval_prefs f s e R h (wf_of_ok (hR s))]

/-- **C58**: which match is reported is given by the preference of the expression, if there are no references. -/
theorem C58_preferred {e : Expr} {R : Regex} (h : eval e = some R) {cat : Cat} (hR : R.Ok cat) (hb : noBackref R.ast = true) (s : List Byte) :
    (∃ res, R.match s cat = some res ∧ (res.matched = true ↔ s.length ∈ prefs (Flags.ofList (flagsOf e)) s e true false 0)) ∧
    (∃ res, R.matchPrefix s cat = some res ∧
      (res.matched = true → ∃ j, (prefs (Flags.ofList (flagsOf e)) s e true false 0).head? = some j ∧ res.group 0 = some (some (0, j))) ∧
      (res.matched = false → prefs (Flags.ofList (flagsOf e)) s e true false 0 = [])) ∧
    (∃ res, R.search s cat = some res ∧
      (res.matched = true → ∃ i j, i ≤ s.length ∧ (prefs (Flags.ofList (flagsOf e)) s e true false i).head? = some j ∧ res.group 0 = some (some (i, j)) ∧
        ∀ i', i' < i → prefs (Flags.ofList (flagsOf e)) s e true false i' = []) ∧
      (res.matched = false → ∀ i, i ≤ s.length → prefs (Flags.ofList (flagsOf e)) s e true false i = [])) := by
  have hf : Flags.ofList (flagsOf e) = R.fl := by rw [← C58_flags h, Regex.fl]
  simp only [hf, ← C58_order h hR]
  refine ⟨?_, ?_, ?_⟩
  · obtain ⟨res, c', h1, h2, _⟩ := C06_match R cat hR hb s 0 (Nat.zero_le _) _ (length_init _)
    exact ⟨⟨c', res.matched⟩, by simp only [Regex.match, Regex.invoke, h1], h2⟩
  · have h := Regex.prefix_view (s := s) (fun _ h => h) hR hb capStable_len (Nat.zero_le _) (length_init R.names)
    rcases h.elim with ⟨q, c', h1, h2⟩ | ⟨q, c', h1, h2⟩
    · refine ⟨⟨c'.set 0 (some (0, q)), true⟩, ?_, fun _ => ⟨q, h2.1, ?_⟩, fun h => by cases h⟩
      · simp only [Regex.matchPrefix, Regex.invoke, Method.invoke, prefixMethod, h1, setGroup0]
      · simp [Result.group, h2.2, Regex.names]
    · refine ⟨⟨c'.set 0 (some (0, q)), false⟩, ?_, (fun h => by cases h), fun _ => List.head?_eq_none_iff.1 h2.1⟩
      simp only [Regex.matchPrefix, Regex.invoke, Method.invoke, prefixMethod, h1, setGroup0]
  · obtain ⟨res, c', h1, h2, h3⟩ := C06_search R cat hR hb s 0 (Nat.zero_le _) _ (length_init R.names)
    refine ⟨⟨c', res.matched⟩, by simp only [Regex.search, Regex.invoke, h1], fun h => ?_, fun h i hi => h3 h i (Nat.zero_le _) hi⟩
    obtain ⟨i, _, hi, h5, h4, h6⟩ := h2 h
    exact ⟨i, res.pos, hi, h4, h5, fun i' hi' => h6 i' (Nat.zero_le _) hi'⟩

/-- `maybe<lazy>(chr<'a'>)` prefers to stop. -/
example : ∃ R, eval (.maybe .lazy [.chr (ch 'a')]) = some R ∧ R.Ok .randomAccess ∧ noBackref R.ast = true ∧
    R.matchPrefix [ch 'a'] = some ⟨[some (0, 0)], true⟩ :=
  ⟨⟨.rep .lazy 0 (.fin 1) (.lit (ch 'a')), []⟩, by simp [eval, operands, packed, maybe, between, pack, toRegex, node, chr], Regex.ok_of_okb (by decide), rfl, by decide⟩

/-- **C58**: `>>` and `|` are associative, and chains of them are the functions of many arguments: the types are the same. -/
theorem C58_assoc (e₁ e₂ e₃ : Expr) :
    eval (.shiftRight (.shiftRight e₁ e₂) e₃) = eval (.concat [e₁, e₂, e₃]) ∧ eval (.shiftRight e₁ (.shiftRight e₂ e₃)) = eval (.concat [e₁, e₂, e₃]) ∧
    eval (.bitOr (.bitOr e₁ e₂) e₃) = eval (.either [e₁, e₂, e₃]) ∧ eval (.bitOr e₁ (.bitOr e₂ e₃)) = eval (.either [e₁, e₂, e₃]) := by
  simp only [eval, operands, shiftRight, bitOr]
  cases h1 : (eval e₁).bind node with
  | none => simp
  | some a =>
    cases h2 : (eval e₂).bind node with
    | none => simp
    | some b =>
      cases h3 : (eval e₃).bind node with
      | none =>
        simp only [Option.bind_some, Option.map_some, concat_eq, either_eq, node, toRegex, if_true, Option.bind_none, Option.map_none, and_self]
      | some c =>
        simp only [Option.bind_some, Option.map_some, concat_eq, either_eq, node, toRegex, if_true]
        simp [seqParts, altParts]

/-- `str<"ab"> >> (digit | regex<"x+">)`, with the flag `icase`. -/
def exExpr : Expr := .addFlags [.icase] (.shiftRight (.str [ch 'a', ch 'b']) (.bitOr (.term .digit) (.regex [ch 'x', ch '+'])))

theorem exExpr_eval : eval exExpr = some ⟨.seq [.lit (ch 'a'), .lit (ch 'b'), .alt [digit, plus (.lit (ch 'x'))]], [.icase]⟩ := by
  have hp : parse [ch 'x', ch '+'] = .result (plus (.lit (ch 'x'))) .success := rfl
  simp [exExpr, eval, hp, bitOr, shiftRight, either_eq, concat_eq, node, toRegex, str, Terminal.node, seqParts, altParts, digit, plus]

example : WellFormed exExpr := (C58_compiles _).1 ⟨_, exExpr_eval⟩

example : ¬ WellFormed (.star exExpr) := by simp [WellFormed, exExpr, flagsOf]

example : ∃ res, (⟨.seq [.lit (ch 'a'), .lit (ch 'b'), .alt [digit, plus (.lit (ch 'x'))]], [.icase]⟩ : Regex).match
    [ch 'A', ch 'b', ch 'X', ch 'x'] = some res ∧
    (res.matched = true ↔ Means (Flags.ofList [.icase]) [ch 'A', ch 'b', ch 'X', ch 'x'] exExpr 0 4) :=
  (C58_language exExpr_eval (Regex.ok_of_okb (by decide)) (by decide) [ch 'A', ch 'b', ch 'X', ch 'x']).1

example : (⟨.seq [.lit (ch 'a'), .lit (ch 'b'), .alt [digit, plus (.lit (ch 'x'))]], [.icase]⟩ : Regex).match
    [ch 'A', ch 'b', ch 'X', ch 'x'] = some ⟨[some (0, 4)], true⟩ := by decide

end Mregex
