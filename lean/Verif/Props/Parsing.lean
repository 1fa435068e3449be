import Verif.Proof.ParsedLang
import Verif.Proof.SetSem
import Verif.Proof.Brace
import Verif.Proof.Numbering
import Verif.Proof.Named
import Verif.Proof.Printing

/-!
# The parser
-/

namespace Mregex
open Ast Spec

/-! ## C34 -/

/-- What can come of a pattern: a tree; a syntax error at a position of the pattern or its end; a program that is ill-formed (an undefined semantic action) -
this last one exactly when the pattern consists of openers of groups, the last of which asks for something to be done with the body of the group. -/
theorem C34_verdicts (pat : List Byte) :
    (∃ a, parse pat = .result a .success) ∨
    (∃ i, i ≤ pat.length ∧ parse pat = .result nothing (.syntaxError i)) ∨
    (parse pat = .illFormed ∧ ∃ os o, Openers os ∧ ActingOpener o ∧ pat = os ++ o) := parse_total pat

/-- The exception occurs. -/
theorem C34_illFormed_iff (pat : List Byte) : parse pat = .illFormed ↔ ∃ os o, Openers os ∧ ActingOpener o ∧ pat = os ++ o := by
  constructor
  · intro h
    rcases parse_total pat with ⟨a, h'⟩ | ⟨i, _, h'⟩ | ⟨_, h'⟩
    · rw [h] at h'; cases h'
    · rw [h] at h'; cases h'
    · exact h'
  · rintro ⟨os, o, h, h', rfl⟩
    exact parse_openers h h'

/-- A verdict is an accepted tree or an error at a position within the pattern. -/
def HasVerdict (pat : List Byte) : Prop :=
  (∃ a, parse pat = .result a .success) ∨ ∃ i, i ≤ pat.length ∧ parse pat = .result nothing (.syntaxError i)

/-- The property as stated is false: `(?=` gives no verdict. -/
theorem C34_false : ¬∀ pat, HasVerdict pat := by
  intro h
  have he : parse (txt "(?=") = .illFormed := parse_openers .nil .ahead
  rcases h (txt "(?=") with ⟨a, h⟩ | ⟨i, _, h⟩ <;> rw [he] at h <;> cases h

/-- The property for all other patterns.  Missing: the patterns of `C34_illFormed_iff`, for which it is false. -/
theorem C34_verdict_partial (pat : List Byte) (h : ¬∃ os o, Openers os ∧ ActingOpener o ∧ pat = os ++ o) : HasVerdict pat := by
  rcases parse_total pat with h' | h' | ⟨_, h'⟩
  · exact .inl h'
  · exact .inr h'
  · exact absurd h' h

/-- A pattern that ends with something else than one of these openers meets the hypothesis. -/
example : HasVerdict (txt "(?=a") := by
  refine C34_verdict_partial _ ?_
  rintro ⟨os, o, _, h, e⟩
  have hl : some (ch 'a') = o.getLast? := by
    have := congrArg List.getLast? e
    rw [List.getLast?_append] at this
    refine Eq.trans ?_ (this.trans ?_)
    · rfl
    · cases h <;> first | rfl | (rw [List.getLast?_append]; rfl)
  cases h <;> first | exact absurd hl (by decide) | (rw [List.getLast?_append] at hl; exact absurd hl (by simp [txt]; decide))

example : parse (txt "(a") = .result nothing (.syntaxError 2) := rfl
example : parse (txt "(a)") = .result (.cap 1 none (.lit (ch 'a'))) .success := rfl

/-! ## C35 -/

/-- **C35**, hexadecimal escapes: the string `w` written with one `\xHH` per character is accepted, and the regex matches exactly `w`
(with `icase`: the strings of the same length that agree with it character by character up to the case of letters). -/
theorem C35_hex (w : List Byte) : ∃ a, parse (w.flatMap hexEscape) = .result a .success ∧
    ∀ (fl : List RegexFlag) (cat : Cat) (s : List Byte), ∃ res, (Regex.mk a fl).match s cat = some res ∧
      (res.matched = true ↔ s.length = w.length ∧ ∀ (k : Nat) (x y : Byte), w[k]? = some x → s[k]? = some y → CharEq (Flags.ofList fl).icase x y) ∧
      (RegexFlag.icase ∉ fl → (res.matched = true ↔ s = w)) := by
  have h : Pattern (w.flatMap hexEscape) (strAst w) := pattern_chars (fun b f => .esc (litEsc_hexEscape b))
    (fun b => ⟨by simp [hexEscape], fun c h => by cases h; decide⟩) w
  exact ⟨_, parse_of_pattern h, fun fl cat s => by rw [indexCaptures_strAst]; exact strAst_match w fl cat s⟩

/-- **C35**, backslashes: the string `w` written with a backslash before each character that is no letter or digit is accepted, and the regex matches
exactly `w`. -/
theorem C35_backslash (w : List Byte) : ∃ a, parse (w.flatMap backslashEscape) = .result a .success ∧
    ∀ (fl : List RegexFlag) (cat : Cat) (s : List Byte), ∃ res, (Regex.mk a fl).match s cat = some res ∧
      (res.matched = true ↔ s.length = w.length ∧ ∀ (k : Nat) (x y : Byte), w[k]? = some x → s[k]? = some y → CharEq (Flags.ofList fl).icase x y) ∧
      (RegexFlag.icase ∉ fl → (res.matched = true ↔ s = w)) := by
  have h : Pattern (w.flatMap backslashEscape) (strAst w) := pattern_chars reads_backslashEscape
    (fun b => ⟨by unfold backslashEscape; split <;> simp, fun c h => by
      unfold backslashEscape at h
      split at h
      · next hb => cases h; exact ((alnum_table _).1 hb).2
      · cases h; decide⟩) w
  exact ⟨_, parse_of_pattern h, fun fl cat s => by rw [indexCaptures_strAst]; exact strAst_match w fl cat s⟩

example : (txt "a.b").flatMap hexEscape = txt "\\x61\\x2e\\x62" := by decide
example : (txt "a.b[1]*").flatMap backslashEscape = txt "a\\.b\\[1\\]\\*" := by decide
example : parse (txt "a\\.b") = .result (.seq [.lit (ch 'a'), .lit (ch '.'), .lit (ch 'b')]) .success := rfl

/-! ## C36 -/

/-- **C36**: the pattern written for a tree in normal form (whose groups carry the numbers the parser gives them) is parsed to this tree. -/
theorem C36_parse_print {a : Ast} (h : Normal a) (hi : indexCaptures a = a) : parse (print a) = .result a .success := by
  rw [parse_of_pattern (pattern_print h), show indexCaptures (strip a) = indexCaptures a from index_strip 1 a, hi]

/-- The same without the hypothesis about numbers: these are what the parser makes of them, everything else is given back. -/
theorem C36_any_numbers {a : Ast} (h : Normal a) : parse (print a) = .result (indexCaptures a) .success := by
  rw [parse_of_pattern (pattern_print h), show indexCaptures (strip a) = indexCaptures a from index_strip 1 a]

/-- The hypotheses of `C36_parse_print` describe exactly the trees that come out of the parser. -/
theorem C36_normal {w : List Byte} {a : Ast} (h : parse w = .result a .success) : Normal a ∧ indexCaptures a = a := by
  obtain ⟨x, hx, rfl⟩ := (parse_iff w a).1 h
  exact ⟨normal_index (normal_pattern hx) 1, index_index 1 1 x⟩

/-- Hence, for every pattern: parsing, printing and parsing again gives the same tree. -/
theorem C36_roundtrip {w : List Byte} {a : Ast} (h : parse w = .result a .success) : parse (print a) = .result a .success :=
  C36_parse_print (C36_normal h).1 (C36_normal h).2

/-- A tree with everything: alternation, groups, quantifiers, assertions, sets, references. -/
def printed : Ast := .alt [.lit (ch 'a'), .seq [.lit (ch 'b'), .rep .lazy 0 .inf (.cap 1 none (.alt [.lit (ch 'c'), .lit (ch 'd')])), .look .ahead (.neg (.set [.range (ch 'x') (ch 'z')])), .backref 1, .lit (ch '0'), .rep .greedy 2 (.fin 30) (.lit (ch '+'))]]
example : print printed = txt "a|b(c|d)*?(?=[^x-z])(?:\\1)0\\+{2,30}" := by decide +kernel
example : parse (txt "a|b(c|d)*?(?=[^x-z])(?:\\1)0\\+{2,30}") = .result printed .success := rfl
/-- Superfluous groups vanish. -/
example : (match parse (txt "(?:(?:a|b))|c|(?:(?:d|e)f)|(?:g|h)(?:(?>x){1}|y)") with | .result a _ => print a | _ => []) = txt "a|b|c|(?:d|e)f|(?:g|h)(?:(?>x){1}|y)" := by decide +kernel

/-! ## C52 -/

/-- **C52**: the parser accepts exactly the texts of the grammar `Spec.Pattern`, and gives the tree that the grammar assigns to them, with its groups numbered. -/
theorem C52_grammar (w : List Byte) (a : Ast) : parse w = .result a .success ↔ ∃ x, Pattern w x ∧ a = indexCaptures x := parse_iff w a

/-- **C52**: the grammar is unambiguous. -/
theorem C52_unambiguous {w : List Byte} {x y : Ast} (hx : Pattern w x) (hy : Pattern w y) : indexCaptures x = indexCaptures y := by
  have h1 := parse_of_pattern hx
  rw [parse_of_pattern hy] at h1
  injection h1 with h1
  exact h1.symm

/-- **C52**: every other text is a syntax error or (if it consists of openers of groups) an ill-formed program. -/
theorem C52_rejected (w : List Byte) (h : ¬∃ x, Pattern w x) : (∃ i, i ≤ w.length ∧ parse w = .result nothing (.syntaxError i)) ∨ parse w = .illFormed := by
  rcases parse_total w with ⟨a, h'⟩ | h' | ⟨h', _⟩
  · obtain ⟨x, hx, _⟩ := (parse_iff w a).1 h'
    exact absurd ⟨x, hx⟩ h
  · exact .inl h'
  · exact .inr h'

/-- `a(?:b|c)*` -/
example : Pattern (txt "a(?:b|c)*") (.seq [.lit (ch 'a'), .rep .greedy 0 .inf (.alt [.lit (ch 'b'), .lit (ch 'c')])]) := by
  have hb : Reads (.alts none) (txt "b|c") (some (ch ')')) (.alt [.lit (ch 'b'), .lit (ch 'c')]) :=
    .or (w := txt "b") (v := txt "c") (x := .lit (ch 'b')) (y := .lit (ch 'c')) (.single (.one (.bare (.plain (by decide)) (by intro c h; cases h; decide)))) (.one (.bare (.plain (by decide)) (by intro c h; cases h; decide)))
  exact .alts (.single (.more (w := txt "a") (v := txt "(?:b|c)*") (x := .lit (ch 'a')) (.one (.bare (.plain (by decide)) (by intro c h; cases h; decide)))
    (.quant (w := txt "(?:b|c)") (q := txt "*") (s := []) (.group .plain hb) .star .greedy noQuant_none)))
example : ¬∃ x, Pattern (txt "a**") x := by
  rintro ⟨x, hx⟩
  have := parse_of_pattern hx
  rw [show parse (txt "a**") = .result nothing (.syntaxError 2) from rfl] at this
  injection this with _ h
  cases h

/-! ## C37 -/

/-- **C37**: `\xHH` is the character with the number `HH`, whatever the case of the digits. -/
theorem C37_hex {h h' : Byte} {v v' : Nat} (hv : HexDigit h v) (hv' : HexDigit h' v') :
    parse [ch '\\', ch 'x', h, h'] = .result (.lit (BitVec.ofNat 8 (16 * v + v'))) .success :=
  parse_of_pattern (pattern_atom (.esc (.hex hv hv')))

/-- **C37**, in a set. -/
theorem C37_set {h h' : Byte} {v v' : Nat} (hv : HexDigit h v) (hv' : HexDigit h' v') :
    parse (txt "[" ++ [ch '\\', ch 'x', h, h'] ++ txt "]") = .result (.set [.lit (BitVec.ofNat 8 (16 * v + v'))]) .success :=
  parse_of_pattern (pattern_atom (.set (.pos (.plain (.char .nil (.esc (.hex hv hv')) (by simp [txt]))) (by simp; decide))))

/-- **C37**, as the ends of a range of a set. -/
theorem C37_range {h h' g g' : Byte} {v v' u u' : Nat} (hv : HexDigit h v) (hv' : HexDigit h' v') (hu : HexDigit g u) (hu' : HexDigit g' u') :
    parse (txt "[" ++ ([ch '\\', ch 'x', h, h'] ++ txt "-" ++ [ch '\\', ch 'x', g, g']) ++ txt "]") =
      .result (.set [.range (BitVec.ofNat 8 (16 * v + v')) (BitVec.ofNat 8 (16 * u + u'))]) .success :=
  parse_of_pattern (pattern_atom (.set (.pos (.plain (.range (.char .nil (.esc (.hex hv hv')) (by simp [txt])) (.esc (.hex hu hu')))) (by simp; decide))))

/-- **C37**, anywhere: wherever the parser reads what follows a backslash - outside sets, in a set, at the upper end of a range - it turns `xHH` into the literal. -/
theorem C37_anywhere {h h' : Byte} {v v' : Nat} (hv : HexDigit h v) (hv' : HexDigit h' v') (s : Sym) (hs : s = .esc ∨ s = .setEsc ∨ s = .setRangeEsc)
    (last : Option Byte) (rest : List Byte) (nodes : List Ast) (symbols : List Sym) :
    ∃ last', PSteps ⟨last, ch 'x' :: h :: h' :: rest, nodes, s :: symbols⟩ ⟨last', rest, .lit (BitVec.ofNat 8 (16 * v + v')) :: nodes, symbols⟩ := by
  rcases hs with rfl | rfl | rfl
  · obtain ⟨w', hw, h⟩ := steps_litEsc (.hex hv hv')
    cases hw
    exact h ..
  · obtain ⟨w', hw, h⟩ := steps_setLitEsc (.hex hv hv')
    cases hw
    exact (h last rest nodes symbols).1
  · obtain ⟨w', hw, h⟩ := steps_setLitEsc (.hex hv hv')
    cases hw
    exact (h last rest nodes symbols).2

/-- **C37**: every character can be written in this way, with digits of either case. -/
theorem C37_all (b : Byte) : ∃ h h' g g' v v', HexDigit h v ∧ HexDigit h' v' ∧ HexDigit g v ∧ HexDigit g' v' ∧
    (∀ x ∈ [h, h'], ¬(65 ≤ x.toNat ∧ x.toNat ≤ 70)) ∧ (∀ x ∈ [g, g'], ¬(97 ≤ x.toNat ∧ x.toNat ≤ 102)) ∧
    parse [ch '\\', ch 'x', h, h'] = .result (.lit b) .success ∧ parse [ch '\\', ch 'x', g, g'] = .result (.lit b) .success := by
  have h1 := hexDigitOf_spec (b.toNat / 16) (by have := b.isLt; omega)
  have h2 := hexDigitOf_spec (b.toNat % 16) (by omega)
  have hb : BitVec.ofNat 8 (16 * (b.toNat / 16) + b.toNat % 16) = b := by rw [Nat.div_add_mod]; simp
  refine ⟨_, _, _, _, _, _, h1.1, h2.1, h1.2, h2.2, ?_, ?_, ?_, ?_⟩
  · have := b.isLt
    have key : ∀ v < 16, ¬(65 ≤ (hexDigitOf v).toNat ∧ (hexDigitOf v).toNat ≤ 70) := by decide +kernel
    simp only [List.mem_cons, List.not_mem_nil, or_false, forall_eq_or_imp, forall_eq]
    exact ⟨key _ (by omega), key _ (by omega)⟩
  · have := b.isLt
    have key : ∀ v < 16, ¬(97 ≤ (upperHexDigitOf v).toNat ∧ (upperHexDigitOf v).toNat ≤ 102) := by decide +kernel
    simp only [List.mem_cons, List.not_mem_nil, or_false, forall_eq_or_imp, forall_eq]
    exact ⟨key _ (by omega), key _ (by omega)⟩
  · rw [C37_hex h1.1 h2.1, hb]
  · rw [C37_hex h1.2 h2.2, hb]

example : HexDigit (ch 'a') 10 ∧ HexDigit (ch 'F') 15 := by unfold HexDigit; decide
example : parse (txt "\\xaF") = .result (.lit 0xaf#8) .success := rfl

/-! ## C38 -/

/-- The tree of a quantified group, for a numeral `w` that is read as `n`. -/
theorem C38_modulo {p w v s : List Byte} {a : Ast} {m : Mode} (hp : parse p = .result a .success) (hw : w ≠ []) (hwd : ∀ d ∈ w, DecDigit d)
    (hv : v ≠ []) (hvd : ∀ d ∈ v, DecDigit d) (hs : Suffix s m) :
    parse (txt "(?:" ++ p ++ txt ")" ++ (txt "{" ++ w ++ txt "}") ++ s) = .result (.rep m (decimal w % 2 ^ 64) (.fin (decimal w % 2 ^ 64)) a) .success ∧
    parse (txt "(?:" ++ p ++ txt ")" ++ (txt "{" ++ w ++ txt ",}") ++ s) = .result (.rep m (decimal w % 2 ^ 64) .inf a) .success ∧
    parse (txt "(?:" ++ p ++ txt ")" ++ (txt "{" ++ w ++ txt "," ++ v ++ txt "}") ++ s) = .result (.rep m (decimal w % 2 ^ 64) (.fin (decimal v % 2 ^ 64)) a) .success := by
  obtain ⟨x, hx, rfl⟩ := (parse_iff p a).1 hp
  have hn : Numeral w _ := ⟨hw, hwd, rfl⟩
  have hm : Numeral v _ := ⟨hv, hvd, rfl⟩
  exact ⟨parse_of_pattern (pattern_item (.quant (reads_group .plain hx _) (.exact hn) hs noQuant_none)),
    parse_of_pattern (pattern_item (.quant (reads_group .plain hx _) (.atLeast hn) hs noQuant_none)),
    parse_of_pattern (pattern_item (.quant (reads_group .plain hx _) (.between hn hm) hs noQuant_none))⟩

/-- **C38** for quantifiers: the numerals denote their value.  Missing: values of `2 ^ 64` and above, for which it is false (`C38_false`). -/
theorem C38_quantifiers_partial {p w v s : List Byte} {a : Ast} {m : Mode} (hp : parse p = .result a .success) (hw : w ≠ []) (hwd : ∀ d ∈ w, DecDigit d) (hlt : decimal w < 2 ^ 64)
    (hv : v ≠ []) (hvd : ∀ d ∈ v, DecDigit d) (hlt' : decimal v < 2 ^ 64) (hs : Suffix s m) :
    parse (txt "(?:" ++ p ++ txt ")" ++ (txt "{" ++ w ++ txt "}") ++ s) = .result (.rep m (decimal w) (.fin (decimal w)) a) .success ∧
    parse (txt "(?:" ++ p ++ txt ")" ++ (txt "{" ++ w ++ txt ",}") ++ s) = .result (.rep m (decimal w) .inf a) .success ∧
    parse (txt "(?:" ++ p ++ txt ")" ++ (txt "{" ++ w ++ txt "," ++ v ++ txt "}") ++ s) = .result (.rep m (decimal w) (.fin (decimal v)) a) .success := by
  have := C38_modulo hp hw hwd hv hvd hs
  rwa [Nat.mod_eq_of_lt hlt, Nat.mod_eq_of_lt hlt'] at this

/-- **C38** for backreferences.  Missing: as above. -/
theorem C38_backrefs_partial {w : List Byte} (hw : w ≠ []) (hwd : ∀ d ∈ w, DecDigit d) (h0 : w.head? ≠ some (ch '0')) (hlt : decimal w < 2 ^ 64) :
    parse (ch '\\' :: w) = .result (.backref (decimal w)) .success ∧
    ∀ (last : Option Byte) (rest : List Byte) (nodes : List Ast) (symbols : List Sym), (∀ c, rest.head? = some c → ¬DecDigit c) →
      ∃ last', PSteps ⟨last, w ++ rest, nodes, .esc :: symbols⟩ ⟨last', rest, .backref (decimal w) :: nodes, symbols⟩ := by
  have hn : Numeral w (decimal w) := ⟨hw, hwd, (Nat.mod_eq_of_lt hlt).symm⟩
  exact ⟨parse_of_pattern (pattern_atom (.backref hn h0 (by simp))), fun last rest nodes symbols hr => steps_backref hn h0 last rest hr nodes symbols⟩

/-- The property as stated is false: `a{18446744073709551617}` is read as `a{1}`. -/
theorem C38_false : decimal (txt "18446744073709551617") = 2 ^ 64 + 1 ∧
    parse (txt "a{18446744073709551617}") = .result (.rep .greedy 1 (.fin 1) (.lit (ch 'a'))) .success := ⟨by decide, rfl⟩

example := C38_quantifiers_partial (p := txt "a|b") (w := txt "007") (v := txt "12") (s := txt "+") (m := .possessive) rfl (by decide) (by unfold DecDigit; decide) (by decide)
  (by decide) (by unfold DecDigit; decide) (by decide) .possessive
example : decimal (txt "007") = 7 ∧ decimal (txt "12") = 12 := by decide
example : parse (txt "(a)\\1b") = .result (.seq [.cap 1 none (.lit (ch 'a')), .backref 1, .lit (ch 'b')]) .success := rfl

/-! ## C39 -/

/-- **C39**, at the end of the pattern (`f = none`) or of a group (`f = some ')'`): if the text `q p w { u` consists of alternatives `q` (each closed by `|`; maybe none), a sequence
`p` (maybe empty), a part `w` that can be quantified, a brace and further parts `u` of the sequence, and the brace is not followed by a digit, then the text is read like
`q p w \{ u`.  Missing: alternatives after the brace (`C39_first_partial` has them in one case; otherwise it is false, see `C39_false`), a brace followed by a digit (a syntax error
if it starts no quantifier; documented), and a brace after something that can not be quantified (`C39_false_start`). -/
theorem C39_same_partial {q p w u : List Byte} {f : Option Byte} {x y : Ast} (hq : q = [] ∨ ∃ q' x0, q = q' ++ txt "|" ∧ Reads (.alts none) q' (some (ch '|')) x0)
    (hp : p = [] ∨ ∃ y, Reads (.seq none) p w.head? y) (hw : Reads (.atom false) w (some (ch '{')) x) (hd : ∀ c, follow u f = some c → ¬DecDigit c) (hf : AtEnd f)
    (hu : Reads (.seq none) (txt "\\{" ++ u) f y) :
    ∃ z, Reads (.alts none) (q ++ p ++ (w ++ txt "{" ++ u)) f z ∧ Reads (.alts none) (q ++ p ++ (w ++ txt "\\{" ++ u)) f z := by
  have hwn : w ≠ [] := brace_first.atom_ne_nil hw
  have hs := brace_as_escaped hw hd hf (seq_after hu x)
  have hs' : ∃ z, Reads (.seq none) (p ++ (w ++ txt "{" ++ u)) f z ∧ Reads (.seq none) (p ++ (w ++ txt "\\{" ++ u)) f z := by
    rcases hp with rfl | ⟨y', hp⟩
    · exact ⟨_, .one hs.1, hs.2⟩
    · have hh : ∀ t : List Byte, w.head? = follow (w ++ t) f := by
        intro t; rw [follow_append]; exact head?_eq_follow hwn _
      refine ⟨_, .more (by rw [List.append_assoc, head?_eq_follow (f := f) (by simp [hwn]), ← hh]; exact hp) hs.1, ?_⟩
      refine seq_compose ?_ (seq_after hs.2 y')
      rw [List.append_assoc, ← hh]; exact hp
  obtain ⟨z, h1, h2⟩ := hs'
  rcases hq with rfl | ⟨q', x0, rfl, hq⟩
  · exact ⟨z, by simpa using Reads.single h1, by simpa using Reads.single h2⟩
  · exact ⟨_, by simpa using Reads.or hq h1, by simpa using Reads.or hq h2⟩

/-- **C39**, the whole pattern.  Missing: as above. -/
theorem C39_pattern_partial {q p w u : List Byte} {x y : Ast} (hq : q = [] ∨ ∃ q' x0, q = q' ++ txt "|" ∧ Reads (.alts none) q' (some (ch '|')) x0)
    (hp : p = [] ∨ ∃ y, Reads (.seq none) p w.head? y) (hw : Reads (.atom false) w (some (ch '{')) x) (hd : ∀ c, u.head? = some c → ¬DecDigit c)
    (hu : Reads (.seq none) (txt "\\{" ++ u) none y) :
    ∃ a, parse (q ++ p ++ (w ++ txt "{" ++ u)) = .result a .success ∧ parse (q ++ p ++ (w ++ txt "\\{" ++ u)) = .result a .success := by
  obtain ⟨z, h1, h2⟩ := C39_same_partial hq hp hw (by simpa [follow] using hd) (.inl rfl) hu
  exact ⟨_, parse_of_pattern (.alts h1), parse_of_pattern (.alts h2)⟩

/-- **C39**, a brace in a group of any kind, whatever follows the group.  Missing: as above. -/
theorem C39_group_partial {o q p w u : List Byte} {g : Ast → Ast} {x y : Ast} (ho : GroupOpen o g)
    (hq : q = [] ∨ ∃ q' x0, q = q' ++ txt "|" ∧ Reads (.alts none) q' (some (ch '|')) x0)
    (hp : p = [] ∨ ∃ y, Reads (.seq none) p w.head? y) (hw : Reads (.atom false) w (some (ch '{')) x) (hd : ∀ c, u.head? = some c → ¬DecDigit c)
    (hu : Reads (.seq none) (txt "\\{" ++ u) (some (ch ')')) y) (f : Option Byte) :
    ∃ a, Reads (.atom false) (o ++ (q ++ p ++ (w ++ txt "{" ++ u)) ++ txt ")") f a ∧ Reads (.atom false) (o ++ (q ++ p ++ (w ++ txt "\\{" ++ u)) ++ txt ")") f a := by
  have hd' : ∀ c, follow u (some (ch ')')) = some c → ¬DecDigit c := by
    intro c hc
    cases u with
    | nil => cases hc; unfold DecDigit; decide
    | cons a u => exact hd c hc
  obtain ⟨z, h1, h2⟩ := C39_same_partial hq hp hw hd' (.inr rfl) hu
  exact ⟨_, .group ho h1, .group ho h2⟩

/-- **C39** for a brace after the first part of the pattern or of a group; here alternatives may follow.  Missing: as above. -/
theorem C39_first_partial {w u : List Byte} {f : Option Byte} {x y : Ast} (hw : Reads (.atom false) w (some (ch '{')) x) (hd : ∀ c, follow u f = some c → ¬DecDigit c) (hf : AtEnd f)
    (hu : Reads (.alts none) (txt "\\{" ++ u) f y) :
    ∃ z, Reads (.alts none) (w ++ txt "{" ++ u) f z ∧ Reads (.alts none) (w ++ txt "\\{" ++ u) f z ∧
      (f = none → ∃ a, parse (w ++ txt "{" ++ u) = .result a .success ∧ parse (w ++ txt "\\{" ++ u) = .result a .success) := by
  obtain ⟨z', h⟩ := alts_after hu x
  obtain ⟨h1, h2⟩ := brace_first hw hd hf h
  exact ⟨z', .single (.one h1), h2, fun h => by subst h; exact ⟨_, parse_of_pattern (.alts (.single (.one h1))), parse_of_pattern (.alts h2)⟩⟩

/-- `q|ba{+c` -/
example := C39_pattern_partial (q := txt "q|") (p := txt "b") (w := txt "a") (u := txt "+c") (.inr ⟨txt "q", _, rfl, .single (.one (.bare (.plain (by decide)) (by intro c h; cases h; decide)))⟩)
  (.inr ⟨_, .one (.bare (.plain (by decide)) (by intro c h; cases h; decide))⟩) (.plain (by decide)) (by intro c h; cases h; unfold DecDigit; decide)
  (.more (w := txt "\\{+") (v := txt "c") (.one (.quant (w := txt "\\{") (q := txt "+") (s := []) (.esc (.self (by decide))) .plus .greedy (by intro c h; cases h; decide)))
    (.bare (.plain (by decide)) noQuant_none))
/-- `a{x|c` -/
example := C39_first_partial (w := txt "a") (u := txt "x|c") (f := none) (.plain (by decide)) (by intro c h; cases h; unfold DecDigit; decide) (.inl rfl)
  (.or (w := txt "\\{x") (v := txt "c") (.single (.more (w := txt "\\{") (v := txt "x") (.one (.bare (.esc (.self (by decide))) (by intro c h; cases h; decide))) (.bare (.plain (by decide)) (by intro c h; cases h; decide))))
    (.one (.bare (.plain (by decide)) noQuant_none)))
/-- The three examples of the README. -/
example : parse (txt "a{") = .result (.seq [.lit (ch 'a'), .lit (ch '{')]) .success ∧
    parse (txt "a{+") = .result (.seq [.lit (ch 'a'), .rep .greedy 1 .inf (.lit (ch '{'))]) .success ∧ parse (txt "a{1+") = .result nothing (.syntaxError 3) := ⟨rfl, rfl, rfl⟩

/-- The property as stated is false: `ba{x|c` is read as `b(?:a\{x|c)`, so that it does not match `c`, while `ba\{x|c` does. -/
theorem C39_false : ∃ a b res res', parse (txt "ba{x|c") = .result a .success ∧ parse (txt "ba\\{x|c") = .result b .success ∧
    parse (txt "b(?:a\\{x|c)") = .result a .success ∧
    (Regex.mk a []).match (txt "c") = some res ∧ res.matched = false ∧ (Regex.mk b []).match (txt "c") = some res' ∧ res'.matched = true :=
  ⟨.seq [.lit (ch 'b'), .alt [.seq [.lit (ch 'a'), .lit (ch '{'), .lit (ch 'x')], .lit (ch 'c')]], .alt [.seq [.lit (ch 'b'), .lit (ch 'a'), .lit (ch '{'), .lit (ch 'x')], .lit (ch 'c')],
    ⟨[some (0, 0)], false⟩, ⟨[some (0, 1)], true⟩, rfl, rfl, rfl, by decide, rfl, by decide, rfl⟩

/-- The property as stated is false also for a brace at the beginning of a pattern, a group or an alternative, and after an anchor: this is a syntax error. -/
theorem C39_false_start : parse (txt "{") = .result nothing (.syntaxError 0) ∧ parse (txt "({)") = .result nothing (.syntaxError 1) ∧
    parse (txt "a|{") = .result nothing (.syntaxError 2) ∧ parse (txt "^{") = .result nothing (.syntaxError 1) ∧
    ∃ a, parse (txt "\\{") = .result a .success := ⟨rfl, rfl, rfl, rfl, _, rfl⟩

/-! ## C40 -/

/-- **C40**, `[items]`: the set takes one character, one that is contained in an item (with `icase`: one that is, up to the case of letters).  Missing: item lists with `\R-c` for a
character `c` (`SetContent` for `quirk = true`), for which it is false. -/
theorem C40_set_partial {w : List Byte} {P : Byte → Prop} (h : SetContent false w P) (h0 : w.head? ≠ some (ch '^')) :
    ∃ a, parse (txt "[" ++ w ++ txt "]") = .result a .success ∧ TakesOne a (fun i x => ∃ y, P y ∧ CharEq i y x) := by
  obtain ⟨l, h1, h2⟩ := setContent_read h
  exact ⟨_, (parse_of_pattern (pattern_atom (.set (.pos h1 h0)))).trans (by rw [(index_set h2).1]), h2.takesOne⟩

/-- **C40**, `[^items]`.  Missing: as above. -/
theorem C40_complement_partial {w : List Byte} {P : Byte → Prop} (h : SetContent false w P) :
    ∃ a, parse (txt "[^" ++ w ++ txt "]") = .result a .success ∧ TakesOne a (fun i x => ¬∃ y, P y ∧ CharEq i y x) := by
  obtain ⟨l, h1, h2⟩ := setContent_read h
  exact ⟨_, (parse_of_pattern (pattern_atom (.set (.neg h1)))).trans (by rw [(index_set h2).2]), h2.takesOne_neg⟩

/-- The empty set and its complement. -/
example := C40_set_partial (.plain .nil) (by simp)
example := C40_complement_partial (.plain .nil)
/-- `-.a-z\d` -/
theorem C40_example : ∃ P, SetContent false (txt "-.a-z\\d") P := by
  have h1 : ItemList false .char (txt "-.") _ := .char (v := txt ".") (c := ch '.') (.char (v := txt "-") (c := ch '-') .nil (.plain (by decide) (by decide)) (by simp)) (.plain (by decide) (by decide)) (by decide)
  have h2 : ItemList false .range (txt "-.a-z") _ := .range (u := txt "a") (a := ch 'a') (v := txt "z") (b := ch 'z') h1 (.plain (by decide) (by decide)) (by decide) (.plain (by decide) (by decide)) (by decide)
  exact ⟨_, .plain (.cls h2 .d)⟩

/-- The property as stated is false: the set `[\R-a]` contains the space, which is in none of its items, -/
theorem C40_false : ∃ P a res, SetContent true (txt "\\R-a") P ∧ ¬P (ch ' ') ∧ parse (txt "[\\R-a]") = .result a .success ∧
    (Regex.mk a []).match (txt " ") = some res ∧ res.matched = true :=
  ⟨_, _, _, .plain (.clsDash (w := []) (v := txt "a") (b := ch 'a') .nil .R (by simp) (.plain (by decide) (by decide))), by simp [LineBreak]; decide, rfl, rfl, rfl⟩

/-! ## C41 -/

/-- The groups of the tree are those of the opening parentheses, in the same order. -/
theorem C41_order {w : List Byte} {a : Ast} (h : parse w = .result a .success) : nameSpec a = openedGroups w ∧ (groupIds a).length = (openedGroups w).length := by
  obtain ⟨x, hx, rfl⟩ := (parse_iff w a).1 h
  have : nameSpec (indexCaptures x) = openedGroups w := by rw [openedGroups_pattern hx]; exact nameSpec_index 1 x
  exact ⟨this, by rw [← this, length_groupIds, length_nameSpec]⟩

/-- When the groups carry the numbers 1, 2, 3, ...: exactly when no two branches of an alternation have groups. -/
theorem C41_iff {w : List Byte} {a : Ast} (h : parse w = .result a .success) : groupIds a = List.range' 1 (openedGroups w).length ↔ soloBranches a = true := by
  obtain ⟨x, hx, rfl⟩ := (parse_iff w a).1 h
  rw [openedGroups_pattern hx, length_nameSpec, show indexCaptures x = index 1 x from rfl, groupIds_index, solo_index]

/-- **C41**: group `k` is the one with the `k`-th opening parenthesis.  Missing: regexes with two branches of an alternation that have groups, for which it is false. -/
theorem C41_partial {w : List Byte} {a : Ast} (h : parse w = .result a .success) (hs : soloBranches a = true) (k : Nat) (name : GroupName) :
    HasGroup a k name ↔ 1 ≤ k ∧ (openedGroups w)[k - 1]? = some name := by
  rw [hasGroup_iff, (C41_order h).1, (C41_iff h).2 hs]
  exact mem_zip_range

example : openedGroups (txt "(a(?<x>b))\\([(](?:c)|(?<!d)e") = [none, some (txt "x")] := by decide
example : ∃ a, parse (txt "(a(?<x>b))\\([(](?:c)|(?<!d)e") = .result a .success ∧ soloBranches a = true := ⟨_, rfl, by decide⟩

/-- The property as stated is false: both groups of `(a)|(b)` have the number 1, and group `d` of `(a)(?:(b)|(c))(d)` has the number 4 while there is no group 3. -/
theorem C41_false : (∃ a, parse (txt "(a)|(b)") = .result a .success ∧ (openedGroups (txt "(a)|(b)")).length = 2 ∧ groupIds a = [1, 1]) ∧
    ∃ a, parse (txt "(a)(?:(b)|(c))(d)") = .result a .success ∧ groupIds a = [1, 2, 2, 4] := ⟨⟨_, rfl, by decide, by decide⟩, _, rfl, by decide⟩

/-! ## C42 -/

/-- **C42**, results: looking a group up by its name or by its number is the same. -/
theorem C42_group (R : Regex) (cat : Cat) (hR : R.Ok cat) {k : Nat} {name : List Byte} (h : HasGroup R.ast k (some name)) (hu : R.ast.nameSpec.count (some name) = 1) (res : Result) :
    res.groupNamed R.names name = res.group k := by
  have hk : nameIndex R.names name = some k := nameIndex_eq (by simpa [Regex.names] using hu) (ok_name (hR []) h)
  simp [Result.groupNamed, hk, Result.group]

/-- **C42**, references: replacing references to the group by name with references by number changes no result of any method. -/
theorem C42_backref (R : Regex) (cat : Cat) (hR : R.Ok cat) {k : Nat} {name : List Byte} (h : HasGroup R.ast k (some name)) (hu : R.ast.nameSpec.count (some name) = 1)
    (M : Method) (s : List Byte) : (Regex.mk (byNumber name k R.ast) R.flags).invoke M cat s = R.invoke M cat s :=
  invoke_num (nameIndex_eq (by simpa [Regex.names] using hu) (ok_name (hR []) h)) M cat s

/-- **C42** for parsed patterns: the number is the number of the opening parenthesis. -/
theorem C42_parsed {w : List Byte} {a : Ast} {fl : List RegexFlag} {cat : Cat} (hp : parse w = .result a .success) (hR : (Regex.mk a fl).Ok cat) {k : Nat} {name : List Byte}
    (h : HasGroup a k (some name)) : 1 ≤ k ∧ (openedGroups w)[k - 1]? = some (some name) := by
  have hk := ok_name (hR []) h
  have : (Regex.env ⟨a, fl⟩ cat []).names = none :: openedGroups w := by simp [Regex.env, Regex.names, (C41_order hp).1]
  rw [this] at hk
  cases k with
  | zero => simp at hk
  | succ k => exact ⟨by omega, by simpa using hk⟩

/-- **C42** for parsed patterns in which no two branches of an alternation have groups: the name of the `k`-th opening parenthesis, if no other has it, stands for group `k`
in results and in references, also in patterns that cannot be used for other reasons. -/
theorem C42_written {w : List Byte} {a : Ast} {fl : List RegexFlag} (hp : parse w = .result a .success) (hs : soloBranches a = true) {k : Nat} {name : List Byte} (h1 : 1 ≤ k)
    (hk : (openedGroups w)[k - 1]? = some (some name)) (hu : (openedGroups w).count (some name) = 1) :
    HasGroup a k (some name) ∧ (∀ res : Result, res.groupNamed (Regex.mk a fl).names name = res.group k) ∧
    ∀ M cat s, (Regex.mk (byNumber name k a) fl).invoke M cat s = (Regex.mk a fl).invoke M cat s := by
  have hn : (Regex.mk a fl).names = none :: openedGroups w := by simp [Regex.names, (C41_order hp).1]
  have hx : nameIndex (Regex.mk a fl).names name = some k := by
    refine nameIndex_eq (by rw [hn]; simpa using hu) ?_
    rw [hn]
    cases k with
    | zero => omega
    | succ k => simpa using hk
  exact ⟨(C41_partial hp hs k _).2 ⟨h1, hk⟩, fun res => by simp [Result.groupNamed, hx, Result.group], fun M cat s => invoke_num (R := ⟨a, fl⟩) hx M cat s⟩

/-- `(a(?<x>b))(?<y>c)` -/
example := C42_written (w := txt "(a(?<x>b))(?<y>c)") (fl := []) rfl (by decide) (k := 2) (name := txt "x") (by decide) (by decide) (by decide)

/-- `(a)(?<x>b)\k<x>` -/
example := C42_backref ⟨.seq [.cap 1 none (.lit (ch 'a')), .cap 2 (some (txt "x")) (.lit (ch 'b')), .namedBackref (txt "x")], []⟩ .randomAccess (Regex.ok_of_okb (by decide)) (k := 2)
  (.seq (a := .cap 2 (some (txt "x")) (.lit (ch 'b'))) (by simp) .here) (by decide)
example : byNumber (txt "x") 2 (.seq [.cap 1 none (.lit (ch 'a')), .cap 2 (some (txt "x")) (.lit (ch 'b')), .namedBackref (txt "x")]) =
  .seq [.cap 1 none (.lit (ch 'a')), .cap 2 (some (txt "x")) (.lit (ch 'b')), .backref 2] := by rfl

/-- A consequence of C41 being false: `(?<x>a)|(?<y>b)`, where the names are unique, is parsed, but the library does not accept its use (the group `y` has the number 1, whose name is `x`). -/
theorem C42_unusable (fl : List RegexFlag) (cat : Cat) : ∃ a, parse (txt "(?<x>a)|(?<y>b)") = .result a .success ∧ ¬(Regex.mk a fl).Ok cat := by
  refine ⟨.alt [.cap 1 (some (txt "x")) (.lit (ch 'a')), .cap 1 (some (txt "y")) (.lit (ch 'b'))], rfl, fun h => ?_⟩
  have := ok_name (h []) (k := 1) (name := some (txt "y")) (.alt (a := .cap 1 (some (txt "y")) (.lit (ch 'b'))) (by simp) .here)
  have h' : some (some (txt "x")) = some (some (txt "y")) := this
  exact absurd h' (by decide)

/-! ## C43 -/

/-- **C43**: each of the eight escapes takes one character, one of those documented, with any flags. -/
theorem C43_classes {e : Byte} {P : Byte → Prop} (h : ClassEsc e P) : ∃ a, parse [ch '\\', e] = .result a .success ∧ TakesOne a (fun _ x => P x) := by
  obtain ⟨x, hx⟩ := classEsc_mem h
  have hf := class_facts hx
  refine ⟨x, (parse_of_pattern (pattern_atom (.cls hx))).trans (by rw [hf.2.2.1]), ?_⟩
  exact takesOne_of hf.1 (fun E r => class_ok hx E r) hf.2.1 hf.2.2.2 (fun f b => matchOne_class hx h f b)

/-- The classes are complete: `\d \w \s \R \D \W \S \N` are all there. -/
example : ClassEsc (ch 'S') (fun x => ¬WhiteSpace x) := .S

end Mregex
