import Verif.Props.Words
import Verif.Props.Regular

/-!
# What README.md says about particular patterns and expressions
-/

namespace Mregex
open Ast Spec

/-! ## C88 -/

/-- `+xpr::word >> not xpr::ahead(xpr::word)` (README.md:84). -/
def wordExpr : Xpr.Expr := .shiftRight (.plus (.term .word)) (.not (.ahead [.term .word]))

/-- The expression of README.md:93-96 and example/using_expressions.cpp:25-28. -/
def urlExpr : Xpr.Expr :=
  let schema : Xpr.Expr := .bitOr (.bitOr (.str (txt "ftp")) (.str (txt "ssh"))) (.regex (txt "https?"))
  let domain : Xpr.Expr := .shiftRight (.plus (.regex (txt "[-.a-z]"))) (.str (txt ".com"))
  let path : Xpr.Expr := .shiftRight (.chr (ch '/')) (.star (.not (.term .whitespace)))
  .shiftRight (.shiftRight (.shiftRight schema (.str (txt "://"))) (.capture 1 (some (txt "domain")) [domain])) (.maybe .greedy [path])

/-- The pattern that is said to be equivalent (README.md:92, example/using_expressions.cpp:24). -/
def urlPattern : List Byte := txt "(?:ftp|ssh|https?)://(?<domain>:[-.a-z])+.com(?:/\\S*)?"

/-- `(?:ftp|ssh|https?)`. -/
def schemaAst : Ast := .alt [.seq ((txt "ftp").map .lit), .seq ((txt "ssh").map .lit), .seq ((txt "http").map .lit ++ [.rep .greedy 0 (.fin 1) (.lit (ch 's'))])]
/-- `[-.a-z]`. -/
def domainClass : Ast := .set [.range (ch 'a') (ch 'z'), .lit (ch '.'), .lit (ch '-')]
/-- `(?:/\S*)?`. -/
def pathAst : Ast := .rep .greedy 0 (.fin 1) (.seq [.lit (ch '/'), .rep .greedy 0 .inf (.neg Ast.whitespace)])

/-- The tree of the expression. -/
def urlAst : Ast := .seq (schemaAst :: (txt "://").map .lit ++
  [.cap 1 (some (txt "domain")) (.seq (.rep .greedy 1 .inf domainClass :: (txt ".com").map .lit)), pathAst])
/-- The tree of the pattern. -/
def urlAst' : Ast := .seq (schemaAst :: (txt "://").map .lit ++
  .rep .greedy 1 .inf (.cap 1 (some (txt "domain")) (.seq [.lit (ch ':'), domainClass])) :: .wildcard :: (txt "com").map .lit ++ [pathAst])

theorem eval_url : Xpr.eval urlExpr = some ⟨urlAst, []⟩ := by
  have h3 : ∀ a, Xpr.node ⟨a, []⟩ = some a := fun _ => rfl
  have e1 : txt "ftp" ≠ [] := by decide
  have e2 : txt "ssh" ≠ [] := by decide
  have e3 : txt "://" ≠ [] := by decide
  have e4 : txt ".com" ≠ [] := by decide
  simp only [urlExpr, Xpr.eval, Xpr.operands]
  simp only [h3, e1, e2, e3, e4, if_false, Option.bind_some, Option.map_some, Xpr.toRegex, Xpr.bitOr, Xpr.either, Xpr.shiftRight, Xpr.concat, Xpr.flatWrap, Xpr.packed,
    List.cons_ne_nil]
  rfl

set_option maxRecDepth 8000 in
theorem parse_url : parse urlPattern = .result urlAst' .success := rfl

/-- **C88 is false**: the expression matches the URL of the example, the pattern that is said to be equivalent does not (it requires a `:` in the group). -/
theorem C88_url_false : ∃ R a, Xpr.eval urlExpr = some R ∧ parse urlPattern = .result a .success ∧
    (R.match (txt "https://google.com")).map (·.matched) = some true ∧ ((Regex.mk a []).match (txt "https://google.com")).map (·.matched) = some false :=
  ⟨⟨urlAst, []⟩, urlAst', eval_url, parse_url, by decide +kernel, by decide +kernel⟩

/-- The other way round: the wildcard of the pattern is a dot in the expression. -/
theorem C88_url_converse_false : ∃ R a, Xpr.eval urlExpr = some R ∧ parse urlPattern = .result a .success ∧
    (R.match (txt "ftp://:axcom")).map (·.matched) = some false ∧ ((Regex.mk a []).match (txt "ftp://:axcom")).map (·.matched) = some true :=
  ⟨⟨urlAst, []⟩, urlAst', eval_url, parse_url, by decide +kernel, by decide +kernel⟩

theorem eval_word : Xpr.eval wordExpr = some ⟨.seq [.rep .greedy 1 .inf wordClass, .neg (.look .ahead wordClass)], []⟩ := by
  have h3 : ∀ a, Xpr.node ⟨a, []⟩ = some a := fun _ => rfl
  simp only [wordExpr, Xpr.eval, Xpr.operands]
  simp only [h3, Option.bind_some, Option.map_some, Xpr.toRegex, Xpr.shiftRight, Xpr.concat, Xpr.flatWrap, Xpr.packed, List.cons_ne_nil, if_false]
  rfl

/-- **C88, partial**: the other expression is the same regex as the pattern.  Missing: the one for URLs. -/
theorem C88_word_partial : ∃ a, parse (txt "\\w+(?!\\w)") = .result a .success ∧ Xpr.eval wordExpr = some ⟨a, []⟩ :=
  ⟨_, rfl, eval_word⟩

/-- **C88, partial**: it finds exactly the words of any text. -/
theorem C88_words_partial (cat : Cat) (s : List Byte) : ∃ R, Xpr.eval wordExpr = some R ∧ FindsAll R cat s (Stretch WordChar s) := by
  refine ⟨⟨.seq [.rep .greedy 1 .inf wordClass, .neg (.look .ahead wordClass)], []⟩, eval_word, ?_⟩
  have := C87_stretches (fl := []) (cat := cat) (s := s) (m := .greedy) (cls := wordClass) (by cases cat <;> exact Regex.ok_of_okb (by decide)) rfl
  simpa only [accepts_wordClass] using this

/-- **C88, partial**: the empty set matches nothing, ever. -/
theorem C88_empty_set_partial {a : Ast} (h : parse (txt "[]") = .result a .success) (fl : List RegexFlag) (cat : Cat) (M : Method) (s : List Byte) :
    ∃ res, (Regex.mk a fl).invoke M cat s = some res ∧ res.matched = false := by
  rw [show parse (txt "[]") = .result (.set []) .success from rfl] at h
  cases h
  have hR : (Regex.mk (.set []) fl).Ok cat := fun s => .set (by simp) (by simp)
  have he : ∀ i, ends (Flags.ofList fl) s (.set []) true false i = [] := fun i => by
    simp only [ends, List.eq_nil_iff_forall_not_mem, mem_char]
    rintro q ⟨_, x, _, h⟩
    simp [accepts, acceptsAny] at h
  obtain ⟨res, h1⟩ := C01_methods_return _ cat hR M s
  refine ⟨res, h1, ?_⟩
  rw [← Bool.not_eq_true, ← accepted_iff h1]
  cases M with
  | «match» => rw [accepted_match hR rfl]; exact fun h => by rw [show ends _ s _ true false 0 = [] from he 0] at h; cases h
  | matchPrefix => rw [accepted_matchPrefix hR rfl]; exact fun h => h (he 0)
  | search => rw [accepted_search hR rfl]; exact fun ⟨i, _, h⟩ => h (he i)

/-- **C88, partial**: `[^]` is an "everything" set: it matches exactly the texts of one character. -/
theorem C88_everything_partial {a : Ast} (h : parse (txt "[^]") = .result a .success) (fl : List RegexFlag) (cat : Cat) (s : List Byte) :
    ∃ res, (Regex.mk a fl).match s cat = some res ∧ (res.matched = true ↔ s.length = 1) := by
  rw [show parse (txt "[^]") = .result (.neg (.set [])) .success from rfl] at h
  cases h
  have hR : (Regex.mk (.neg (.set [])) fl).Ok cat := fun s => .neg (.inl rfl) (.set (by simp) (by simp))
  obtain ⟨res, h1⟩ := C01_methods_return _ cat hR .match s
  refine ⟨res, h1, ?_⟩
  rw [← accepted_iff h1, accepted_match hR rfl]
  simp only [ends, assertion, Bool.false_eq_true, if_false, mem_char, accepts, acceptsAny]
  cases s with
  | nil => simp
  | cons x s => simp

/-- **C88, partial**: the notes on the syntax. -/
theorem C88_notes_partial :
    parse (txt "\\c") = parse (txt "c") ∧ parse (txt "[\\12]") = parse (txt "[12]") ∧
    parse (txt "a{") = .result (.seq [.lit (ch 'a'), .lit (ch '{')]) .success ∧
    parse (txt "a{+") = .result (.seq [.lit (ch 'a'), .rep .greedy 1 .inf (.lit (ch '{'))]) .success ∧
    parse (txt "a{1+") = .result nothing (.syntaxError 3) ∧
    parse (txt "(a)(?:\\1)0") = .result (.seq [.cap 1 none (.lit (ch 'a')), .backref 1, .lit (ch '0')]) .success ∧
    parse (txt "(a)\\1[0]") = .result (.seq [.cap 1 none (.lit (ch 'a')), .backref 1, .set [.lit (ch '0')]]) .success ∧
    parse (txt "(a)\\10") = .result (.seq [.cap 1 none (.lit (ch 'a')), .backref 10]) .success :=
  ⟨rfl, rfl, rfl, rfl, rfl, rfl, rfl, rfl⟩

end Mregex
