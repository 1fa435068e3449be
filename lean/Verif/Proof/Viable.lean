import Verif.Spec.Viable
import Verif.Proof.ParserSafe
import Verif.Proof.SyntaxSound

/-!
# Where syntax errors are found
-/

namespace Mregex
open Ast Spec

/-! ## The text that was not read yet -/

/-- The same configuration with another rest of the pattern. -/
abbrev Cfg.with (c : Cfg) (r : List Byte) : Cfg := { c with rest := r }

theorem sstep_rest (c : Cfg) {c' : Cfg} (h : sstep c = .next c') : c'.rest = c.rest ∨ (c.rest ≠ [] ∧ c'.rest = c.rest.tail) := by
  obtain ⟨l, rest, n, syms⟩ := c
  cases syms with
  | nil =>
    simp only [sstep, List.head?_nil] at h
    rcases rule_nil rest.head? with h' | h' <;> rw [h'] at h <;> cases h
  | cons s syms =>
    by_cases hs : ∃ a, s = .act a
    · obtain ⟨a, rfl⟩ := hs
      simp only [sstep] at h
      split at h <;> cases h
      exact .inl rfl
    · have hb : sstep ⟨l, rest, n, s :: syms⟩ = (match rule (some s) rest.head? with
        | .push l' => .next ⟨l, rest, n, l' ++ syms⟩
        | .ignore => .next ⟨l, rest, n, syms⟩
        | .advance l' => .next ⟨rest.head?, rest.tail, n, l' ++ syms⟩
        | .reject => .reject
        | .accept => .accept (acceptedAst n)) := by
        cases s <;> first | rfl | exact absurd ⟨_, rfl⟩ hs
      rw [hb] at h
      cases hr : rule (some s) rest.head? with
      | push l' => rw [hr] at h; cases h; exact .inl rfl
      | ignore => rw [hr] at h; cases h; exact .inl rfl
      | reject => rw [hr] at h; cases h
      | accept => rw [hr] at h; cases h
      | advance l' =>
        rw [hr] at h; cases h
        refine .inr ⟨fun he => ?_, rfl⟩
        have he : rest = [] := he
        have := rule_none_advance (some s)
        rw [he] at hr
        rw [show ([] : List Byte).head? = none from rfl] at hr
        rw [hr] at this
        cases this

/-- A step depends on the next character only. -/
theorem sstep_congr {c : Cfg} {x : Byte} {r r' : List Byte} (hc : c.rest = x :: r) :
    (∀ c', sstep c = .next c' → ∃ d, sstep (c.with (x :: r')) = .next (c'.with d) ∧ ((c'.rest = x :: r ∧ d = x :: r') ∨ (c'.rest = r ∧ d = r'))) ∧
    (sstep c = .reject → sstep (c.with (x :: r')) = .reject) := by
  obtain ⟨l, rest, n, syms⟩ := c
  subst hc
  cases syms with
  | nil =>
    simp only [sstep, Cfg.with, List.head?_cons, List.head?_nil]
    refine ⟨fun c' h => ?_, fun h => h⟩
    cases h
  | cons s syms =>
    by_cases hs : ∃ a, s = .act a
    · obtain ⟨a, rfl⟩ := hs
      simp only [sstep, Cfg.with]
      cases build a l n with
      | none => exact ⟨fun c' h => (by cases h), fun h => (by cases h)⟩
      | some n' => exact ⟨fun c' h => (by cases h; exact ⟨_, rfl, .inl ⟨rfl, rfl⟩⟩), fun h => (by cases h)⟩
    · have hb : ∀ r, sstep ⟨l, x :: r, n, s :: syms⟩ = (match rule (some s) (some x) with
        | .push l' => .next ⟨l, x :: r, n, l' ++ syms⟩
        | .ignore => .next ⟨l, x :: r, n, syms⟩
        | .advance l' => .next ⟨some x, r, n, l' ++ syms⟩
        | .reject => .reject
        | .accept => .accept (acceptedAst n)) := by
        intro r
        cases s <;> first | rfl | exact absurd ⟨_, rfl⟩ hs
      simp only [Cfg.with]
      rw [hb, hb]
      cases rule (some s) (some x) with
      | reject => exact ⟨fun c' h => (by cases h), fun _ => rfl⟩
      | accept => exact ⟨fun c' h => (by cases h), fun h => (by cases h)⟩
      | push l' => exact ⟨fun c' h => (by cases h; exact ⟨_, rfl, .inl ⟨rfl, rfl⟩⟩), fun h => (by cases h)⟩
      | ignore => exact ⟨fun c' h => (by cases h; exact ⟨_, rfl, .inl ⟨rfl, rfl⟩⟩), fun h => (by cases h)⟩
      | advance l' => exact ⟨fun c' h => (by cases h; exact ⟨_, rfl, .inr ⟨rfl, rfl⟩⟩), fun h => (by cases h)⟩

theorem PSteps.rest_le {c c' : Cfg} (h : PSteps c c') : c'.rest.length ≤ c.rest.length := by
  induction h with
  | refl => exact Nat.le_refl _
  | step h _ ih =>
    rcases sstep_rest _ h with h' | ⟨_, h'⟩
    · rw [h'] at ih; exact ih
    · rw [h', List.length_tail] at ih; omega

/-- What is read does not depend on what comes later. -/
theorem PSteps.before {c c' : Cfg} (h : PSteps c c') (r : List Byte) (hc' : c'.rest = r) : ∀ x, c.rest = x ++ r →
    ∃ c0 : Cfg, PSteps c c0 ∧ c0.rest = r ∧ ∀ w, PSteps (c.with (x ++ w)) (c0.with w) := by
  induction h with
  | refl c =>
    intro x hx
    have : x = [] := by
      rw [hc'] at hx
      have := congrArg List.length hx
      rw [List.length_append] at this
      exact List.length_eq_zero_iff.1 (by omega)
    subst this
    exact ⟨c, .refl _, hc', fun w => .refl _⟩
  | @step c c1 c' h hs ih =>
    intro x hx
    cases x with
    | nil => exact ⟨c, .refl _, hx, fun w => .refl _⟩
    | cons y x =>
      have hcg := fun w => (sstep_congr (c := c) (x := y) (r := x ++ r) (r' := x ++ w) hx).1 _ h
      have hl : c1.rest = y :: (x ++ r) ∨ c1.rest = x ++ r := by
        obtain ⟨d, _, h2⟩ := hcg []
        exact h2.imp And.left And.left
      rcases hl with hl | hl
      · obtain ⟨c0, h3, h4, h5⟩ := ih hc' (y :: x) hl
        refine ⟨c0, .step h h3, h4, fun w => ?_⟩
        obtain ⟨d, h1, ⟨_, rfl⟩ | ⟨h2, _⟩⟩ := hcg w
        · exact .step h1 (h5 w)
        · rw [hl] at h2
          have := congrArg List.length h2
          rw [List.length_cons] at this
          omega
      · obtain ⟨c0, h3, h4, h5⟩ := ih hc' x hl
        refine ⟨c0, .step h h3, h4, fun w => ?_⟩
        obtain ⟨d, h1, ⟨h2, _⟩ | ⟨_, rfl⟩⟩ := hcg w
        · rw [hl] at h2
          have := congrArg List.length h2
          rw [List.length_cons] at this
          omega
        · exact .step h1 (h5 w)

theorem PSteps.upto {c c' : Cfg} (h : PSteps c c') (y : Byte) (r r' : List Byte) (hc' : c'.rest = y :: r) : ∀ x, c.rest = x ++ y :: r →
    PSteps (c.with (x ++ y :: r')) (c'.with (y :: r')) := by
  induction h with
  | refl c =>
    intro x hx
    have : x = [] := by
      rw [hc'] at hx
      have := congrArg List.length hx
      rw [List.length_append] at this
      exact List.length_eq_zero_iff.1 (by omega)
    subst this
    exact .refl _
  | @step c c1 c' h hs ih =>
    intro x hx
    cases x with
    | nil =>
      obtain ⟨d, h1, h2⟩ := (sstep_congr (c := c) (x := y) (r := r) (r' := r') hx).1 _ h
      rcases h2 with ⟨h2, rfl⟩ | ⟨h2, rfl⟩
      · exact .step h1 (ih hc' [] h2)
      · have := hs.rest_le
        rw [h2, hc', List.length_cons] at this
        omega
    | cons z x =>
      obtain ⟨d, h1, h2⟩ := (sstep_congr (c := c) (x := z) (r := x ++ y :: r) (r' := x ++ y :: r') hx).1 _ h
      rcases h2 with ⟨h2, rfl⟩ | ⟨h2, rfl⟩
      · exact .step h1 (ih hc' (z :: x) h2)
      · exact .step h1 (ih hc' x h2)

/-! ## Where the error is -/

theorem error_run {pat : List Byte} {i : Nat} (h : parse pat = .result nothing (.syntaxError i)) :
    i ≤ pat.length ∧ ∃ c, PSteps (initCfg pat) c ∧ sstep c = .reject ∧ c.rest = pat.drop i := by
  obtain ⟨c, hs, hstop⟩ := machine_stops pat (pat.length + 1) (weights [.begin] + 1) 0 [] [.begin] (Nat.zero_le _) (by omega) (by omega)
  rw [← initCfg_eq] at hs
  cases hr : sstep c with
  | next c' => exact absurd hr (hstop c')
  | accept a => rw [parse_accept hs hr] at h; cases h
  | illFormed => rw [parse_illFormed hs hr] at h; cases h
  | reject =>
    obtain ⟨j, n, s, h1, h2, h3⟩ := steps_finish hs 0 [] [.begin] (Nat.zero_le _) (initCfg_eq pat)
    have h4 := finish_step pat j n s h1
    rw [← h2, hr] at h4
    rw [parse_eq, h3, h4] at h
    cases h
    exact ⟨h1, c, hs, hr, by rw [h2]; rfl⟩

/-- The same error in all texts with the same beginning. -/
theorem error_upto {pat : List Byte} {i : Nat} (h : parse pat = .result nothing (.syntaxError i)) (hi : i < pat.length) (v : List Byte) :
    parse (pat.take (i + 1) ++ v) = .result nothing (.syntaxError i) := by
  obtain ⟨_, c, h1, h2, h3⟩ := error_run h
  have hd : pat.drop i = pat[i] :: pat.drop (i + 1) := List.drop_eq_getElem_cons hi
  rw [hd] at h3
  have h4 := h1.upto pat[i] (pat.drop (i + 1)) v h3 (pat.take i) (by
    show pat = _
    rw [← hd, List.take_append_drop])
  have h5 := (sstep_congr (c := c) (r' := v) h3).2 h2
  have h6 := parse_reject (pat := pat.take i ++ pat[i] :: v) h4 h5
  have : pat.take (i + 1) ++ v = pat.take i ++ pat[i] :: v := by
    rw [List.take_succ_eq_append_getElem hi, List.append_assoc]; rfl
  rw [this, h6]
  congr 2
  simp only [List.length_append, List.length_take, List.length_cons]
  omega

/-! ## How to go on -/

/-- The symbols can be carried out with the text, apart from the semantic actions. -/
inductive Closes : List Sym → List Byte → Prop
  | done : Closes [] []
  | act {a s w} : Closes s w → Closes (.act a :: s) w
  | push {x l s w} : (∀ a, x ≠ .act a) → rule (some x) w.head? = .push l → Closes (l ++ s) w → Closes (x :: s) w
  | ignore {x s w} : (∀ a, x ≠ .act a) → rule (some x) w.head? = .ignore → Closes s w → Closes (x :: s) w
  | advance {x l s c w} : (∀ a, x ≠ .act a) → rule (some x) (some c) = .advance l → Closes (l ++ s) w → Closes (x :: s) (c :: w)

theorem sstep_other (l : Option Byte) (rest : List Byte) (n : List Ast) (s : Sym) (syms : List Sym) (hs : ∀ a, s ≠ .act a) :
    sstep ⟨l, rest, n, s :: syms⟩ = (match rule (some s) rest.head? with
        | .push l' => .next ⟨l, rest, n, l' ++ syms⟩
        | .ignore => .next ⟨l, rest, n, syms⟩
        | .advance l' => .next ⟨rest.head?, rest.tail, n, l' ++ syms⟩
        | .reject => .reject
        | .accept => .accept (acceptedAst n)) := by
  cases s <;> first | rfl | exact absurd rfl (hs _)

theorem closes_run {syms : List Sym} {w : List Byte} (h : Closes syms w) : ∀ l n, ∃ c, PSteps ⟨l, w, n, syms⟩ c ∧ ((∃ a, sstep c = .accept a) ∨ sstep c = .illFormed) := by
  induction h with
  | done => intro l n; exact ⟨_, .refl _, .inl ⟨_, rfl⟩⟩
  | @act a s w _ ih =>
    intro l n
    have hb : sstep ⟨l, w, n, .act a :: s⟩ = (match build a l n with
        | some n => .next ⟨l, w, n, s⟩
        | none => .illFormed) := rfl
    cases hn : build a l n with
    | none => exact ⟨_, .refl _, .inr (by rw [hb, hn])⟩
    | some n' =>
      obtain ⟨c, h1, h2⟩ := ih l n'
      exact ⟨c, .step (by rw [hb, hn]) h1, h2⟩
  | @push x l s w hx hr _ ih =>
    intro l n
    obtain ⟨c, h1, h2⟩ := ih l n
    exact ⟨c, .step (by rw [sstep_other _ _ _ _ _ hx, hr]) h1, h2⟩
  | @ignore x s w hx hr _ ih =>
    intro l n
    obtain ⟨c, h1, h2⟩ := ih l n
    exact ⟨c, .step (by rw [sstep_other _ _ _ _ _ hx, hr]) h1, h2⟩
  | @advance x l s c w hx hr _ ih =>
    intro l n
    obtain ⟨c', h1, h2⟩ := ih (some c) n
    exact ⟨c', .step (by rw [sstep_other _ _ _ _ _ hx, show (c :: w).head? = some c from rfl, hr]; rfl) h1, h2⟩

/-- Symbols of an expression below the one that is worked on. -/
inductive Tail : List Sym → Prop
  | nil : Tail []
  | act {a s} : Tail s → Tail (.act a :: s)
  | mod {s} : Tail s → Tail (.mod :: s)
  | seq {s} : Tail s → Tail (.seq :: s)
  | alt {s} : Tail s → Tail (.alt :: s)
  | unquantifiable {s} : Tail s → Tail (.unquantifiable :: s)
  | close {s} : Tail s → Tail (.expect (ch ')') :: s)

theorem Tail.closes {s : List Sym} (h : Tail s) : ∃ w, Closes s w ∧ (w.head? = none ∨ w.head? = some (ch ')')) := by
  induction h with
  | nil => exact ⟨[], .done, .inl rfl⟩
  | act _ ih => obtain ⟨w, h1, h2⟩ := ih; exact ⟨w, .act h1, h2⟩
  | mod _ ih | seq _ ih | alt _ ih | unquantifiable _ ih =>
    obtain ⟨w, h1, h2⟩ := ih
    refine ⟨w, .ignore (fun a h => by cases h) ?_ h1, h2⟩
    rcases h2 with h2 | h2 <;> rw [h2] <;> decide
  | close _ ih =>
    obtain ⟨w, h1, h2⟩ := ih
    exact ⟨ch ')' :: w, .advance (l := []) (fun a h => by cases h) (by decide) h1, .inr rfl⟩

/-- Symbols of a set below the one that is worked on. -/
inductive SetTail : List Sym → Prop
  | close {s} : Tail s → SetTail (.expect (ch ']') :: s)
  | act {a s} : SetTail s → SetTail (.act a :: s)
  | seq {s} : SetTail s → SetTail (.setSeq :: s)
  | rangeSeq {s} : SetTail s → SetTail (.setRangeSeq :: s)

theorem SetTail.closes {s : List Sym} (h : SetTail s) : ∃ w, Closes s (ch ']' :: w) := by
  induction h with
  | close h => obtain ⟨w, h1, _⟩ := h.closes; exact ⟨w, .advance (l := []) (fun a h => by cases h) (by decide) h1⟩
  | act _ ih => obtain ⟨w, h1⟩ := ih; exact ⟨w, .act h1⟩
  | seq _ ih | rangeSeq _ ih =>
    obtain ⟨w, h1⟩ := ih
    exact ⟨w, .ignore (fun a h => by cases h) rfl h1⟩

/-- The symbols that are worked on in an expression. -/
def Top : Sym → Prop
  | .groupBeginOrMod | .groupMod | .groupModLessThan | .groupBegin | .captureNameSeq _ | .altSeq | .esc | .backrefNameBegin | .backrefId _ | .backrefNameSeq _ => True
  | .quantifierBegin | .quantifierMod _ _ _ | .quantifierValue _ | .quantifierRange _ _ => True
  | .hexEscSeq l => l.length ≤ 2
  | _ => False

/-- The symbols that are worked on in a set. -/
def SetTop : Sym → Prop
  | .setBeginOrNeg | .setBegin | .setEsc | .setRangeBegin | .setRangeEsc => True
  | .hexEscSeq l => l.length ≤ 2
  | _ => False

/-- The stacks that occur. -/
inductive Stack : List Sym → Prop
  | init : Stack [.begin]
  | tail {s} : Tail s → Stack s
  | setTail {s} : SetTail s → Stack s
  | top {x s} : Top x → Tail s → Stack (x :: s)
  | setTop {x s} : SetTop x → SetTail s → Stack (x :: s)
  | name {s} : Tail s → Stack (.expect (ch '<') :: .backrefNameBegin :: s)
  | newSet {s} : SetTail s → Stack (.act .makeSet :: .setBeginOrNeg :: s)

theorem Stack.closes {s : List Sym} (h : Stack s) : ∃ w, Closes s w := by
  have hhex : ∀ {l : List Byte} {s : List Sym} {w}, l.length ≤ 2 → Closes s w → ∃ v, Closes (.hexEscSeq l :: s) (v ++ w) := by
    intro l s w hl hs
    have h2 : ∀ a b, Closes (.hexEscSeq [a, b] :: s) w := fun a b =>
      .push (l := [.act (.pushLiteral (a * 16#8 + b))]) (fun a h => by cases h) (by simp [rule, continueHexEscapeSequence]) (.act hs)
    have h1 : ∀ a, Closes (.hexEscSeq [a] :: s) (ch '0' :: w) := fun a =>
      .advance (l := [.hexEscSeq [a, 0#8]]) (fun a h => by cases h) rfl (h2 a 0#8)
    match l, hl with
    | [], _ => exact ⟨[ch '0', ch '0'], .advance (l := [.hexEscSeq [0#8]]) (fun a h => by cases h) (by decide) (h1 0#8)⟩
    | [a], _ => exact ⟨[ch '0'], h1 a⟩
    | [a, b], _ => exact ⟨[], h2 a b⟩
  cases h with
  | init => exact ⟨[], .ignore (fun a h => by cases h) rfl .done⟩
  | tail h => obtain ⟨w, h, _⟩ := h.closes; exact ⟨w, h⟩
  | setTail h => obtain ⟨w, h⟩ := h.closes; exact ⟨_, h⟩
  | name h =>
    obtain ⟨w, h, _⟩ := h.closes
    refine ⟨ch '<' :: ch 'a' :: ch '>' :: w, .advance (l := []) (fun a h => by cases h) (by decide) ?_⟩
    refine .advance (l := [.backrefNameSeq [ch 'a']]) (fun a h => by cases h) (by decide) ?_
    exact .advance (l := [.act (.makeNamedBackref [ch 'a'])]) (fun a h => by cases h) (by decide) (.act h)
  | newSet h => obtain ⟨w, h⟩ := h.closes; exact ⟨_, .act (.ignore (fun a h => by cases h) rfl h)⟩
  | @setTop x s hx h =>
    obtain ⟨w, h⟩ := h.closes
    cases x with
    | setBeginOrNeg | setBegin => exact ⟨_, .ignore (fun a h => by cases h) rfl h⟩
    | setEsc | setRangeEsc => exact ⟨ch 'n' :: _, .advance (l := [.act (.pushLiteral 10#8)]) (fun a h => by cases h) (by decide) (.act h)⟩
    | setRangeBegin => exact ⟨_, .push (l := [.act (.pushLiteral (ch '-')), .act .makeSetFromStack]) (fun a h => by cases h) rfl (.act (.act h))⟩
    | hexEscSeq l => obtain ⟨v, h⟩ := hhex hx h; exact ⟨_, h⟩
    | _ => exact False.elim hx
  | @top x s hx h =>
    have ht := h
    obtain ⟨w, h, hw⟩ := h.closes
    have hgb : ∀ {s}, Closes s w → Closes (.groupBegin :: s) w := by
      intro s h
      rcases hw with hw | hw
      · exact .ignore (fun a h => by cases h) (by rw [hw]; rfl) h
      · exact .push (l := [.act .makeEmpty]) (fun a h => by cases h) (by rw [hw]; decide) (.act h)
    have hqm : ∀ m lo hi, Closes (.quantifierMod m lo hi :: s) w := fun m lo hi =>
      .push (l := [.act (.makeRepetition m lo hi)]) (fun a h => by cases h) (by rcases hw with hw | hw <;> rw [hw] <;> rfl) (.act h)
    cases x with
    | groupBeginOrMod =>
      rcases hw with hw | hw
      · exact ⟨w, .ignore (fun a h => by cases h) (by rw [hw]; rfl) h⟩
      · exact ⟨w, .push (l := [.act .makeEmpty, .act (.makeCapture none)]) (fun a h => by cases h) (by rw [hw]; decide) (.act (.act h))⟩
    | groupMod => exact ⟨ch ':' :: w, .advance (l := [.groupBegin]) (fun a h => by cases h) (by decide) (hgb h)⟩
    | groupModLessThan => exact ⟨ch '=' :: w, .advance (l := [.groupBegin, .act (.makeLookaround .behind)]) (fun a h => by cases h) (by decide) (hgb (.act h))⟩
    | groupBegin => exact ⟨w, hgb h⟩
    | captureNameSeq l => exact ⟨ch '>' :: w, .advance (l := [.groupBegin, .act (.makeCapture (some l))]) (fun a h => by cases h) (by simp [rule]) (hgb (.act h))⟩
    | altSeq =>
      obtain ⟨w, h, _⟩ := (Tail.act (a := .makeLiteral) (.mod (.seq ht))).closes
      exact ⟨ch 'a' :: w, .advance (l := [.act .makeLiteral, .mod, .seq]) (fun a h => by cases h) (by decide) h⟩
    | esc => exact ⟨ch 'n' :: w, .advance (l := [.act (.pushLiteral 10#8)]) (fun a h => by cases h) (by decide) (.act h)⟩
    | backrefNameBegin =>
      exact ⟨ch 'a' :: ch '>' :: w, .advance (l := [.backrefNameSeq [ch 'a']]) (fun a h => by cases h) (by decide)
        (.advance (l := [.act (.makeNamedBackref [ch 'a'])]) (fun a h => by cases h) (by decide) (.act h))⟩
    | backrefId n =>
      refine ⟨w, .push (l := [.act (.makeBackref n)]) (fun a h => by cases h) ?_ (.act h)⟩
      rcases hw with hw | hw <;> rw [hw] <;> rfl
    | backrefNameSeq l => exact ⟨ch '>' :: w, .advance (l := [.act (.makeNamedBackref l)]) (fun a h => by cases h) (by simp [rule]) (.act h)⟩
    | quantifierBegin => exact ⟨ch '0' :: ch '}' :: w, .advance (l := [.quantifierValue 0]) (fun a h => by cases h) (by decide)
        (.advance (l := [.quantifierMod .greedy 0 (.fin 0)]) (fun a h => by cases h) (by decide) (hqm _ _ _))⟩
    | quantifierMod m lo hi => exact ⟨w, hqm _ _ _⟩
    | quantifierValue n => exact ⟨ch '}' :: w, .advance (l := [.quantifierMod .greedy n (.fin n)]) (fun a h => by cases h) (by simp [rule]) (hqm _ _ _)⟩
    | quantifierRange lo hi => exact ⟨ch '}' :: w, .advance (l := [.quantifierMod .greedy lo hi]) (fun a h => by cases h) (by simp [rule]) (hqm _ _ _)⟩
    | hexEscSeq l => obtain ⟨v, h⟩ := hhex hx h; exact ⟨_, h⟩
    | _ => exact False.elim hx

/-- What a rule makes of the symbols. -/
def Rule.stack (s : List Sym) : Rule → Prop
  | .push l => Stack (l ++ s)
  | .advance l => Stack (l ++ s)
  | .ignore => Stack s
  | _ => True

theorem startRule_stack (c : Byte) {post s : List Sym} (h : Tail (post ++ s)) : (startRule c post).stack s := by
  unfold startRule
  repeat' split
  · exact .newSet (.close (.mod h))
  · exact .top (x := .groupBeginOrMod) trivial (.close (.mod h))
  · exact .top (x := .esc) trivial (.mod h)
  · exact .tail (.act (.mod h))
  · exact .tail (.act h)
  · exact .tail (.act h)
  · exact .tail (.act (.mod h))

theorem setItemRule_stack (c : Byte) {s : List Sym} (h : SetTail s) : (setItemRule c).stack s := by
  unfold setItemRule
  repeat' split
  · exact .setTail h
  · exact .setTop (x := .setEsc) trivial (.act (.seq h))
  · exact .setTail (.act (.seq h))

theorem escaped_stack (c : Byte) {s : List Sym} (h : Tail s) : (handleEscapedChar c).stack s := by
  rcases handleEscapedChar_cases c with h' | h'
  · rcases literalRule_cases h' with ⟨d, h'⟩ | h' | h' <;> rw [h']
    · exact .tail (.act h)
    · exact .tail (.act h)
    · exact .top (x := .hexEscSeq []) (Nat.zero_le _) h
  · simp only [escapeRules, List.mem_cons, List.not_mem_nil, or_false] at h'
    rcases h' with h' | h' | h' | h' | h' | h' | h' | h' | h' | h' | h' | h' <;> rw [h'] <;>
      first | exact .tail (.act h) | exact .tail (.act (.act h)) | exact .tail (.act (.unquantifiable h)) | exact .tail (.act (.act (.unquantifiable h)))

theorem setEscaped_stack (c : Byte) {s : List Sym} (h : SetTail s) : (handleSetEscapeSequence c).stack s := by
  rcases handleSetEscapeSequence_cases c with h' | h'
  · rcases literalRule_cases h' with ⟨d, h'⟩ | h' | h' <;> rw [h']
    · exact .setTail (.act h)
    · exact .setTail (.act h)
    · exact .setTop (x := .hexEscSeq []) (Nat.zero_le _) h
  · simp only [escapeRules, List.take, List.mem_cons, List.not_mem_nil, or_false] at h'
    rcases h' with h' | h' | h' | h' | h' | h' | h' | h' <;> rw [h'] <;>
      first | exact .setTail (.act h) | exact .setTail (.act (.act h))

theorem rangeEscaped_stack (c : Byte) {s : List Sym} (h : SetTail s) : (handleSetRangeEscapeSequence c).stack s := by
  rcases handleSetRangeEscapeSequence_cases c with h' | h'
  · rcases literalRule_cases h' with ⟨d, h'⟩ | h' | h' <;> rw [h']
    · exact .setTail (.act h)
    · exact .setTail (.act h)
    · exact .setTop (x := .hexEscSeq []) (Nat.zero_le _) h
  · rw [h']; trivial

theorem hex_stack {l : List Byte} (hl : l.length ≤ 2) (tok : Option Byte) {P : Rule → Prop} (hr : P .reject)
    (hp : ∀ a, P (.push [.act a])) (ha : ∀ l, l.length ≤ 2 → P (.advance [.hexEscSeq l])) : P (continueHexEscapeSequence l tok) := by
  have hlt : ∀ {d : Byte} {l : List Byte}, l.length < 2 → (l ++ [d]).length ≤ 2 := by
    intro d l h
    rw [List.length_append, List.length_singleton]
    omega
  unfold continueHexEscapeSequence
  repeat' split
  · exact hp _
  · exact ha _ (hlt (by assumption))
  · exact ha _ (hlt (by assumption))
  · exact hr
  · exact hr
  · exact hr

theorem Tail.rule {x : Sym} {s : List Sym} (h : Tail (x :: s)) (tok : Option Byte) : (rule (some x) tok).stack s := by
  cases h with
  | act h => cases tok <;> trivial
  | mod h =>
    cases tok with
    | none => exact .tail h
    | some c =>
      simp only [Mregex.rule]
      repeat' split
      · exact .top (x := .quantifierMod _ _ _) trivial h
      · exact .top (x := .quantifierMod _ _ _) trivial h
      · exact .top (x := .quantifierMod _ _ _) trivial h
      · exact .top (x := .quantifierBegin) trivial h
      · exact .tail h
  | seq h =>
    cases tok with
    | none => exact .tail h
    | some c =>
      simp only [Mregex.rule]
      repeat' split
      · exact .tail h
      · trivial
      · exact startRule_stack c (.act (.seq h))
  | alt h =>
    cases tok with
    | none => exact .tail h
    | some c =>
      simp only [Mregex.rule]
      repeat' split
      · exact .tail h
      · exact .top (x := .altSeq) trivial (.act (.alt h))
      · trivial
  | unquantifiable h =>
    cases tok with
    | none => exact .tail h
    | some c =>
      simp only [Mregex.rule]
      split
      · trivial
      · exact .tail h
  | close h =>
    cases tok with
    | none => trivial
    | some c =>
      simp only [Mregex.rule]
      split
      · exact .tail h
      · trivial

theorem SetTail.rule {x : Sym} {s : List Sym} (h : SetTail (x :: s)) (tok : Option Byte) : (rule (some x) tok).stack s := by
  cases h with
  | act h => cases tok <;> trivial
  | close h =>
    cases tok with
    | none => trivial
    | some c =>
      simp only [Mregex.rule]
      split
      · exact .tail h
      · trivial
  | seq h =>
    cases tok with
    | none => trivial
    | some c =>
      simp only [Mregex.rule]
      split
      · exact .setTop (x := .setRangeBegin) trivial (.seq h)
      · exact setItemRule_stack c h
  | rangeSeq h =>
    cases tok with
    | none => trivial
    | some c => exact setItemRule_stack c h

theorem Stack.rule {x : Sym} {s : List Sym} (h : Stack (x :: s)) (tok : Option Byte) : (rule (some x) tok).stack s := by
  cases h with
  | init =>
    cases tok with
    | none => exact .tail .nil
    | some c =>
      simp only [Mregex.rule]
      split
      · trivial
      · exact startRule_stack c (.seq (.alt .nil))
  | tail h => exact h.rule tok
  | setTail h => exact h.rule tok
  | name h =>
    cases tok with
    | none => trivial
    | some c =>
      simp only [Mregex.rule]
      split
      · exact .top (x := .backrefNameBegin) trivial h
      · trivial
  | newSet h => cases tok <;> trivial
  | setTop hx h =>
    cases x with
    | hexEscSeq l => exact hex_stack (P := Rule.stack s) hx tok trivial (fun a => .setTail (.act h)) (fun l hl => .setTop (x := .hexEscSeq l) hl h)
    | setBeginOrNeg =>
      cases tok with
      | none => trivial
      | some c =>
        simp only [Mregex.rule]
        split
        · exact .setTop (x := .setBegin) trivial (.act h)
        · exact setItemRule_stack c h
    | setBegin =>
      cases tok with
      | none => trivial
      | some c => exact setItemRule_stack c h
    | setEsc =>
      cases tok with
      | none => trivial
      | some c => exact setEscaped_stack c h
    | setRangeEsc =>
      cases tok with
      | none => trivial
      | some c => exact rangeEscaped_stack c h
    | setRangeBegin =>
      cases tok with
      | none => trivial
      | some c =>
        simp only [Mregex.rule]
        repeat' split
        · exact .setTail (.act (.act h))
        · exact .setTop (x := .setRangeEsc) trivial (.act (.act (.rangeSeq h)))
        · exact .setTail (.act (.rangeSeq h))
    | _ => exact False.elim hx
  | top hx h =>
    cases x with
    | hexEscSeq l => exact hex_stack (P := Rule.stack s) hx tok trivial (fun a => .tail (.act h)) (fun l hl => .top (x := .hexEscSeq l) hl h)
    | groupBeginOrMod =>
      cases tok with
      | none => exact .tail h
      | some c =>
        simp only [Mregex.rule]
        repeat' split
        · exact .tail (.act (.act h))
        · trivial
        · exact .top (x := .groupMod) trivial h
        · exact startRule_stack c (.seq (.alt (.act h)))
    | groupMod =>
      cases tok with
      | none => trivial
      | some c =>
        simp only [Mregex.rule]
        repeat' split
        · exact .top (x := .groupBegin) trivial h
        · exact .top (x := .groupModLessThan) trivial h
        · exact .top (x := .groupBegin) trivial (.act h)
        · exact .top (x := .groupBegin) trivial (.act h)
        · exact .top (x := .groupBegin) trivial (.act (.act h))
        · trivial
    | groupModLessThan =>
      cases tok with
      | none => trivial
      | some c =>
        simp only [Mregex.rule, beginName]
        repeat' split
        · exact .top (x := .groupBegin) trivial (.act h)
        · exact .top (x := .groupBegin) trivial (.act (.act h))
        · exact .top (x := .captureNameSeq _) trivial h
        · trivial
    | captureNameSeq l =>
      cases tok with
      | none => trivial
      | some c =>
        simp only [Mregex.rule, continueName]
        repeat' split
        · exact .top (x := .groupBegin) trivial (.act h)
        · exact .top (x := .captureNameSeq _) trivial h
        · trivial
    | groupBegin =>
      cases tok with
      | none => exact .tail h
      | some c =>
        simp only [Mregex.rule]
        repeat' split
        · exact .tail (.act h)
        · trivial
        · exact startRule_stack c (.seq (.alt h))
    | altSeq =>
      cases tok with
      | none => trivial
      | some c =>
        simp only [Mregex.rule]
        split
        · trivial
        · exact startRule_stack c (.seq h)
    | esc =>
      cases tok with
      | none => trivial
      | some c =>
        simp only [Mregex.rule, handleEscapeSequence]
        repeat' split
        · exact .name h
        · exact .top (x := .hexEscSeq []) (Nat.zero_le _) h
        · exact .top (x := .backrefId _) trivial h
        · exact escaped_stack c h
    | backrefNameBegin =>
      cases tok with
      | none => trivial
      | some c =>
        simp only [Mregex.rule, beginName]
        split
        · exact .top (x := .backrefNameSeq _) trivial h
        · trivial
    | backrefNameSeq l =>
      cases tok with
      | none => trivial
      | some c =>
        simp only [Mregex.rule, continueName]
        repeat' split
        · exact .tail (.act h)
        · exact .top (x := .backrefNameSeq _) trivial h
        · trivial
    | backrefId n =>
      cases tok with
      | none => exact .tail (.act h)
      | some c =>
        simp only [Mregex.rule, continueBackrefId]
        split
        · exact .top (x := .backrefId _) trivial h
        · exact .tail (.act h)
    | quantifierBegin =>
      have ha : (abortQuantifierParsing (ch '{')).stack s := .tail (.act (.mod (.act (.seq (.alt h)))))
      cases tok with
      | none => exact ha
      | some c =>
        simp only [Mregex.rule, beginQuantifierValue]
        split
        · exact .top (x := .quantifierValue _) trivial h
        · exact ha
    | quantifierValue n =>
      cases tok with
      | none => trivial
      | some c =>
        simp only [Mregex.rule, continueQuantifierValue]
        repeat' split
        · exact .top (x := .quantifierMod _ _ _) trivial h
        · exact .top (x := .quantifierRange _ _) trivial h
        · exact .top (x := .quantifierValue _) trivial h
        · trivial
    | quantifierRange lo hi =>
      cases tok with
      | none => trivial
      | some c =>
        simp only [Mregex.rule, continueQuantifierRange]
        repeat' split
        · exact .top (x := .quantifierMod _ _ _) trivial h
        · exact .top (x := .quantifierRange _ _) trivial h
        · exact .top (x := .quantifierRange _ _) trivial h
        · trivial
    | quantifierMod m lo hi =>
      simp only [Mregex.rule]
      repeat' split
      · exact .tail (.act h)
      · exact .tail (.act h)
      · exact .tail (.act h)
    | _ => exact False.elim hx

theorem Stack.act {a : Action} {s : List Sym} (h : Stack (.act a :: s)) : Stack s := by
  cases h with
  | tail h => cases h with | act h => exact .tail h
  | setTail h => cases h with | act h => exact .setTail h
  | newSet h => exact .setTop (x := .setBeginOrNeg) trivial h
  | top hx _ => exact False.elim hx
  | setTop hx _ => exact False.elim hx

theorem Stack.step {c c' : Cfg} (h : Stack c.syms) (hs : sstep c = .next c') : Stack c'.syms := by
  obtain ⟨l, rest, n, syms⟩ := c
  cases syms with
  | nil =>
    simp only [sstep, List.head?_nil] at hs
    rcases rule_nil rest.head? with h' | h' <;> rw [h'] at hs <;> cases hs
  | cons s syms =>
    by_cases hx : ∃ a, s = .act a
    · obtain ⟨a, rfl⟩ := hx
      simp only [sstep] at hs
      split at hs <;> cases hs
      exact h.act
    · rw [sstep_other _ _ _ _ _ (fun a ha => hx ⟨a, ha⟩)] at hs
      have := h.rule rest.head?
      cases hr : Mregex.rule (some s) rest.head? with
      | push l' => rw [hr] at hs this; cases hs; exact this
      | ignore => rw [hr] at hs this; cases hs; exact this
      | advance l' => rw [hr] at hs this; cases hs; exact this
      | reject => rw [hr] at hs; cases hs
      | accept => rw [hr] at hs; cases hs

theorem Stack.steps {c c' : Cfg} (h : Stack c.syms) (hs : PSteps c c') : Stack c'.syms := by
  induction hs with
  | refl => exact h
  | step hs _ ih => exact ih (h.step hs)

/-! ## Openers can be closed -/

theorem groupOpen_of_opener {o : List Byte} (h : Opener o) : ∃ g, GroupOpen o g := by
  cases h with
  | capture => exact ⟨_, .capture⟩
  | plain => exact ⟨_, .plain⟩
  | acting h =>
    cases h with
    | atomic => exact ⟨_, .atomic⟩
    | ahead => exact ⟨_, .ahead⟩
    | negAhead => exact ⟨_, .negAhead⟩
    | behind => exact ⟨_, .behind⟩
    | negBehind => exact ⟨_, .negBehind⟩
    | named w h => exact ⟨_, .named h⟩

theorem noQuant_atEnd {f : Option Byte} (h : AtEnd f) : NoQuant f := by
  rcases h with rfl | rfl
  · intro c hc; cases hc
  · intro c hc; cases hc; decide

theorem viable_openers {os : List Byte} (h : Openers os) : ∀ {w : List Byte} {x : Ast}, (∀ f, AtEnd f → Reads (.alts none) w f x) → Viable (os ++ w) := by
  induction h with
  | nil => intro w x hw; exact ⟨[], x, by rw [List.nil_append, List.append_nil]; exact .alts (hw none (.inl rfl))⟩
  | @snoc os o _ ho ih =>
    intro w x hw
    obtain ⟨g, hg⟩ := groupOpen_of_opener ho
    obtain ⟨v, y, h⟩ := ih (w := o ++ w ++ txt ")") (x := g x) (fun f hf => .single (.one (.bare (.group hg (hw _ (.inr rfl))) (noQuant_atEnd hf))))
    refine ⟨txt ")" ++ v, y, ?_⟩
    simpa [List.append_assoc] using h

theorem Viable.of_append {u w : List Byte} (h : Viable (u ++ w)) : Viable u := by
  obtain ⟨v, x, h⟩ := h
  exact ⟨w ++ v, x, by rw [← List.append_assoc]; exact h⟩

theorem viable_illFormed {w : List Byte} (h : parse w = .illFormed) : Viable w := by
  rcases parse_total w with ⟨a, h'⟩ | ⟨i, _, h'⟩ | ⟨_, os, o, h1, h2, rfl⟩
  · rw [h] at h'; cases h'
  · rw [h] at h'; cases h'
  · obtain ⟨g, hg⟩ := groupOpen_of_opener (.acting h2)
    have := viable_openers h1 (w := o ++ txt ")") (x := g .empty) (fun f hf => .single (.one (.bare (.emptyGroup hg) (noQuant_atEnd hf))))
    rw [← List.append_assoc] at this
    exact Viable.of_append this

/-- What is before the error can be continued. -/
theorem error_before {pat : List Byte} {i : Nat} (h : parse pat = .result nothing (.syntaxError i)) : Viable (pat.take i) := by
  obtain ⟨_, c, h1, h2, h3⟩ := error_run h
  obtain ⟨c0, h4, h5, h6⟩ := h1.before (pat.drop i) h3 (pat.take i) (List.take_append_drop i pat).symm
  obtain ⟨w, hw⟩ := (Stack.steps (c := initCfg pat) .init h4).closes
  obtain ⟨c', h7, h8⟩ := closes_run hw c0.last c0.nodes
  have h9 : PSteps (initCfg (pat.take i ++ w)) c' := (h6 w).trans h7
  rcases h8 with ⟨a, h8⟩ | h8
  · obtain ⟨x, hx, _⟩ := (parse_iff _ _).1 (parse_accept h9 h8)
    exact ⟨w, x, hx⟩
  · exact Viable.of_append (viable_illFormed (parse_illFormed h9 h8))

end Mregex
