import Verif.Proof.Syntax

/-!
# Patterns of the grammar are accepted
-/

namespace Mregex
open Ast Spec

/-! ## Sets -/

/-- The symbol that reads the next item. -/
def topSym (s0 : Sym) : SetState → Sym
  | .start => s0
  | .char | .cls => .setSeq
  | .range => .setRangeSeq

theorem topSym_rule {s0 : Sym} (h0 : s0 = .setBeginOrNeg ∨ s0 = .setBegin) {st : SetState} {c : Byte} (h1 : c = ch '^' → st = .start → s0 = .setBegin)
    (h2 : c = ch '-' → st = .start ∨ st = .range) : rule (some (topSym s0 st)) (some c) = setItemRule c := by
  cases st with
  | start =>
    rcases h0 with rfl | rfl
    · have : c ≠ ch '^' := fun h => by have := h1 h rfl; cases this
      simp [topSym, rule, this]
    · simp [topSym, rule]
  | char =>
    have : c ≠ ch '-' := fun h => by have := h2 h; simp at this
    simp [topSym, rule, this]
  | cls =>
    have : c ≠ ch '-' := fun h => by have := h2 h; simp at this
    simp [topSym, rule, this]
  | range => simp [topSym, rule]

theorem topSym_not_act {s0 : Sym} (h0 : s0 = .setBeginOrNeg ∨ s0 = .setBegin) (st : SetState) (a : Action) : topSym s0 st ≠ .act a := by
  cases st <;> rcases h0 with rfl | rfl <;> nofun

theorem setItems_start {w : List Byte} {l : List Ast} (h : SetItems .start w l) : w = [] ∧ l = [] := by
  cases h; exact ⟨rfl, rfl⟩

theorem setChar_ne_nil {v : List Byte} {c : Byte} (h : SetChar v c) : v ≠ [] := by
  cases h with
  | plain => simp
  | esc h => cases h <;> simp [txt]

theorem step_setItem {s0 : Sym} (h0 : s0 = .setBeginOrNeg ∨ s0 = .setBegin) (st : SetState) {v : List Byte} {c : Byte} (hv : SetChar v c)
    (h1 : s0 = .setBeginOrNeg → st = .start → v.head? ≠ some (ch '^')) (h2 : v = txt "-" → st = .start ∨ st = .range) (l : Option Byte) (rest : List Byte) (x : List Ast) (N : List Ast) (K : List Sym) :
    ∃ l', PSteps ⟨l, v ++ rest, .set x :: N, topSym s0 st :: K⟩ ⟨l', rest, .set (.lit c :: x) :: N, .setSeq :: K⟩ := by
  cases hv with
  | plain hc hc' =>
    refine ⟨some c, .step (step_advance (L := [.act .makeSetFromCurrentChar, .setSeq]) (topSym_not_act h0 st) ?_) (.one rfl)⟩
    rw [topSym_rule h0 (fun h h' => ?_) (fun h => h2 (by rw [h]; rfl))]
    · simp [setItemRule, hc, hc']
    · rcases h0 with h0 | h0
      · exact absurd (by rw [h]; rfl) (h1 h0 h')
      · exact h0
  | esc he =>
    obtain ⟨w', rfl, hs⟩ := steps_setLitEsc he
    obtain ⟨⟨l', hs⟩, _⟩ := hs (some (ch '\\')) rest (.set x :: N) (.act .makeSetFromStack :: .setSeq :: K)
    refine ⟨l', .step (step_advance (L := [.setEsc, .act .makeSetFromStack, .setSeq]) (topSym_not_act h0 st) ?_) (hs.trans (.one rfl))⟩
    rw [topSym_rule h0 (fun h => absurd h (by decide)) (fun h => absurd h (by decide))]
    rfl

theorem step_setClass {s0 : Sym} (h0 : s0 = .setBeginOrNeg ∨ s0 = .setBegin) (st : SetState) {e : Byte} {y : Ast} (h : (e, y) ∈ classes)
    (l : Option Byte) (rest : List Byte) (x : List Ast) (N : List Ast) (K : List Sym) :
    ∃ l', PSteps ⟨l, [ch '\\', e] ++ rest, .set x :: N, topSym s0 st :: K⟩ ⟨l', rest, .set (classItems y ++ x) :: N, .setSeq :: K⟩ := by
  obtain ⟨l', hs⟩ := steps_class_set h (some (ch '\\')) rest (.set x :: N) (.act .makeSetFromStack :: .setSeq :: K)
  refine ⟨l', .step (step_advance (L := [.setEsc, .act .makeSetFromStack, .setSeq]) (topSym_not_act h0 st) ?_) (hs.trans (.one ?_))⟩
  · rw [topSym_rule h0 (fun h => absurd h (by decide)) (fun h => absurd h (by decide))]
    rfl
  · simp only [classes, List.mem_cons, Prod.mk.injEq, List.not_mem_nil, or_false] at h
    rcases h with ⟨rfl, rfl⟩ | ⟨rfl, rfl⟩ | ⟨rfl, rfl⟩ | ⟨rfl, rfl⟩ | ⟨rfl, rfl⟩ | ⟨rfl, rfl⟩ | ⟨rfl, rfl⟩ | ⟨rfl, rfl⟩ <;> rfl

theorem steps_range {v : List Byte} {b : Byte} (hv : SetChar v b) (l : Option Byte) (rest : List Byte) (y : Ast) (x : List Ast) (N : List Ast) (K : List Sym) :
    ∃ l', PSteps ⟨l, txt "-" ++ v ++ rest, .set (y :: x) :: N, .setSeq :: K⟩
      ⟨l', rest, .set (match y with | .lit a => .range a b :: x | y => .lit b :: .lit (ch '-') :: y :: x) :: N, .setRangeSeq :: .setSeq :: K⟩ := by
  cases hv with
  | plain hc hc' =>
    refine ⟨some b, .step (c' := ⟨some (ch '-'), b :: rest, .set (y :: x) :: N, .setRangeBegin :: .setSeq :: K⟩) rfl
      (.step (step_advance (L := [.act .makeRange, .setRangeSeq]) (by nofun) ?_) (.one ?_))⟩
    · simp [rule, hc, hc']
    · cases y <;> rfl
  | esc he =>
    obtain ⟨w', rfl, hs⟩ := steps_setLitEsc he
    obtain ⟨_, ⟨l', hs⟩⟩ := hs (some (ch '\\')) rest (.set (y :: x) :: N) (.act .makeSetFromStack :: .act .makeRangeFromStack :: .setRangeSeq :: .setSeq :: K)
    refine ⟨l', .step (c' := ⟨some (ch '-'), ch '\\' :: (w' ++ rest), .set (y :: x) :: N, .setRangeBegin :: .setSeq :: K⟩) rfl
      (.step rfl (hs.trans (.step (c' := ⟨l', rest, .set (.lit b :: y :: x) :: N, .act .makeRangeFromStack :: .setRangeSeq :: .setSeq :: K⟩) rfl (.one ?_))))⟩
    cases y <;> rfl

theorem setItems_cons {st : SetState} {w : List Byte} {l : List Ast} (h : SetItems st w l) (hst : st ≠ .start) : l ≠ [] := by
  cases h with
  | nil => exact absurd rfl hst
  | @cls st w l e x _ he =>
    simp only [classes, List.mem_cons, Prod.mk.injEq, List.not_mem_nil, or_false] at he
    rcases he with ⟨rfl, rfl⟩ | ⟨rfl, rfl⟩ | ⟨rfl, rfl⟩ | ⟨rfl, rfl⟩ | ⟨rfl, rfl⟩ | ⟨rfl, rfl⟩ | ⟨rfl, rfl⟩ | ⟨rfl, rfl⟩ <;>
      simp [classItems, digit, word, whitespace, linebreak]
  | _ => simp

theorem setItems_steps {s0 : Sym} (h0 : s0 = .setBeginOrNeg ∨ s0 = .setBegin) {st : SetState} {w : List Byte} {x : List Ast} (h : SetItems st w x) :
    (s0 = .setBeginOrNeg → w.head? ≠ some (ch '^')) → ∀ (l : Option Byte) (rest : List Byte) (N : List Ast) (K : List Sym),
    ∃ l' k, PSteps ⟨l, w ++ rest, .set [] :: N, s0 :: K⟩ ⟨l', rest, .set x :: N, topSym s0 st :: (List.replicate k .setSeq ++ K)⟩ := by
  induction h with
  | nil => exact fun _ l rest N K => ⟨l, 0, .refl _⟩
  | @char st w x v c h hv h2 ih =>
    intro hh l rest N K
    have hh' : s0 = .setBeginOrNeg → w.head? ≠ some (ch '^') := by
      intro h3 h4
      refine hh h3 ?_
      cases w with
      | nil => cases h4
      | cons a w => exact h4
    obtain ⟨l1, k, hs⟩ := ih hh' l (v ++ rest) N K
    obtain ⟨l2, hs2⟩ := step_setItem h0 st hv (by
      rintro h3 rfl
      obtain ⟨rfl, rfl⟩ := setItems_start h
      exact hh h3) h2 l1 rest x N (List.replicate k .setSeq ++ K)
    rw [← List.append_assoc] at hs
    exact ⟨l2, k, hs.trans hs2⟩
  | @cls st w x e y h he ih =>
    intro hh l rest N K
    have hh' : s0 = .setBeginOrNeg → w.head? ≠ some (ch '^') := by
      intro h3 h4
      refine hh h3 ?_
      cases w with
      | nil => cases h4
      | cons a w => exact h4
    obtain ⟨l1, k, hs⟩ := ih hh' l ([ch '\\', e] ++ rest) N K
    obtain ⟨l2, hs2⟩ := step_setClass h0 st he l1 rest x N (List.replicate k .setSeq ++ K)
    rw [← List.append_assoc] at hs
    exact ⟨l2, k, hs.trans hs2⟩
  | @range w x a v b h hv ih =>
    intro hh l rest N K
    have hh' : s0 = .setBeginOrNeg → w.head? ≠ some (ch '^') := by
      intro h3 h4
      refine hh h3 ?_
      cases w with
      | nil => cases h4
      | cons a w => exact h4
    obtain ⟨l1, k, hs⟩ := ih hh' l (txt "-" ++ v ++ rest) N K
    obtain ⟨l2, hs2⟩ := steps_range hv l1 rest (.lit a) x N (List.replicate k .setSeq ++ K)
    have e : w ++ txt "-" ++ v ++ rest = w ++ (txt "-" ++ v ++ rest) := by simp
    rw [e]
    exact ⟨l2, k + 1, hs.trans hs2⟩
  | @quirk w x a v b h hv ih =>
    intro hh l rest N K
    have hh' : s0 = .setBeginOrNeg → w.head? ≠ some (ch '^') := by
      intro h3 h4
      refine hh h3 ?_
      cases w with
      | nil => cases h4
      | cons a w => exact h4
    obtain ⟨l1, k, hs⟩ := ih hh' l (txt "-" ++ v ++ rest) N K
    obtain ⟨l2, hs2⟩ := steps_range hv l1 rest (.lit a) x N (List.replicate k .setSeq ++ K)
    have e : w ++ txt "-" ++ v ++ rest = w ++ (txt "-" ++ v ++ rest) := by simp
    rw [e]
    exact ⟨l2, k + 1, hs.trans hs2⟩
  | @dash w x y v b h hy hv ih =>
    intro hh l rest N K
    have hh' : s0 = .setBeginOrNeg → w.head? ≠ some (ch '^') := by
      intro h3 h4
      refine hh h3 ?_
      cases w with
      | nil => cases h4
      | cons a w => exact h4
    obtain ⟨l1, k, hs⟩ := ih hh' l (txt "-" ++ v ++ rest) N K
    obtain ⟨l2, hs2⟩ := steps_range hv l1 rest y x N (List.replicate k .setSeq ++ K)
    have e : w ++ txt "-" ++ v ++ rest = w ++ (txt "-" ++ v ++ rest) := by simp
    rw [e]
    refine ⟨l2, k + 1, hs.trans ?_⟩
    cases y with
    | lit c => exact absurd rfl (hy c)
    | _ => exact hs2

theorem steps_setSeqs (k : Nat) (l : Option Byte) (rest : List Byte) (N : List Ast) (K : List Sym) :
    PSteps ⟨l, ch ']' :: rest, N, List.replicate k .setSeq ++ K⟩ ⟨l, ch ']' :: rest, N, K⟩ := by
  induction k with
  | zero => exact .refl _
  | succ k ih => exact .step rfl ih

theorem setBody_steps {s0 : Sym} (h0 : s0 = .setBeginOrNeg ∨ s0 = .setBegin) {w : List Byte} {x : List Ast} (h : SetBody w x) (hh : s0 = .setBeginOrNeg → w.head? ≠ some (ch '^'))
    (l : Option Byte) (rest : List Byte) (N : List Ast) (K : List Sym) :
    ∃ l', PSteps ⟨l, w ++ ch ']' :: rest, .set [] :: N, s0 :: K⟩ ⟨l', ch ']' :: rest, .set x :: N, K⟩ := by
  cases h with
  | @plain st w x h =>
    obtain ⟨l1, k, hs⟩ := setItems_steps h0 h hh l (ch ']' :: rest) N K
    refine ⟨l1, hs.trans (.step (step_ignore (topSym_not_act h0 st) ?_) (steps_setSeqs k l1 rest _ K))⟩
    rw [List.head?_cons, topSym_rule h0 (fun h => absurd h (by decide)) (fun h => absurd h (by decide))]
    rfl
  | @dash st w x h hst =>
    have hh' : s0 = .setBeginOrNeg → w.head? ≠ some (ch '^') := by
      intro h3 h4
      refine hh h3 ?_
      cases w with
      | nil => cases h4
      | cons a w => exact h4
    obtain ⟨l1, k, hs⟩ := setItems_steps h0 h hh' l (txt "-" ++ ch ']' :: rest) N K
    have ht : topSym s0 st = .setSeq := by rcases hst with rfl | rfl <;> rfl
    rw [ht] at hs
    rw [List.append_assoc]
    refine ⟨some (ch '-'), hs.trans (.step rfl (.step rfl (.step rfl (.step rfl ?_))))⟩
    exact steps_setSeqs (k + 1) _ rest _ K

theorem setText_steps {w : List Byte} {x : Ast} (h : SetText w x) : ∃ w', w = ch '[' :: w' ∧ strip x = x ∧ ∀ (l : Option Byte) (rest : List Byte) (N : List Ast) (K : List Sym),
    ∃ l', PSteps ⟨l, w' ++ rest, N, .act .makeSet :: .setBeginOrNeg :: .expect (ch ']') :: K⟩ ⟨l', rest, x :: N, K⟩ := by
  have hst : ∀ {st w l}, SetItems st w l → stripAll l = l := by
    intro st w l h
    induction h with
    | nil => rfl
    | cls _ he ih =>
      simp only [classes, List.mem_cons, Prod.mk.injEq, List.not_mem_nil, or_false] at he
      rcases he with ⟨rfl, rfl⟩ | ⟨rfl, rfl⟩ | ⟨rfl, rfl⟩ | ⟨rfl, rfl⟩ | ⟨rfl, rfl⟩ | ⟨rfl, rfl⟩ | ⟨rfl, rfl⟩ | ⟨rfl, rfl⟩ <;>
        simp [classItems, digit, word, whitespace, linebreak, lower, upper, stripAll, strip, ih]
    | _ => simp_all [stripAll, strip]
  have hb : ∀ {w l}, SetBody w l → stripAll l = l := by
    intro w l h
    cases h with
    | plain h => exact hst h
    | dash h _ => simp [stripAll, strip, hst h]
  cases h with
  | @pos w x h hh =>
    refine ⟨w ++ txt "]", rfl, by simp [strip, hb h], fun l rest N K => ?_⟩
    obtain ⟨l', hs⟩ := setBody_steps (.inl rfl) h (fun _ => hh) l rest N (.expect (ch ']') :: K)
    refine ⟨some (ch ']'), ?_⟩
    rw [List.append_assoc]
    exact .step rfl (hs.trans (.one rfl))
  | @neg w x h =>
    refine ⟨txt "^" ++ w ++ txt "]", rfl, by simp [strip, hb h], fun l rest N K => ?_⟩
    obtain ⟨l', hs⟩ := setBody_steps (.inr rfl) h (by nofun) (some (ch '^')) rest N (.act .makeNegated :: .expect (ch ']') :: K)
    refine ⟨some (ch ']'), ?_⟩
    rw [List.append_assoc, List.append_assoc]
    exact .step rfl (.step rfl (hs.trans (.step rfl (.one rfl))))

/-! ## Entries -/

/-- The symbols where a part of the expression begins, and what they do after it. -/
inductive Entry : Bool → Sym → List Sym → Prop
  | begin : Entry false .begin [.seq, .alt]
  | groupBegin : Entry false .groupBegin [.seq, .alt]
  | groupBeginOrMod : Entry false .groupBeginOrMod [.seq, .alt, .act (.makeCapture none)]
  | altSeq : Entry false .altSeq [.seq]
  | seq : Entry false .seq [.act .makeSequence, .seq]
  | brace : Entry true .mod [.act .makeSequence, .seq, .alt]

theorem entry_not_act {b : Bool} {s : Sym} {post : List Sym} (h : Entry b s post) (a : Action) : s ≠ .act a := by
  cases h <;> nofun

theorem entry_rule {s : Sym} {post : List Sym} (h : Entry false s post) {c : Byte} (hc : c ∉ txt ")*+?{|") : rule (some s) (some c) = startRule c post := by
  have : c ≠ ch ')' ∧ c ≠ ch '*' ∧ c ≠ ch '+' ∧ c ≠ ch '?' ∧ c ≠ ch '{' ∧ c ≠ ch '|' := by simpa [txt] using hc
  cases h <;> simp [rule, this]

theorem step_start {s : Sym} {post L : List Sym} (h : Entry false s post) {c : Byte} (hc : c ∉ txt ")*+?{|") (hL : startRule c post = .advance L)
    {l : Option Byte} {rest : List Byte} {N : List Ast} {K : List Sym} : sstep ⟨l, c :: rest, N, s :: K⟩ = .next ⟨some c, rest, N, L ++ K⟩ :=
  step_advance (entry_not_act h) ((entry_rule h hc).trans hL)

theorem step_esc {s : Sym} {post : List Sym} (h : Entry false s post) {l : Option Byte} {rest : List Byte} {N : List Ast} {K : List Sym} :
    sstep ⟨l, ch '\\' :: rest, N, s :: K⟩ = .next ⟨some (ch '\\'), rest, N, .esc :: .mod :: (post ++ K)⟩ :=
  step_start h (by decide) (L := [.esc, .mod] ++ post) rfl

/-! ## Backreferences -/

theorem steps_backrefId {w : List Byte} (hw : ∀ d ∈ w, DecDigit d) : ∀ (m : Nat) (l : Option Byte) (rest : List Byte) (N : List Ast) (K : List Sym),
    ∃ l', PSteps ⟨l, w ++ rest, N, .backrefId (m % 2 ^ 64) :: K⟩ ⟨l', rest, N, .backrefId (w.foldl (fun n d => 10 * n + (d.toNat - 48)) m % 2 ^ 64) :: K⟩ := by
  induction w with
  | nil => exact fun m l rest N K => ⟨l, .refl _⟩
  | cons d w ih =>
    intro m l rest N K
    have hd := hw d (by simp)
    obtain ⟨l', h⟩ := ih (fun d hd => hw d (by simp [hd])) (10 * m + (d.toNat - 48)) (some d) rest N K
    refine ⟨l', .step (step_advance (L := [.backrefId ((10 * m + (d.toNat - 48)) % 2 ^ 64)]) (by nofun) ?_) h⟩
    have hdig := isDigit_of_decDigit d hd
    simp only [rule, continueBackrefId, hdig, if_true, sizeT_step hd]

theorem rule_backref : ∀ c : Byte, isDigit c = true → c ≠ ch '0' → handleEscapeSequence c = .advance [.backrefId (c.toNat - 48)] := by decide +kernel

theorem steps_backref {w : List Byte} {n : Nat} (h : Numeral w n) (h0 : w.head? ≠ some (ch '0')) (l : Option Byte) (rest : List Byte) (hf : ∀ c, rest.head? = some c → ¬DecDigit c)
    (N : List Ast) (K : List Sym) : ∃ l', PSteps ⟨l, w ++ rest, N, .esc :: K⟩ ⟨l', rest, .backref n :: N, K⟩ := by
  obtain ⟨h1, h2, rfl⟩ := h
  match w, h1 with
  | d :: w, _ =>
    have hd := h2 d (by simp)
    obtain ⟨l', h⟩ := steps_backrefId (w := w) (fun d hd => h2 d (by simp [hd])) (10 * 0 + (d.toNat - 48)) (some d) rest N K
    refine ⟨l', .step (step_advance (L := [.backrefId ((10 * 0 + (d.toNat - 48)) % 2 ^ 64)]) (by nofun) ?_) (h.trans (.step (step_push (L := [.act (.makeBackref _)]) (by nofun) ?_) (.one rfl)))⟩
    · rw [← sizeT_first hd]
      exact rule_backref d (isDigit_of_decDigit d hd) (fun h => h0 (by rw [h]; rfl))
    · cases hr : rest.head? with
      | none => rfl
      | some c =>
        have : isDigit c = false := by
          have := hf c hr
          rw [decDigit_iff] at this
          simpa using this
        simp only [rule, continueBackrefId, this]
        rfl

theorem steps_backrefName (w : List Byte) : ∀ (l : Option Byte) (pre rest : List Byte) (N : List Ast) (K : List Sym), (∀ x ∈ w, isWord x = true) →
    PSteps ⟨l, w ++ ch '>' :: rest, N, .backrefNameSeq pre :: K⟩ ⟨some (ch '>'), rest, .namedBackref (pre ++ w) :: N, K⟩ := by
  induction w with
  | nil =>
    intro l pre rest N K _
    rw [List.append_nil]
    exact .step rfl (.one rfl)
  | cons c w ih =>
    intro l pre rest N K h
    have hc := h c (by simp)
    have hne : c ≠ ch '>' := by rintro rfl; exact absurd hc (by decide)
    have := ih (some c) (pre ++ [c]) rest N K (fun x hx => h x (by simp [hx]))
    rw [List.append_assoc] at this
    refine .step ?_ this
    rw [sstep_sym (by nofun)]
    simp [rule, continueName, hne, hc]

theorem steps_namedBackref {w : List Byte} (h : IsName w) (l : Option Byte) (rest : List Byte) (N : List Ast) (K : List Sym) :
    ∃ l', PSteps ⟨l, txt "k<" ++ w ++ txt ">" ++ rest, N, .esc :: K⟩ ⟨l', rest, .namedBackref w :: N, K⟩ := by
  obtain ⟨c, w, rfl, h1, h2, h3⟩ := isName_cons h
  have e : txt "k<" ++ c :: w ++ txt ">" ++ rest = ch 'k' :: ch '<' :: c :: (w ++ ch '>' :: rest) := by simp [txt]
  rw [e]
  refine ⟨_, .step rfl (.step rfl (.step (step_advance (L := [.backrefNameSeq [c]]) (by nofun) ?_) (steps_backrefName w (some c) [c] rest N K h3)))⟩
  simp [rule, beginName, h1, h2]

/-! ## Groups -/

structure OpenClaim (o : List Byte) (g : Ast → Ast) (o' : List Byte) (s : Sym) (P acts : List Sym) : Prop where
  text : o = ch '(' :: o'
  entry : Entry false s (.seq :: .alt :: P)
  kind : s = .groupBegin ∨ s = .groupBeginOrMod ∧ o' = []
  plain : ∀ s ∈ acts, ∃ a, s = .act a
  opening : ∀ (l : Option Byte) (rest : List Byte) (N : List Ast) (K : List Sym), ∃ l', PSteps ⟨l, o' ++ rest, N, .groupBeginOrMod :: K⟩ ⟨l', rest, N, s :: (acts ++ K)⟩
  closing : ∀ (l : Option Byte) (rest : List Byte) (x : Ast) (N : List Ast) (K : List Sym), ∃ y, strip y = g (strip x) ∧ PSteps ⟨l, rest, x :: N, P ++ (acts ++ K)⟩ ⟨l, rest, y :: N, K⟩
  empty : ∀ (l : Option Byte) (rest : List Byte) (N : List Ast) (K : List Sym), PSteps ⟨l, ch ')' :: rest, N, s :: K⟩ ⟨l, ch ')' :: rest, .empty :: N, P ++ K⟩

theorem groupOpen_claim {o : List Byte} {g : Ast → Ast} (h : GroupOpen o g) : ∃ o' s P acts, OpenClaim o g o' s P acts := by
  cases h with
  | capture =>
    refine ⟨[], .groupBeginOrMod, [.act (.makeCapture none)], [], rfl, .groupBeginOrMod, .inr ⟨rfl, rfl⟩, by nofun, fun l rest N K => ⟨l, .refl _⟩, fun l rest x N K => ⟨_, ?_, .one rfl⟩,
      fun l rest N K => .step rfl (.step rfl (.refl _))⟩
    simp [strip]
  | @named w hw =>
    obtain ⟨c, w, rfl, h1, h2, h3⟩ := isName_cons hw
    refine ⟨_, .groupBegin, [], [.act (.makeCapture (some (c :: w)))], rfl, .groupBegin, .inl rfl, by simp, fun l rest N K => ⟨some (ch '>'), ?_⟩, fun l rest x N K => ⟨_, ?_, .one rfl⟩,
      fun l rest N K => .step rfl (.step rfl (.refl _))⟩
    · have he : [ch '?', ch '<'] ++ c :: w ++ txt ">" ++ rest = ch '?' :: ch '<' :: c :: (w ++ ch '>' :: rest) := by simp [txt]
      have h4 : sstep ⟨some (ch '<'), c :: (w ++ ch '>' :: rest), N, .groupModLessThan :: K⟩ =
          .next ⟨some c, w ++ ch '>' :: rest, N, .captureNameSeq [c] :: K⟩ := by
        rw [sstep_sym (by nofun)]
        have e1 : c ≠ ch '=' := by rintro rfl; exact absurd h1 (by decide)
        have e2 : c ≠ ch '!' := by rintro rfl; exact absurd h1 (by decide)
        simp [rule, beginName, h1, h2, e1, e2]
      have := steps_captureName w (some c) [c] rest N K h3
      refine (?_ : PSteps ⟨l, [ch '?', ch '<'] ++ c :: w ++ txt ">" ++ rest, N, .groupBeginOrMod :: K⟩ _)
      rw [he]
      exact .step rfl (.step rfl (.step h4 this))
    · simp [strip]
  | plain =>
    exact ⟨_, .groupBegin, [], [], rfl, .groupBegin, .inl rfl, by simp, fun l rest N K => ⟨_, .step rfl (.step rfl (.refl _))⟩, fun l rest x N K => ⟨_, rfl, .refl _⟩,
      fun l rest N K => .step rfl (.step rfl (.refl _))⟩
  | atomic =>
    refine ⟨_, .groupBegin, [], [.act (.makeRepetition .possessive 1 (.fin 1))], rfl, .groupBegin, .inl rfl, by simp, fun l rest N K => ⟨_, .step rfl (.step rfl (.refl _))⟩, fun l rest x N K => ⟨_, ?_, .one rfl⟩,
      fun l rest N K => .step rfl (.step rfl (.refl _))⟩
    simp [strip]
  | ahead =>
    refine ⟨_, .groupBegin, [], [.act (.makeLookaround .ahead)], rfl, .groupBegin, .inl rfl, by simp, fun l rest N K => ⟨_, .step rfl (.step rfl (.refl _))⟩, fun l rest x N K => ⟨_, ?_, .one rfl⟩,
      fun l rest N K => .step rfl (.step rfl (.refl _))⟩
    simp [strip]
  | negAhead =>
    refine ⟨_, .groupBegin, [], [.act (.makeLookaround .ahead), .act .makeNegated], rfl, .groupBegin, .inl rfl, by simp, fun l rest N K => ⟨_, .step rfl (.step rfl (.refl _))⟩,
      fun l rest x N K => ⟨_, ?_, .step rfl (.one rfl)⟩, fun l rest N K => .step rfl (.step rfl (.refl _))⟩
    simp [strip]
  | behind =>
    refine ⟨_, .groupBegin, [], [.act (.makeLookaround .behind)], rfl, .groupBegin, .inl rfl, by simp, fun l rest N K => ⟨_, .step rfl (.step rfl (.step rfl (.refl _)))⟩, fun l rest x N K => ⟨_, ?_, .one rfl⟩,
      fun l rest N K => .step rfl (.step rfl (.refl _))⟩
    simp [strip]
  | negBehind =>
    refine ⟨_, .groupBegin, [], [.act (.makeLookaround .behind), .act .makeNegated], rfl, .groupBegin, .inl rfl, by simp, fun l rest N K => ⟨_, .step rfl (.step rfl (.step rfl (.refl _)))⟩,
      fun l rest x N K => ⟨_, ?_, .step rfl (.one rfl)⟩, fun l rest N K => .step rfl (.step rfl (.refl _))⟩
    simp [strip]

/-! ## The claim for every category -/

/-- A branch of an alternation ends here. -/
def BranchEnd (f : Option Byte) : Prop := f = none ∨ f = some (ch ')') ∨ f = some (ch '|')

theorem branchEnd_of_atEnd {f : Option Byte} (h : AtEnd f) : BranchEnd f := by
  rcases h with h | h
  · exact .inl h
  · exact .inr (.inl h)

def Claim : Spec.Cat → List Byte → Option Byte → Ast → Prop
  | .atom b, w, f, x => ∀ s post l rest N K, Entry b s post → rest.head? = f →
      ∃ l' x', strip x' = x ∧ PSteps ⟨l, w ++ rest, N, s :: K⟩ ⟨l', rest, x' :: N, .mod :: (post ++ K)⟩
  | .item b, w, f, x => ∀ s post l rest N K, Entry b s post → rest.head? = f →
      ∃ l' x', strip x' = x ∧ PSteps ⟨l, w ++ rest, N, s :: K⟩ ⟨l', rest, x' :: N, post ++ K⟩
  | .seq none, w, f, x => ∀ s P l rest N K, Entry false s (.seq :: P) → rest.head? = f →
      ∃ l' x', strip x' = x ∧ PSteps ⟨l, w ++ rest, N, s :: K⟩ ⟨l', rest, x' :: N, .seq :: (P ++ K)⟩
  | .seq (some x0), w, f, x => ∀ x0', strip x0' = x0 → ∀ l rest N K, rest.head? = f →
      ∃ l' x', strip x' = x ∧ PSteps ⟨l, w ++ rest, x0' :: N, .seq :: K⟩ ⟨l', rest, x' :: N, .seq :: K⟩
  | .alts none, w, f, x => ∀ s P l rest N K, Entry false s (.seq :: .alt :: P) → rest.head? = f → BranchEnd f →
      ∃ l' x', strip x' = x ∧ PSteps ⟨l, w ++ rest, N, s :: K⟩ ⟨l', rest, x' :: N, .alt :: (P ++ K)⟩
  | .alts (some x0), w, f, x => ∀ x0', strip x0' = x0 → ∀ l rest N K, rest.head? = f → BranchEnd f →
      ∃ l' x', strip x' = x ∧ PSteps ⟨l, w ++ rest, x0' :: N, .seq :: .alt :: K⟩ ⟨l', rest, x' :: N, .alt :: K⟩

theorem step_seq_end {f : Option Byte} (h : BranchEnd f) : rule (some .seq) f = .ignore := by
  rcases h with rfl | rfl | rfl <;> rfl

theorem step_alt_end {f : Option Byte} (h : AtEnd f) : rule (some .alt) f = .ignore := by
  rcases h with rfl | rfl <;> rfl

theorem head_follow (u rest : List Byte) : (u ++ rest).head? = follow u rest.head? := by
  cases u <;> simp [follow]

/-- Parts are not empty, and begin with a brace where they should. -/
def Heads : Spec.Cat → List Byte → Prop
  | .atom b, w | .item b, w => ∃ c w', w = c :: w' ∧ (b = true → c = ch '{')
  | _, _ => True

theorem reads_heads {c : Spec.Cat} {w : List Byte} {f : Option Byte} {x : Ast} (h : Reads c w f x) : Heads c w := by
  induction h with
  | plain _ => exact ⟨_, _, rfl, nofun⟩
  | dot => exact ⟨_, _, rfl, nofun⟩
  | esc h => cases h <;> exact ⟨_, _, rfl, nofun⟩
  | cls _ => exact ⟨_, _, rfl, nofun⟩
  | set h => cases h <;> exact ⟨_, _, rfl, nofun⟩
  | backref _ _ _ => exact ⟨_, _, rfl, nofun⟩
  | namedBackref _ => exact ⟨_, _, rfl, nofun⟩
  | emptyGroup h => cases h <;> exact ⟨_, _, rfl, nofun⟩
  | group h _ _ => cases h <;> exact ⟨_, _, rfl, nofun⟩
  | brace _ => exact ⟨_, _, rfl, fun _ => rfl⟩
  | bare _ _ ih => exact ih
  | quant _ _ _ _ ih => obtain ⟨c, w', rfl, h⟩ := ih; exact ⟨c, _, rfl, h⟩
  | bol _ => exact ⟨_, _, rfl, nofun⟩
  | eol _ => exact ⟨_, _, rfl, nofun⟩
  | assertion _ _ => exact ⟨_, _, rfl, nofun⟩
  | braced _ _ _ _ ih => obtain ⟨c, w', rfl, h⟩ := ih; exact ⟨c, _, rfl, h⟩
  | start => trivial
  | one _ _ => trivial
  | more _ _ _ _ => trivial
  | single _ _ => trivial
  | or _ _ _ _ => trivial

theorem item_ne_nil {b : Bool} {w : List Byte} {f : Option Byte} {x : Ast} (h : Reads (.item b) w f x) : w ≠ [] := by
  obtain ⟨c, w', rfl, _⟩ := reads_heads h
  nofun

theorem plain_start : ∀ c : Byte, c ∉ special → c ∉ txt ")*+?{|" ∧ c ≠ ch '[' ∧ c ≠ ch '(' ∧ c ≠ ch '\\' ∧ c ≠ ch '.' ∧ c ≠ ch '^' ∧ c ≠ ch '$' := by decide +kernel

theorem strip_class {e : Byte} {x : Ast} (h : (e, x) ∈ classes) : strip x = x := by
  simp only [classes, List.mem_cons, Prod.mk.injEq, List.not_mem_nil, or_false] at h
  rcases h with ⟨rfl, rfl⟩ | ⟨rfl, rfl⟩ | ⟨rfl, rfl⟩ | ⟨rfl, rfl⟩ | ⟨rfl, rfl⟩ | ⟨rfl, rfl⟩ | ⟨rfl, rfl⟩ | ⟨rfl, rfl⟩ <;>
    simp [digit, word, whitespace, linebreak, lower, upper, strip, stripAll]

theorem strip_assertion {e : Byte} {x : Ast} (h : (e, x) ∈ assertions) : strip x = x := by
  simp only [assertions, List.mem_cons, Prod.mk.injEq, List.not_mem_nil, or_false] at h
  rcases h with ⟨rfl, rfl⟩ | ⟨rfl, rfl⟩ | ⟨rfl, rfl⟩ | ⟨rfl, rfl⟩ <;> simp [strip]

theorem reads_claim {c : Spec.Cat} {w : List Byte} {f : Option Byte} {x : Ast} (h : Reads c w f x) : Claim c w f x := by
  induction h with
  | @plain c f hc =>
    intro s post l rest N K he hr
    obtain ⟨h1, h2⟩ := plain_start c hc
    exact ⟨_, .lit c, by simp [strip], .step (step_start he h1 (L := [.act .makeLiteral, .mod] ++ post) (by simp [startRule, h2])) (.one rfl)⟩
  | @dot f =>
    intro s post l rest N K he hr
    exact ⟨_, .wildcard, by simp [strip], .step (step_start he (by decide) (L := [.act .makeWildcard, .mod] ++ post) rfl) (.one rfl)⟩
  | @esc w c f hc =>
    intro s post l rest N K he hr
    obtain ⟨w', rfl, hs⟩ := steps_litEsc hc
    obtain ⟨l', hs⟩ := hs (some (ch '\\')) rest N (.mod :: (post ++ K))
    exact ⟨l', .lit c, by simp [strip], .step (step_esc he) hs⟩
  | @cls e x f hc =>
    intro s post l rest N K he hr
    obtain ⟨l', hs⟩ := steps_class hc (some (ch '\\')) rest N (.mod :: (post ++ K))
    exact ⟨l', x, strip_class hc, .step (step_esc he) hs⟩
  | @set w x f hc =>
    intro s post l rest N K he hr
    obtain ⟨w', rfl, hx, hs⟩ := setText_steps hc
    obtain ⟨l', hs⟩ := hs (some (ch '[')) rest N (.mod :: (post ++ K))
    exact ⟨l', x, hx, .step (step_start he (by decide) (L := [.act .makeSet, .setBeginOrNeg, .expect (ch ']'), .mod] ++ post) rfl) hs⟩
  | @backref w n f hn h0 hf =>
    intro s post l rest N K he hr
    obtain ⟨l', hs⟩ := steps_backref hn h0 (some (ch '\\')) rest (by rw [hr]; exact hf) N (.mod :: (post ++ K))
    exact ⟨l', .backref n, by simp [strip], .step (step_esc he) hs⟩
  | @namedBackref w f hw =>
    intro s post l rest N K he hr
    obtain ⟨l', hs⟩ := steps_namedBackref hw (some (ch '\\')) rest N (.mod :: (post ++ K))
    exact ⟨l', .namedBackref w, by simp [strip], .step (step_esc he) hs⟩
  | @emptyGroup o g f ho =>
    intro s post l rest N K he hr
    obtain ⟨o', s', P, acts, h1, h2, _, _, h3, h4, h5⟩ := groupOpen_claim ho
    subst h1
    obtain ⟨l1, h3⟩ := h3 (some (ch '(')) (txt ")" ++ rest) N (.expect (ch ')') :: .mod :: (post ++ K))
    have h5 := h5 l1 rest N (acts ++ .expect (ch ')') :: .mod :: (post ++ K))
    obtain ⟨y, hy, h4⟩ := h4 l1 (ch ')' :: rest) .empty N (.expect (ch ')') :: .mod :: (post ++ K))
    refine ⟨some (ch ')'), y, by rw [hy]; simp [strip], .step (step_start he (by decide) (L := [.groupBeginOrMod, .expect (ch ')'), .mod] ++ post) rfl) ?_⟩
    have e : o' ++ txt ")" ++ rest = o' ++ (txt ")" ++ rest) := by simp
    rw [← e] at h3
    exact h3.trans (h5.trans (h4.trans (.one rfl)))
  | @group o g w x f ho _ ih =>
    intro s post l rest N K he hr
    obtain ⟨o', s', P, acts, h1, h2, _, _, h3, h4, h5⟩ := groupOpen_claim ho
    subst h1
    obtain ⟨l1, h3⟩ := h3 (some (ch '(')) (w ++ (txt ")" ++ rest)) N (.expect (ch ')') :: .mod :: (post ++ K))
    obtain ⟨l2, x', hx, h6⟩ := ih s' P l1 (txt ")" ++ rest) N (acts ++ .expect (ch ')') :: .mod :: (post ++ K)) h2 rfl (.inr (.inl rfl))
    obtain ⟨y, hy, h4⟩ := h4 l2 (ch ')' :: rest) x' N (.expect (ch ')') :: .mod :: (post ++ K))
    refine ⟨some (ch ')'), y, by rw [hy, hx], .step (step_start he (by decide) (L := [.groupBeginOrMod, .expect (ch ')'), .mod] ++ post) rfl) ?_⟩
    have e : o' ++ w ++ txt ")" ++ rest = o' ++ (w ++ (txt ")" ++ rest)) := by simp
    rw [← e] at h3
    exact h3.trans (h6.trans (.step rfl (h4.trans (.one rfl))))
  | @brace f hf =>
    intro s post l rest N K he hr
    cases he
    refine ⟨some (ch '{'), .lit (ch '{'), by simp [strip], .step rfl (.step (step_push (L := [.act (.pushLiteral (ch '{')), .mod, .act .makeSequence, .seq, .alt]) (by nofun) ?_) (.one rfl))⟩
    change rule (some .quantifierBegin) rest.head? = _
    cases hr' : rest.head? with
    | none => rfl
    | some c =>
      have : isDigit c = false := by
        have := hf c (by rw [← hr, hr'])
        rw [decDigit_iff] at this
        simpa using this
      simp [rule, beginQuantifierValue, this, abortQuantifierParsing]
  | @bare b w f x _ hf ih =>
    intro s post l rest N K he hr
    obtain ⟨l1, x', hx, h1⟩ := ih s post l rest N K he hr
    exact ⟨l1, x', hx, h1.trans (.one (step_ignore (by nofun) (step_mod_none (by rw [hr]; exact hf))))⟩
  | @quant b w q sx lo hi m f x _ hq hsx hf ih =>
    intro s post l rest N K he hr
    have hqn : q ≠ [] := by cases hq <;> simp [txt]
    obtain ⟨l1, x', hx, h1⟩ := ih s post l (q ++ sx ++ rest) N K he (by cases q <;> simp_all)
    obtain ⟨l2, h2⟩ := steps_quant hq hsx (rest := rest) (by rw [hr]; exact hf) l1 x' N (post ++ K)
    refine ⟨l2, .rep m lo hi x', by simp [strip, hx], ?_⟩
    have e : w ++ q ++ sx ++ rest = w ++ (q ++ sx ++ rest) := by simp
    rw [e]
    exact h1.trans h2
  | bol _ =>
    intro s post l rest N K he hr
    exact ⟨_, .bol, by simp [strip], .step (step_start he (by decide) (L := [.act .makeBeginningOfLine] ++ post) rfl) (.one rfl)⟩
  | eol _ =>
    intro s post l rest N K he hr
    exact ⟨_, .eol, by simp [strip], .step (step_start he (by decide) (L := [.act .makeEndOfLine] ++ post) rfl) (.one rfl)⟩
  | @assertion e x f hx hf =>
    intro s post l rest N K he hr
    obtain ⟨l', hs⟩ := steps_assertion hx (some (ch '\\')) rest N (post ++ K) (by rw [hr]; exact hf)
    exact ⟨l', x, strip_assertion hx, .step (step_esc he) hs⟩
  | @braced b w x v y u z f _ hv _ hf ih1 ih2 ih3 =>
    intro s post l rest N K he hr
    have hvh : (v ++ (u ++ rest)).head? = some (ch '{') := by
      obtain ⟨c, w', rfl, h⟩ := reads_heads hv
      simp [h rfl]
    obtain ⟨l1, x', hx, h1⟩ := ih1 s post l (v ++ (u ++ rest)) N K he hvh
    obtain ⟨l2, y', hy, h2⟩ := ih2 .mod _ l1 (u ++ rest) (x' :: N) (post ++ K) .brace (by rw [head_follow, hr])
    obtain ⟨l3, z', hz, h3⟩ := ih3 (catAst x' y') (by rw [strip_catAst, hx, hy]) l2 rest N (post ++ K) hr (branchEnd_of_atEnd hf)
    refine ⟨l3, z', hz, ?_⟩
    have e : w ++ v ++ u ++ rest = w ++ (v ++ (u ++ rest)) := by simp
    rw [e]
    exact h1.trans (h2.trans (.step (step_act (build_sequence _ _ _ _)) (h3.trans (.one (step_ignore (by nofun) (step_alt_end (by rw [hr]; exact hf)))))))
  | start =>
    intro x0' hx0 l rest N K hr
    exact ⟨l, x0', hx0, .refl _⟩
  | one _ ih =>
    intro s P l rest N K he hr
    exact ih s _ l rest N K he hr
  | @more s w v f x y _ hv ih1 ih2 =>
    have hvn := item_ne_nil hv
    have key : ∀ l rest N K x', strip x' = x → rest.head? = f → ∃ l' y', strip y' = catAst x y ∧ PSteps ⟨l, v ++ rest, x' :: N, .seq :: K⟩ ⟨l', rest, y' :: N, .seq :: K⟩ := by
      intro l rest N K x' hx hr
      obtain ⟨l2, y', hy, h2⟩ := ih2 .seq _ l rest (x' :: N) K .seq hr
      exact ⟨l2, catAst x' y', by rw [strip_catAst, hx, hy], h2.trans (.one (step_act (build_sequence _ _ _ _)))⟩
    cases s with
    | none =>
      intro s P l rest N K he hr
      obtain ⟨l1, x', hx, h1⟩ := ih1 s P l (v ++ rest) N K he (by cases v <;> simp_all)
      obtain ⟨l2, y', hy, h2⟩ := key l1 rest N (P ++ K) x' hx hr
      rw [List.append_assoc]
      exact ⟨l2, y', hy, h1.trans h2⟩
    | some x0 =>
      intro x0' hx0 l rest N K hr
      obtain ⟨l1, x', hx, h1⟩ := ih1 x0' hx0 l (v ++ rest) N K (by cases v <;> simp_all)
      obtain ⟨l2, y', hy, h2⟩ := key l1 rest N K x' hx hr
      rw [List.append_assoc]
      exact ⟨l2, y', hy, h1.trans h2⟩
  | @single s w f x _ ih =>
    cases s with
    | none =>
      intro s P l rest N K he hr hb
      obtain ⟨l1, x', hx, h1⟩ := ih s (.alt :: P) l rest N K he hr
      exact ⟨l1, x', hx, h1.trans (.one (step_ignore (by nofun) (step_seq_end (by rw [hr]; exact hb))))⟩
    | some x0 =>
      intro x0' hx0 l rest N K hr hb
      obtain ⟨l1, x', hx, h1⟩ := ih x0' hx0 l rest N (.alt :: K) hr
      exact ⟨l1, x', hx, h1.trans (.one (step_ignore (by nofun) (step_seq_end (by rw [hr]; exact hb))))⟩
  | @or s w v f x y _ _ ih1 ih2 =>
    have key : ∀ l rest N K x', strip x' = x → rest.head? = f → BranchEnd f → ∃ l' y', strip y' = altAst x y ∧ PSteps ⟨l, txt "|" ++ (v ++ rest), x' :: N, .alt :: K⟩ ⟨l', rest, y' :: N, .alt :: K⟩ := by
      intro l rest N K x' hx hr hb
      obtain ⟨l2, y', hy, h2⟩ := ih2 .altSeq [] (some (ch '|')) rest (x' :: N) (.act .makeAlternation :: .alt :: K) .altSeq hr
      exact ⟨l2, altAst x' y', by rw [strip_altAst, hx, hy],
        .step rfl (h2.trans (.step (step_ignore (by nofun) (step_seq_end (by rw [hr]; exact hb))) (.one (step_act (build_alternation _ _ _ _)))))⟩
    have e : ∀ rest, w ++ txt "|" ++ v ++ rest = w ++ (txt "|" ++ (v ++ rest)) := by simp
    cases s with
    | none =>
      intro s P l rest N K he hr hb
      obtain ⟨l1, x', hx, h1⟩ := ih1 s P l (txt "|" ++ (v ++ rest)) N K he rfl (.inr (.inr rfl))
      obtain ⟨l2, y', hy, h2⟩ := key l1 rest N (P ++ K) x' hx hr hb
      rw [e]
      exact ⟨l2, y', hy, h1.trans h2⟩
    | some x0 =>
      intro x0' hx0 l rest N K hr hb
      obtain ⟨l1, x', hx, h1⟩ := ih1 x0' hx0 l (txt "|" ++ (v ++ rest)) N K rfl (.inr (.inr rfl))
      obtain ⟨l2, y', hy, h2⟩ := key l1 rest N K x' hx hr hb
      rw [e]
      exact ⟨l2, y', hy, h1.trans h2⟩

/-- Every pattern of the grammar is accepted, and gives its tree. -/
theorem parse_of_pattern {w : List Byte} {x : Ast} (h : Pattern w x) : parse w = .result (indexCaptures x) .success := by
  cases h with
  | empty => rfl
  | alts h =>
    obtain ⟨l', x', hx, hs⟩ := reads_claim h .begin [] none [] [] [] .begin rfl (.inl rfl)
    rw [List.append_nil] at hs
    rw [← hx, indexCaptures_strip]
    exact parse_accept (hs.trans (.one (step_ignore (by nofun) rfl))) rfl

end Mregex
