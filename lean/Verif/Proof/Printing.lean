import Verif.Spec.Printing
import Verif.Proof.Brace
import Verif.Proof.Numbering

/-!
# Parsing inverts printing
-/

namespace Mregex
open Ast Spec

/-! ## Numerals -/

theorem head?_append_ne {α : Type} {u : List α} (v : List α) (h : u ≠ []) : (u ++ v).head? = u.head? := by
  cases u with
  | nil => exact absurd rfl h
  | cons a u => rfl

theorem decimal_append (u v : List Byte) : decimal (u ++ v) = v.foldl (fun n d => 10 * n + (d.toNat - 48)) (decimal u) := by
  simp [decimal, List.foldl_append]

theorem numeralText_spec (n : Nat) : decimal (numeralText n) = n ∧ (∀ d ∈ numeralText n, DecDigit d) ∧ numeralText n ≠ [] ∧ (0 < n → (numeralText n).head? ≠ some (ch '0')) := by
  have hd : ∀ m < 10, (BitVec.ofNat 8 (48 + m)).toNat = 48 + m := by decide
  induction n using Nat.strongRecOn with
  | ind n ih =>
    unfold numeralText
    by_cases h : n < 10
    · simp only [h, if_true]
      refine ⟨by simp [decimal, hd n h], ?_, by simp, fun h0 => ?_⟩
      · intro d hm
        simp only [List.mem_singleton] at hm
        subst hm
        unfold DecDigit
        rw [hd n h]; omega
      · intro hc
        simp only [List.head?_cons, Option.some.injEq] at hc
        have := congrArg BitVec.toNat hc
        rw [hd n h, show (ch '0').toNat = 48 by decide] at this
        omega
    · simp only [h, if_false]
      obtain ⟨h1, h2, h3, h4⟩ := ih (n / 10) (by omega)
      refine ⟨?_, ?_, by simp, fun _ => ?_⟩
      · rw [decimal_append, h1]
        simp only [List.foldl_cons, List.foldl_nil, hd _ (Nat.mod_lt n (by omega : 0 < 10))]
        omega
      · intro d hm
        rcases List.mem_append.1 hm with hm | hm
        · exact h2 d hm
        · simp only [List.mem_singleton] at hm
          subst hm
          unfold DecDigit
          rw [hd _ (Nat.mod_lt n (by omega : 0 < 10))]; omega
      · rw [head?_append_ne _ h3]
        exact h4 (by omega)

theorem numeral_text {n : Nat} (h : n < 2 ^ 64) : Numeral (numeralText n) n := by
  obtain ⟨h1, h2, h3, _⟩ := numeralText_spec n
  exact ⟨h3, h2, by rw [h1, Nat.mod_eq_of_lt h]⟩

theorem quant_text {lo : Nat} {hi : Bound} (h : lo < 2 ^ 64) (h' : ∀ n, hi = .fin n → n < 2 ^ 64) : Quant (quantText lo hi) lo hi := by
  cases hi with
  | inf =>
    simp only [quantText]
    split
    · next h => subst h; exact .star
    · split
      · next h => subst h; exact .plus
      · exact .atLeast (numeral_text h)
  | fin n =>
    simp only [quantText]
    split
    · next h => obtain ⟨rfl, rfl⟩ := h; exact .opt
    · split
      · next h => subst h; exact .exact (numeral_text h)
      · exact .between (numeral_text h) (numeral_text (h' n rfl))

theorem suffix_text (m : Mode) : Suffix (suffixText m) m := by
  cases m
  · exact .greedy
  · exact .lazy
  · exact .possessive

/-! ## Sets -/

theorem setCharText_spec (c : Byte) : SetChar (setCharText c) c ∧ setCharText c ≠ txt "-" ∧ (setCharText c).head? ≠ some (ch '^') := by
  have h1 : ∀ c ∈ txt "]\\^-", c ∉ reservedInSet := by decide
  unfold setCharText
  split
  · next h => exact ⟨.esc (.self (h1 c h)), by simp [txt], by simp; decide⟩
  · next h =>
    refine ⟨.plain ?_ ?_, ?_, ?_⟩
    · intro e; subst e; exact absurd h (by decide)
    · intro e; subst e; exact absurd h (by decide)
    · intro e; cases e; exact absurd h (by decide)
    · intro e; cases e; exact absurd h (by decide)

theorem head_append_ne {u v : List Byte} {c : Byte} (h1 : u.head? ≠ some c) (h2 : v.head? ≠ some c) : (u ++ v).head? ≠ some c := by
  cases u with
  | nil => exact h2
  | cons a u => exact h1

theorem setText_spec {l : List Ast} (h : SetMembers l) : (∃ st, SetItems st (setText l) l) ∧ (setText l).head? ≠ some (ch '^') := by
  induction h with
  | nil => exact ⟨⟨_, .nil⟩, by simp [setText]⟩
  | @lit c l _ ih =>
    obtain ⟨⟨st, h1⟩, h2⟩ := ih
    obtain ⟨h3, h4, h5⟩ := setCharText_spec c
    exact ⟨⟨_, .char h1 h3 (fun h => absurd h h4)⟩, head_append_ne h2 h5⟩
  | @range a b l _ ih =>
    obtain ⟨⟨st, h1⟩, h2⟩ := ih
    obtain ⟨h3, h4, h5⟩ := setCharText_spec a
    obtain ⟨h3', _, _⟩ := setCharText_spec b
    refine ⟨⟨_, .range (.char h1 h3 (fun h => absurd h h4)) h3'⟩, ?_⟩
    rw [setText, List.append_assoc, List.append_assoc, ← List.append_assoc]
    refine head_append_ne (head_append_ne h2 h5) ?_
    simp [txt]; decide
  | @neg e x l _ hc ih =>
    obtain ⟨⟨st, h1⟩, h2⟩ := ih
    have hc' := hc
    simp [classes] at hc
    rcases hc with ⟨rfl, h⟩ | ⟨rfl, h⟩ | ⟨rfl, h⟩ | ⟨rfl, h⟩ | ⟨rfl, h⟩ | ⟨rfl, h⟩ | ⟨rfl, h⟩ | ⟨rfl, h⟩
    all_goals first
      | (cases h; done)
      | (subst h; exact ⟨⟨_, .cls h1 hc'⟩, head_append_ne h2 (by decide)⟩)
  | @white l _ ih =>
    obtain ⟨⟨st, h1⟩, h2⟩ := ih
    exact ⟨⟨_, .cls (e := ch 's') (x := whitespace) h1 (by simp [classes])⟩, head_append_ne h2 (by decide)⟩

/-! ## Numbers of groups removed -/

mutual
/-- Numbering twice is numbering once. -/
theorem index_index : ∀ o o' a, index o (index o' a) = index o a
  | o, o', .cap _ n a => by simp only [index, index_index (o + 1) (o' + 1) a]
  | o, o', .seq l => by simp only [index, indexSeq_index o o' l]
  | o, o', .alt l => by simp only [index, indexSame_index o o' l]
  | o, o', .set l => by simp only [index, indexSame_index o o' l]
  | o, o', .neg a => by simp only [index, index_index o o' a]
  | o, o', .rep m lo hi a => by simp only [index, index_index o o' a]
  | o, o', .look d a => by simp only [index, index_index o o' a]
  | _, _, .empty | _, _, .lit _ | _, _, .range _ _ | _, _, .wildcard | _, _, .bol | _, _, .boi | _, _, .eol | _, _, .eoi | _, _, .wordB | _, _, .backref _ | _, _, .namedBackref _ => rfl
theorem indexSeq_index : ∀ o o' l, indexSeq o (indexSeq o' l) = indexSeq o l
  | _, _, [] => rfl
  | o, o', a :: l => by simp only [indexSeq, index_index o o' a, indexSeq_index _ _ l, captureCount_index]
theorem indexSame_index : ∀ o o' l, indexSame o (indexSame o' l) = indexSame o l
  | _, _, [] => rfl
  | o, o', a :: l => by simp only [indexSame, index_index o o' a, indexSame_index o o' l]
end

theorem strip_members {l : List Ast} (h : SetMembers l) : stripAll l = l ∧ ∀ o, indexSame o l = l := by
  induction h with
  | nil => exact ⟨rfl, fun _ => rfl⟩
  | lit _ ih => exact ⟨by simp [stripAll, strip, ih.1], fun o => by simp [indexSame, index, ih.2]⟩
  | range _ ih => exact ⟨by simp [stripAll, strip, ih.1], fun o => by simp [indexSame, index, ih.2]⟩
  | @neg e x l _ hc ih =>
    simp [classes] at hc
    rcases hc with ⟨rfl, h⟩ | ⟨rfl, h⟩ | ⟨rfl, h⟩ | ⟨rfl, h⟩ | ⟨rfl, h⟩ | ⟨rfl, h⟩ | ⟨rfl, h⟩ | ⟨rfl, h⟩
    all_goals first
      | (cases h; done)
      | (subst h; exact ⟨by simp [stripAll, strip, ih.1, digit, word, whitespace, linebreak, lower, upper], fun o => by simp [indexSame, index, ih.2, digit, word, whitespace, linebreak, lower, upper]⟩)
  | @white l _ ih =>
    refine ⟨?_, fun o => ?_⟩
    · simp [classItems, whitespace, linebreak, stripAll, strip, ih.1]
    · simp [classItems, whitespace, linebreak, indexSame, index, ih.2]

/-! ## Texts and their trees -/

/-- No digit follows. -/
def NoDigit (f : Option Byte) : Prop := ∀ c, f = some c → ¬DecDigit c

/-- The end of an alternative follows. -/
def AltEnd (f : Option Byte) : Prop := f = none ∨ f = some (ch ')') ∨ f = some (ch '|')

theorem AltEnd.noQuant {f : Option Byte} (h : AltEnd f) : NoQuant f ∧ NoDigit f := by
  rcases h with rfl | rfl | rfl
  · exact ⟨noQuant_none, by intro c h; cases h⟩
  · exact ⟨by intro c h; cases h; decide, by intro c h; cases h; unfold DecDigit; decide⟩
  · exact ⟨by intro c h; cases h; decide, by intro c h; cases h; unfold DecDigit; decide⟩

/-- The text is what its kind says, and stands for `x`. -/
def Good (p : Printed) (x : Ast) : Prop :=
  (p.level ≠ .empty → p.text ≠ [] ∧ NoQuant p.text.head?) ∧
  match p.level with
  | .atom => ∀ f, Reads (.atom false) p.text f x
  | .ref => ∀ f, NoDigit f → Reads (.atom false) p.text f x
  | .item => ∀ f, NoQuant f → Reads (.item false) p.text f x
  | .seq => ∀ f, NoQuant f → NoDigit f → Reads (.seq none) p.text f x
  | .alts => ∀ f, AltEnd f → Reads (.alts none) p.text f x
  | .empty => p.text = [] ∧ x = .empty

theorem Good.pattern {p : Printed} {x : Ast} (h : Good p x) : Pattern p.text x := by
  obtain ⟨_, h⟩ := h
  have hn := AltEnd.noQuant (.inl rfl : AltEnd none)
  revert h
  cases p.level with
  | atom => exact fun h => pattern_atom (h none)
  | ref => exact fun h => pattern_atom (h none hn.2)
  | item => exact fun h => pattern_item (h none hn.1)
  | seq => exact fun h => .alts (.single (h none hn.1 hn.2))
  | alts => exact fun h => .alts (h none (.inl rfl))
  | empty => rintro ⟨h, rfl⟩; rw [h]; exact .empty

theorem Good.wrapped {p : Printed} {x : Ast} (h : Good p x) (f : Option Byte) : Reads (.atom false) p.wrapped f x := reads_group .plain h.pattern f

theorem head_wrapped (p : Printed) : p.wrapped ≠ [] ∧ NoQuant p.wrapped.head? := by
  refine ⟨by simp [Printed.wrapped, txt], ?_⟩
  intro c h
  have : p.wrapped.head? = some (ch '(') := rfl
  rw [this] at h
  cases h; decide

theorem Good.asAtom {p : Printed} {x : Ast} (h : Good p x) : (p.asAtom ≠ [] ∧ NoQuant p.asAtom.head?) ∧ ∀ f, NoDigit f → Reads (.atom false) p.asAtom f x := by
  have hw := h.wrapped
  have hh := head_wrapped p
  obtain ⟨h0, h⟩ := h
  revert h0 h
  unfold Printed.asAtom
  cases p.level with
  | atom => exact fun h0 h => ⟨h0 (by simp), fun f _ => h f⟩
  | ref => exact fun h0 h => ⟨h0 (by simp), h⟩
  | _ => exact fun _ _ => ⟨hh, fun f _ => hw f⟩

theorem digitFirst_false {w : List Byte} {f : Option Byte} (h : digitFirst w = false) (hf : w = [] → NoDigit f) : NoDigit (follow w f) := by
  cases w with
  | nil => exact hf rfl
  | cons a w =>
    intro c hc
    cases hc
    unfold digitFirst at h
    unfold DecDigit
    simpa using h

theorem Good.asItem {p : Printed} {x : Ast} (h : Good p x) (rest : List Byte) : (p.asItem rest ≠ [] ∧ NoQuant (p.asItem rest).head?) ∧
    ∀ f, NoQuant (follow rest f) → (rest = [] → NoDigit f) → Reads (.item false) (p.asItem rest) (follow rest f) x := by
  have hw := h.wrapped
  have hh := head_wrapped p
  obtain ⟨h0, h⟩ := h
  revert h0 h
  unfold Printed.asItem
  cases p.level with
  | atom => exact fun h0 h => ⟨h0 (by simp), fun f hf _ => .bare (h _) hf⟩
  | item => exact fun h0 h => ⟨h0 (by simp), fun f hf _ => h _ hf⟩
  | ref =>
    intro h0 h
    dsimp only
    split
    · exact ⟨hh, fun f hf _ => .bare (hw _) hf⟩
    · next hd => exact ⟨h0 (by simp), fun f hf hf' => .bare (h _ (digitFirst_false (by simpa using hd) hf')) hf⟩
  | _ => exact fun _ _ => ⟨hh, fun f hf _ => .bare (hw _) hf⟩

theorem Good.asBranch {p : Printed} {x : Ast} (h : Good p x) : (p.asBranch ≠ [] ∧ NoQuant p.asBranch.head?) ∧ ∀ f, AltEnd f → Reads (.seq none) p.asBranch f x := by
  have hw := h.wrapped
  have hh := head_wrapped p
  obtain ⟨h0, h⟩ := h
  revert h0 h
  unfold Printed.asBranch
  cases p.level with
  | atom => exact fun h0 h => ⟨h0 (by simp), fun f hf => .one (.bare (h _) hf.noQuant.1)⟩
  | ref => exact fun h0 h => ⟨h0 (by simp), fun f hf => .one (.bare (h _ hf.noQuant.2) hf.noQuant.1)⟩
  | item => exact fun h0 h => ⟨h0 (by simp), fun f hf => .one (h _ hf.noQuant.1)⟩
  | seq => exact fun h0 h => ⟨h0 (by simp), fun f hf => h _ hf.noQuant.1 hf.noQuant.2⟩
  | alts => exact fun _ _ => ⟨hh, fun f hf => .one (.bare (hw _) hf.noQuant.1)⟩
  | empty => exact fun _ _ => ⟨hh, fun f hf => .one (.bare (hw _) hf.noQuant.1)⟩

/-- One part or a sequence of parts. -/
def seqTree : List Ast → Ast
  | [a] => a
  | l => .seq l

theorem seqParts_of_notSeq {a : Ast} (h : NotSeq a) : Spec.seqParts a = [a] := by
  cases a with
  | seq l => exact absurd rfl (h l)
  | _ => rfl

theorem joinParts_good : ∀ (l : List (Printed × Ast)), l ≠ [] → (∀ q ∈ l, Good q.1 q.2 ∧ NotSeq q.2) →
    (joinParts (l.map Prod.fst) ≠ [] ∧ NoQuant (joinParts (l.map Prod.fst)).head?) ∧
    ∀ f, NoQuant f → NoDigit f → Reads (.seq none) (joinParts (l.map Prod.fst)) f (seqTree (l.map Prod.snd))
  | [], h, _ => absurd rfl h
  | [q], _, h => by
    obtain ⟨hg, _⟩ := h q (by simp)
    have := hg.asItem []
    simp only [List.map_cons, List.map_nil, joinParts, List.append_nil, seqTree]
    refine ⟨this.1, fun f hf hd => .one ?_⟩
    simpa [follow] using this.2 f (by simpa [follow] using hf) (fun _ => hd)
  | q :: q' :: l, _, h => by
    obtain ⟨hg, hn⟩ := h q (by simp)
    have ih := joinParts_good (q' :: l) (by simp) (fun a ha => h a (by simp [ha]))
    have hi := hg.asItem (joinParts ((q' :: l).map Prod.fst))
    have htree : seqTree ((q :: q' :: l).map Prod.snd) = catAst q.2 (seqTree ((q' :: l).map Prod.snd)) := by
      have hq' : NotSeq q'.2 := (h q' (by simp)).2
      cases l with
      | nil => simp [seqTree, catAst, seqParts_of_notSeq hn, seqParts_of_notSeq hq']
      | cons q'' l => simp only [seqTree, catAst, seqParts_of_notSeq hn, List.map_cons]; simp [Spec.seqParts]
    rw [htree]
    rw [show (q :: q' :: l).map Prod.fst = q.1 :: (q' :: l).map Prod.fst from rfl, joinParts]
    refine ⟨⟨?_, ?_⟩, fun f hf hd => ?_⟩
    · intro e; exact hi.1.1 (List.append_eq_nil_iff.1 e).1
    · rw [head?_append_ne _ hi.1.1]; exact hi.1.2
    · have hr := ih.2 f hf hd
      have hne := ih.1.1
      have hfq : NoQuant (follow (joinParts ((q' :: l).map Prod.fst)) f) := by
        rw [← head?_eq_follow hne]; exact ih.1.2
      exact seq_compose (.one (hi.2 f hfq (fun e => absurd e hne))) (seq_after hr q.2)

/-- Alternatives from left to right. -/
theorem joinBranches_good : ∀ (l : List (Printed × Ast)) (w : List Byte) (x : Ast), (∀ q ∈ l, Good q.1 q.2) → l ≠ [] →
    Reads (.alts none) w (some (ch '|')) x → ∀ f, AltEnd f → Reads (.alts none) (w ++ txt "|" ++ joinBranches (l.map Prod.fst)) f (l.foldl (fun x q => altAst x q.2) x)
  | [], _, _, _, h, _ => absurd rfl h
  | [q], w, x, h, _, hw => fun f hf => by
    simpa [joinBranches] using Reads.or hw ((h q (by simp)).asBranch.2 f hf)
  | q :: q' :: l, w, x, h, _, hw => fun f hf => by
    have h1 := Reads.or hw ((h q (by simp)).asBranch.2 (some (ch '|')) (.inr (.inr rfl)))
    have := joinBranches_good (q' :: l) _ _ (fun a ha => h a (by simp [ha])) (by simp) h1 f hf
    simpa [joinBranches] using this

theorem foldl_altAst (l : List Ast) : ∀ m, l.foldl altAst (.alt m) = .alt (m ++ l) := by
  induction l with
  | nil => intro m; simp
  | cons a l ih => intro m; simp [altAst, ih]

theorem prAll_eq (l : List Ast) : prAll l = l.map pr := by
  induction l with
  | nil => rfl
  | cons a l ih => simp [prAll, ih]

theorem good_group {o : String} {g : Ast → Ast} {a x : Ast} (ho : GroupOpen (txt o) g) (h0 : NoQuant (txt o).head? ∧ txt o ≠ []) (h : Good (pr a) x) : Good (groupText o (pr a)) (g x) := by
  refine ⟨fun _ => ⟨by simp [groupText, txt], ?_⟩, fun f => reads_group ho h.pattern f⟩
  show NoQuant (txt o ++ (pr a).text ++ txt ")").head?
  rw [List.append_assoc, head?_append_ne _ h0.2]
  exact h0.1

theorem noQuant_lit {c : Byte} (h : c ∉ txt "*+?{") : NoQuant (some c) := by intro d hd; cases hd; exact h

theorem notSeq_strip {a : Ast} (h : NotSeq a) : NotSeq (strip a) := by
  cases a with
  | seq l => exact absurd rfl (h l)
  | _ => intro l e; simp [strip] at e

theorem good_pr {a : Ast} (h : Normal a) : Good (pr a) (strip a) := by
  have hp : NoQuant (txt "(").head? ∧ txt "(" ≠ [] := ⟨noQuant_lit (by decide), by decide⟩
  have hb : ∀ w : List Byte, NoQuant (ch '\\' :: w).head? := fun w => noQuant_lit (by decide)
  induction h with
  | empty => exact ⟨fun h => absurd rfl h, rfl, rfl⟩
  | @lit c =>
    have h1 : ∀ c ∈ special, c ∉ reserved := by decide
    have h2 : ∀ c ∈ txt "*+?{", c ∈ special := by decide
    simp only [pr, strip]
    unfold charText
    split
    · next h => exact ⟨fun _ => ⟨by simp, hb _⟩, fun f => .esc (.self (h1 c h))⟩
    · next h => exact ⟨fun _ => ⟨by simp, noQuant_lit (fun hc => h (h2 c hc))⟩, fun f => .plain h⟩
  | wildcard => exact ⟨fun _ => ⟨by decide, noQuant_lit (by decide)⟩, fun f => .dot⟩
  | digit => exact ⟨fun _ => ⟨by decide, noQuant_lit (by decide)⟩, fun f => .cls (e := ch 'd') (by simp [classes, strip, Ast.digit])⟩
  | nonDigit => exact ⟨fun _ => ⟨by decide, noQuant_lit (by decide)⟩, fun f => .cls (e := ch 'D') (by simp [classes, strip, Ast.digit])⟩
  | @set l hl =>
    obtain ⟨⟨st, h1⟩, h2⟩ := setText_spec hl
    simp only [pr, strip, (strip_members hl).1]
    exact ⟨fun _ => ⟨by simp [txt], noQuant_lit (c := ch '[') (by decide)⟩, fun f => .set (.pos (.plain h1) h2)⟩
  | @negSet l hl =>
    obtain ⟨⟨st, h1⟩, h2⟩ := setText_spec hl
    simp only [pr, strip, (strip_members hl).1]
    exact ⟨fun _ => ⟨by simp [txt], noQuant_lit (c := ch '[') (by decide)⟩, fun f => .set (.neg (.plain h1))⟩
  | @seq l h2 hs _ ih =>
    have hl : l ≠ [] := by intro e; subst e; simp at h2
    have := joinParts_good (l.map fun a => (pr a, strip a)) (by simpa using hl) (by
      intro q hq
      obtain ⟨a, ha, rfl⟩ := List.mem_map.1 hq
      exact ⟨ih a ha, notSeq_strip (hs a ha)⟩)
    simp only [List.map_map, Function.comp_def] at this
    have ht : seqTree (l.map strip) = .seq (l.map strip) := by
      match l, h2 with
      | _ :: _ :: _, _ => rfl
    rw [ht] at this
    simp only [pr, strip, prAll_eq, stripAll_eq]
    exact ⟨fun _ => this.1, this.2⟩
  | @alt a l hl hna _ ih =>
    have h1 := (ih a (by simp)).asBranch
    have h2 := joinBranches_good (l.map fun a => (pr a, strip a)) (pr a).asBranch (strip a) (by
      intro q hq
      obtain ⟨b, hb, rfl⟩ := List.mem_map.1 hq
      exact ih b (by simp [hb])) (by simpa using hl) (.single (h1.2 _ (.inr (.inr rfl))))
    simp only [List.map_map, Function.comp_def, List.foldl_map] at h2
    have hj : joinBranches ((a :: l).map pr) = (pr a).asBranch ++ txt "|" ++ joinBranches (l.map pr) := by
      cases l with
      | nil => exact absurd rfl hl
      | cons b l => rfl
    have ht : l.foldl (fun x y => altAst x (strip y)) (strip a) = .alt ((a :: l).map strip) := by
      have h3 : ∀ y, altAst (strip a) y = .alt [strip a, y] := by
        intro y
        cases a with
        | alt l => exact absurd rfl (hna l)
        | _ => rfl
      have h4 : ∀ (l : List Ast) x, l.foldl (fun x y => altAst x (strip y)) x = (l.map strip).foldl altAst x := by
        intro l x; rw [List.foldl_map]
      cases l with
      | nil => exact absurd rfl hl
      | cons b l => rw [h4]; simp [h3, foldl_altAst]
    simp only [pr, strip, prAll_eq, stripAll_eq, hj]
    rw [ht] at h2
    refine ⟨fun _ => ⟨by simp [txt], ?_⟩, h2⟩
    dsimp only
    rw [List.append_assoc, head?_append_ne _ h1.1.1]
    exact h1.1.2
  | @cap id a _ ih => exact good_group (o := "(") (g := .cap 0 none) .capture hp ih
  | @namedCap id n a hn _ ih =>
    exact ⟨fun _ => ⟨by simp [pr, txt], noQuant_lit (c := ch '(') (by decide)⟩, fun f => reads_group (.named hn) ih.pattern f⟩
  | @repFin m lo hi a hlo hhi _ ih =>
    simp only [pr, strip]
    split
    · next h => obtain ⟨rfl, rfl, h⟩ := h; cases h; exact good_group (o := "(?>") (g := .rep .possessive 1 (.fin 1)) .atomic ⟨noQuant_lit (by decide), by decide⟩ ih
    · have hq := quant_text (hi := .fin hi) hlo (by intro n h; cases h; exact hhi)
      refine ⟨fun _ => ?_, fun f hf => .quant (ih.asAtom.2 _ ?_) hq (suffix_text m) hf⟩
      · exact head_quant ih
      · exact quant_noDigit hq
  | @repInf m lo a hlo _ ih =>
    simp only [pr, strip]
    split
    · next h => exact absurd h.2.2 (by simp)
    · have hq := quant_text (hi := .inf) hlo (by intro n h; cases h)
      refine ⟨fun _ => ?_, fun f hf => .quant (ih.asAtom.2 _ ?_) hq (suffix_text m) hf⟩
      · exact head_quant ih
      · exact quant_noDigit hq
  | @look d a _ ih =>
    cases d with
    | ahead => exact good_group (o := "(?=") (g := .look .ahead) .ahead ⟨noQuant_lit (by decide), by decide⟩ ih
    | behind => exact good_group (o := "(?<=") (g := .look .behind) .behind ⟨noQuant_lit (by decide), by decide⟩ ih
  | @negLook d a _ ih =>
    cases d with
    | ahead => exact good_group (o := "(?!") (g := fun a => .neg (.look .ahead a)) .negAhead ⟨noQuant_lit (by decide), by decide⟩ ih
    | behind => exact good_group (o := "(?<!") (g := fun a => .neg (.look .behind a)) .negBehind ⟨noQuant_lit (by decide), by decide⟩ ih
  | bol => exact ⟨fun _ => ⟨by decide, noQuant_lit (by decide)⟩, fun f hf => .bol hf⟩
  | eol => exact ⟨fun _ => ⟨by decide, noQuant_lit (by decide)⟩, fun f hf => .eol hf⟩
  | boi => exact ⟨fun _ => ⟨by decide, noQuant_lit (by decide)⟩, fun f hf => .assertion (e := ch 'A') (by simp [assertions, strip]) hf⟩
  | eoi => exact ⟨fun _ => ⟨by decide, noQuant_lit (by decide)⟩, fun f hf => .assertion (e := ch 'Z') (by simp [assertions, strip]) hf⟩
  | wordB => exact ⟨fun _ => ⟨by decide, noQuant_lit (by decide)⟩, fun f hf => .assertion (e := ch 'b') (by simp [assertions, strip]) hf⟩
  | notWordB => exact ⟨fun _ => ⟨by decide, noQuant_lit (by decide)⟩, fun f hf => .assertion (e := ch 'B') (by simp [assertions, strip]) hf⟩
  | @backref n hn =>
    simp only [pr, strip]
    refine ⟨fun _ => ⟨by simp [txt], noQuant_lit (c := ch '\\') (by decide)⟩, fun f hf => ?_⟩
    obtain ⟨h1, h2, h3, h4⟩ := numeralText_spec (if n = 0 then 2 ^ 64 else n)
    have hpos : 0 < (if n = 0 then 2 ^ 64 else n) := by split <;> omega
    refine Reads.backref (w := numeralText (if n = 0 then 2 ^ 64 else n)) ⟨h3, h2, ?_⟩ (h4 hpos) hf
    rw [h1]
    split
    · next h => rw [h]
    · rw [Nat.mod_eq_of_lt hn]
  | @namedBackref n hn =>
    exact ⟨fun _ => ⟨by simp [pr, txt], noQuant_lit (c := ch '\\') (by decide)⟩, fun f => .namedBackref hn⟩
where
  head_quant {m : Mode} {lo : Nat} {hi : Bound} {a x : Ast} (ih : Good (pr a) x) :
      (pr a).asAtom ++ quantText lo hi ++ suffixText m ≠ [] ∧ NoQuant ((pr a).asAtom ++ quantText lo hi ++ suffixText m).head? := by
    obtain ⟨h1, h2⟩ := ih.asAtom.1
    refine ⟨fun e => h1 (List.append_eq_nil_iff.1 (List.append_eq_nil_iff.1 e).1).1, ?_⟩
    rw [List.append_assoc, head?_append_ne _ h1]
    exact h2
  quant_noDigit {q : List Byte} {lo : Nat} {hi : Bound} (h : Quant q lo hi) : NoDigit q.head? := by
    cases h <;> (intro c hc; cases hc; unfold DecDigit; decide)

/-- The printed text of a tree in normal form is a pattern for this tree. -/
theorem pattern_print {a : Ast} (h : Normal a) : Pattern (print a) (strip a) := (good_pr h).pattern

/-! ## Trees of patterns are in normal form -/

theorem classItems_members {e : Byte} {x : Ast} (h : (e, x) ∈ classes) {l : List Ast} (hl : SetMembers l) : SetMembers (classItems x ++ l) := by
  have h' := h
  simp [classes] at h
  rcases h with ⟨rfl, rfl⟩ | ⟨rfl, rfl⟩ | ⟨rfl, rfl⟩ | ⟨rfl, rfl⟩ | ⟨rfl, rfl⟩ | ⟨rfl, rfl⟩ | ⟨rfl, rfl⟩ | ⟨rfl, rfl⟩
  · exact .range hl
  · exact .neg hl h'
  · exact .range (.range (.range (.lit hl)))
  · exact .neg hl h'
  · exact .white hl
  · exact .neg hl h'
  · exact .lit (.lit hl)
  · exact .neg hl h'

theorem _root_.Mregex.Spec.SetMembers.tail_lit {c : Byte} {l : List Ast} (h : SetMembers (.lit c :: l)) : SetMembers l := by
  cases h with
  | lit h => exact h

theorem setItems_members {st : SetState} {w : List Byte} {l : List Ast} (h : SetItems st w l) : SetMembers l := by
  induction h with
  | nil => exact .nil
  | char _ _ _ ih => exact .lit ih
  | cls _ h ih => exact classItems_members h ih
  | range _ _ ih => exact .range ih.tail_lit
  | dash _ _ _ ih => exact .lit (.lit ih)
  | quirk _ _ ih => exact .range ih.tail_lit

theorem setBody_members {w : List Byte} {l : List Ast} (h : SetBody w l) : SetMembers l := by
  cases h with
  | plain h => exact setItems_members h
  | dash h _ => exact .lit (setItems_members h)

theorem normal_class {e : Byte} {x : Ast} (h : (e, x) ∈ classes) : Normal x := by
  have hw : SetMembers [lower, upper, Ast.digit, .lit (ch '_')] := .range (.range (.range (.lit .nil)))
  have hs : SetMembers [linebreak, .lit (ch ' '), .lit 9#8, .lit 11#8, .lit 12#8] := .white .nil
  have hl : SetMembers [.lit 10#8, .lit 13#8] := .lit (.lit .nil)
  simp [classes] at h
  rcases h with ⟨rfl, rfl⟩ | ⟨rfl, rfl⟩ | ⟨rfl, rfl⟩ | ⟨rfl, rfl⟩ | ⟨rfl, rfl⟩ | ⟨rfl, rfl⟩ | ⟨rfl, rfl⟩ | ⟨rfl, rfl⟩
  · exact .digit
  · exact .nonDigit
  · exact .set hw
  · exact .negSet hw
  · exact .set hs
  · exact .negSet hs
  · exact .set hl
  · exact .negSet hl

theorem numeral_lt {w : List Byte} {n : Nat} (h : Numeral w n) : n < 2 ^ 64 := by
  rw [h.2.2]; exact Nat.mod_lt _ (by decide)

theorem normal_rep {q : List Byte} {lo : Nat} {hi : Bound} (h : Quant q lo hi) {m : Mode} {x : Ast} (hx : Normal x) : Normal (.rep m lo hi x) := by
  cases h with
  | star => exact .repInf (by decide) hx
  | plus => exact .repInf (by decide) hx
  | opt => exact .repFin (by decide) (by decide) hx
  | exact h => exact .repFin (numeral_lt h) (numeral_lt h) hx
  | atLeast h => exact .repInf (numeral_lt h) hx
  | between h h' => exact .repFin (numeral_lt h) (numeral_lt h') hx

theorem normal_group {o : List Byte} {g : Ast → Ast} (h : GroupOpen o g) {x : Ast} (hx : Normal x) : Normal (g x) := by
  cases h with
  | capture => exact .cap hx
  | named h => exact .namedCap h hx
  | plain => exact hx
  | atomic => exact .repFin (by decide) (by decide) hx
  | ahead => exact .look hx
  | negAhead => exact .negLook hx
  | behind => exact .look hx
  | negBehind => exact .negLook hx

theorem normal_parts {x : Ast} (hx : Normal x) : Spec.seqParts x ≠ [] ∧ (∀ a ∈ Spec.seqParts x, NotSeq a) ∧ ∀ a ∈ Spec.seqParts x, Normal a := by
  by_cases h : ∃ l, x = .seq l
  · obtain ⟨l, rfl⟩ := h
    cases hx with
    | seq h2 hs hn => exact ⟨by intro e; simp only [Spec.seqParts] at e; subst e; simp at h2, hs, hn⟩
  · have hn : NotSeq x := fun l e => h ⟨l, e⟩
    rw [seqParts_of_notSeq hn]
    simp only [List.mem_singleton, forall_eq]
    exact ⟨by simp, hn, hx⟩

theorem normal_cat {x y : Ast} (hx : Normal x) (hy : Normal y) : Normal (catAst x y) := by
  obtain ⟨h1, h2, h3⟩ := normal_parts hx
  obtain ⟨h1', h2', h3'⟩ := normal_parts hy
  refine .seq ?_ ?_ ?_
  · have := List.length_pos_iff.2 h1
    have := List.length_pos_iff.2 h1'
    simp only [List.length_append]; omega
  · intro a ha; exact (List.mem_append.1 ha).elim (h2 a) (h2' a)
  · intro a ha; exact (List.mem_append.1 ha).elim (h3 a) (h3' a)

theorem normal_alt {x y : Ast} (hx : Normal x) (hy : Normal y) : Normal (altAst x y) := by
  by_cases h : ∃ l, x = .alt l
  · obtain ⟨l, rfl⟩ := h
    cases hx with
    | @alt a l hl hna hn =>
      refine .alt (l := l ++ [y]) (by simp) hna ?_
      intro b hb
      rw [← List.cons_append] at hb
      rcases List.mem_append.1 hb with hb | hb
      · exact hn b hb
      · simp only [List.mem_singleton] at hb; subst hb; exact hy
  · have : altAst x y = .alt [x, y] := by
      cases x with
      | alt l => exact absurd ⟨l, rfl⟩ h
      | _ => rfl
    rw [this]
    refine .alt (by simp) (fun l e => h ⟨l, e⟩) ?_
    simp only [List.mem_cons, List.not_mem_nil, or_false]
    rintro b (rfl | rfl)
    · exact hx
    · exact hy

theorem normal_reads {c : Spec.Cat} {w : List Byte} {f : Option Byte} {x : Ast} (h : Reads c w f x) : (∀ y, (c = .seq (some y) ∨ c = .alts (some y)) → Normal y) → Normal x := by
  induction h with
  | plain _ => exact fun _ => .lit
  | dot => exact fun _ => .wildcard
  | esc _ => exact fun _ => .lit
  | cls h => exact fun _ => normal_class h
  | set h =>
    intro _
    cases h with
    | pos h _ => exact .set (setBody_members h)
    | neg h => exact .negSet (setBody_members h)
  | backref h _ _ => exact fun _ => .backref (numeral_lt h)
  | namedBackref h => exact fun _ => .namedBackref h
  | emptyGroup h => exact fun _ => normal_group h .empty
  | group h _ ih => exact fun _ => normal_group h (ih (by simp))
  | brace _ => exact fun _ => .lit
  | bare _ _ ih => exact fun _ => ih (by simp)
  | quant _ hq _ _ ih => exact fun _ => normal_rep hq (ih (by simp))
  | bol _ => exact fun _ => .bol
  | eol _ => exact fun _ => .eol
  | assertion h _ =>
    intro _
    simp [assertions] at h
    rcases h with ⟨_, rfl⟩ | ⟨_, rfl⟩ | ⟨_, rfl⟩ | ⟨_, rfl⟩
    · exact .wordB
    · exact .notWordB
    · exact .boi
    · exact .eoi
  | braced _ _ _ _ ih1 ih2 ih3 => exact fun _ => ih3 (by
      rintro y (h | h)
      · cases h
      · cases h; exact normal_cat (ih1 (by simp)) (ih2 (by simp)))
  | start => exact fun h => h _ (.inl rfl)
  | one _ ih => exact fun _ => ih (by simp)
  | more _ _ ih1 ih2 => exact fun h => normal_cat (ih1 h) (ih2 (by simp))
  | @single s w f x _ ih => exact fun h => ih (by
      rintro y (e | e)
      · cases e; exact h y (.inr rfl)
      · cases e)
  | or _ _ ih1 ih2 => exact fun h => normal_alt (ih1 h) (ih2 (by simp))

theorem normal_pattern {w : List Byte} {x : Ast} (h : Pattern w x) : Normal x := by
  cases h with
  | empty => exact .empty
  | alts h => exact normal_reads h (by simp)

theorem mem_indexSame {o : Nat} {l : List Ast} {a : Ast} (h : a ∈ indexSame o l) : ∃ b ∈ l, a = index o b := by
  induction l with
  | nil => simp [indexSame] at h
  | cons b l ih =>
    simp only [indexSame, List.mem_cons] at h
    rcases h with rfl | h
    · exact ⟨b, by simp, rfl⟩
    · obtain ⟨c, hc, rfl⟩ := ih h
      exact ⟨c, by simp [hc], rfl⟩

theorem mem_indexSeq {l : List Ast} {a : Ast} : ∀ {o : Nat}, a ∈ indexSeq o l → ∃ b ∈ l, ∃ o', a = index o' b := by
  induction l with
  | nil => intro o h; simp [indexSeq] at h
  | cons b l ih =>
    intro o h
    simp only [indexSeq, List.mem_cons] at h
    rcases h with rfl | h
    · exact ⟨b, by simp, o, rfl⟩
    · obtain ⟨c, hc, o', rfl⟩ := ih h
      exact ⟨c, by simp [hc], o', rfl⟩

theorem length_indexSeq (l : List Ast) : ∀ o, (indexSeq o l).length = l.length := by
  induction l with
  | nil => intro o; rfl
  | cons a l ih => intro o; simp [indexSeq, ih]

theorem normal_index {a : Ast} (h : Normal a) : ∀ o, Normal (index o a) := by
  induction h with
  | set h => intro o; simp only [index, (strip_members h).2]; exact .set h
  | negSet h => intro o; simp only [index, (strip_members h).2]; exact .negSet h
  | @seq l h2 hs _ ih =>
    intro o
    refine .seq (by rw [length_indexSeq]; exact h2) ?_ ?_
    · intro a ha
      obtain ⟨b, hb, o', rfl⟩ := mem_indexSeq ha
      have := hs b hb
      cases b with
      | seq l => exact absurd rfl (this l)
      | _ => intro l e; simp [index] at e
    · intro a ha
      obtain ⟨b, hb, o', rfl⟩ := mem_indexSeq ha
      exact ih b hb o'
  | @alt a l hl hna _ ih =>
    intro o
    simp only [index, indexSame]
    refine .alt ?_ ?_ ?_
    · cases l with
      | nil => exact absurd rfl hl
      | cons b l => simp [indexSame]
    · cases a with
      | alt l => exact absurd rfl (hna l)
      | _ => intro l e; simp [index] at e
    · intro b hb
      rw [← indexSame] at hb
      obtain ⟨c, hc, rfl⟩ := mem_indexSame hb
      exact ih c hc o
  | cap _ ih => exact fun o => .cap (ih _)
  | namedCap h _ ih => exact fun o => .namedCap h (ih _)
  | repFin h h' _ ih => exact fun o => .repFin h h' (ih _)
  | repInf h _ ih => exact fun o => .repInf h (ih _)
  | look _ ih => exact fun o => .look (ih _)
  | negLook _ ih => exact fun o => .negLook (ih _)
  | backref h => exact fun o => .backref h
  | namedBackref h => exact fun o => .namedBackref h
  | empty => exact fun _ => .empty
  | lit => exact fun _ => .lit
  | wildcard => exact fun _ => .wildcard
  | digit => exact fun _ => .digit
  | nonDigit => exact fun _ => .nonDigit
  | bol => exact fun _ => .bol
  | eol => exact fun _ => .eol
  | boi => exact fun _ => .boi
  | eoi => exact fun _ => .eoi
  | wordB => exact fun _ => .wordB
  | notWordB => exact fun _ => .notWordB

end Mregex
