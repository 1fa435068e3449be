import Verif.Proof.SyntaxComplete

/-!
# Accepted patterns are patterns of the grammar
-/

namespace Mregex
open Ast Spec

/-- The machine accepts from here. -/
def Acc (c : Cfg) (r : Ast) : Prop := ∃ c', PSteps c c' ∧ sstep c' = .accept r

theorem Acc.next {c c' : Cfg} {r : Ast} (h : Acc c r) (hs : sstep c = .next c') : Acc c' r := by
  obtain ⟨c2, h, ha⟩ := h
  cases h with
  | refl => rw [hs] at ha; cases ha
  | step h h' =>
    rw [hs] at h
    cases h
    exact ⟨c2, h', ha⟩

theorem Acc.steps {c c' : Cfg} {r : Ast} (h : Acc c r) (hs : PSteps c c') : Acc c' r := by
  induction hs with
  | refl => exact h
  | step h' _ ih => exact ih (h.next h')

theorem Acc.not_reject {c : Cfg} {r : Ast} (h : Acc c r) : sstep c ≠ .reject := by
  obtain ⟨c2, h, ha⟩ := h
  intro hr
  cases h with
  | refl => rw [hr] at ha; cases ha
  | step h h' => rw [hr] at h; cases h

theorem Acc.not_illFormed {c : Cfg} {r : Ast} (h : Acc c r) : sstep c ≠ .illFormed := by
  obtain ⟨c2, h, ha⟩ := h
  intro hr
  cases h with
  | refl => rw [hr] at ha; cases ha
  | step h h' => rw [hr] at h; cases h

/-- The rule for the symbol on top does not reject. -/
theorem Acc.rule {l : Option Byte} {w : List Byte} {N : List Ast} {s : Sym} {K : List Sym} {r : Ast} (h : Acc ⟨l, w, N, s :: K⟩ r) (hs : ∀ a, s ≠ .act a) :
    rule (some s) w.head? ≠ .reject := by
  intro hr
  have := h.not_reject
  rw [sstep_sym hs, hr] at this
  exact this rfl

theorem Acc.advance {l : Option Byte} {c : Byte} {w : List Byte} {N : List Ast} {s : Sym} {K : List Sym} {r : Ast} (h : Acc ⟨l, c :: w, N, s :: K⟩ r) {L : List Sym}
    (hr : Mregex.rule (some s) (some c) = .advance L) : Acc ⟨some c, w, N, L ++ K⟩ r := by
  refine h.next (step_advance ?_ hr)
  rintro a rfl
  cases hr

theorem Acc.ignore {l : Option Byte} {w : List Byte} {N : List Ast} {s : Sym} {K : List Sym} {r : Ast} (h : Acc ⟨l, w, N, s :: K⟩ r)
    (hr : Mregex.rule (some s) w.head? = .ignore) : Acc ⟨l, w, N, K⟩ r := by
  refine h.next (step_ignore ?_ hr)
  rintro a rfl
  cases hr

theorem Acc.push {l : Option Byte} {w : List Byte} {N : List Ast} {s : Sym} {K : List Sym} {r : Ast} (h : Acc ⟨l, w, N, s :: K⟩ r) {L : List Sym}
    (hr : Mregex.rule (some s) w.head? = .push L) : Acc ⟨l, w, N, L ++ K⟩ r := by
  refine h.next (step_push ?_ hr)
  rintro a rfl
  cases hr

theorem Acc.act {l : Option Byte} {w : List Byte} {N : List Ast} {a : Action} {K : List Sym} {r : Ast} (h : Acc ⟨l, w, N, .act a :: K⟩ r) :
    ∃ N', Acc ⟨l, w, N', K⟩ r := by
  have := h.not_illFormed
  cases hb : build a l N with
  | none => simp [sstep, hb] at this
  | some N' => exact ⟨N', h.next (step_act hb)⟩

theorem Acc.acts {l : Option Byte} {w : List Byte} {K : List Sym} {r : Ast} : ∀ {acts : List Sym} {N : List Ast}, (∀ s ∈ acts, ∃ a, s = .act a) → Acc ⟨l, w, N, acts ++ K⟩ r → ∃ N', Acc ⟨l, w, N', K⟩ r
  | [], N, _, h => ⟨N, h⟩
  | s :: acts, N, ha, h => by
    obtain ⟨a, rfl⟩ := ha s (by simp)
    obtain ⟨N', h⟩ := Acc.act (K := acts ++ K) h
    exact Acc.acts (fun s hs => ha s (by simp [hs])) h

theorem Acc.expect {l : Option Byte} {w : List Byte} {N : List Ast} {c : Byte} {K : List Sym} {r : Ast} (h : Acc ⟨l, w, N, .expect c :: K⟩ r) :
    ∃ w', w = c :: w' ∧ Acc ⟨some c, w', N, K⟩ r := by
  have := h.rule (by nofun)
  match w with
  | [] => exact absurd rfl this
  | c' :: w =>
    have hc : c' = c := by
      apply Classical.byContradiction
      intro hne
      simp [Mregex.rule, hne] at this
    subst hc
    exact ⟨w, rfl, h.advance (L := []) (by simp [Mregex.rule])⟩

/-! ## Quantifiers -/

theorem acc_quantifierValue : ∀ (w : List Byte) (m : Nat) (l : Option Byte) (N : List Ast) (K : List Sym) (r : Ast), Acc ⟨l, w, N, .quantifierValue m :: K⟩ r →
    ∃ u rest, (∀ d ∈ u, DecDigit d) ∧ (w = u ++ ch '}' :: rest ∨ ∃ m l', w = u ++ ch ',' :: rest ∧ Acc ⟨l', rest, N, .quantifierRange m .inf :: K⟩ r) := by
  intro w
  induction w with
  | nil => exact fun m l N K r h => absurd rfl (h.rule (by nofun))
  | cons c w ih =>
    intro m l N K r h
    have hr := h.rule (by nofun)
    by_cases h1 : c = ch '}'
    · subst h1
      exact ⟨[], w, by simp, .inl rfl⟩
    · by_cases h2 : c = ch ','
      · subst h2
        exact ⟨[], w, by simp, .inr ⟨m, _, rfl, h.advance (L := [.quantifierRange m .inf]) rfl⟩⟩
      · by_cases h3 : isDigit c = true
        · obtain ⟨u, rest, hu, hx⟩ := ih _ _ _ _ _ (h.advance (L := [.quantifierValue (sizeT (10 * m + c.toNat - 48))]) (by simp [rule, h1, h2, continueQuantifierValue, h3]))
          refine ⟨c :: u, rest, by simpa [hu] using ⟨decDigit_of_isDigit c h3, hu⟩, ?_⟩
          rcases hx with rfl | ⟨m, l', rfl, hx⟩
          · exact .inl rfl
          · exact .inr ⟨m, l', rfl, hx⟩
        · simp [rule, h1, h2, continueQuantifierValue, h3] at hr

theorem acc_quantifierRange : ∀ (w : List Byte) (lo : Nat) (hi : Bound) (l : Option Byte) (N : List Ast) (K : List Sym) (r : Ast), Acc ⟨l, w, N, .quantifierRange lo hi :: K⟩ r →
    ∃ u rest, (∀ d ∈ u, DecDigit d) ∧ w = u ++ ch '}' :: rest := by
  intro w
  induction w with
  | nil => exact fun lo hi l N K r h => absurd rfl (h.rule (by nofun))
  | cons c w ih =>
    intro lo hi l N K r h
    have hr := h.rule (by nofun)
    by_cases h1 : c = ch '}'
    · subst h1
      exact ⟨[], w, by simp, rfl⟩
    · by_cases h3 : isDigit c = true
      · cases hi with
        | fin n =>
          obtain ⟨u, rest, hu, rfl⟩ := ih _ _ _ _ _ _ (h.advance (L := [.quantifierRange lo (.fin (sizeT (10 * n + c.toNat - 48)))]) (by simp [rule, h1, continueQuantifierRange, h3]))
          exact ⟨c :: u, rest, by simpa [hu] using ⟨decDigit_of_isDigit c h3, hu⟩, rfl⟩
        | inf =>
          obtain ⟨u, rest, hu, rfl⟩ := ih _ _ _ _ _ _ (h.advance (L := [.quantifierRange lo (.fin (c.toNat - 48))]) (by simp [rule, h1, continueQuantifierRange, h3]))
          exact ⟨c :: u, rest, by simpa [hu] using ⟨decDigit_of_isDigit c h3, hu⟩, rfl⟩
      · simp [rule, h1, continueQuantifierRange, h3] at hr

/-- What can follow a part. -/
theorem acc_mod {l : Option Byte} {w : List Byte} {x : Ast} {N : List Ast} {K : List Sym} {r : Ast} (h : Acc ⟨l, w, x :: N, .mod :: K⟩ r) :
    NoQuant w.head? ∨ (∃ q rest lo hi, Quant q lo hi ∧ w = q ++ rest) ∨ (∃ rest, w = ch '{' :: rest ∧ ∀ c, rest.head? = some c → ¬DecDigit c) := by
  match w with
  | [] => exact .inl (by nofun)
  | c :: w =>
    by_cases h1 : c = ch '*'
    · subst h1; exact .inr (.inl ⟨_, w, _, _, .star, rfl⟩)
    · by_cases h2 : c = ch '+'
      · subst h2; exact .inr (.inl ⟨_, w, _, _, .plus, rfl⟩)
      · by_cases h3 : c = ch '?'
        · subst h3; exact .inr (.inl ⟨_, w, _, _, .opt, rfl⟩)
        · by_cases h4 : c = ch '{'
          · subst h4
            refine .inr ?_
            have hq : Acc ⟨some (ch '{'), w, x :: N, .quantifierBegin :: K⟩ r := h.advance (L := [.quantifierBegin]) rfl
            match w with
            | [] => exact .inr ⟨[], rfl, by nofun⟩
            | d :: w =>
              by_cases hd : isDigit d = true
              · left
                have hq := hq.advance (L := [.quantifierValue (d.toNat - 48)]) (by simp [rule, beginQuantifierValue, hd])
                obtain ⟨u, rest, hu, hx⟩ := acc_quantifierValue _ _ _ _ _ _ hq
                have hn : Numeral (d :: u) (decimal (d :: u) % 2 ^ 64) := ⟨by simp, by simpa using ⟨decDigit_of_isDigit d hd, hu⟩, rfl⟩
                rcases hx with rfl | ⟨m, l', rfl, hx⟩
                · exact ⟨_, rest, _, _, .exact hn, by simp [txt]⟩
                · obtain ⟨v, rest, hv, rfl⟩ := acc_quantifierRange _ _ _ _ _ _ _ hx
                  match v with
                  | [] => exact ⟨_, rest, _, _, .atLeast hn, by simp [txt]⟩
                  | e :: v => exact ⟨_, rest, _, _, .between hn (v := e :: v) ⟨by simp, hv, rfl⟩, by simp [txt]⟩
              · refine .inr ⟨d :: w, rfl, ?_⟩
                intro c hc
                cases hc
                rw [decDigit_iff]
                exact hd
          · exact .inl (by intro c' hc; cases hc; simp [txt, h1, h2, h3, h4])

theorem acc_suffix {l : Option Byte} {w : List Byte} {x : Ast} {N : List Ast} {lo : Nat} {hi : Bound} {K : List Sym} {r : Ast}
    (h : Acc ⟨l, w, x :: N, .quantifierMod .greedy lo hi :: K⟩ r) : ∃ sx m rest l', Suffix sx m ∧ w = sx ++ rest ∧ Acc ⟨l', rest, .rep m lo hi x :: N, K⟩ r := by
  match w with
  | [] => exact ⟨[], .greedy, [], l, .greedy, rfl, (h.push (L := [.act (.makeRepetition .greedy lo hi)]) (by simp [rule])).next rfl⟩
  | c :: w =>
    by_cases h1 : c = ch '?'
    · subst h1
      exact ⟨_, _, w, _, .lazy, rfl, (h.advance (L := [.act (.makeRepetition .lazy lo hi)]) (by simp [rule])).next rfl⟩
    · by_cases h2 : c = ch '+'
      · subst h2
        exact ⟨_, _, w, _, .possessive, rfl, (h.advance (L := [.act (.makeRepetition .possessive lo hi)]) rfl).next rfl⟩
      · exact ⟨[], .greedy, c :: w, l, .greedy, rfl, (h.push (L := [.act (.makeRepetition .greedy lo hi)]) (by simp [rule, h1, h2])).next rfl⟩

/-! ## Escapes -/

theorem hexDigit_of_isHexdigit : ∀ c : Byte, isHexdigit c = true → HexDigit c (c.toNat - 48) ∨ HexDigit c (c.toNat - 55) ∨ HexDigit c (c.toNat - 87) := by
  unfold HexDigit; decide +kernel

theorem hexDigit_exists {c : Byte} (h : isHexdigit c = true) : ∃ v, HexDigit c v := by
  rcases hexDigit_of_isHexdigit c h with h | h | h <;> exact ⟨_, h⟩

theorem acc_hex {l : Option Byte} {w : List Byte} {N : List Ast} {K : List Sym} {r : Ast} (h : Acc ⟨l, w, N, .hexEscSeq [] :: K⟩ r) :
    ∃ a b v v' rest, w = a :: b :: rest ∧ HexDigit a v ∧ HexDigit b v' := by
  have hr := h.rule (by nofun)
  match w with
  | [] => simp [rule, continueHexEscapeSequence] at hr
  | a :: w =>
    have ha : isHexdigit a = true := by
      apply Classical.byContradiction
      intro hne
      simp [rule, continueHexEscapeSequence, hne] at hr
    obtain ⟨v, hv⟩ := hexDigit_exists ha
    have h := h.advance (L := [.hexEscSeq [if isDigit a then a - ch '0' else 10#8 + setLowercaseBit a - ch 'a']]) (by simp [rule, continueHexEscapeSequence, ha])
    have hr := h.rule (by nofun)
    match w with
    | [] => simp [rule, continueHexEscapeSequence] at hr
    | b :: w =>
      have hb : isHexdigit b = true := by
        apply Classical.byContradiction
        intro hne
        simp [rule, continueHexEscapeSequence, hne] at hr
      obtain ⟨v', hv'⟩ := hexDigit_exists hb
      exact ⟨a, b, v, v', w, rfl, hv, hv'⟩

theorem esc_table : ∀ c : Byte, c = ch 'k' ∨ c = ch 'x' ∨ (isDigit c = true ∧ c ≠ ch '0') ∨ c ∈ controls.map Prod.fst ∨ c ∈ classes.map Prod.fst ∨ c ∈ assertions.map Prod.fst ∨ c ∉ reserved := by
  decide +kernel

theorem mem_fst {α β : Type} {l : List (α × β)} {a : α} (h : a ∈ l.map Prod.fst) : ∃ b, (a, b) ∈ l := by
  obtain ⟨p, hp, rfl⟩ := List.mem_map.1 h
  exact ⟨p.2, hp⟩

theorem acc_name {name : List Byte → Sym} (hname : ∀ l c, rule (some (name l)) (some c) = if c = ch '>' then rule (some (name l)) (some (ch '>')) else continueName name l c)
    (hnone : ∀ l, rule (some (name l)) none = .reject) (hact : ∀ l a, name l ≠ .act a) :
    ∀ (w pre : List Byte) (l : Option Byte) (N : List Ast) (K : List Sym) (r : Ast), Acc ⟨l, w, N, name pre :: K⟩ r →
    ∃ u rest, w = u ++ ch '>' :: rest ∧ ∀ c ∈ u, WordChar c := by
  intro w
  induction w with
  | nil => exact fun pre l N K r h => absurd (hnone pre) (h.rule (hact pre))
  | cons c w ih =>
    intro pre l N K r h
    by_cases h1 : c = ch '>'
    · subst h1; exact ⟨[], w, rfl, by simp⟩
    · have hr := h.rule (hact pre)
      rw [List.head?_cons, hname] at hr
      have h2 : isWord c = true := by
        apply Classical.byContradiction
        intro hne
        simp [h1, continueName, hne] at hr
      obtain ⟨u, rest, rfl, hu⟩ := ih (pre ++ [c]) _ _ _ _ (h.advance (L := [name (pre ++ [c])]) (by rw [hname]; simp [h1, continueName, h2]))
      exact ⟨c :: u, rest, rfl, by simpa using ⟨wordChar_of_isWord c h2, hu⟩⟩

theorem isName_of_cons {c : Byte} {u : List Byte} (h1 : isWord c = true) (h2 : isDigit c = false) (hu : ∀ c ∈ u, WordChar c) : IsName (c :: u) :=
  ⟨by simpa using ⟨wordChar_of_isWord c h1, hu⟩, c, rfl, not_digit_of_isDigit c h2⟩

theorem acc_backrefName {l : Option Byte} {w : List Byte} {N : List Ast} {K : List Sym} {r : Ast} (h : Acc ⟨l, w, N, .expect (ch '<') :: .backrefNameBegin :: K⟩ r) :
    ∃ n rest, w = ch '<' :: (n ++ ch '>' :: rest) ∧ IsName n := by
  obtain ⟨w, rfl, h'⟩ := h.expect
  clear h
  have h := h'
  have hr := h.rule (by nofun)
  match w with
  | [] => exact absurd rfl hr
  | c :: w =>
    have hc : (isWord c && !isDigit c) = true := by
      apply Classical.byContradiction
      intro hne
      simp only [List.head?_cons, rule, beginName, hne] at hr
      simp at hr
    have h := h.advance (L := [.backrefNameSeq [c]]) (by simp only [rule, beginName, hc]; rfl)
    obtain ⟨u, rest, rfl, hu⟩ := acc_name (name := .backrefNameSeq) (by intro l c; by_cases h : c = ch '>' <;> simp [rule, h]) (fun _ => rfl) (by nofun) _ _ _ _ _ _ h
    simp only [Bool.and_eq_true, Bool.not_eq_true'] at hc
    exact ⟨c :: u, rest, rfl, isName_of_cons hc.1 hc.2 hu⟩

theorem takeDigits (w : List Byte) : ∃ u rest, w = u ++ rest ∧ (∀ d ∈ u, DecDigit d) ∧ ∀ c, rest.head? = some c → ¬DecDigit c := by
  induction w with
  | nil => exact ⟨[], [], rfl, by simp, by nofun⟩
  | cons c w ih =>
    by_cases hc : DecDigit c
    · obtain ⟨u, rest, rfl, h1, h2⟩ := ih
      exact ⟨c :: u, rest, rfl, by simpa using ⟨hc, h1⟩, h2⟩
    · exact ⟨[], c :: w, rfl, by simp, by intro d hd; cases hd; exact hc⟩

/-- What can follow a backslash. -/
theorem acc_esc {l : Option Byte} {w : List Byte} {N : List Ast} {K : List Sym} {r : Ast} (h : Acc ⟨l, w, N, .esc :: K⟩ r) :
    (∃ u rest c, w = u ++ rest ∧ LitEsc (ch '\\' :: u) c) ∨
    (∃ e x rest, w = e :: rest ∧ (e, x) ∈ classes) ∨
    (∃ e x rest, w = e :: rest ∧ (e, x) ∈ assertions) ∨
    (∃ u n rest, w = u ++ rest ∧ Numeral u n ∧ u.head? ≠ some (ch '0') ∧ ∀ c, rest.head? = some c → ¬DecDigit c) ∨
    (∃ n rest, w = txt "k<" ++ n ++ txt ">" ++ rest ∧ IsName n) := by
  match w with
  | [] => exact absurd rfl (h.rule (by nofun))
  | c :: w =>
    rcases esc_table c with rfl | rfl | ⟨h1, h2⟩ | h1 | h1 | h1 | h1
    · obtain ⟨n, rest, rfl, hn⟩ := acc_backrefName (h.advance (L := [.expect (ch '<'), .backrefNameBegin]) rfl)
      exact .inr (.inr (.inr (.inr ⟨n, rest, by simp [txt], hn⟩)))
    · obtain ⟨a, b, v, v', rest, rfl, hv, hv'⟩ := acc_hex (h.advance (L := [.hexEscSeq []]) rfl)
      exact .inl ⟨[ch 'x', a, b], rest, _, rfl, .hex hv hv'⟩
    · obtain ⟨u, rest, rfl, h3, h4⟩ := takeDigits w
      exact .inr (.inr (.inr (.inl ⟨c :: u, _, rest, rfl, ⟨by simp, by simpa using ⟨decDigit_of_isDigit c h1, h3⟩, rfl⟩, by simpa using h2, h4⟩)))
    · obtain ⟨d, hd⟩ := mem_fst h1
      exact .inl ⟨[c], w, d, rfl, .ctrl hd⟩
    · obtain ⟨d, hd⟩ := mem_fst h1
      exact .inr (.inl ⟨c, d, w, rfl, hd⟩)
    · obtain ⟨d, hd⟩ := mem_fst h1
      exact .inr (.inr (.inl ⟨c, d, w, rfl, hd⟩))
    · exact .inl ⟨[c], w, c, rfl, .self h1⟩

theorem setEsc_table : ∀ c : Byte, c = ch 'x' ∨ c = ch 'b' ∨ c ∈ controls.map Prod.fst ∨ c ∈ classes.map Prod.fst ∨ c ∉ reservedInSet := by
  decide +kernel

theorem rangeEsc_class : ∀ e ∈ classes.map Prod.fst, handleSetRangeEscapeSequence e = .reject := by decide +kernel

theorem acc_setEsc {l : Option Byte} {w : List Byte} {N : List Ast} {K : List Sym} {r : Ast} (h : Acc ⟨l, w, N, .setEsc :: K⟩ r) :
    (∃ u rest c, w = u ++ rest ∧ SetLitEsc (ch '\\' :: u) c) ∨ (∃ e x rest, w = e :: rest ∧ (e, x) ∈ classes) := by
  match w with
  | [] => exact absurd rfl (h.rule (by nofun))
  | c :: w =>
    rcases setEsc_table c with rfl | rfl | h1 | h1 | h1
    · obtain ⟨a, b, v, v', rest, rfl, hv, hv'⟩ := acc_hex (h.advance (L := [.hexEscSeq []]) rfl)
      exact .inl ⟨[ch 'x', a, b], rest, _, rfl, .hex hv hv'⟩
    · exact .inl ⟨[ch 'b'], w, _, rfl, .backspace⟩
    · obtain ⟨d, hd⟩ := mem_fst h1
      exact .inl ⟨[c], w, d, rfl, .ctrl hd⟩
    · obtain ⟨d, hd⟩ := mem_fst h1
      exact .inr ⟨c, d, w, rfl, hd⟩
    · exact .inl ⟨[c], w, c, rfl, .self h1⟩

theorem acc_setRangeEsc {l : Option Byte} {w : List Byte} {N : List Ast} {K : List Sym} {r : Ast} (h : Acc ⟨l, w, N, .setRangeEsc :: K⟩ r) :
    ∃ u rest c, w = u ++ rest ∧ SetLitEsc (ch '\\' :: u) c := by
  match w with
  | [] => exact absurd rfl (h.rule (by nofun))
  | c :: w =>
    rcases setEsc_table c with rfl | rfl | h1 | h1 | h1
    · obtain ⟨a, b, v, v', rest, rfl, hv, hv'⟩ := acc_hex (h.advance (L := [.hexEscSeq []]) rfl)
      exact ⟨[ch 'x', a, b], rest, _, rfl, .hex hv hv'⟩
    · exact ⟨[ch 'b'], w, _, rfl, .backspace⟩
    · obtain ⟨d, hd⟩ := mem_fst h1
      exact ⟨[c], w, d, rfl, .ctrl hd⟩
    · exact absurd (rangeEsc_class c h1) (h.rule (by nofun))
    · exact ⟨[c], w, c, rfl, .self h1⟩

/-! ## Sets -/

theorem acc_setItems {s0 : Sym} (h0 : s0 = .setBeginOrNeg ∨ s0 = .setBegin) : ∀ (n : Nat) (st : SetState) (w u : List Byte) (x : List Ast) (l : Option Byte) (N : List Ast) (k : Nat) (K : List Sym) (r : Ast),
    w.length < n → SetItems st u x → (s0 = .setBeginOrNeg → st = .start → w.head? ≠ some (ch '^')) → Acc ⟨l, w, .set x :: N, topSym s0 st :: (List.replicate k .setSeq ++ K)⟩ r →
    ∃ v rest x', w = v ++ ch ']' :: rest ∧ SetBody (u ++ v) x' := by
  intro n
  induction n with
  | zero => intro st w u x l N k K r h; omega
  | succ n ih =>
    intro st w u x l N k K r hn hu hh h
    have hr := h.rule (topSym_not_act h0 st)
    match w with
    | [] =>
      cases st <;> rcases h0 with rfl | rfl <;> exact absurd rfl hr
    | c :: w =>
      by_cases h1 : c = ch ']'
      · subst h1
        exact ⟨[], w, x, rfl, by rw [List.append_nil]; exact .plain hu⟩
      · by_cases h2 : c = ch '-' ∧ (st = .char ∨ st = .cls)
        · -- a range
          obtain ⟨rfl, hst⟩ := h2
          have ht : topSym s0 st = .setSeq := by rcases hst with rfl | rfl <;> rfl
          rw [ht] at h hr
          have hx : x ≠ [] := setItems_cons hu (by rcases hst with rfl | rfl <;> nofun)
          match x, hx with
          | y :: x, _ =>
            have go : ∀ v b rest, SetChar v b → w = v ++ rest → ∃ v rest x', ch '-' :: w = v ++ ch ']' :: rest ∧ SetBody (u ++ v) x' := by
              rintro v b rest hv rfl
              obtain ⟨l', hs⟩ := steps_range hv l rest y x N (List.replicate k .setSeq ++ K)
              have h' := h.steps hs
              have hv' : v ≠ [] := setChar_ne_nil hv
              have hu' : SetItems .range (u ++ txt "-" ++ v) (match (generalizing := false) y with | .lit a => .range a b :: x | y => .lit b :: .lit (ch '-') :: y :: x) := by
                rcases hst with rfl | rfl
                · cases hu with
                  | char h1 h2 h3 => exact .range (.char h1 h2 h3) hv
                · cases y with
                  | lit a => exact .quirk hu hv
                  | _ => exact .dash hu (by nofun) hv
              obtain ⟨v2, rest2, x', rfl, hb⟩ := ih .range rest _ _ l' N (k + 1) K r (by simp at hn ⊢; omega) hu' (by nofun) h'
              exact ⟨ch '-' :: (v ++ v2), rest2, x', by simp, by simpa [txt] using hb⟩
            have h3 : Acc ⟨some (ch '-'), w, .set (y :: x) :: N, .setRangeBegin :: .setSeq :: (List.replicate k .setSeq ++ K)⟩ r := h.advance (L := [.setRangeBegin, .setSeq]) rfl
            have hr3 := h3.rule (by nofun)
            match w with
            | [] => exact absurd rfl hr3
            | d :: w =>
              by_cases hd : d = ch ']'
              · subst hd
                exact ⟨[ch '-'], w, _, rfl, .dash hu hst⟩
              · by_cases hd' : d = ch '\\'
                · subst hd'
                  have h4 := h3.advance (L := [.setRangeEsc, .act .makeSetFromStack, .act .makeRangeFromStack, .setRangeSeq]) rfl
                  obtain ⟨v, rest, b, rfl, hv⟩ := acc_setRangeEsc h4
                  exact go _ b rest (.esc hv) rfl
                · exact go [d] d w (.plain hd hd') rfl
        · have h2 : c = ch '-' → st = .start ∨ st = .range := by
            intro hc
            cases st <;> simp_all
          have go : ∀ v b rest, SetChar v b → c :: w = v ++ rest → ∃ v rest x', c :: w = v ++ ch ']' :: rest ∧ SetBody (u ++ v) x' := by
            intro v b rest hv he
            have hv' : v ≠ [] := setChar_ne_nil hv
            have hvh : v.head? = some c := by
              match v, hv' with
              | a :: v, _ => cases he; rfl
            have h2' : v = txt "-" → st = .start ∨ st = .range := by
              rintro rfl
              exact h2 (by cases hvh; rfl)
            obtain ⟨l', hs⟩ := step_setItem h0 st hv (fun h1 h2 => by rw [hvh]; exact hh h1 h2) h2' l rest x N (List.replicate k .setSeq ++ K)
            rw [he] at h
            have h' := h.steps hs
            obtain ⟨v2, rest2, x', rfl, hb⟩ := ih .char rest _ _ l' N k K r (by
              have := congrArg List.length he
              have : 0 < v.length := List.length_pos_iff.2 hv'
              simp at *; omega) (.char hu hv h2') (by nofun) h'
            exact ⟨v ++ v2, rest2, x', by simp [he], by simpa using hb⟩
          by_cases h3 : c = ch '\\'
          · subst h3
            have h4 : Acc ⟨some (ch '\\'), w, .set x :: N, .setEsc :: .act .makeSetFromStack :: .setSeq :: (List.replicate k .setSeq ++ K)⟩ r :=
              h.advance (L := [.setEsc, .act .makeSetFromStack, .setSeq]) (by rw [topSym_rule h0 (fun h => absurd h (by decide)) (fun h => absurd h (by decide))]; rfl)
            rcases acc_setEsc h4 with ⟨v, rest, b, rfl, hv⟩ | ⟨e, y, rest, rfl, he⟩
            · exact go _ b rest (.esc hv) rfl
            · obtain ⟨l', hs⟩ := step_setClass h0 st he l rest x N (List.replicate k .setSeq ++ K)
              have h' := h.steps hs
              obtain ⟨v2, rest2, x', rfl, hb⟩ := ih .cls rest _ _ l' N k K r (by simp at *; omega) (.cls hu he) (by nofun) h'
              exact ⟨ch '\\' :: e :: v2, rest2, x', rfl, by simpa using hb⟩
          · exact go [c] c w (.plain h1 h3) rfl

theorem acc_set {l : Option Byte} {w : List Byte} {N : List Ast} {K : List Sym} {r : Ast} (h : Acc ⟨l, w, N, .act .makeSet :: .setBeginOrNeg :: .expect (ch ']') :: K⟩ r) :
    ∃ u rest x, w = u ++ rest ∧ SetText (ch '[' :: u) x := by
  have h1 : Acc ⟨l, w, .set [] :: N, .setBeginOrNeg :: .expect (ch ']') :: K⟩ r := h.next rfl
  by_cases hw : w.head? = some (ch '^')
  · match w, hw with
    | c :: w, hw =>
      cases hw
      have h2 : Acc ⟨some (ch '^'), w, .set [] :: N, .setBegin :: .act .makeNegated :: .expect (ch ']') :: K⟩ r := h1.advance (L := [.setBegin, .act .makeNegated]) rfl
      obtain ⟨v, rest, x, rfl, hb⟩ := acc_setItems (s0 := .setBegin) (.inr rfl) _ .start w [] [] _ N 0 _ r (Nat.lt_succ_self _) .nil (by nofun) h2
      exact ⟨ch '^' :: (v ++ txt "]"), rest, _, by simp [txt], .neg hb⟩
  · obtain ⟨v, rest, x, rfl, hb⟩ := acc_setItems (s0 := .setBeginOrNeg) (.inl rfl) _ .start w [] [] _ N 0 _ r (Nat.lt_succ_self _) .nil (fun _ _ => hw) h1
    refine ⟨v ++ txt "]", rest, _, by simp [txt], .pos hb ?_⟩
    intro h
    refine hw ?_
    match v with
    | [] => cases h
    | c :: v => exact h

/-! ## Groups -/

theorem acc_captureName {l : Option Byte} {w : List Byte} {N : List Ast} {K : List Sym} {r : Ast} {c : Byte} (h : Acc ⟨l, c :: w, N, .groupModLessThan :: K⟩ r)
    (h1 : c ≠ ch '=') (h2 : c ≠ ch '!') : ∃ n rest, c :: w = n ++ ch '>' :: rest ∧ IsName n := by
  have hr := h.rule (by nofun)
  have hc : (isWord c && !isDigit c) = true := by
    apply Classical.byContradiction
    intro hne
    simp only [List.head?_cons, rule, beginName, h1, h2, hne] at hr
    simp at hr
  have h := h.advance (L := [.captureNameSeq [c]]) (by simp only [rule, beginName, h1, h2, hc]; rfl)
  obtain ⟨u, rest, rfl, hu⟩ := acc_name (name := .captureNameSeq) (by intro l c; by_cases h : c = ch '>' <;> simp [rule, h]) (fun _ => rfl) (by nofun) _ _ _ _ _ _ h
  simp only [Bool.and_eq_true, Bool.not_eq_true'] at hc
  exact ⟨c :: u, rest, rfl, isName_of_cons hc.1 hc.2 hu⟩

theorem acc_open {l : Option Byte} {w : List Byte} {N : List Ast} {K : List Sym} {r : Ast} (h : Acc ⟨l, w, N, .groupBeginOrMod :: K⟩ r) :
    ∃ o g w', GroupOpen (ch '(' :: o) g ∧ w = o ++ w' ∧ (o = [] → w.head? ≠ some (ch '?')) := by
  by_cases hw : w.head? = some (ch '?')
  · match w, hw with
    | _ :: w, rfl =>
      have h := h.advance (L := [.groupMod]) rfl
      have hr := h.rule (by nofun)
      match w with
      | [] => exact absurd rfl hr
      | c :: w =>
        by_cases h1 : c = ch ':'
        · subst h1; exact ⟨_, _, w, .plain, rfl, by nofun⟩
        by_cases h2 : c = ch '>'
        · subst h2; exact ⟨_, _, w, .atomic, rfl, by nofun⟩
        by_cases h3 : c = ch '='
        · subst h3; exact ⟨_, _, w, .ahead, rfl, by nofun⟩
        by_cases h4 : c = ch '!'
        · subst h4; exact ⟨_, _, w, .negAhead, rfl, by nofun⟩
        by_cases h5 : c = ch '<'
        · subst h5
          have h := h.advance (L := [.groupModLessThan]) rfl
          match w with
          | [] => exact absurd rfl (h.rule (by nofun))
          | d :: w =>
            by_cases h6 : d = ch '='
            · subst h6; exact ⟨_, _, w, .behind, rfl, by nofun⟩
            by_cases h7 : d = ch '!'
            · subst h7; exact ⟨_, _, w, .negBehind, rfl, by nofun⟩
            obtain ⟨n, rest, he, hn⟩ := acc_captureName h h6 h7
            refine ⟨txt "?<" ++ n ++ txt ">", _, rest, .named hn, by rw [he]; simp [txt], by simp [txt]⟩
        · simp [rule, h1, h2, h3, h4, h5] at hr
  · exact ⟨[], _, w, .capture, rfl, fun _ => hw⟩

/-! ## The main induction -/

theorem post_noQuant {b : Bool} {s : Sym} {post : List Sym} (he : Entry b s post) {l : Option Byte} {w : List Byte} {N : List Ast} {K : List Sym} {r : Ast} (h : Acc ⟨l, w, N, post ++ K⟩ r) : NoQuant w.head? := by
  have key : ∀ {N K}, Acc ⟨l, w, N, .seq :: K⟩ r → NoQuant w.head? := by
    intro N K h c hc hmem
    have hr := h.rule (by nofun)
    rw [hc] at hr
    simp only [txt, List.mem_map] at hmem
    have : c = ch '*' ∨ c = ch '+' ∨ c = ch '?' ∨ c = ch '{' := by simpa [txt, eq_comm] using hmem
    rcases this with rfl | rfl | rfl | rfl <;> exact hr rfl
  cases he with
  | begin => exact key h
  | groupBegin => exact key h
  | groupBeginOrMod => exact key h
  | altSeq => exact key h
  | seq => obtain ⟨N', h⟩ := h.act; exact key h
  | brace => obtain ⟨N', h⟩ := h.act; exact key h

structure Big (w : List Byte) : Prop where
  atom : ∀ {b b' s post u x l N K r}, Entry b' s post → Reads (.atom b) u w.head? (strip x) → Acc ⟨l, w, x :: N, .mod :: (post ++ K)⟩ r →
    ∃ v rest x' l', w = v ++ rest ∧ Reads (.item b) (u ++ v) rest.head? (strip x') ∧ Acc ⟨l', rest, x' :: N, post ++ K⟩ r
  item : ∀ {s post l N K r}, Entry false s post → Acc ⟨l, w, N, s :: K⟩ r → (∃ c, w.head? = some c ∧ c ∉ txt ")*+?{|") →
    ∃ v rest x' l', w = v ++ rest ∧ Reads (.item false) v rest.head? (strip x') ∧ Acc ⟨l', rest, x' :: N, post ++ K⟩ r
  seq : ∀ {x l N K r}, Acc ⟨l, w, x :: N, .seq :: K⟩ r →
    ∃ v rest x' l', w = v ++ rest ∧ BranchEnd rest.head? ∧ Acc ⟨l', rest, x' :: N, K⟩ r ∧
      ∀ s u, Reads (.seq s) u w.head? (strip x) → Reads (.seq s) (u ++ v) rest.head? (strip x')
  alt : ∀ {x l N K r}, Acc ⟨l, w, x :: N, .alt :: K⟩ r →
    ∃ v rest x' l', w = v ++ rest ∧ AtEnd rest.head? ∧ Acc ⟨l', rest, x' :: N, K⟩ r ∧
      ∀ s u, Reads (.alts s) u w.head? (strip x) → Reads (.alts s) (u ++ v) rest.head? (strip x')

theorem quant_ne_nil {q : List Byte} {lo : Nat} {hi : Bound} (h : Quant q lo hi) : q ≠ [] := by
  cases h <;> simp [txt]

theorem sound_atom {w : List Byte} (ih : ∀ w' : List Byte, w'.length < w.length → Big w') {b b' : Bool} {s : Sym} {post : List Sym} {u : List Byte} {x : Ast} {l : Option Byte} {N : List Ast} {K : List Sym} {r : Ast}
    (he : Entry b' s post) (hu : Reads (.atom b) u w.head? (strip x)) (h : Acc ⟨l, w, x :: N, .mod :: (post ++ K)⟩ r) :
    ∃ v rest x' l', w = v ++ rest ∧ Reads (.item b) (u ++ v) rest.head? (strip x') ∧ Acc ⟨l', rest, x' :: N, post ++ K⟩ r := by
  rcases acc_mod h with hq | ⟨q, rest, lo, hi, hq, rfl⟩ | ⟨rest, rfl, hd⟩
  · refine ⟨[], w, x, l, rfl, ?_, h.ignore (step_mod_none hq)⟩
    rw [List.append_nil]
    exact .bare hu hq
  · obtain ⟨l1, hs⟩ := steps_quantText hq l rest x N (post ++ K)
    obtain ⟨sx, m, rest, l2, hsx, rfl, h2⟩ := acc_suffix (h.steps hs)
    refine ⟨q ++ sx, rest, _, l2, by simp, ?_, h2⟩
    have hqh : (q ++ (sx ++ rest)).head? = q.head? := by
      have := quant_ne_nil hq
      cases q <;> simp_all
    rw [hqh] at hu
    rw [← List.append_assoc]
    simp only [strip]
    exact .quant hu hq hsx (post_noQuant he h2)
  · have h1 : Acc ⟨some (ch '{'), rest, x :: N, .quantifierBegin :: (post ++ K)⟩ r := h.advance (L := [.quantifierBegin]) rfl
    have h2 : Acc ⟨some (ch '{'), rest, x :: N, .act (.pushLiteral (ch '{')) :: .mod :: ([.act .makeSequence, .seq, .alt] ++ (post ++ K))⟩ r := by
      refine h1.push (L := [.act (.pushLiteral (ch '{')), .mod, .act .makeSequence, .seq, .alt]) ?_
      cases hr : rest.head? with
      | none => rfl
      | some c =>
        have : isDigit c = false := by
          have := hd c hr
          rw [decDigit_iff] at this
          simpa using this
        simp [rule, beginQuantifierValue, this, abortQuantifierParsing]
    have h3 : Acc ⟨some (ch '{'), rest, .lit (ch '{') :: x :: N, .mod :: ([.act .makeSequence, .seq, .alt] ++ (post ++ K))⟩ r := h2.next rfl
    obtain ⟨v1, rest1, y, l1, rfl, hv1, h4⟩ := (ih rest (by simp)).atom .brace (.brace hd (f := rest.head?)) (by simpa only [strip] using h3)
    have h5 : Acc ⟨l1, rest1, catAst x y :: N, .seq :: .alt :: (post ++ K)⟩ r := h4.next (step_act (build_sequence _ _ _ _))
    obtain ⟨v2, rest2, z, l2, rfl, _, h6, hv2⟩ := (ih rest1 (by simp; omega)).seq h5
    obtain ⟨v3, rest3, z', l3, rfl, he3, h7, hv3⟩ := (ih rest2 (by simp; omega)).alt h6
    have k1 := hv2 (some (strip (catAst x y))) [] .start
    have k2 := hv3 _ _ (.single k1)
    refine ⟨ch '{' :: v1 ++ (v2 ++ v3), rest3, z', l3, by simp, ?_, h7⟩
    rw [strip_catAst, List.nil_append] at k2
    rw [← List.append_assoc, head_follow] at hv1
    have := Reads.braced hu hv1 k2 he3
    rw [List.append_assoc] at this
    exact this

theorem sound_group {n : Nat} (ih : ∀ w' : List Byte, w'.length < n → Big w') {w : List Byte} (hw : w.length < n) {l : Option Byte} {N : List Ast} {K : List Sym} {r : Ast}
    (h : Acc ⟨l, w, N, .groupBeginOrMod :: .expect (ch ')') :: K⟩ r) :
    ∃ v rest x' l', w = v ++ rest ∧ (∀ f, Reads (.atom false) (ch '(' :: v) f (strip x')) ∧ Acc ⟨l', rest, x' :: N, K⟩ r := by
  obtain ⟨o, g, w, ho, rfl, hq⟩ := acc_open h
  obtain ⟨o', s, P, acts, h1, h2, h2', h2'', h3, h4, h5⟩ := groupOpen_claim ho
  cases h1
  obtain ⟨l1, h3⟩ := h3 l w N (.expect (ch ')') :: K)
  have h := h.steps h3
  clear h3
  have hsa := entry_not_act h2
  match w with
  | [] =>
    have h : Acc ⟨l1, [], N, acts ++ .expect (ch ')') :: K⟩ r := h.ignore (by rcases h2' with rfl | ⟨rfl, _⟩ <;> rfl)
    obtain ⟨N', h⟩ := h.acts h2''
    obtain ⟨_, h, _⟩ := h.expect
    cases h
  | c :: w =>
    by_cases hc : c = ch ')'
    · subst hc
      have h := h.steps (h5 l1 w N _)
      obtain ⟨y, hy, h4⟩ := h4 l1 (ch ')' :: w) .empty N (.expect (ch ')') :: K)
      obtain ⟨w', he, h⟩ := (h.steps h4).expect
      cases he
      refine ⟨o ++ txt ")", w, y, _, by simp [txt], fun f => ?_, h⟩
      rw [hy]
      simp only [strip]
      exact .emptyGroup ho
    · have hc' : c ∉ txt ")*+?{|" := by
        intro hmem
        have hr := h.rule hsa
        have : c = ch ')' ∨ c = ch '*' ∨ c = ch '+' ∨ c = ch '?' ∨ c = ch '{' ∨ c = ch '|' := by simpa [txt] using hmem
        rcases h2' with rfl | ⟨rfl, rfl⟩ <;> rcases this with rfl | rfl | rfl | rfl | rfl | rfl <;> first
          | exact hr rfl
          | exact hc rfl
          | exact hq rfl rfl
      have hlen : (c :: w).length < n := by simp at hw ⊢; omega
      obtain ⟨v1, rest1, x1, l2, he1, hv1, h6⟩ := (ih _ hlen).item h2 h ⟨c, rfl, hc'⟩
      have hlen1 : rest1.length < n := by have := congrArg List.length he1; simp at this hlen; omega
      obtain ⟨v2, rest2, x2, l3, rfl, _, h7, hv2⟩ := (ih _ hlen1).seq h6
      obtain ⟨v3, rest3, x3, l4, rfl, he3, h8, hv3⟩ := (ih rest2 (by simp at hlen1; omega)).alt h7
      have k := hv3 _ _ (.single (hv2 _ _ (.one hv1)))
      obtain ⟨y, hy, h4⟩ := h4 l4 rest3 x3 N (.expect (ch ')') :: K)
      obtain ⟨w', he, h⟩ := (h8.steps h4).expect
      subst he
      refine ⟨o ++ (v1 ++ v2 ++ v3) ++ txt ")", w', y, _, by rw [he1]; simp [txt], fun f => ?_, h⟩
      rw [hy]
      exact .group ho k

theorem sound_item {w : List Byte} (ih : ∀ w' : List Byte, w'.length < w.length → Big w') {s : Sym} {post : List Sym} {l : Option Byte} {N : List Ast} {K : List Sym} {r : Ast}
    (he : Entry false s post) (h : Acc ⟨l, w, N, s :: K⟩ r) (hc : ∃ c, w.head? = some c ∧ c ∉ txt ")*+?{|") :
    ∃ v rest x' l', w = v ++ rest ∧ Reads (.item false) v rest.head? (strip x') ∧ Acc ⟨l', rest, x' :: N, post ++ K⟩ r := by
  obtain ⟨c, h1, hc⟩ := hc
  match w, h1 with
  | _ :: w, rfl =>
    have fin : ∀ u rest x l', c :: w = u ++ rest → u ≠ [] → Reads (.atom false) u rest.head? (strip x) → Acc ⟨l', rest, x :: N, .mod :: (post ++ K)⟩ r →
        ∃ v rest x' l', c :: w = v ++ rest ∧ Reads (.item false) v rest.head? (strip x') ∧ Acc ⟨l', rest, x' :: N, post ++ K⟩ r := by
      intro u rest x l' he1 hu hr ha
      have : rest.length < (c :: w).length := by
        rw [he1]
        have := List.length_pos_iff.2 hu
        simp; omega
      obtain ⟨v, rest, x', l2, rfl, h2, h3⟩ := (ih rest this).atom he hr ha
      exact ⟨u ++ v, rest, x', l2, by rw [he1]; simp, h2, h3⟩
    have hrule := entry_rule he hc
    by_cases e1 : c = ch '['
    · subst e1
      have h : Acc ⟨some (ch '['), w, N, .act .makeSet :: .setBeginOrNeg :: .expect (ch ']') :: .mod :: (post ++ K)⟩ r :=
        h.advance (L := [.act .makeSet, .setBeginOrNeg, .expect (ch ']'), .mod] ++ post) (hrule.trans rfl)
      obtain ⟨u, rest, x, rfl, hx⟩ := acc_set h
      obtain ⟨_, e, hx', hs⟩ := setText_steps hx
      cases e
      obtain ⟨l', hs⟩ := hs (some (ch '[')) rest N (.mod :: (post ++ K))
      exact fin (ch '[' :: u) rest x l' rfl (by simp) (by rw [hx']; exact .set hx) (h.steps hs)
    by_cases e2 : c = ch '('
    · subst e2
      have h : Acc ⟨some (ch '('), w, N, .groupBeginOrMod :: .expect (ch ')') :: .mod :: (post ++ K)⟩ r :=
        h.advance (L := [.groupBeginOrMod, .expect (ch ')'), .mod] ++ post) (hrule.trans rfl)
      obtain ⟨v, rest, x, l', rfl, hr, ha⟩ := sound_group ih (by simp) h
      exact fin (ch '(' :: v) rest x l' rfl (by simp) (hr _) ha
    by_cases e3 : c = ch '\\'
    · subst e3
      have h : Acc ⟨some (ch '\\'), w, N, .esc :: .mod :: (post ++ K)⟩ r := h.advance (L := [.esc, .mod] ++ post) (hrule.trans rfl)
      rcases acc_esc h with ⟨u, rest, c, rfl, hx⟩ | ⟨e, x, rest, rfl, hx⟩ | ⟨e, x, rest, rfl, hx⟩ | ⟨u, n, rest, rfl, hn, h0, hf⟩ | ⟨n, rest, rfl, hn⟩
      · obtain ⟨_, e, hs⟩ := steps_litEsc hx
        cases e
        obtain ⟨l', hs⟩ := hs (some (ch '\\')) rest N (.mod :: (post ++ K))
        exact fin (ch '\\' :: u) rest (.lit c) l' rfl (by simp) (by simpa only [strip] using .esc hx) (h.steps hs)
      · obtain ⟨l', hs⟩ := steps_class hx (some (ch '\\')) rest N (.mod :: (post ++ K))
        exact fin [ch '\\', e] rest x l' rfl (by simp) (by rw [strip_class hx]; exact .cls hx) (h.steps hs)
      · have hu : ∃ x' l', Acc ⟨l', rest, x' :: N, .unquantifiable :: .mod :: (post ++ K)⟩ r := by
          simp only [assertions, List.mem_cons, Prod.mk.injEq, List.not_mem_nil, or_false] at hx
          rcases hx with ⟨rfl, rfl⟩ | ⟨rfl, rfl⟩ | ⟨rfl, rfl⟩ | ⟨rfl, rfl⟩ <;> first
            | exact ⟨_, _, (h.next rfl).next rfl⟩
            | exact ⟨_, _, ((h.next rfl).next rfl).next rfl⟩
        have hf : NoQuant rest.head? := by
          obtain ⟨x', l', hu⟩ := hu
          intro c hc hmem
          have hr := hu.rule (by nofun)
          rw [hc] at hr
          have : c = ch '*' ∨ c = ch '+' ∨ c = ch '?' ∨ c = ch '{' := by simpa [txt] using hmem
          rcases this with rfl | rfl | rfl | rfl <;> exact hr rfl
        obtain ⟨l', hs⟩ := steps_assertion hx (some (ch '\\')) rest N (post ++ K) hf
        exact ⟨[ch '\\', e], rest, x, l', rfl, by rw [strip_assertion hx]; exact .assertion hx hf, h.steps hs⟩
      · obtain ⟨l', hs⟩ := steps_backref hn h0 (some (ch '\\')) rest hf N (.mod :: (post ++ K))
        exact fin (ch '\\' :: u) rest (.backref n) l' rfl (by simp) (by simpa only [strip] using .backref hn h0 hf) (h.steps hs)
      · obtain ⟨l', hs⟩ := steps_namedBackref hn (some (ch '\\')) rest N (.mod :: (post ++ K))
        exact fin (txt "\\k<" ++ n ++ txt ">") rest (.namedBackref n) l' (by simp [txt]) (by simp [txt]) (by simpa only [strip] using .namedBackref hn) (h.steps hs)
    by_cases e4 : c = ch '.'
    · subst e4
      have h : Acc ⟨some (ch '.'), w, .wildcard :: N, .mod :: (post ++ K)⟩ r := (h.advance (L := [.act .makeWildcard, .mod] ++ post) (hrule.trans rfl)).next rfl
      exact fin (txt ".") w .wildcard _ rfl (by simp [txt]) (by simpa only [strip] using .dot) h
    by_cases e5 : c = ch '^'
    · subst e5
      have h : Acc ⟨some (ch '^'), w, .bol :: N, post ++ K⟩ r := (h.advance (L := [.act .makeBeginningOfLine] ++ post) (hrule.trans rfl)).next rfl
      exact ⟨txt "^", w, .bol, _, rfl, by simpa only [strip] using .bol (post_noQuant he h), h⟩
    by_cases e6 : c = ch '$'
    · subst e6
      have h : Acc ⟨some (ch '$'), w, .eol :: N, post ++ K⟩ r := (h.advance (L := [.act .makeEndOfLine] ++ post) (hrule.trans rfl)).next rfl
      exact ⟨txt "$", w, .eol, _, rfl, by simpa only [strip] using .eol (post_noQuant he h), h⟩
    have h : Acc ⟨some c, w, .lit c :: N, .mod :: (post ++ K)⟩ r :=
      (h.advance (L := [.act .makeLiteral, .mod] ++ post) (by rw [hrule]; simp [startRule, e1, e2, e3, e4, e5, e6])).next rfl
    refine fin [c] w (.lit c) _ rfl (by simp) ?_ h
    simp only [strip]
    refine .plain ?_
    have : c ≠ ch ')' ∧ c ≠ ch '*' ∧ c ≠ ch '+' ∧ c ≠ ch '?' ∧ c ≠ ch '{' ∧ c ≠ ch '|' := by simpa [txt] using hc
    simp [special, txt, *]

theorem big (n : Nat) : ∀ w : List Byte, w.length < n → Big w := by
  induction n with
  | zero => intro w h; omega
  | succ n ihn =>
    intro w hw
    have ih : ∀ w' : List Byte, w'.length < w.length → Big w' := fun w' h => ihn w' (by omega)
    have hseq : ∀ {x l N K r}, Acc ⟨l, w, x :: N, .seq :: K⟩ r →
        ∃ v rest x' l', w = v ++ rest ∧ BranchEnd rest.head? ∧ Acc ⟨l', rest, x' :: N, K⟩ r ∧
        ∀ s u, Reads (.seq s) u w.head? (strip x) → Reads (.seq s) (u ++ v) rest.head? (strip x') := by
      intro x l N K r h
      by_cases hb : BranchEnd w.head?
      · exact ⟨[], w, x, l, rfl, hb, h.ignore (step_seq_end hb), fun s u hu => by rwa [List.append_nil]⟩
      · match w with
        | [] => exact absurd (.inl rfl) hb
        | c :: w =>
          have hc : c ∉ txt ")*+?{|" := by
            intro hmem
            have hr := h.rule (by nofun)
            have : c = ch ')' ∨ c = ch '*' ∨ c = ch '+' ∨ c = ch '?' ∨ c = ch '{' ∨ c = ch '|' := by simpa [txt] using hmem
            rcases this with rfl | rfl | rfl | rfl | rfl | rfl <;> first
              | exact hr rfl
              | exact hb (.inr (.inl rfl))
              | exact hb (.inr (.inr rfl))
          obtain ⟨v, rest, y, l1, he, hv, h1⟩ := sound_item ih .seq h ⟨c, rfl, hc⟩
          have h2 : Acc ⟨l1, rest, catAst x y :: N, .seq :: K⟩ r := h1.next (step_act (build_sequence _ _ _ _))
          have hvn := item_ne_nil hv
          have hlen : rest.length < (c :: w).length := by
            rw [he]
            have := List.length_pos_iff.2 hvn
            simp; omega
          obtain ⟨v2, rest2, z, l2, rfl, hb2, h3, hv2⟩ := (ih rest hlen).seq h2
          refine ⟨v ++ v2, rest2, z, l2, by rw [he]; simp, hb2, h3, fun s u hu => ?_⟩
          rw [← List.append_assoc]
          refine hv2 s (u ++ v) ?_
          rw [strip_catAst]
          refine .more ?_ hv
          rw [he] at hu
          have : (v ++ (v2 ++ rest2)).head? = v.head? := by cases v <;> simp_all
          rwa [this] at hu
    refine ⟨sound_atom ih, sound_item ih, hseq, ?_⟩
    intro x l N K r h
    by_cases hb : AtEnd w.head?
    · exact ⟨[], w, x, l, rfl, hb, h.ignore (step_alt_end hb), fun s u hu => by rwa [List.append_nil]⟩
    · match w with
      | [] => exact absurd (.inl rfl) hb
      | c :: w =>
        have hc : c = ch '|' := by
          have hr := h.rule (by nofun)
          have h1 : c ≠ ch ')' := by rintro rfl; exact hb (.inr rfl)
          apply Classical.byContradiction
          intro hne
          simp [rule, h1, hne] at hr
        subst hc
        have h1 : Acc ⟨some (ch '|'), w, x :: N, .altSeq :: .act .makeAlternation :: .alt :: K⟩ r := h.advance (L := [.altSeq, .act .makeAlternation, .alt]) rfl
        have hc : ∃ c, w.head? = some c ∧ c ∉ txt ")*+?{|" := by
          have hr := h1.rule (by nofun)
          match w with
          | [] => exact absurd rfl hr
          | c :: w =>
            refine ⟨c, rfl, fun hmem => ?_⟩
            have : c = ch ')' ∨ c = ch '*' ∨ c = ch '+' ∨ c = ch '?' ∨ c = ch '{' ∨ c = ch '|' := by simpa [txt] using hmem
            rcases this with rfl | rfl | rfl | rfl | rfl | rfl <;> exact hr rfl
        obtain ⟨v, rest, y, l1, rfl, hv, h2⟩ := (ih w (by simp)).item .altSeq h1 hc
        obtain ⟨v2, rest2, y2, l2, rfl, _, h3, hv2⟩ := (ih rest (by simp; omega)).seq h2
        have h4 : Acc ⟨l2, rest2, altAst x y2 :: N, .alt :: K⟩ r := h3.next (step_act (build_alternation _ _ _ _))
        obtain ⟨v3, rest3, z, l3, rfl, hb3, h5, hv3⟩ := (ih rest2 (by simp; omega)).alt h4
        refine ⟨txt "|" ++ (v ++ v2) ++ v3, rest3, z, l3, by simp [txt], hb3, h5, fun s u hu => ?_⟩
        rw [← List.append_assoc, ← List.append_assoc]
        refine hv3 s _ ?_
        rw [strip_altAst]
        exact .or hu (hv2 _ _ (.one hv))

theorem acc_of_parse {w : List Byte} {a : Ast} (h : parse w = .result a .success) : Acc (initCfg w) a := by
  obtain ⟨c, hs, hstop⟩ := machine_stops w (w.length + 1) (weights [.begin] + 1) 0 [] [.begin] (Nat.zero_le _) (by omega) (by omega)
  rw [← initCfg_eq] at hs
  refine ⟨c, hs, ?_⟩
  cases hc : sstep c with
  | next c' => exact absurd hc (hstop c')
  | accept b =>
    have := parse_accept hs hc
    rw [h] at this
    cases this
    rfl
  | reject => have := parse_reject hs hc; rw [h] at this; cases this
  | illFormed => have := parse_illFormed hs hc; rw [h] at this; cases this

/-- Every accepted pattern is a pattern of the grammar. -/
theorem pattern_of_parse {w : List Byte} {a : Ast} (h : parse w = .result a .success) : ∃ x, Pattern w x ∧ a = indexCaptures x := by
  have h := acc_of_parse h
  match w with
  | [] =>
    refine ⟨_, .empty, ?_⟩
    have h : Acc ⟨none, [], [], []⟩ a := Acc.next h rfl
    obtain ⟨c, hs, hc⟩ := h
    cases hs with
    | refl => cases hc; rfl
    | step h _ => cases h
  | c :: w =>
    have h : Acc ⟨none, c :: w, [], .begin :: []⟩ a := h
    have hc : c ∉ txt ")*+?{|" := by
      have hr := h.rule (by nofun)
      intro hmem
      have : c = ch ')' ∨ c = ch '*' ∨ c = ch '+' ∨ c = ch '?' ∨ c = ch '{' ∨ c = ch '|' := by simpa [txt] using hmem
      rcases this with rfl | rfl | rfl | rfl | rfl | rfl <;> exact hr rfl
    obtain ⟨v1, rest1, x1, l1, he1, hv1, h1⟩ := (big _ (c :: w) (Nat.lt_succ_self _)).item .begin h ⟨c, rfl, hc⟩
    obtain ⟨v2, rest2, x2, l2, rfl, _, h2, hv2⟩ := (big _ rest1 (Nat.lt_succ_self _)).seq h1
    obtain ⟨v3, rest3, x3, l3, rfl, _, h3, hv3⟩ := (big _ rest2 (Nat.lt_succ_self _)).alt h2
    have k := hv3 _ _ (.single (hv2 _ _ (.one hv1)))
    have h3 : Acc ⟨l3, rest3, x3 :: [], []⟩ a := h3
    match rest3 with
    | [] =>
      refine ⟨strip x3, .alts ?_, ?_⟩
      · rw [he1]
        simpa using k
      · rw [indexCaptures_strip]
        obtain ⟨c, hs, hc⟩ := h3
        cases hs with
        | refl => cases hc; rfl
        | step h _ => cases h
    | d :: rest3 => exact absurd rfl h3.not_reject

/-- The parser accepts exactly the patterns of the grammar, with their trees. -/
theorem parse_iff (w : List Byte) (a : Ast) : parse w = .result a .success ↔ ∃ x, Pattern w x ∧ a = indexCaptures x :=
  ⟨pattern_of_parse, by rintro ⟨x, h, rfl⟩; exact parse_of_pattern h⟩

end Mregex
