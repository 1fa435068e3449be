import Verif.Proof.Reading

/-!
# Braces that start no quantifier
-/

namespace Mregex
open Ast Spec

theorem catAst_assoc (a b c : Ast) : catAst (catAst a b) c = catAst a (catAst b c) := by
  simp [catAst, seqParts, List.append_assoc]

theorem follow_append (u v : List Byte) (f : Option Byte) : follow (u ++ v) f = follow u (follow v f) := by
  cases u <;> simp [follow]

theorem head?_eq_follow {v : List Byte} (hv : v ≠ []) (f : Option Byte) : v.head? = follow v f := by
  cases v with
  | nil => exact absurd rfl hv
  | cons a v => rfl

/-- A sequence goes on after another. -/
theorem seq_compose {s : Option Ast} {w t : List Byte} {f : Option Byte} {x z : Ast} (h : Reads (.seq s) w (follow t f) x) (ht : Reads (.seq (some x)) t f z) :
    Reads (.seq s) (w ++ t) f z := by
  generalize hc : Spec.Cat.seq (some x) = c at ht
  induction ht with
  | start => cases hc; simpa [follow] using h
  | @more s' t v f x' y h1 h2 ih _ =>
    cases hc
    have hv : v ≠ [] := item_ne_nil h2
    rw [follow_append, ← head?_eq_follow hv] at h
    rw [← List.append_assoc]
    exact .more (ih h rfl) h2
  | _ => cases hc

/-- A sequence that continues something is empty or begins with an item. -/
theorem seq_uncons {x : Ast} {t : List Byte} {f : Option Byte} {z : Ast} (ht : Reads (.seq (some x)) t f z) :
    (t = [] ∧ z = x) ∨ ∃ v u y, t = v ++ u ∧ Reads (.item false) v (follow u f) y ∧ Reads (.seq (some (catAst x y))) u f z := by
  generalize hc : Spec.Cat.seq (some x) = c at ht
  induction ht with
  | start => cases hc; exact .inl ⟨rfl, rfl⟩
  | @more s' t v f x' y h1 h2 ih _ =>
    cases hc
    have hv : v ≠ [] := item_ne_nil h2
    rcases ih rfl with ⟨rfl, rfl⟩ | ⟨v', u', y', rfl, h3, h4⟩
    · exact .inr ⟨v, [], y, by simp, by simpa [follow] using h2, .start⟩
    · refine .inr ⟨v', u' ++ v, y', by simp, ?_, .more h4 h2⟩
      rw [follow_append, ← head?_eq_follow hv]
      exact h3
  | _ => cases hc

/-- What precedes a sequence does not matter for the way it is read. -/
theorem seq_prefix {x y : Ast} {t : List Byte} {f : Option Byte} {z : Ast} (ht : Reads (.seq (some x)) t f z) : Reads (.seq (some (catAst y x))) t f (catAst y z) := by
  generalize hc : Spec.Cat.seq (some x) = c at ht
  induction ht with
  | start => cases hc; exact .start
  | more h1 h2 ih _ =>
    cases hc
    rw [← catAst_assoc]
    exact .more (ih rfl) h2
  | _ => cases hc

/-- The character after an atom matters only if it is a digit. -/
theorem atom_follow {w : List Byte} {f : Option Byte} {x : Ast} (h : Reads (.atom false) w f x) {f' : Option Byte} (hf : ∀ c, f' = some c → ¬DecDigit c) : Reads (.atom false) w f' x := by
  cases h with
  | plain h => exact .plain h
  | dot => exact .dot
  | esc h => exact .esc h
  | cls h => exact .cls h
  | set h => exact .set h
  | backref h h0 _ => exact .backref h h0 hf
  | namedBackref h => exact .namedBackref h
  | emptyGroup h => exact .emptyGroup h
  | group h h' => exact .group h h'

theorem escBrace_atom {w t : List Byte} {f : Option Byte} {x : Ast} (h : Reads (.atom false) w f x) (hw : ∃ u, w ++ u = ch '\\' :: ch '{' :: t) : w = txt "\\{" ∧ x = .lit (ch '{') := by
  obtain ⟨u, hu⟩ := hw
  have hs : ∀ {w : List Byte} {x : Ast}, SetText w x → ∃ w', w = ch '[' :: w' := by rintro w x (_ | _) <;> exact ⟨_, rfl⟩
  have ho : ∀ {o : List Byte} {g : Ast → Ast}, GroupOpen o g → ∃ o', o = ch '(' :: o' := by rintro o g (_ | _) <;> exact ⟨_, rfl⟩
  cases h with
  | plain h =>
    simp only [List.cons_append, List.nil_append, List.cons.injEq] at hu
    rw [hu.1] at h
    exact absurd h (by decide)
  | dot => exact absurd (List.cons.inj hu).1 (by decide)
  | esc h =>
    cases h with
    | @ctrl e c h =>
      simp only [List.cons_append, List.nil_append, List.cons.injEq, true_and] at hu
      rw [hu.1] at h
      have : ∀ p ∈ controls, p.1 ≠ ch '{' := by decide
      exact absurd rfl (this _ h)
    | hex =>
      simp only [List.cons_append, List.nil_append, List.cons.injEq, true_and] at hu
      exact absurd hu.1 (by decide)
    | self h =>
      simp only [List.cons_append, List.nil_append, List.cons.injEq, true_and] at hu
      rw [hu.1]
      exact ⟨rfl, rfl⟩
  | cls h =>
    simp only [List.cons_append, List.nil_append, List.cons.injEq, true_and] at hu
    rw [hu.1] at h
    have : ch '{' ∉ classes.map Prod.fst := by decide
    exact absurd (List.mem_map_of_mem (f := Prod.fst) h) this
  | set h =>
    obtain ⟨w', rfl⟩ := hs h
    exact absurd (List.cons.inj hu).1 (by decide)
  | @backref w n _ h h0 _ =>
    obtain ⟨h1, h2, _⟩ := h
    match w, h1 with
    | d :: w, _ =>
      simp only [List.cons_append, List.cons.injEq, true_and] at hu
      have := h2 d (by simp)
      rw [hu.1] at this
      exact absurd this (by unfold DecDigit; decide)
  | namedBackref h =>
    simp only [txt] at hu
    exact absurd (List.cons.inj (List.cons.inj hu).2).1 (by decide)
  | emptyGroup h =>
    obtain ⟨o', rfl⟩ := ho h
    exact absurd (List.cons.inj hu).1 (by decide)
  | group h _ =>
    obtain ⟨o', rfl⟩ := ho h
    exact absurd (List.cons.inj hu).1 (by decide)

/-- The escaped brace with what belongs to it, without the backslash. -/
theorem escBrace_item {v t : List Byte} {f : Option Byte} {y : Ast} (h : Reads (.item false) v f y) (hv : ∃ u, v ++ u = ch '\\' :: ch '{' :: t)
    (hd : ∀ c, follow v.tail.tail f = some c → ¬DecDigit c) :
    ∃ v', v = ch '\\' :: v' ∧ v'.head? = some (ch '{') ∧ Reads (.item true) v' f y := by
  cases h with
  | bare h hq =>
    obtain ⟨rfl, rfl⟩ := escBrace_atom h hv
    exact ⟨_, rfl, rfl, .bare (.brace hd) hq⟩
  | @quant b w q s lo hi m f x h hq hs hf =>
    obtain ⟨rfl, rfl⟩ := escBrace_atom h (by obtain ⟨u, hu⟩ := hv; exact ⟨q ++ s ++ u, by simpa using hu⟩)
    refine ⟨txt "{" ++ q ++ s, rfl, rfl, .quant (.brace ?_) hq hs hf⟩
    intro c hc
    refine hd c ?_
    show follow (q ++ s) _ = some c
    have : q ≠ [] := quant_ne_nil hq
    match q, this with
    | a :: q, _ => exact hc
  | bol h =>
    obtain ⟨u, hu⟩ := hv
    exact absurd (List.cons.inj hu).1 (by decide)
  | eol h =>
    obtain ⟨u, hu⟩ := hv
    exact absurd (List.cons.inj hu).1 (by decide)
  | assertion h _ =>
    obtain ⟨u, hu⟩ := hv
    simp only [List.cons_append, List.nil_append, List.cons.injEq, true_and] at hu
    rw [hu.1] at h
    have : ch '{' ∉ assertions.map Prod.fst := by decide
    exact absurd (List.mem_map_of_mem (f := Prod.fst) h) this
  | @braced b w x v y u z f h1 h2 h3 hf =>
    obtain ⟨rfl, rfl⟩ := escBrace_atom h1 (by obtain ⟨t', ht⟩ := hv; exact ⟨v ++ u ++ t', by simpa using ht⟩)
    exact ⟨txt "{" ++ v ++ u, rfl, rfl, .braced (.brace (by intro c h; cases h; unfold DecDigit; decide)) h2 h3 hf⟩

theorem noDigit_backslash (c : Byte) (h : some (ch '\\') = some c) : ¬DecDigit c := by cases h; unfold DecDigit; decide

/-- The first sequence of alternatives. -/
theorem alts_split {s : Option Ast} {t : List Byte} {f : Option Byte} {z : Ast} (h : Reads (.alts s) t f z) :
    ∃ t1 rest y, t = t1 ++ rest ∧ Reads (.seq s) t1 (follow rest f) y ∧ (rest = [] ∨ rest.head? = some (ch '|')) ∧
      ∀ s' t', Reads (.seq s') t' (follow rest f) y → Reads (.alts s') (t' ++ rest) f z := by
  generalize hc : Spec.Cat.alts s = c at h
  induction h with
  | @single s' w f x h _ =>
    cases hc
    exact ⟨w, [], x, by simp, by simpa [follow] using h, .inl rfl, fun s' t' h => by simpa [follow] using Reads.single h⟩
  | @or s' w v f x y h1 h2 ih _ =>
    cases hc
    obtain ⟨t1, rest, y', rfl, h3, h4, h5⟩ := ih rfl
    have hf : follow (rest ++ txt "|" ++ v) f = follow rest (some (ch '|')) := by
      rw [follow_append, follow_append]; simp [follow, txt, ch]
    refine ⟨t1, rest ++ txt "|" ++ v, y', by simp, by rw [hf]; exact h3, .inr ?_, fun s' t' h => ?_⟩
    · rcases h4 with rfl | h4
      · rfl
      · simp [h4]
    · rw [hf] at h
      have := Reads.or (h5 s' t' h) h2
      simpa using this
  | _ => cases hc

/-- A brace after the first atom of a group, up to the end of the group, is read like an escaped one, if it is not followed by a digit. -/
theorem brace_first {w u : List Byte} {f : Option Byte} {x z : Ast} (hw : Reads (.atom false) w (some (ch '{')) x) (hd : ∀ c, follow u f = some c → ¬DecDigit c) (hf : AtEnd f)
    (h : Reads (.alts (some x)) (txt "\\{" ++ u) f z) : Reads (.item false) (w ++ txt "{" ++ u) f z ∧ Reads (.alts none) (w ++ txt "\\{" ++ u) f z := by
  obtain ⟨t1, rest, y0, he0, h0, hrest, hback⟩ := alts_split h
  constructor
  · rcases seq_uncons h0 with ⟨rfl, _⟩ | ⟨v, u'', y, rfl, h1, h2⟩
    · rcases hrest with rfl | hrest
      · exact absurd he0 (by simp [txt])
      · rw [List.nil_append] at he0
        rw [← he0] at hrest
        exact absurd hrest (by simp [txt]; decide)
    · obtain ⟨u', hu'⟩ : ∃ u', u' = u'' ++ rest := ⟨_, rfl⟩
      have he : txt "\\{" ++ u = v ++ u' := by rw [he0, hu', List.append_assoc]
      rw [← follow_append, ← hu'] at h1
      have h2 : Reads (.alts (some (catAst x y))) u' f z := by rw [hu']; exact hback _ _ h2
      have hne := item_ne_nil h1
      have hdv : ∀ c, follow v.tail.tail (follow u' f) = some c → ¬DecDigit c := by
        have : follow v.tail.tail (follow u' f) = follow u f := by
          rw [← follow_append]
          match v, he with
          | [], _ => exact absurd rfl hne
          | [a], he =>
            -- no item consists of a backslash
            have ha : a = ch '\\' := ((List.cons.inj he).1).symm
            subst ha
            exfalso
            generalize hv : [ch '\\'] = v at h1
            generalize hb : Spec.Cat.item false = ct at h1
            cases h1 with
            | bare h _ =>
              cases hb
              cases h with
              | plain h => cases hv; exact absurd h (by decide)
              | dot => exact absurd hv (by decide)
              | esc h => cases h <;> cases hv
              | cls h => cases hv
              | set h => cases h <;> exact absurd (List.cons.inj hv).1 (by decide)
              | @backref w n _ h _ _ =>
                obtain ⟨h1, _⟩ := h
                exact absurd (List.cons.inj hv).2.symm h1
              | namedBackref h => exact absurd (List.cons.inj hv).2 (by simp [txt])
              | emptyGroup h => cases h <;> exact absurd (List.cons.inj hv).1 (by decide)
              | group h _ => cases h <;> exact absurd (List.cons.inj hv).1 (by decide)
            | quant h hq hs _ =>
              cases hb
              have := escBrace_atom (t := u) h
              have hq' := quant_ne_nil hq
              have hl := congrArg List.length hv
              simp only [List.length_append, List.length_cons, List.length_nil] at hl
              have : 0 < List.length _ := List.length_pos_iff.2 hq'
              have hw : 1 ≤ List.length _ := List.length_pos_iff.2 (atom_ne_nil h)
              omega
            | bol _ => exact absurd hv (by decide)
            | eol _ => exact absurd hv (by decide)
            | assertion => cases hv
            | braced h h' _ _ =>
              cases hb
              have hl := congrArg List.length hv
              simp only [List.length_append, List.length_cons, List.length_nil] at hl
              have hw : 1 ≤ List.length _ := List.length_pos_iff.2 (atom_ne_nil h)
              have hw' : 1 ≤ List.length _ := List.length_pos_iff.2 (item_ne_nil h')
              omega
            | _ => cases hb
          | a :: b :: v, he =>
            have : u = v ++ u' := (List.cons.inj (List.cons.inj he).2).2
            rw [this]; rfl
        rw [this]; exact hd
      obtain ⟨v', rfl, hv', h3⟩ := escBrace_item h1 ⟨u', he.symm⟩ hdv
      have he' : txt "{" ++ u = v' ++ u' := (List.cons.inj he).2
      rw [List.append_assoc, he', ← List.append_assoc]
      exact .braced hw h3 h2 hf
  · rw [List.append_assoc, he0, ← List.append_assoc]
    refine hback _ _ (seq_compose (.one (.bare (atom_follow hw ?_) ?_)) h0)
    all_goals
      rw [← follow_append, ← he0]
    · exact noDigit_backslash
    · intro c h; cases h; decide
where
  atom_ne_nil {b : Bool} {w : List Byte} {f : Option Byte} {x : Ast} (h : Reads (.atom b) w f x) : w ≠ [] := by
    cases h with
    | set h => cases h <;> simp [txt]
    | esc h => cases h <;> simp
    | _ => simp [txt]

/-- A brace after an atom, up to the end of the group, is read like an escaped one, if what follows is a sequence and does not begin with a digit. -/
theorem brace_as_escaped {w u : List Byte} {f : Option Byte} {x z : Ast} (hw : Reads (.atom false) w (some (ch '{')) x) (hd : ∀ c, follow u f = some c → ¬DecDigit c) (hf : AtEnd f)
    (h : Reads (.seq (some x)) (txt "\\{" ++ u) f z) : Reads (.item false) (w ++ txt "{" ++ u) f z ∧ Reads (.seq none) (w ++ txt "\\{" ++ u) f z := by
  refine ⟨(brace_first hw hd hf (.single h)).1, ?_⟩
  rw [List.append_assoc]
  refine seq_compose (.one (.bare (atom_follow hw ?_) ?_)) h
  · exact noDigit_backslash
  · intro c h; cases h; decide

/-- A sequence begins with an item. -/
theorem seq_none_uncons {t : List Byte} {f : Option Byte} {z : Ast} (ht : Reads (.seq none) t f z) :
    ∃ v u y, t = v ++ u ∧ Reads (.item false) v (follow u f) y ∧ Reads (.seq (some y)) u f z := by
  generalize hc : Spec.Cat.seq none = c at ht
  induction ht with
  | @one w f x h _ => exact ⟨w, [], x, by simp, by simpa [follow] using h, .start⟩
  | @more s' t v f x' y h1 h2 ih _ =>
    cases hc
    have hv : v ≠ [] := item_ne_nil h2
    obtain ⟨v', u', y', rfl, h3, h4⟩ := ih rfl
    refine ⟨v', u' ++ v, y', by simp, ?_, .more h4 h2⟩
    rw [follow_append, ← head?_eq_follow hv]
    exact h3
  | _ => cases hc

/-- A sequence can be read after something else. -/
theorem seq_after {t : List Byte} {f : Option Byte} {z : Ast} (ht : Reads (.seq none) t f z) (x : Ast) : Reads (.seq (some x)) t f (catAst x z) := by
  obtain ⟨v, u, y, rfl, h1, h2⟩ := seq_none_uncons ht
  have hm := Reads.more (s := some x) (w := []) (v := v) (f := follow u f) .start h1
  exact seq_compose (by simpa using hm) (seq_prefix h2)

/-- Alternatives can be read after something else. -/
theorem alts_after {t : List Byte} {f : Option Byte} {z : Ast} (ht : Reads (.alts none) t f z) (x : Ast) : ∃ z', Reads (.alts (some x)) t f z' := by
  generalize hc : Spec.Cat.alts none = c at ht
  induction ht with
  | single h => cases hc; exact ⟨_, .single (seq_after h x)⟩
  | or h1 h2 ih _ =>
    cases hc
    obtain ⟨z', h⟩ := ih rfl
    exact ⟨_, .or h h2⟩
  | _ => cases hc

end Mregex
