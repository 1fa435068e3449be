import Verif.Proof.Utf8
import Verif.Proof.SetExact
import Verif.Proof.Expressions

/-!
# Patterns in UTF-8
-/

namespace Mregex
open Ast Spec

/-! ## Texts -/

/-- Reading a text after a character of which `m` bytes are missing; at the end `m'` are missing. -/
inductive TextRun : Nat → List Byte → Nat → Prop
  | nil {m} : TextRun m [] m
  | leads {b w m'} : Leads b → TextRun (missing b) w m' → TextRun 0 (b :: w) m'
  | trails {b w m m'} : Trails b → TextRun m w m' → TextRun (m + 1) (b :: w) m'

theorem textRun_of_chars {s : List Byte} {m i n : Nat} (h : Chars s m i n) : n = s.length → TextRun m (s.drop i) 0 := by
  induction h with
  | done => intro h; subst h; rw [List.drop_length]; exact .nil
  | leads hx hl _ ih => intro h; rw [List.drop_eq_getElem?_toList_append, hx]; exact .leads hl (ih h)
  | trails hx hl _ ih => intro h; rw [List.drop_eq_getElem?_toList_append, hx]; exact .trails hl (ih h)

theorem TextRun.split {w v : List Byte} : ∀ {m m' : Nat}, TextRun m (w ++ v) m' → ∃ t, TextRun m w t ∧ TextRun t v m' := by
  induction w with
  | nil => exact fun h => ⟨_, .nil, h⟩
  | cons b w ih =>
    intro m m' h
    cases h with
    | leads h1 h2 => obtain ⟨t, h3, h4⟩ := ih h2; exact ⟨t, .leads h1 h3, h4⟩
    | trails h1 h2 => obtain ⟨t, h3, h4⟩ := ih h2; exact ⟨t, .trails h1 h3, h4⟩

theorem TextRun.ascii_cons {b : Byte} {w : List Byte} {m m' : Nat} (hb : Ascii b) (h : TextRun m (b :: w) m') : m = 0 ∧ TextRun 0 w m' := by
  cases h with
  | leads _ h => rw [(ascii_leads hb).2] at h; exact ⟨rfl, h⟩
  | trails h _ => exact absurd h (leads_not_trails (ascii_leads hb).1)

theorem TextRun.ascii_append {v : List Byte} (hv : ∀ b ∈ v, Ascii b) (hn : v ≠ []) {w : List Byte} : ∀ {m m' : Nat}, TextRun m (v ++ w) m' → m = 0 ∧ TextRun 0 w m' := by
  induction v with
  | nil => exact absurd rfl hn
  | cons b v ih =>
    intro m m' h
    obtain ⟨h0, h1⟩ := TextRun.ascii_cons (hv b (by simp)) h
    refine ⟨h0, ?_⟩
    by_cases hv' : v = []
    · subst hv'; exact h1
    · exact (ih (fun b hb => hv b (by simp [hb])) hv' h1).2

theorem TextRun.ascii {v : List Byte} (hv : ∀ b ∈ v, Ascii b) (hn : v ≠ []) {m m' : Nat} (h : TextRun m v m') : m = 0 ∧ m' = 0 := by
  rw [← List.append_nil v] at h
  obtain ⟨h0, h1⟩ := TextRun.ascii_append hv hn h
  cases h1
  exact ⟨h0, rfl⟩

/-- The last byte is ASCII. -/
def LastAscii (w : List Byte) : Prop := ∃ u b, w = u ++ [b] ∧ Ascii b

theorem TextRun.last {w : List Byte} (hw : LastAscii w) {m m' : Nat} (h : TextRun m w m') : m' = 0 := by
  obtain ⟨u, b, rfl, hb⟩ := hw
  obtain ⟨t, _, h⟩ := h.split
  exact (h.ascii (by simpa using hb) (by simp)).2

/-! ## Sequences -/

/-- Like `WholeSeq`, up to a character of which `m'` bytes are missing. -/
inductive PartRun : Nat → List Ast → Nat → Prop
  | nil {m} : PartRun m [] m
  | part {a l m'} : Whole a → PartRun 0 l m' → PartRun 0 (a :: l) m'
  | leads {b l m'} : Leads b → PartRun (missing b) l m' → PartRun 0 (.lit b :: l) m'
  | trails {b m l m'} : Trails b → PartRun m l m' → PartRun (m + 1) (.lit b :: l) m'

theorem PartRun.append {l k : List Ast} {m t m' : Nat} (h : PartRun m l t) (h' : PartRun t k m') : PartRun m (l ++ k) m' := by
  induction h with
  | nil => exact h'
  | part h1 _ ih => exact .part h1 (ih h')
  | leads h1 _ ih => exact .leads h1 (ih h')
  | trails h1 _ ih => exact .trails h1 (ih h')

theorem PartRun.wholeSeq {l : List Ast} {m n : Nat} (h : PartRun m l n) : n = 0 → WholeSeq m l := by
  induction h with
  | nil => rintro rfl; exact .nil
  | part h1 _ ih => exact fun e => .part h1 (ih e)
  | leads h1 _ ih => exact fun e => .leads h1 (ih e)
  | trails h1 _ ih => exact fun e => .trails h1 (ih e)

theorem wholeSeq_partRun : ∀ {l : List Ast} {m : Nat}, WholeSeq m l → PartRun m l 0
  | _, _, .nil => .nil
  | _, _, .part h h' => .part h (wholeSeq_partRun h')
  | _, _, .leads h h' => .leads h (wholeSeq_partRun h')
  | _, _, .trails h h' => .trails h (wholeSeq_partRun h')

/-! ## Characters of ASCII -/

mutual
/-- Characters, ranges and sets of ASCII. -/
def asciiOnly : Ast → Bool
  | .lit c => decide (c.toNat < 128)
  | .range _ b => decide (b.toNat < 128)
  | .set l => asciiOnlyAll l
  | _ => false
def asciiOnlyAll : List Ast → Bool
  | [] => true
  | a :: l => asciiOnly a && asciiOnlyAll l
end

theorem charEq_ascii {i : Bool} {c x : Byte} (h : CharEq i c x) (hc : c.toNat < 128) : Ascii x := by
  rcases charEq_byte h with rfl | h
  · exact hc
  · exact h.2

mutual
theorem asciiOnly_matches {f : Flags} {s : List Byte} : ∀ {a : Ast} {i j : Nat}, asciiOnly a = true → Matches f s a i j → j = i + 1 ∧ CharAt s i Ascii
  | .lit c, i, j, hc, ⟨h1, x, h2, h3⟩ => ⟨h1, x, h2, charEq_ascii h3 (by simpa [asciiOnly] using hc)⟩
  | .range _ b, i, j, hc, ⟨h1, x, h2, y, _, h4, h5⟩ => ⟨h1, x, h2, charEq_ascii h5 (Nat.lt_of_le_of_lt h4 (by simpa [asciiOnly] using hc))⟩
  | .set l, i, j, hc, ⟨h1, h2⟩ => ⟨h1, asciiOnlyAll_matches (by simpa [asciiOnly] using hc) h2⟩
theorem asciiOnlyAll_matches {f : Flags} {s : List Byte} : ∀ {l : List Ast} {i j : Nat}, asciiOnlyAll l = true → MatchesAny f s l i j → CharAt s i Ascii
  | a :: l, i, j, hc, h => by
    simp only [asciiOnlyAll, Bool.and_eq_true] at hc
    rcases h with h | h
    · exact (asciiOnly_matches hc.1 h).2
    · exact asciiOnlyAll_matches hc.2 h
end

theorem whole_asciiOnly {a : Ast} (h : asciiOnly a = true) : Whole a := by
  refine .ascii ?_ (fun f s i j => asciiOnly_matches h)
  cases a <;> simp_all [asciiOnly, single]

theorem whole_lit {c : Byte} (h : Ascii c) : Whole (.lit c) := whole_asciiOnly (by simp [asciiOnly]; exact h)

theorem Spec.Whole.parts {x : Ast} (h : Whole x) : PartRun 0 (Spec.seqParts x) 0 := by
  cases x with
  | seq l =>
    cases h with
    | ascii h => simp [single] at h
    | anchor h => rcases h with h | h | h | h | h <;> cases h
    | seq h => exact wholeSeq_partRun h
  | _ => exact .part h .nil

theorem whole_of_parts {x : Ast} (h : PartRun 0 (Spec.seqParts x) 0) : Whole x := by
  cases x with
  | seq l => exact .seq (h.wholeSeq rfl)
  | lit c =>
    cases h with
    | part h _ => exact h
    | leads h h' =>
      revert h'
      generalize hn : missing c = n
      intro h'
      cases h'
      refine whole_lit ?_
      unfold Leads at h; unfold missing at hn; unfold Ascii
      split at hn
      · omega
      · split at hn <;> [skip; split at hn] <;> omega
  | _ => cases h with | part h _ => exact h

/-! ## Groups -/

def GroupsWhole (x : Ast) : Prop := ∀ k body, GroupBody x k body → Whole body

theorem groupsWhole_leaf {x : Ast} (h : ∀ k body, ¬GroupBody x k body) : GroupsWhole x := fun k body hb => absurd hb (h k body)

theorem groupsWhole_seqParts {x : Ast} (h : GroupsWhole x) : ∀ a ∈ Spec.seqParts x, GroupsWhole a := by
  cases x with
  | seq l => exact fun a ha k body hb => h k body (.seq ha hb)
  | _ => intro a ha; cases List.mem_singleton.1 ha; exact h

theorem groupsWhole_cat {x y : Ast} (hx : GroupsWhole x) (hy : GroupsWhole y) : GroupsWhole (catAst x y) := by
  intro k body h
  cases h with
  | seq hm h =>
    rcases List.mem_append.1 hm with hm | hm
    · exact groupsWhole_seqParts hx _ hm k body h
    · exact groupsWhole_seqParts hy _ hm k body h

theorem groupsWhole_altAst {x y : Ast} (hx : GroupsWhole x) (hy : GroupsWhole y) : GroupsWhole (altAst x y) := by
  have two : GroupsWhole (.alt [x, y]) := by
    intro k body h
    cases h with
    | alt hm h =>
      simp only [List.mem_cons, List.not_mem_nil, or_false] at hm
      rcases hm with rfl | rfl
      · exact hx k body h
      · exact hy k body h
  cases x with
  | alt l =>
    intro k body h
    cases h with
    | alt hm h =>
      rcases List.mem_append.1 hm with hm | hm
      · exact hx k body (.alt hm h)
      · cases List.mem_singleton.1 hm; exact hy k body h
  | _ => exact two

theorem whole_altAst {x y : Ast} (hx : Whole x) (hy : Whole y) : Whole (altAst x y) := by
  have two : Whole (.alt [x, y]) := .alt (by
    intro a hm
    simp only [List.mem_cons, List.not_mem_nil, or_false] at hm
    rcases hm with rfl | rfl
    · exact hx
    · exact hy)
  cases x with
  | alt l =>
    cases hx with
    | ascii h => simp [single] at h
    | anchor h => rcases h with h | h | h | h | h <;> cases h
    | alt h =>
      refine .alt fun a hm => ?_
      rcases List.mem_append.1 hm with hm | hm
      · exact h a hm
      · cases List.mem_singleton.1 hm; exact hy
  | _ => exact two

theorem ascii_word {c : Byte} (h : WordChar c) : Ascii c := by unfold WordChar at h; unfold Ascii; omega

theorem ascii_digit {c : Byte} (h : DecDigit c) : Ascii c := by unfold DecDigit at h; unfold Ascii; omega

theorem groupOpen_whole {o : List Byte} {g : Ast → Ast} (h : GroupOpen o g) : (∀ b ∈ o, Ascii b) ∧ o ≠ [] ∧ ∀ x, Whole x → GroupsWhole x → Whole (g x) ∧ GroupsWhole (g x) := by
  have ht : ∀ b ∈ txt "(?:>=!<", Ascii b := by unfold Ascii; decide
  have hc : ∀ n x, Whole x → GroupsWhole x → Whole (.cap 0 n x) ∧ GroupsWhole (.cap 0 n x) := by
    intro n x hx hg
    refine ⟨.cap hx, fun k body h => ?_⟩
    cases h with
    | here => exact hx
    | cap h => exact hg k body h
  have hl : ∀ d x, GroupsWhole x → GroupsWhole (.look d x) := by
    intro d x hg k body h
    cases h with | look h => exact hg k body h
  have hn : ∀ x, GroupsWhole x → GroupsWhole (.neg x) := by
    intro x hg k body h
    cases h with | neg h => exact hg k body h
  cases h with
  | capture => exact ⟨by unfold Ascii; decide, by decide, hc _⟩
  | @named w hw =>
    refine ⟨fun b hb => ?_, by simp [txt], hc _⟩
    simp only [List.mem_append] at hb
    rcases hb with (hb | hb) | hb
    · exact ht b (by revert hb; revert b; decide)
    · exact ascii_word (hw.1 b hb)
    · exact ht b (by revert hb; revert b; decide)
  | plain => exact ⟨by unfold Ascii; decide, by decide, fun x hx hg => ⟨hx, hg⟩⟩
  | atomic => exact ⟨by unfold Ascii; decide, by decide, fun x hx hg => ⟨.rep hx, fun k body h => by cases h with | rep h => exact hg k body h⟩⟩
  | ahead => exact ⟨by unfold Ascii; decide, by decide, fun x hx hg => ⟨.look, hl _ _ hg⟩⟩
  | negAhead => exact ⟨by unfold Ascii; decide, by decide, fun x hx hg => ⟨.neg rfl, hn _ (hl _ _ hg)⟩⟩
  | behind => exact ⟨by unfold Ascii; decide, by decide, fun x hx hg => ⟨.look, hl _ _ hg⟩⟩
  | negBehind => exact ⟨by unfold Ascii; decide, by decide, fun x hx hg => ⟨.neg rfl, hn _ (hl _ _ hg)⟩⟩

/-! ## Patterns -/

theorem Spec.Careful.left {u v : List Byte} (h : Careful (u ++ v)) : Careful u where
  dot hm := h.dot (List.mem_append_left _ hm)
  set hm := h.set (List.mem_append_left _ hm)
  esc u' c v' e := h.esc u' c (v' ++ v) (by simp [e])
  quant u' b c v' e := h.quant u' b c (v' ++ v) (by simp [e])

theorem Spec.Careful.right {u v : List Byte} (h : Careful (u ++ v)) : Careful v where
  dot hm := h.dot (List.mem_append_right _ hm)
  set hm := h.set (List.mem_append_right _ hm)
  esc u' c v' e := h.esc (u ++ u') c v' (by simp [e])
  quant u' b c v' e := h.quant (u ++ u') b c v' (by simp [e])

theorem Spec.Careful.before {u v : List Byte} (h : Careful (u ++ v)) (hu : u ≠ []) {c : Byte} (hc : v.head? = some c) (hq : c ∈ txt "*+?{") : LastAscii u := by
  obtain ⟨u', b, rfl⟩ : ∃ u' b, u = u' ++ [b] := ⟨_, _, (List.dropLast_append_getLast hu).symm⟩
  cases v with
  | nil => cases hc
  | cons d v =>
    cases hc
    exact ⟨u', b, rfl, h.quant u' b c v (by simp) hq⟩

theorem lastAscii_append {u v : List Byte} (h : LastAscii v) : LastAscii (u ++ v) := by
  obtain ⟨u', b, rfl, hb⟩ := h
  exact ⟨u ++ u', b, by simp, hb⟩

theorem lastAscii_cons {a b : Byte} {v : List Byte} (h : LastAscii (a :: b :: v)) : LastAscii (b :: v) := by
  obtain ⟨u, c, e, hb⟩ := h
  cases u with
  | nil => simp at e
  | cons d u => exact ⟨u, c, (List.cons.inj e).2, hb⟩

theorem lastAscii_one {b : Byte} (h : LastAscii [b]) : Ascii b := by
  obtain ⟨u, c, e, hb⟩ := h
  cases u with
  | nil => cases e; exact hb
  | cons d u => simp at e

/-- A text that ends at `f`, before `v`. -/
theorem atEnd_state {v : List Byte} (hv : v ≠ []) {m m' : Nat} (h : TextRun m v m') (he : AtEnd v.head?) : m = 0 := by
  cases v with
  | nil => exact absurd rfl hv
  | cons b v =>
    rcases he with he | he
    · cases he
    · cases he
      exact (h.ascii_cons (by unfold Ascii; decide)).1

/-- What is to be shown of the parts of a pattern. -/
def WholeText (c : Spec.Cat) (w : List Byte) (f : Option Byte) (x : Ast) : Prop :=
  ∀ m m', Careful w → TextRun m w m' → (AtEnd f → m' = 0) →
    match c with
    | .atom b => GroupsWhole x ∧ PartRun m (Spec.seqParts x) m' ∧ (b = true → m' = 0) ∧ (LastAscii w → m = 0 ∧ Whole x)
    | .item b => GroupsWhole x ∧ PartRun m (Spec.seqParts x) m' ∧ (b = true → m' = 0)
    | .seq none => GroupsWhole x ∧ PartRun m (Spec.seqParts x) m'
    | .seq (some y) => ∀ m0, GroupsWhole y → PartRun m0 (Spec.seqParts y) m → GroupsWhole x ∧ PartRun m0 (Spec.seqParts x) m'
    | .alts none => m = 0 → m' = 0 → GroupsWhole x ∧ Whole x
    | .alts (some y) => m' = 0 → GroupsWhole y → PartRun 0 (Spec.seqParts y) m → GroupsWhole x ∧ Whole x

theorem wholeText_lit {c : Byte} {m m' : Nat} (h : TextRun m [c] m') :
    GroupsWhole (.lit c) ∧ PartRun m (Spec.seqParts (.lit c)) m' ∧ (false = true → m' = 0) ∧ (LastAscii [c] → m = 0 ∧ Whole (.lit c)) := by
  refine ⟨groupsWhole_leaf (by intro k body h; cases h), ?_, by simp, fun hc => ⟨(h.ascii_cons (lastAscii_one hc)).1, whole_lit (lastAscii_one hc)⟩⟩
  cases h with
  | leads h1 h2 => exact .leads h1 (by revert h2; generalize missing c = n; intro h2; cases h2; exact .nil)
  | trails h1 h2 => exact .trails h1 (by cases h2; exact .nil)

/-- Parts that are spelled in ASCII. -/
theorem wholeText_ascii {b : Bool} {w : List Byte} {x : Ast} (hw : ∀ c ∈ w, Ascii c) (hn : w ≠ []) (hx : Whole x) (hg : GroupsWhole x) {m m' : Nat} (h : TextRun m w m') :
    GroupsWhole x ∧ PartRun m (Spec.seqParts x) m' ∧ (b = true → m' = 0) ∧ (LastAscii w → m = 0 ∧ Whole x) := by
  obtain ⟨rfl, rfl⟩ := h.ascii hw hn
  exact ⟨hg, hx.parts, fun _ => rfl, fun _ => ⟨rfl, hx⟩⟩

theorem classes_ascii : ∀ e x, (e, x) ∈ classes → e ∈ txt "DWSNx" ∨ (Ascii e ∧ asciiOnly x = true) := by
  intro e x h
  simp only [classes, List.mem_cons, Prod.mk.injEq, List.not_mem_nil, or_false] at h
  unfold Ascii
  rcases h with ⟨rfl, rfl⟩ | ⟨rfl, rfl⟩ | ⟨rfl, rfl⟩ | ⟨rfl, rfl⟩ | ⟨rfl, rfl⟩ | ⟨rfl, rfl⟩ | ⟨rfl, rfl⟩ | ⟨rfl, rfl⟩
  · exact .inr (by decide)
  · exact .inl (by decide)
  · exact .inr (by decide)
  · exact .inl (by decide)
  · exact .inr (by decide)
  · exact .inl (by decide)
  · exact .inr (by decide)
  · exact .inl (by decide)

theorem asciiOnly_noGroup {x : Ast} (h : asciiOnly x = true) : GroupsWhole x := by
  have key : ∀ {a : Ast} {k : Nat} {body : Ast}, GroupBody a k body → asciiOnly a = false := by
    intro a k body hb
    induction hb with
    | @set k l a body hm _ ih =>
      simp only [asciiOnly]
      clear * - hm ih
      induction l with
      | nil => cases hm
      | cons c l ihl =>
        simp only [asciiOnlyAll, Bool.and_eq_false_iff]
        rcases List.mem_cons.1 hm with rfl | hm
        · exact .inl ih
        · exact .inr (ihl hm)
    | _ => rfl
  intro k body hb
  rw [key hb] at h
  cases h

theorem quant_ascii {q : List Byte} {lo : Nat} {hi : Bound} (h : Quant q lo hi) : (∀ b ∈ q, Ascii b) ∧ ∃ c, q.head? = some c ∧ c ∈ txt "*+?{" := by
  have ht : ∀ b ∈ txt "{,}*+?", Ascii b := by unfold Ascii; decide
  cases h with
  | star => exact ⟨fun b hb => ht b (by revert hb; revert b; decide), _, rfl, by decide⟩
  | plus => exact ⟨fun b hb => ht b (by revert hb; revert b; decide), _, rfl, by decide⟩
  | opt => exact ⟨fun b hb => ht b (by revert hb; revert b; decide), _, rfl, by decide⟩
  | exact hn =>
    refine ⟨fun b hb => ?_, ch '{', rfl, by decide⟩
    simp only [List.mem_append] at hb
    rcases hb with (hb | hb) | hb
    · exact ht b (by revert hb; revert b; decide)
    · exact ascii_digit (hn.2.1 b hb)
    · exact ht b (by revert hb; revert b; decide)
  | atLeast hn =>
    refine ⟨fun b hb => ?_, ch '{', rfl, by decide⟩
    simp only [List.mem_append] at hb
    rcases hb with (hb | hb) | hb
    · exact ht b (by revert hb; revert b; decide)
    · exact ascii_digit (hn.2.1 b hb)
    · exact ht b (by revert hb; revert b; decide)
  | between hn hn' =>
    refine ⟨fun b hb => ?_, ch '{', rfl, by decide⟩
    simp only [List.mem_append] at hb
    rcases hb with (((hb | hb) | hb) | hb) | hb
    · exact ht b (by revert hb; revert b; decide)
    · exact ascii_digit (hn.2.1 b hb)
    · exact ht b (by revert hb; revert b; decide)
    · exact ascii_digit (hn'.2.1 b hb)
    · exact ht b (by revert hb; revert b; decide)

theorem suffix_ascii {s : List Byte} {m : Mode} (h : Suffix s m) : ∀ b ∈ s, Ascii b := by
  unfold Ascii
  cases h <;> decide

theorem reads_nonempty {c : Spec.Cat} {w : List Byte} {f : Option Byte} {x : Ast} (h : Reads c w f x) (hc : ∀ y, c ≠ .seq (some y) ∧ c ≠ .alts (some y)) : w ≠ [] :=
  (reads_bracket h hc).1

/-- A part that begins with a brace begins with a brace. -/
theorem reads_brace {c : Spec.Cat} {w : List Byte} {f : Option Byte} {x : Ast} (h : Reads c w f x) : c = .atom true ∨ c = .item true → w.head? = some (ch '{') := by
  have step : ∀ {w v : List Byte}, w.head? = some (ch '{') → (w ++ v).head? = some (ch '{') := by
    intro w v h
    cases w with
    | nil => cases h
    | cons a w => exact h
  induction h with
  | brace => exact fun _ => rfl
  | bare h _ ih => exact fun e => ih (.inl (by rcases e with e | e <;> cases e; rfl))
  | quant h _ _ _ ih => exact fun e => by rw [List.append_assoc]; exact step (ih (.inl (by rcases e with e | e <;> cases e; rfl)))
  | braced h _ _ _ ih => exact fun e => by rw [List.append_assoc]; exact step (ih (.inl (by rcases e with e | e <;> cases e; rfl)))
  | _ => rintro (e | e) <;> cases e

theorem reads_whole {c : Spec.Cat} {w : List Byte} {f : Option Byte} {x : Ast} (h : Reads c w f x) : WholeText c w f x := by
  have hb : Ascii (ch '\\') := by unfold Ascii; decide
  have hcl : Ascii (ch ')') := by unfold Ascii; decide
  induction h with
  | plain hc => exact fun m m' _ ht _ => wholeText_lit ht
  | dot => exact fun m m' h _ _ => absurd (by decide) h.dot
  | @esc w c f he =>
    intro m m' hw ht _
    cases he with
    | @ctrl e c hm =>
      have : ∀ p ∈ controls, Ascii p.1 ∧ Ascii p.2 := by unfold Ascii; decide
      obtain ⟨h1, h2⟩ := this _ hm
      exact wholeText_ascii (by simp [hb, h1]) (by simp) (whole_lit h2) (groupsWhole_leaf (by intro k body h; cases h)) ht
    | hex => exact absurd (by decide) (hw.esc [] _ _ rfl)
    | self =>
      obtain ⟨rfl, ht'⟩ := ht.ascii_cons hb
      obtain ⟨h1, h2, h3, h4⟩ := wholeText_lit ht'
      exact ⟨h1, h2, h3, fun h => h4 (lastAscii_cons h)⟩
  | @cls e x f he =>
    intro m m' hw ht _
    rcases classes_ascii e x he with h | ⟨h1, h2⟩
    · exact absurd h (hw.esc [] _ _ rfl)
    · exact wholeText_ascii (by simp [hb, h1]) (by simp) (whole_asciiOnly h2) (asciiOnly_noGroup h2) ht
  | set hs =>
    intro m m' hw _ _
    refine absurd ?_ hw.set
    cases hs <;> simp [txt]
  | backref hn _ _ =>
    intro m m' _ ht _
    exact wholeText_ascii (by intro c hc; rcases List.mem_cons.1 hc with rfl | hc
                              · exact hb
                              · exact ascii_digit (hn.2.1 c hc)) (by simp) .backref (groupsWhole_leaf (by intro k body h; cases h)) ht
  | @namedBackref w f hn =>
    intro m m' _ ht _
    refine wholeText_ascii ?_ (by simp [txt]) .namedBackref (groupsWhole_leaf (by intro k body h; cases h)) ht
    have hk : ∀ b ∈ txt "\\k<>", Ascii b := by unfold Ascii; decide
    intro b hb
    simp only [List.mem_append] at hb
    rcases hb with (hb | hb) | hb
    · exact hk b (by revert hb; revert b; decide)
    · exact ascii_word (hn.1 b hb)
    · exact hk b (by revert hb; revert b; decide)
  | @emptyGroup o g f ho =>
    intro m m' _ ht _
    obtain ⟨h1, h2, h3⟩ := groupOpen_whole ho
    obtain ⟨h4, h5⟩ := h3 .empty .empty (groupsWhole_leaf (by intro k body h; cases h))
    refine wholeText_ascii ?_ (by simp [txt]) h4 h5 ht
    intro b hb
    rcases List.mem_append.1 hb with hb | hb
    · exact h1 b hb
    · cases List.mem_singleton.1 hb; exact hcl
  | @group o g w x f ho hr ih =>
    intro m m' hw ht _
    obtain ⟨h1, h2, h3⟩ := groupOpen_whole ho
    rw [List.append_assoc] at ht
    obtain ⟨rfl, ht'⟩ := TextRun.ascii_append h1 h2 ht
    obtain ⟨t, h4, h5⟩ := ht'.split
    obtain ⟨rfl, rfl⟩ := h5.ascii (by intro b hb; cases List.mem_singleton.1 hb; exact hcl) (by decide)
    obtain ⟨h6, h7⟩ := ih 0 0 hw.left.right h4 (fun _ => rfl) rfl rfl
    obtain ⟨h8, h9⟩ := h3 x h7 h6
    exact ⟨h9, h8.parts, fun _ => rfl, fun _ => ⟨rfl, h8⟩⟩
  | brace => exact fun m m' _ ht _ => wholeText_ascii (by unfold Ascii; decide) (by decide) (whole_lit (by unfold Ascii; decide)) (groupsWhole_leaf (by intro k body h; cases h)) ht
  | bare _ _ ih =>
    intro m m' hw ht he
    obtain ⟨h1, h2, h3, _⟩ := ih m m' hw ht he
    exact ⟨h1, h2, h3⟩
  | @quant b w q s lo hi md f x hr hq hs _ ih =>
    intro m m' hw ht _
    obtain ⟨h1, c, h2, h3⟩ := quant_ascii hq
    have hq' : q ≠ [] := by rintro rfl; cases h2
    have hl := hw.left.before (reads_nonempty hr (by simp)) h2 h3
    rw [List.append_assoc] at ht
    obtain ⟨t, h4, h5⟩ := ht.split
    obtain ⟨rfl, rfl⟩ := h5.ascii (by intro b hb; rcases List.mem_append.1 hb with hb | hb
                                      · exact h1 b hb
                                      · exact suffix_ascii hs b hb) (by simp [hq'])
    obtain ⟨h6, _, _, h7⟩ := ih m 0 hw.left.left h4 (fun _ => rfl)
    obtain ⟨rfl, h8⟩ := h7 hl
    have h9 : Whole (.rep md lo hi x) := .rep h8
    exact ⟨fun k body h => by cases h with | rep h => exact h6 k body h, h9.parts, fun _ => rfl⟩
  | bol => exact fun m m' _ ht _ => (fun ⟨h1, h2, h3, _⟩ => ⟨h1, h2, h3⟩) (wholeText_ascii (b := false) (by unfold Ascii; decide) (by decide) (.anchor (.inl rfl)) (groupsWhole_leaf (by intro k body h; cases h)) ht)
  | eol => exact fun m m' _ ht _ => (fun ⟨h1, h2, h3, _⟩ => ⟨h1, h2, h3⟩) (wholeText_ascii (b := false) (by unfold Ascii; decide) (by decide) (.anchor (.inr (.inr (.inl rfl)))) (groupsWhole_leaf (by intro k body h; cases h)) ht)
  | @assertion e x f hm _ =>
    intro m m' _ ht _
    have hx : Ascii e ∧ Whole x ∧ GroupsWhole x := by
      simp only [assertions, List.mem_cons, Prod.mk.injEq, List.not_mem_nil, or_false] at hm
      rcases hm with ⟨rfl, rfl⟩ | ⟨rfl, rfl⟩ | ⟨rfl, rfl⟩ | ⟨rfl, rfl⟩
      · exact ⟨by unfold Ascii; decide, .anchor (by simp), groupsWhole_leaf (by intro k body h; cases h)⟩
      · exact ⟨by unfold Ascii; decide, .neg rfl, groupsWhole_leaf (by intro k body h; cases h with | neg h => cases h)⟩
      · exact ⟨by unfold Ascii; decide, .anchor (by simp), groupsWhole_leaf (by intro k body h; cases h)⟩
      · exact ⟨by unfold Ascii; decide, .anchor (by simp), groupsWhole_leaf (by intro k body h; cases h)⟩
    obtain ⟨h1, h2, h3, _⟩ := wholeText_ascii (b := false) (by simp [hb, hx.1]) (by simp) hx.2.1 hx.2.2 ht
    exact ⟨h1, h2, h3⟩
  | @braced b w x v y u z f hr hv hu hf ih1 ih2 ih3 =>
    intro m m' hw ht he
    have hm' := he hf
    subst hm'
    have hl : LastAscii w := hw.left.before (reads_nonempty hr (by simp)) (reads_brace hv (.inr rfl)) (by decide)
    obtain ⟨t, ht, h1⟩ := ht.split
    obtain ⟨t', h2, h3⟩ := ht.split
    have h0 := h2.last hl
    subst h0
    obtain ⟨h4, _, _, h5⟩ := ih1 m 0 hw.left.left h2 (fun _ => rfl)
    obtain ⟨rfl, h6⟩ := h5 hl
    obtain ⟨h7, h8, h9⟩ := ih2 0 t hw.left.right h3 (by
      intro ha
      by_cases hu' : u = []
      · subst hu'; cases h1; rfl
      · refine atEnd_state hu' h1 ?_
        cases u with
        | nil => exact absurd rfl hu'
        | cons c u => exact ha)
    obtain rfl := h9 rfl
    obtain ⟨h10, h11⟩ := ih3 0 0 hw.right h1 (fun _ => rfl) rfl (groupsWhole_cat h4 h7) (h6.parts.append h8)
    exact ⟨h10, h11.parts, fun _ => rfl⟩
  | start =>
    intro m m' _ ht _ m0 hy hp
    cases ht
    exact ⟨hy, hp⟩
  | one _ ih =>
    intro m m' hw ht he
    obtain ⟨h1, h2, _⟩ := ih m m' hw ht he
    exact ⟨h1, h2⟩
  | @more s w v f x y hr hv ih1 ih2 =>
    intro m m' hw ht he
    obtain ⟨t, h1, h2⟩ := ht.split
    obtain ⟨h3, h4, _⟩ := ih2 t m' hw.right h2 he
    have h5 := ih1 m t hw.left h1 (atEnd_state (reads_nonempty hv (by simp)) h2)
    cases s with
    | none => exact ⟨groupsWhole_cat h5.1 h3, h5.2.append h4⟩
    | some y =>
      intro m0 hy hp
      obtain ⟨h6, h7⟩ := h5 m0 hy hp
      exact ⟨groupsWhole_cat h6 h3, h7.append h4⟩
  | @single s w f x hr ih =>
    intro m m' hw ht he
    have h := ih m m' hw ht he
    cases s with
    | none =>
      rintro rfl rfl
      exact ⟨h.1, whole_of_parts h.2⟩
    | some y =>
      rintro rfl hy hp
      obtain ⟨h1, h2⟩ := h 0 hy hp
      exact ⟨h1, whole_of_parts h2⟩
  | @or s w v f x y hr hv ih1 ih2 =>
    intro m m' hw ht he
    obtain ⟨t, ht, h1⟩ := ht.split
    obtain ⟨t', h2, h3⟩ := ht.split
    obtain ⟨rfl, rfl⟩ := h3.ascii (by unfold Ascii; decide) (by decide)
    have h4 := ih1 m 0 hw.left.left h2 (fun _ => rfl)
    obtain ⟨h5, h6⟩ := ih2 0 m' hw.right h1 he
    cases s with
    | none =>
      rintro rfl rfl
      obtain ⟨h7, h8⟩ := h4 rfl rfl
      exact ⟨groupsWhole_altAst h7 h5, whole_altAst h8 (whole_of_parts h6)⟩
    | some y =>
      rintro rfl hy hp
      obtain ⟨h7, h8⟩ := h4 rfl hy hp
      exact ⟨groupsWhole_altAst h7 h5, whole_altAst h8 (whole_of_parts h6)⟩

theorem pattern_whole {w : List Byte} {x : Ast} (h : Pattern w x) (hu : Utf8 w) (hw : Careful w) : GroupsWhole x ∧ Whole x := by
  cases h with
  | empty => exact ⟨groupsWhole_leaf (by intro k body h; cases h), .empty⟩
  | alts h => exact reads_whole h 0 0 hw (by simpa using textRun_of_chars hu rfl) (fun _ => rfl) rfl rfl

/-! ## Numbering -/

theorem single_index (o : Nat) (a : Ast) : single (index o a) = single a := by
  cases a <;> simp [index, single, assertion_index]

theorem indexSame_eq_map (o : Nat) : ∀ l : List Ast, indexSame o l = l.map (index o)
  | [] => rfl
  | a :: l => by simp only [indexSame, List.map_cons, indexSame_eq_map o l]

mutual
theorem whole_index : ∀ {a : Ast}, Whole a → ∀ o, Whole (index o a)
  | _, .ascii h1 h2, o => .ascii (by rw [single_index]; exact h1) (by intro f s i j h; rw [matches_index] at h; exact h2 f s i j h)
  | _, .empty, o => .empty
  | _, .anchor h, o => by rcases h with rfl | rfl | rfl | rfl | rfl <;> exact .anchor (by simp [index])
  | _, .look, o => .look
  | _, .neg h, o => .neg (by rw [assertion_index]; exact h)
  | _, .backref, o => .backref
  | _, .namedBackref, o => .namedBackref
  | _, .seq h, o => .seq (wholeSeq_index h o)
  | .alt l, .alt h, o => .alt (by
    intro a ha
    simp only [indexSame_eq_map, List.mem_map] at ha
    obtain ⟨c, hc, rfl⟩ := ha
    exact whole_index (h c hc) o)
  | _, .cap h, o => .cap (whole_index h _)
  | _, .rep h, o => .rep (whole_index h _)
theorem wholeSeq_index : ∀ {l : List Ast} {m : Nat}, WholeSeq m l → ∀ o, WholeSeq m (indexSeq o l)
  | _, _, .nil, o => .nil
  | _, _, .part h h', o => .part (whole_index h _) (wholeSeq_index h' _)
  | _, _, .leads h h', o => .leads h (wholeSeq_index h' _)
  | _, _, .trails h h', o => .trails h (wholeSeq_index h' _)
end

theorem groupBody_index {a : Ast} {k : Nat} {body : Ast} (h : GroupBody a k body) : ∀ o c, a = index o c → ∃ k' body' o', GroupBody c k' body' ∧ body = index o' body' := by
  induction h with
  | here =>
    intro o c e
    cases c <;> simp only [index, reduceCtorEq, Ast.cap.injEq] at e
    exact ⟨_, _, _, .here, e.2.2⟩
  | cap _ ih =>
    intro o c e
    cases c <;> simp only [index, reduceCtorEq, Ast.cap.injEq] at e
    obtain ⟨k', b', o', h1, h2⟩ := ih _ _ e.2.2
    exact ⟨k', b', o', .cap h1, h2⟩
  | neg _ ih =>
    intro o c e
    cases c <;> simp only [index, reduceCtorEq, Ast.neg.injEq] at e
    obtain ⟨k', b', o', h1, h2⟩ := ih _ _ e
    exact ⟨k', b', o', .neg h1, h2⟩
  | rep _ ih =>
    intro o c e
    cases c <;> simp only [index, reduceCtorEq, Ast.rep.injEq] at e
    obtain ⟨k', b', o', h1, h2⟩ := ih _ _ e.2.2.2
    exact ⟨k', b', o', .rep h1, h2⟩
  | look _ ih =>
    intro o c e
    cases c <;> simp only [index, reduceCtorEq, Ast.look.injEq] at e
    obtain ⟨k', b', o', h1, h2⟩ := ih _ _ e.2
    exact ⟨k', b', o', .look h1, h2⟩
  | seq hm _ ih =>
    intro o c e
    cases c <;> simp only [index, reduceCtorEq, Ast.seq.injEq] at e
    subst e
    obtain ⟨d, hd, o', rfl⟩ := mem_indexSeq hm
    obtain ⟨k', b', o', h1, h2⟩ := ih _ _ rfl
    exact ⟨k', b', o', .seq hd h1, h2⟩
  | alt hm _ ih =>
    intro o c e
    cases c <;> simp only [index, reduceCtorEq, Ast.alt.injEq] at e
    subst e
    simp only [indexSame_eq_map, List.mem_map] at hm
    obtain ⟨d, hd, rfl⟩ := hm
    obtain ⟨k', b', o', h1, h2⟩ := ih _ _ rfl
    exact ⟨k', b', o', .alt hd h1, h2⟩
  | set hm _ ih =>
    intro o c e
    cases c <;> simp only [index, reduceCtorEq, Ast.set.injEq] at e
    subst e
    simp only [indexSame_eq_map, List.mem_map] at hm
    obtain ⟨d, hd, rfl⟩ := hm
    obtain ⟨k', b', o', h1, h2⟩ := ih _ _ rfl
    exact ⟨k', b', o', .set hd h1, h2⟩

theorem parsed_whole {w : List Byte} {a : Ast} (hp : parse w = .result a .success) (hu : Utf8 w) (hw : Careful w) : Whole a ∧ ∀ k body, GroupBody a k body → Whole body := by
  obtain ⟨x, h1, rfl⟩ := (parse_iff w a).1 hp
  obtain ⟨h2, h3⟩ := pattern_whole h1 hu hw
  refine ⟨whole_index h3 _, fun k body h => ?_⟩
  obtain ⟨k', body', o', h4, rfl⟩ := groupBody_index h 1 x rfl
  exact whole_index (h2 k' body' h4) _

/-! ## Deciding the conditions -/

theorem mem_neighbours {b c : Byte} {v : List Byte} : ∀ {u w : List Byte}, w = u ++ b :: c :: v → (b, c) ∈ w.zip w.tail
  | [], _, h => by subst h; simp
  | [a], _, h => by subst h; simp
  | a :: d :: u, _, h => by
    subst h
    have := mem_neighbours (b := b) (c := c) (v := v) (u := d :: u) rfl
    simp only [List.cons_append, List.tail_cons, List.zip_cons_cons] at this ⊢
    exact List.mem_cons_of_mem _ this

theorem careful_of {w : List Byte} (h : (ch '.' ∉ w ∧ ch '[' ∉ w) ∧ ∀ p ∈ w.zip w.tail, (p.1 = ch '\\' → p.2 ∉ txt "DWSNx") ∧ (p.2 ∈ txt "*+?{" → p.1.toNat < 128)) : Careful w where
  dot := h.1.1
  set := h.1.2
  esc _ _ _ e := (h.2 _ (mem_neighbours e)).1 rfl
  quant _ _ _ _ e := (h.2 _ (mem_neighbours e)).2

end Mregex
