import Verif.Spec.Numbering
import Verif.Proof.SetSem

/-!
# Numbers and names of groups
-/

namespace Mregex
open Ast Spec

/-! ## Reading the text -/

theorem scan_append (st : ScanState) (u v : List Byte) : scan st (u ++ v) = ((scan (scan st u).1 v).1, (scan st u).2 ++ (scan (scan st u).1 v).2) := by
  induction u generalizing st with
  | nil => simp [scan]
  | cons c u ih => simp [scan, ih]

theorem scan_append_of {st st' st'' : ScanState} {u v : List Byte} {l m : List GroupName} (h : scan st u = (st', l)) (h' : scan st' v = (st'', m)) : scan st (u ++ v) = (st'', l ++ m) := by
  rw [scan_append, h, h']

theorem nameSpecAll_eq (l : List Ast) : nameSpecAll l = l.flatMap nameSpec := by
  induction l with
  | nil => rfl
  | cons a l ih => simp [nameSpecAll, ih]

theorem nameSpec_seqParts (a : Ast) : nameSpecAll (Spec.seqParts a) = nameSpec a := by
  cases a <;> simp [Spec.seqParts, nameSpecAll, nameSpec]

theorem nameSpec_catAst (a b : Ast) : nameSpec (catAst a b) = nameSpec a ++ nameSpec b := by
  rw [← nameSpec_seqParts a, ← nameSpec_seqParts b]
  simp [catAst, nameSpec, nameSpecAll_eq]

theorem nameSpec_altAst (a b : Ast) : nameSpec (altAst a b) = nameSpec a ++ nameSpec b := by
  cases a <;> simp [altAst, nameSpec, nameSpecAll_eq]

/-! ### Escapes and sets -/

theorem hexDigit_plain : ∀ h : Byte, (∃ v < 16, HexDigit h v) → h ≠ ch '\\' ∧ h ≠ ch '[' ∧ h ≠ ch '(' ∧ h ≠ ch ']' := by unfold HexDigit; decide +kernel

theorem hexDigit_lt {h : Byte} {v : Nat} (hv : HexDigit h v) : ∃ v < 16, HexDigit h v := by
  refine ⟨v, ?_, hv⟩
  unfold HexDigit at hv
  omega

theorem scan_litEsc {w : List Byte} {c : Byte} (h : LitEsc w c) : scan .out w = (.out, []) := by
  cases h with
  | ctrl => rfl
  | self => rfl
  | @hex h h' _ _ hv hv' =>
    have h1 := hexDigit_plain h (hexDigit_lt hv)
    have h2 := hexDigit_plain h' (hexDigit_lt hv')
    have e : scanOut (ch '\\') = .esc := rfl
    simp [scan, scanStep, e]
    simp [scanOut, h1, h2]

theorem scan_setLitEsc {w : List Byte} {c : Byte} (h : SetLitEsc w c) : scan .set w = (.set, []) := by
  cases h with
  | ctrl => rfl
  | self => rfl
  | backspace => rfl
  | @hex h h' _ _ hv hv' =>
    have h1 := hexDigit_plain h (hexDigit_lt hv)
    have h2 := hexDigit_plain h' (hexDigit_lt hv')
    simp [scan, scanStep, h1, h2]

theorem scan_setChar {w : List Byte} {c : Byte} (h : SetChar w c) : scan .set w = (.set, []) := by
  cases h with
  | plain h h' => simp [scan, scanStep, h, h']
  | esc h => exact scan_setLitEsc h

theorem scan_dash : scan .set (txt "-") = (.set, []) := rfl

theorem scan_setItems {st : SetState} {w : List Byte} {l : List Ast} (h : SetItems st w l) : scan .set w = (.set, []) := by
  induction h with
  | nil => rfl
  | char _ hc _ ih => exact scan_append_of ih (scan_setChar hc)
  | cls _ _ ih => exact scan_append_of ih rfl
  | range _ hc ih => exact scan_append_of (scan_append_of ih scan_dash) (scan_setChar hc)
  | dash _ _ hc ih => exact scan_append_of (scan_append_of ih scan_dash) (scan_setChar hc)
  | quirk _ hc ih => exact scan_append_of (scan_append_of ih scan_dash) (scan_setChar hc)

theorem scan_setBody {w : List Byte} {l : List Ast} (h : SetBody w l) : scan .set w = (.set, []) := by
  cases h with
  | plain h => exact scan_setItems h
  | dash h _ => exact scan_append_of (scan_setItems h) scan_dash

theorem scan_setText {w : List Byte} {x : Ast} (h : SetText w x) : scan .out w = (.out, []) := by
  cases h with
  | pos h _ => exact scan_append_of (scan_append_of (show scan .out (txt "[") = (.set, []) from rfl) (scan_setBody h)) (show scan .set (txt "]") = (.out, []) from rfl)
  | neg h => exact scan_append_of (scan_append_of (show scan .out (txt "[^") = (.set, []) from rfl) (scan_setBody h)) (show scan .set (txt "]") = (.out, []) from rfl)

theorem nameSpec_class {e : Byte} {x : Ast} (h : (e, x) ∈ classes) : nameSpec x = [] ∧ nameSpecAll (classItems x) = [] := by
  simp [classes] at h
  rcases h with ⟨_, rfl⟩ | ⟨_, rfl⟩ | ⟨_, rfl⟩ | ⟨_, rfl⟩ | ⟨_, rfl⟩ | ⟨_, rfl⟩ | ⟨_, rfl⟩ | ⟨_, rfl⟩ <;> exact ⟨rfl, rfl⟩

theorem nameSpec_setItems {st : SetState} {w : List Byte} {l : List Ast} (h : SetItems st w l) : nameSpecAll l = [] := by
  induction h with
  | nil => rfl
  | char _ _ _ ih => simpa [nameSpecAll, nameSpec] using ih
  | cls _ hx ih =>
    have h1 := (nameSpec_class hx).2
    rw [nameSpecAll_eq] at *
    rw [List.flatMap_append, h1, ih]; rfl
  | range _ _ ih => simpa [nameSpecAll, nameSpec] using ih
  | dash _ _ _ ih => simpa [nameSpecAll, nameSpec] using ih
  | quirk _ _ ih => simpa [nameSpecAll, nameSpec] using ih

theorem nameSpec_setText {w : List Byte} {x : Ast} (h : SetText w x) : nameSpec x = [] := by
  have hb : ∀ {w : List Byte} {l : List Ast}, SetBody w l → nameSpecAll l = [] := by
    rintro w l (h | ⟨h, _⟩)
    · exact nameSpec_setItems h
    · simpa [nameSpecAll, nameSpec] using nameSpec_setItems h
  cases h with
  | pos h _ => simpa [nameSpec] using hb h
  | neg h => simpa [nameSpec] using hb h

/-! ### The rest -/

/-- Texts that open nothing. -/
theorem scan_plain {w : List Byte} (h : ∀ c ∈ w, scanOut c = .out) : scan .out w = (.out, []) := by
  induction w with
  | nil => rfl
  | cons c w ih =>
    simp only [scan, scanStep, h c (by simp), ih (fun c hc => h c (by simp [hc]))]; rfl

theorem scanOut_digit : ∀ c : Byte, DecDigit c → scanOut c = .out := by unfold DecDigit; decide +kernel
theorem scanOut_word : ∀ c : Byte, WordChar c → scanOut c = .out ∧ c ≠ ch '>' ∧ c ≠ ch '=' ∧ c ≠ ch '!' := by unfold WordChar; decide +kernel
theorem scanOut_plain : ∀ c : Byte, c ∉ special → scanOut c = .out := by decide +kernel

theorem scan_numeral {w : List Byte} {n : Nat} (h : Numeral w n) : scan .out w = (.out, []) := scan_plain fun c hc => scanOut_digit c (h.2.1 c hc)

theorem scan_quant {q : List Byte} {lo : Nat} {hi : Bound} (h : Quant q lo hi) : scan .out q = (.out, []) := by
  cases h with
  | star => rfl
  | plus => rfl
  | opt => rfl
  | exact h => exact scan_append_of (scan_append_of (show scan .out (txt "{") = (.out, []) from rfl) (scan_numeral h)) (show scan .out (txt "}") = (.out, []) from rfl)
  | atLeast h => exact scan_append_of (scan_append_of (show scan .out (txt "{") = (.out, []) from rfl) (scan_numeral h)) (show scan .out (txt ",}") = (.out, []) from rfl)
  | between h h' => exact scan_append_of (scan_append_of (scan_append_of (scan_append_of (show scan .out (txt "{") = (.out, []) from rfl) (scan_numeral h))
      (show scan .out (txt ",") = (.out, []) from rfl)) (scan_numeral h')) (show scan .out (txt "}") = (.out, []) from rfl)

theorem scan_suffix {s : List Byte} {m : Mode} (h : Suffix s m) : scan .out s = (.out, []) := by cases h <;> rfl

theorem scan_name {w : List Byte} (h : ∀ c ∈ w, WordChar c) (acc : List Byte) : scan (.name acc) (w ++ txt ">") = (.out, [some (acc ++ w)]) := by
  induction w generalizing acc with
  | nil => simp [txt, scan, scanStep]
  | cons c w ih =>
    have := (scanOut_word c (h c (by simp))).2.1
    simp only [List.cons_append, scan, scanStep, this, if_false, ih (fun c hc => h c (by simp [hc]))]
    simp

/-- The opener of a group together with its body. -/
theorem scan_group {o v : List Byte} {g : Ast → Ast} {names : List GroupName} (h : GroupOpen o g) (hv : scan .out v = (.out, names)) (hh : v.head? ≠ some (ch '?')) (hne : v ≠ []) :
    ∃ l, scan .out (o ++ v) = (.out, l ++ names) ∧ ∀ x, nameSpec (g x) = l ++ nameSpec x := by
  cases h with
  | capture =>
    refine ⟨[none], ?_, fun x => rfl⟩
    match v, hne with
    | c :: v, _ =>
      have hc : c ≠ ch '?' := fun h => hh (by rw [h]; rfl)
      have e : scanOut (ch '(') = .paren := rfl
      simp only [scan, scanStep, List.nil_append, Prod.mk.injEq] at hv
      show scan .out (ch '(' :: c :: v) = _
      simp only [scan, scanStep, e, hc, if_false, List.nil_append]
      rw [hv.1, hv.2]
  | @named w h =>
    refine ⟨[some w], ?_, fun x => rfl⟩
    refine scan_append_of (st' := .out) ?_ hv
    obtain ⟨hw, c, hc, _⟩ := h
    match w, hc with
    | d :: w, rfl =>
      have hd := scanOut_word d (hw d (by simp))
      have e1 : scan .out (txt "(?<") = (.angle, []) := rfl
      rw [List.append_assoc]
      refine scan_append_of (l := []) e1 (m := [some (d :: w)]) ?_
      have : scan (.name [d]) (w ++ txt ">") = (.out, [some ([d] ++ w)]) := scan_name (fun c hc => hw c (by simp [hc])) [d]
      simp only [List.cons_append, scan, scanStep, hd, or_self, if_false, this]; rfl
  | plain => exact ⟨[], scan_append_of (st' := .out) rfl hv, fun x => rfl⟩
  | atomic => exact ⟨[], scan_append_of (st' := .out) rfl hv, fun x => rfl⟩
  | ahead => exact ⟨[], scan_append_of (st' := .out) rfl hv, fun x => rfl⟩
  | negAhead => exact ⟨[], scan_append_of (st' := .out) rfl hv, fun x => rfl⟩
  | behind => exact ⟨[], scan_append_of (st' := .out) rfl hv, fun x => rfl⟩
  | negBehind => exact ⟨[], scan_append_of (st' := .out) rfl hv, fun x => rfl⟩

/-- Names read before. -/
def catStart : Spec.Cat → List GroupName
  | .seq (some x) => nameSpec x
  | .alts (some x) => nameSpec x
  | _ => []

/-- The first character is no question mark. -/
def Begins : Spec.Cat → List Byte → Prop
  | .seq (some _), _ | .alts (some _), _ => True
  | _, w => ∃ c w', w = c :: w' ∧ c ≠ ch '?'

theorem Begins.append {w : List Byte} (h : ∃ c w', w = c :: w' ∧ c ≠ ch '?') (v : List Byte) : ∃ c w', w ++ v = c :: w' ∧ c ≠ ch '?' := by
  obtain ⟨c, w', rfl, h⟩ := h
  exact ⟨c, _, rfl, h⟩

theorem reads_begins {c : Spec.Cat} {w : List Byte} {f : Option Byte} {x : Ast} (h : Reads c w f x) : Begins c w := by
  induction h with
  | plain h => exact ⟨_, _, rfl, fun e => by subst e; exact absurd h (by decide)⟩
  | dot => exact ⟨_, _, rfl, by decide⟩
  | esc h => cases h <;> exact ⟨_, _, rfl, by decide⟩
  | cls _ => exact ⟨_, _, rfl, by decide⟩
  | set h => cases h <;> exact ⟨_, _, rfl, by decide⟩
  | backref _ _ _ => exact ⟨_, _, rfl, by decide⟩
  | namedBackref _ => exact ⟨_, _, rfl, by decide⟩
  | emptyGroup h => cases h <;> exact ⟨_, _, rfl, by decide⟩
  | group h _ _ => cases h <;> exact ⟨_, _, rfl, by decide⟩
  | brace _ => exact ⟨_, _, rfl, by decide⟩
  | bare _ _ ih => exact ih
  | quant _ _ _ _ ih => exact Begins.append (Begins.append ih _) _
  | bol _ => exact ⟨_, _, rfl, by decide⟩
  | eol _ => exact ⟨_, _, rfl, by decide⟩
  | assertion _ _ => exact ⟨_, _, rfl, by decide⟩
  | braced _ _ _ _ ih => exact Begins.append (Begins.append ih _) _
  | start => trivial
  | one _ ih => exact ih
  | @more s _ _ _ _ _ _ _ ih =>
    cases s with
    | none => exact Begins.append ih _
    | some => trivial
  | @single s _ _ _ _ ih =>
    cases s with
    | none => exact ih
    | some => trivial
  | @or s _ _ _ _ _ _ _ ih =>
    cases s with
    | none => exact Begins.append (Begins.append ih _) _
    | some => trivial

theorem heads_ne_quest {w : List Byte} {f : Option Byte} {x : Ast} (h : Reads (.alts none) w f x) : w ≠ [] ∧ w.head? ≠ some (ch '?') := by
  obtain ⟨c, w', rfl, hc⟩ := reads_begins h
  exact ⟨by simp, by simpa using hc⟩

theorem scan_reads {c : Spec.Cat} {w : List Byte} {f : Option Byte} {x : Ast} (h : Reads c w f x) : ∃ l, scan .out w = (.out, l) ∧ nameSpec x = catStart c ++ l := by
  induction h with
  | plain h => exact ⟨[], by simp [scan, scanStep, scanOut_plain _ h], rfl⟩
  | dot => exact ⟨[], rfl, rfl⟩
  | esc h => exact ⟨[], scan_litEsc h, rfl⟩
  | cls h => exact ⟨[], rfl, (nameSpec_class h).1⟩
  | set h => exact ⟨[], scan_setText h, nameSpec_setText h⟩
  | @backref w n f h h0 _ =>
    refine ⟨[], ?_, rfl⟩
    obtain ⟨h1, h2, _⟩ := h
    match w, h1 with
    | d :: w, _ =>
      show scan .out (ch '\\' :: d :: w) = _
      have := scan_plain (w := w) fun c hc => scanOut_digit c (h2 c (by simp [hc]))
      have e : scanOut (ch '\\') = .esc := rfl
      simp [scan, scanStep, e, this]
  | @namedBackref w f h =>
    refine ⟨[], ?_, rfl⟩
    exact scan_append_of (scan_append_of (show scan .out (txt "\\k<") = (.out, []) from rfl) (scan_plain fun c hc => (scanOut_word c (h.1 c hc)).1))
      (show scan .out (txt ">") = (.out, []) from rfl)
  | @emptyGroup o g f h =>
    obtain ⟨l, h1, h2⟩ := scan_group (v := txt ")") (names := []) h rfl (by decide) (by decide)
    exact ⟨l ++ [], h1, h2 _⟩
  | @group o g w x f h h' ih =>
    obtain ⟨l', h3, h4⟩ := ih
    have hh := heads_ne_quest h'
    obtain ⟨l, h1, h2⟩ := scan_group (v := w ++ txt ")") (names := l' ++ []) h (scan_append_of h3 rfl) (by
      match w, hh with
      | c :: w, hh => exact hh.2) (by simp [txt])
    refine ⟨_, by rw [List.append_assoc]; exact h1, ?_⟩
    rw [h2, h4]; simp [catStart]
  | brace _ => exact ⟨[], rfl, rfl⟩
  | bare _ _ ih => exact ih
  | quant _ hq hs _ ih =>
    obtain ⟨l, h1, h2⟩ := ih
    exact ⟨_, scan_append_of (scan_append_of h1 (scan_quant hq)) (scan_suffix hs), by simpa [nameSpec, catStart] using h2⟩
  | bol _ => exact ⟨[], rfl, rfl⟩
  | eol _ => exact ⟨[], rfl, rfl⟩
  | assertion h _ =>
    refine ⟨[], rfl, ?_⟩
    simp [assertions] at h
    rcases h with ⟨_, rfl⟩ | ⟨_, rfl⟩ | ⟨_, rfl⟩ | ⟨_, rfl⟩ <;> rfl
  | braced _ _ _ _ ih1 ih2 ih3 =>
    obtain ⟨l1, h1, h1'⟩ := ih1
    obtain ⟨l2, h2, h2'⟩ := ih2
    obtain ⟨l3, h3, h3'⟩ := ih3
    refine ⟨_, scan_append_of (scan_append_of h1 h2) h3, ?_⟩
    rw [h3']
    simp only [catStart, nameSpec_catAst] at *
    rw [h1', h2']; simp
  | start => exact ⟨[], rfl, by simp [catStart]⟩
  | one _ ih => exact ih
  | more _ _ ih1 ih2 =>
    obtain ⟨l1, h1, h1'⟩ := ih1
    obtain ⟨l2, h2, h2'⟩ := ih2
    refine ⟨_, scan_append_of h1 h2, ?_⟩
    rw [nameSpec_catAst, h1', h2']; simp [catStart]
  | @single s _ _ _ _ ih => cases s <;> exact ih
  | or _ _ ih1 ih2 =>
    obtain ⟨l1, h1, h1'⟩ := ih1
    obtain ⟨l2, h2, h2'⟩ := ih2
    refine ⟨_, scan_append_of (scan_append_of h1 (show scan .out (txt "|") = (.out, []) from rfl)) h2, ?_⟩
    rw [nameSpec_altAst, h1', h2']; simp [catStart]

theorem openedGroups_pattern {w : List Byte} {x : Ast} (h : Pattern w x) : openedGroups w = nameSpec x := by
  cases h with
  | empty => rfl
  | alts h =>
    obtain ⟨l, h1, h2⟩ := scan_reads h
    rw [openedGroups, h1, h2]; rfl

/-! ## Numbers -/

mutual
theorem nameSpec_index : ∀ (o : Nat) (a : Ast), nameSpec (index o a) = nameSpec a
  | o, .cap _ _ a => by simp [index, nameSpec, nameSpec_index _ a]
  | o, .seq l => by simp [index, nameSpec, nameSpec_indexSeq _ l]
  | o, .alt l => by simp [index, nameSpec, nameSpec_indexSame _ l]
  | o, .set l => by simp [index, nameSpec, nameSpec_indexSame _ l]
  | o, .neg a => by simp [index, nameSpec, nameSpec_index _ a]
  | o, .rep _ _ _ a => by simp [index, nameSpec, nameSpec_index _ a]
  | o, .look _ a => by simp [index, nameSpec, nameSpec_index _ a]
  | _, .empty | _, .lit _ | _, .range _ _ | _, .wildcard | _, .bol | _, .boi | _, .eol | _, .eoi | _, .wordB | _, .backref _ | _, .namedBackref _ => rfl
theorem nameSpec_indexSeq : ∀ (o : Nat) (l : List Ast), nameSpecAll (indexSeq o l) = nameSpecAll l
  | _, [] => rfl
  | o, a :: l => by simp [indexSeq, nameSpecAll, nameSpec_index _ a, nameSpec_indexSeq _ l]
theorem nameSpec_indexSame : ∀ (o : Nat) (l : List Ast), nameSpecAll (indexSame o l) = nameSpecAll l
  | _, [] => rfl
  | o, a :: l => by simp [indexSame, nameSpecAll, nameSpec_index _ a, nameSpec_indexSame _ l]
end

mutual
theorem length_groupIds : ∀ (a : Ast), (groupIds a).length = captureCount a
  | .cap _ _ a => by simp [groupIds, captureCount, length_groupIds a]
  | .seq l => by simp [groupIds, captureCount, length_groupIdsAll l]
  | .alt l => by simp [groupIds, captureCount, length_groupIdsAll l]
  | .set l => by simp [groupIds, captureCount, length_groupIdsAll l]
  | .neg a => by simp [groupIds, captureCount, length_groupIds a]
  | .rep _ _ _ a => by simp [groupIds, captureCount, length_groupIds a]
  | .look _ a => by simp [groupIds, captureCount, length_groupIds a]
  | .empty | .lit _ | .range _ _ | .wildcard | .bol | .boi | .eol | .eoi | .wordB | .backref _ | .namedBackref _ => rfl
theorem length_groupIdsAll : ∀ (l : List Ast), (groupIdsAll l).length = captureCountAll l
  | [] => rfl
  | a :: l => by simp [groupIdsAll, captureCountAll, length_groupIds a, length_groupIdsAll l]
end

mutual
theorem length_nameSpec : ∀ (a : Ast), (nameSpec a).length = captureCount a
  | .cap _ _ a => by simp [nameSpec, captureCount, length_nameSpec a]
  | .seq l => by simp [nameSpec, captureCount, length_nameSpecAll l]
  | .alt l => by simp [nameSpec, captureCount, length_nameSpecAll l]
  | .set l => by simp [nameSpec, captureCount, length_nameSpecAll l]
  | .neg a => by simp [nameSpec, captureCount, length_nameSpec a]
  | .rep _ _ _ a => by simp [nameSpec, captureCount, length_nameSpec a]
  | .look _ a => by simp [nameSpec, captureCount, length_nameSpec a]
  | .empty | .lit _ | .range _ _ | .wildcard | .bol | .boi | .eol | .eoi | .wordB | .backref _ | .namedBackref _ => rfl
theorem length_nameSpecAll : ∀ (l : List Ast), (nameSpecAll l).length = captureCountAll l
  | [] => rfl
  | a :: l => by simp [nameSpecAll, captureCountAll, length_nameSpec a, length_nameSpecAll l]
end

mutual
theorem captureCount_index : ∀ (o : Nat) (a : Ast), captureCount (index o a) = captureCount a
  | o, .cap _ _ a => by simp [index, captureCount, captureCount_index _ a]
  | o, .seq l => by simp [index, captureCount, captureCount_indexSeq _ l]
  | o, .alt l => by simp [index, captureCount, captureCount_indexSame _ l]
  | o, .set l => by simp [index, captureCount, captureCount_indexSame _ l]
  | o, .neg a => by simp [index, captureCount, captureCount_index _ a]
  | o, .rep _ _ _ a => by simp [index, captureCount, captureCount_index _ a]
  | o, .look _ a => by simp [index, captureCount, captureCount_index _ a]
  | _, .empty | _, .lit _ | _, .range _ _ | _, .wildcard | _, .bol | _, .boi | _, .eol | _, .eoi | _, .wordB | _, .backref _ | _, .namedBackref _ => rfl
theorem captureCount_indexSeq : ∀ (o : Nat) (l : List Ast), captureCountAll (indexSeq o l) = captureCountAll l
  | _, [] => rfl
  | o, a :: l => by simp [indexSeq, captureCountAll, captureCount_index _ a, captureCount_indexSeq _ l]
theorem captureCount_indexSame : ∀ (o : Nat) (l : List Ast), captureCountAll (indexSame o l) = captureCountAll l
  | _, [] => rfl
  | o, a :: l => by simp [indexSame, captureCountAll, captureCount_index _ a, captureCount_indexSame _ l]
end

/-- The first group gets the number that is handed in. -/
theorem head_groupIds_index (a : Ast) : ∀ o, (groupIds (index o a)).head? = none ∨ (groupIds (index o a)).head? = some o := by
  have hs : ∀ (l : List Ast), (∀ a ∈ l, ∀ o, (groupIds (index o a)).head? = none ∨ (groupIds (index o a)).head? = some o) → ∀ o,
      ((groupIdsAll (indexSeq o l)).head? = none ∨ (groupIdsAll (indexSeq o l)).head? = some o) ∧
      ((groupIdsAll (indexSame o l)).head? = none ∨ (groupIdsAll (indexSame o l)).head? = some o) := by
    intro l
    induction l with
    | nil => intro _ o; exact ⟨.inl rfl, .inl rfl⟩
    | cons a l ih =>
      intro h o
      have h1 := h a (by simp) o
      have ih := fun o => ih (fun a ha => h a (by simp [ha])) o
      simp only [indexSeq, indexSame, groupIdsAll, List.head?_append]
      have hlen := length_groupIds (index o a)
      rw [captureCount_index] at hlen
      cases hg : groupIds (index o a) with
      | nil =>
        rw [hg] at hlen
        simp only [List.length_nil] at hlen
        rw [← hlen]
        simpa using ih o
      | cons b m =>
        rw [hg] at h1
        simpa using h1
  induction a using ind with
  | cap id name a ih => intro o; exact .inr rfl
  | seq l ih => intro o; simpa [index, groupIds] using (hs l ih o).1
  | alt l ih => intro o; simpa [index, groupIds] using (hs l ih o).2
  | set l ih => intro o; simpa [index, groupIds] using (hs l ih o).2
  | neg a ih => intro o; simpa [index, groupIds] using ih o
  | rep m lo hi a ih => intro o; simpa [index, groupIds] using ih o
  | look d a ih => intro o; simpa [index, groupIds] using ih o
  | _ => intro o; exact .inl rfl

theorem soloAll_eq (l : List Ast) : soloAll l = l.all soloBranches := by
  induction l with
  | nil => rfl
  | cons a l ih => simp [soloAll, ih]

theorem append_eq_range' {u v : List Nat} {o : Nat} : u ++ v = List.range' o (u.length + v.length) ↔ u = List.range' o u.length ∧ v = List.range' (o + u.length) v.length := by
  rw [← List.range'_append_1]
  constructor
  · intro h
    exact List.append_inj h (by simp)
  · rintro ⟨h1, h2⟩
    rw [← h1, ← h2]

/-- Groups are numbered one after the other iff at most one branch of each alternation contains groups. -/
theorem groupIds_index (a : Ast) : ∀ o, groupIds (index o a) = List.range' o (captureCount a) ↔ soloBranches a = true := by
  have key : ∀ a : Ast, (groupIds a).isEmpty = decide (captureCount a = 0) := by
    intro a
    rw [← length_groupIds a]
    cases groupIds a <;> simp
  have hseq : ∀ (l : List Ast), (∀ a ∈ l, ∀ o, groupIds (index o a) = List.range' o (captureCount a) ↔ soloBranches a = true) → ∀ o,
      (groupIdsAll (indexSeq o l) = List.range' o (captureCountAll l) ↔ soloAll l = true) := by
    intro l
    induction l with
    | nil => intro _ o; simp [indexSeq, groupIdsAll, captureCountAll, soloAll]
    | cons a l ih =>
      intro h o
      have h1 := h a (by simp) o
      have h2 := ih (fun a ha => h a (by simp [ha])) (o + captureCount a)
      simp only [indexSeq, groupIdsAll, captureCountAll, soloAll, Bool.and_eq_true]
      have e1 : captureCount a = (groupIds (index o a)).length := by rw [length_groupIds, captureCount_index]
      have e2 : captureCountAll l = (groupIdsAll (indexSeq (o + captureCount a) l)).length := by rw [length_groupIdsAll, captureCount_indexSeq]
      rw [← h1, ← h2]
      have := append_eq_range' (u := groupIds (index o a)) (v := groupIdsAll (indexSeq (o + captureCount a) l)) (o := o)
      rw [← e1, ← e2] at this
      exact this
  have hsame : ∀ (l : List Ast), (∀ a ∈ l, ∀ o, groupIds (index o a) = List.range' o (captureCount a) ↔ soloBranches a = true) → ∀ o,
      (groupIdsAll (indexSame o l) = List.range' o (captureCountAll l) ↔
        soloAll l = true ∧ (l.filter fun a => !(groupIds a).isEmpty).length ≤ 1) := by
    intro l
    induction l with
    | nil => intro _ o; simp [indexSame, groupIdsAll, captureCountAll, soloAll]
    | cons a l ih =>
      intro h o
      have h1 := h a (by simp) o
      have h2 := ih (fun a ha => h a (by simp [ha])) o
      simp only [indexSame, groupIdsAll, captureCountAll, soloAll, Bool.and_eq_true]
      have e1 : captureCount a = (groupIds (index o a)).length := by rw [length_groupIds, captureCount_index]
      have e2 : captureCountAll l = (groupIdsAll (indexSame o l)).length := by rw [length_groupIdsAll, captureCount_indexSame]
      have e3 := append_eq_range' (u := groupIds (index o a)) (v := groupIdsAll (indexSame o l)) (o := o)
      rw [← e1, ← e2] at e3
      rw [e3, h1]
      by_cases ha : captureCount a = 0
      · have : (groupIds a).isEmpty = true := by rw [key]; simpa using ha
        simp only [List.filter_cons, this, Bool.not_true, Bool.false_eq_true, if_false, ha, Nat.add_zero, h2, and_assoc]
      · have : (groupIds a).isEmpty = false := by rw [key]; simpa using ha
        simp only [List.filter_cons, this, Bool.not_false, if_true, List.length_cons]
        have hz : (l.filter fun a => !(groupIds a).isEmpty).length = 0 ↔ captureCountAll l = 0 := by
          clear ih h h1 h2 e1 e2 e3 this
          induction l with
          | nil => simp [captureCountAll]
          | cons b l ih =>
            rw [List.filter_cons]
            simp only [captureCountAll]
            by_cases hb : captureCount b = 0
            · have : (groupIds b).isEmpty = true := by rw [key]; simpa using hb
              simp only [this, Bool.not_true, Bool.false_eq_true, if_false, hb, Nat.zero_add]
              exact ih
            · have : (groupIds b).isEmpty = false := by rw [key]; simpa using hb
              simp only [this, Bool.not_false, if_true, List.length_cons]
              omega
        have hz' : (l.filter fun a => !(groupIds a).isEmpty).length + 1 ≤ 1 ↔ captureCountAll l = 0 := by rw [← hz]; omega
        rw [hz']
        by_cases hl : captureCountAll l = 0
        · have e4 : groupIdsAll (indexSame o l) = [] := List.length_eq_zero_iff.1 (by rw [← e2]; exact hl)
          rw [hl, e4] at h2 ⊢
          have h3 : soloAll l = true := (h2.1 rfl).1
          simp [h3]
        · have hne : groupIdsAll (indexSame o l) ≠ [] := fun h => hl (by rw [e2, h]; rfl)
          have hhead := head_groupIds_index (.alt l) o
          simp only [index, groupIds] at hhead
          constructor
          · rintro ⟨_, h⟩
            exfalso
            rw [h] at hhead
            obtain ⟨n, hn⟩ : ∃ n, captureCountAll l = n + 1 := ⟨captureCountAll l - 1, by omega⟩
            rw [hn, List.range'_succ] at hhead
            simp at hhead
            exact ha hhead
          · rintro ⟨_, h⟩
            exact absurd h hl
  induction a using ind with
  | cap id name a ih =>
    intro o
    simp only [index, groupIds, captureCount, soloBranches, List.range'_succ, List.cons.injEq, true_and]
    exact ih (o + 1)
  | seq l ih => intro o; simpa [index, groupIds, captureCount, soloBranches] using hseq l ih o
  | alt l ih => intro o; simpa [index, groupIds, captureCount, soloBranches] using hsame l ih o
  | set l ih => intro o; simpa [index, groupIds, captureCount, soloBranches] using hsame l ih o
  | neg a ih => intro o; simpa [index, groupIds, captureCount, soloBranches] using ih o
  | rep m lo hi a ih => intro o; simpa [index, groupIds, captureCount, soloBranches] using ih o
  | look d a ih => intro o; simpa [index, groupIds, captureCount, soloBranches] using ih o
  | _ => intro o; simp [index, groupIds, captureCount, soloBranches]

mutual
theorem solo_index : ∀ (o : Nat) (a : Ast), soloBranches (index o a) = soloBranches a
  | o, .cap _ _ a => by simp [index, soloBranches, solo_index _ a]
  | o, .seq l => by simp [index, soloBranches, solo_indexSeq _ l]
  | o, .alt l => by simp [index, soloBranches, solo_indexSame _ l, solo_filter]
  | o, .set l => by simp [index, soloBranches, solo_indexSame _ l, solo_filter]
  | o, .neg a => by simp [index, soloBranches, solo_index _ a]
  | o, .rep _ _ _ a => by simp [index, soloBranches, solo_index _ a]
  | o, .look _ a => by simp [index, soloBranches, solo_index _ a]
  | _, .empty | _, .lit _ | _, .range _ _ | _, .wildcard | _, .bol | _, .boi | _, .eol | _, .eoi | _, .wordB | _, .backref _ | _, .namedBackref _ => rfl
theorem solo_indexSeq : ∀ (o : Nat) (l : List Ast), soloAll (indexSeq o l) = soloAll l
  | _, [] => rfl
  | o, a :: l => by simp [indexSeq, soloAll, solo_index _ a, solo_indexSeq _ l]
theorem solo_indexSame : ∀ (o : Nat) (l : List Ast), soloAll (indexSame o l) = soloAll l
  | _, [] => rfl
  | o, a :: l => by simp [indexSame, soloAll, solo_index _ a, solo_indexSame _ l]
theorem solo_filter : ∀ (o : Nat) (l : List Ast), ((indexSame o l).filter fun a => !(groupIds a).isEmpty).length = (l.filter fun a => !(groupIds a).isEmpty).length
  | _, [] => rfl
  | o, a :: l => by
    have key : ∀ a : Ast, (groupIds a).isEmpty = decide (captureCount a = 0) := by
      intro a
      rw [← length_groupIds a]
      cases groupIds a <;> simp
    have := solo_filter o l
    simp only [indexSame, List.filter_cons]
    rw [key, key a, captureCount_index]
    split <;> simp [this]
end

/-! ## Groups with their numbers and names -/

theorem zip_groups_append (a : Ast) (l : List Ast) : (groupIdsAll (a :: l)).zip (nameSpecAll (a :: l)) = (groupIds a).zip (nameSpec a) ++ (groupIdsAll l).zip (nameSpecAll l) := by
  simp only [groupIdsAll, nameSpecAll]
  exact List.zip_append (by rw [length_groupIds, length_nameSpec])

theorem mem_zip_groups {k : Nat} {name : GroupName} {l : List Ast} : (k, name) ∈ (groupIdsAll l).zip (nameSpecAll l) ↔ ∃ a ∈ l, (k, name) ∈ (groupIds a).zip (nameSpec a) := by
  induction l with
  | nil => simp [groupIdsAll]
  | cons a l ih => simp [zip_groups_append, ih]

theorem hasGroup_iff {k : Nat} {name : GroupName} (a : Ast) : HasGroup a k name ↔ (k, name) ∈ (groupIds a).zip (nameSpec a) := by
  induction a using ind with
  | seq l ih =>
    simp only [groupIds, nameSpec, mem_zip_groups]
    exact ⟨fun h => by cases h with | seq hm h => exact ⟨_, hm, (ih _ hm).1 h⟩, fun ⟨a, hm, h⟩ => .seq hm ((ih a hm).2 h)⟩
  | alt l ih =>
    simp only [groupIds, nameSpec, mem_zip_groups]
    exact ⟨fun h => by cases h with | alt hm h => exact ⟨_, hm, (ih _ hm).1 h⟩, fun ⟨a, hm, h⟩ => .alt hm ((ih a hm).2 h)⟩
  | set l ih =>
    simp only [groupIds, nameSpec, mem_zip_groups]
    exact ⟨fun h => by cases h with | set hm h => exact ⟨_, hm, (ih _ hm).1 h⟩, fun ⟨a, hm, h⟩ => .set hm ((ih a hm).2 h)⟩
  | neg a ih => exact ⟨fun h => by cases h with | neg h => exact ih.1 h, fun h => .neg (ih.2 h)⟩
  | rep m lo hi a ih => exact ⟨fun h => by cases h with | rep h => exact ih.1 h, fun h => .rep (ih.2 h)⟩
  | look d a ih => exact ⟨fun h => by cases h with | look h => exact ih.1 h, fun h => .look (ih.2 h)⟩
  | cap id nm a ih =>
    simp only [groupIds, nameSpec, List.zip_cons_cons, List.mem_cons, ← ih]
    constructor
    · intro h
      cases h with
      | here => exact .inl rfl
      | cap h => exact .inr h
    · rintro (h | h)
      · cases h; exact .here
      · exact .cap h
  | _ =>
    constructor
    · intro h; cases h
    · intro h; simp [groupIds] at h

theorem mem_zip_range {k o : Nat} {name : GroupName} {l : List GroupName} : (k, name) ∈ (List.range' o l.length).zip l ↔ o ≤ k ∧ l[k - o]? = some name := by
  induction l generalizing o with
  | nil => simp
  | cons x l ih =>
    simp only [List.length_cons, List.range'_succ, List.zip_cons_cons, List.mem_cons, ih, Prod.mk.injEq]
    constructor
    · rintro (⟨rfl, rfl⟩ | ⟨h1, h2⟩)
      · simp
      · exact ⟨by omega, by rw [show k - o = (k - (o + 1)) + 1 by omega, List.getElem?_cons_succ]; exact h2⟩
    · rintro ⟨h1, h2⟩
      by_cases hk : k = o
      · subst hk
        simp at h2
        exact .inl ⟨rfl, h2.symm⟩
      · refine .inr ⟨by omega, ?_⟩
        rw [show k - o = (k - (o + 1)) + 1 by omega, List.getElem?_cons_succ] at h2
        exact h2

end Mregex
