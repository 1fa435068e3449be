import Verif.Spec.Sets
import Verif.Proof.ParsedLang

/-!
# What classes and sets match
-/

namespace Mregex
open Ast Spec

theorem takesOne_of {a : Ast} {Q : Bool → Byte → Prop} (ht : triv a = true) (hok : ∀ E r, Ok E r a) (hd : declarative a = true)
    (hm : ∀ E k r, mtch E (k + 1) a r = trivMatch E r a) (hq : ∀ (f : Flags) (x : Byte), matchOne f a x = true ↔ Q f.icase x) : TakesOne a Q := by
  constructor
  · intro fl cat s
    obtain ⟨res, h1, h2⟩ := C02_match_language (Regex.mk a fl) cat (fun s => hok _ _) hd s
    refine ⟨res, h1, h2.trans ?_⟩
    have hw : wf a = true := wf_of_ok (hok ⟨[], {}, .randomAccess, [none]⟩ 0)
    rw [matches_triv hw ht]
    constructor
    · rintro ⟨hl, x, hx, h⟩
      rw [← matchOne_eq_accepts, hq] at h
      match s, hl, hx with
      | [y], _, hx => cases hx; exact ⟨_, rfl, h⟩
    · rintro ⟨x, rfl, h⟩
      refine ⟨rfl, x, rfl, ?_⟩
      show accepts _ a x = true
      rw [← matchOne_eq_accepts, hq]; exact h
  · intro E fuel r p c cont
    rw [hm]
    refine ⟨fun h => by simp [trivMatch, h], fun x h hx => ⟨fun h' => ?_, fun h' => ?_⟩⟩
    · simp [trivMatch, h, hx, (hq _ _).2 h']
    · have : matchOne E.flags a x = false := by rw [Bool.eq_false_iff]; exact fun h => h' ((hq _ _).1 h)
      simp [trivMatch, h, hx, this]

/-! ## Classes -/

theorem matchOne_class {e : Byte} {x : Ast} {P : Byte → Prop} (h : (e, x) ∈ classes) (hP : ClassEsc e P) (f : Flags) (b : Byte) : matchOne f x b = true ↔ P b := by
  have key : ∀ (i : Bool) (b : Byte), (matchOne { icase := i } digit b = true ↔ DecDigit b) ∧ (matchOne { icase := i } word b = true ↔ WordChar b) ∧
      (matchOne { icase := i } whitespace b = true ↔ WhiteSpace b) ∧ (matchOne { icase := i } linebreak b = true ↔ LineBreak b) := by
    unfold DecDigit WordChar WhiteSpace LineBreak; decide +kernel
  have h1 : matchOne f digit b = true ↔ DecDigit b := (key f.icase b).1
  have h2 : matchOne f word b = true ↔ WordChar b := (key f.icase b).2.1
  have h3 : matchOne f whitespace b = true ↔ WhiteSpace b := (key f.icase b).2.2.1
  have h4 : matchOne f linebreak b = true ↔ LineBreak b := (key f.icase b).2.2.2
  have hneg : ∀ (a : Ast) (P : Byte → Prop), (matchOne f a b = true ↔ P b) → (matchOne f (.neg a) b = true ↔ ¬P b) := by
    intro a P h
    rw [← h]; simp [matchOne]
  cases hP <;> (simp (decide := true) [classes] at h; subst h)
  · exact h1
  · exact h2
  · exact h3
  · exact h4
  · exact hneg _ _ h1
  · exact hneg _ _ h2
  · exact hneg _ _ h3
  · exact hneg _ _ h4

theorem classEsc_mem {e : Byte} {P : Byte → Prop} (h : ClassEsc e P) : ∃ x, (e, x) ∈ classes := by
  cases h <;> simp (decide := true) [classes]

theorem class_ok {e : Byte} {x : Ast} (h : (e, x) ∈ classes) (E : Env) (r : Nat) : Ok E r x := by
  have hl : Ok E r linebreak := .set (by simp [triv]) (by simp; exact ⟨.lit, .lit⟩)
  have hd : Ok E r digit := .range (by decide)
  have hw : Ok E r word := .set (by simp [triv, lower, upper, digit]) (by simp; exact ⟨.range (by decide), .range (by decide), hd, .lit⟩)
  have hs : Ok E r whitespace := .set (by simp [triv, linebreak]) (by simp; exact ⟨hl, .lit, .lit, .lit, .lit⟩)
  simp [classes] at h
  rcases h with ⟨_, rfl⟩ | ⟨_, rfl⟩ | ⟨_, rfl⟩ | ⟨_, rfl⟩ | ⟨_, rfl⟩ | ⟨_, rfl⟩ | ⟨_, rfl⟩ | ⟨_, rfl⟩
  · exact hd
  · exact .neg (.inl rfl) hd
  · exact hw
  · exact .neg (.inl rfl) hw
  · exact hs
  · exact .neg (.inl rfl) hs
  · exact hl
  · exact .neg (.inl rfl) hl

theorem class_facts {e : Byte} {x : Ast} (h : (e, x) ∈ classes) : triv x = true ∧ declarative x = true ∧ indexCaptures x = x ∧ ∀ E k r, mtch E (k + 1) x r = trivMatch E r x := by
  simp [classes] at h
  rcases h with ⟨_, rfl⟩ | ⟨_, rfl⟩ | ⟨_, rfl⟩ | ⟨_, rfl⟩ | ⟨_, rfl⟩ | ⟨_, rfl⟩ | ⟨_, rfl⟩ | ⟨_, rfl⟩ <;> exact ⟨by decide, by decide, by rfl, fun _ _ _ => rfl⟩

/-! ## Sets -/

/-- The members of a set and the characters it contains. -/
structure Members (l : List Ast) (P : Byte → Prop) : Prop where
  triv : ∀ a ∈ l, triv a = true
  ok : ∀ a ∈ l, ∀ E r, Ok E r a
  decl : ∀ a ∈ l, declarative a = true
  index : ∀ a ∈ l, ∀ o, index o a = a
  sem : ∀ (f : Flags) (x : Byte), (∃ a ∈ l, matchOne f a x = true) ↔ ∃ y, P y ∧ CharEq f.icase y x

theorem Members.nil : Members [] (fun _ => False) := ⟨by simp, by simp, by simp, by simp, by simp⟩

theorem Members.append {l m : List Ast} {P Q : Byte → Prop} (hl : Members l P) (hm : Members m Q) : Members (m ++ l) (fun x => P x ∨ Q x) := by
  constructor
  · exact fun a ha => (List.mem_append.1 ha).elim (hm.triv a) (hl.triv a)
  · exact fun a ha => (List.mem_append.1 ha).elim (hm.ok a) (hl.ok a)
  · exact fun a ha => (List.mem_append.1 ha).elim (hm.decl a) (hl.decl a)
  · exact fun a ha => (List.mem_append.1 ha).elim (hm.index a) (hl.index a)
  · intro f x
    have h1 := hl.sem f x
    have h2 := hm.sem f x
    constructor
    · rintro ⟨a, ha, h⟩
      rcases List.mem_append.1 ha with ha | ha
      · obtain ⟨y, hy, h⟩ := h2.1 ⟨a, ha, h⟩; exact ⟨y, .inr hy, h⟩
      · obtain ⟨y, hy, h⟩ := h1.1 ⟨a, ha, h⟩; exact ⟨y, .inl hy, h⟩
    · rintro ⟨y, hy | hy, h⟩
      · obtain ⟨a, ha, h⟩ := h1.2 ⟨y, hy, h⟩; exact ⟨a, List.mem_append_right _ ha, h⟩
      · obtain ⟨a, ha, h⟩ := h2.2 ⟨y, hy, h⟩; exact ⟨a, List.mem_append_left _ ha, h⟩

theorem Members.lit (c : Byte) : Members [.lit c] (fun x => x = c) := by
  constructor
  · simp [Ast.triv]
  · simp only [List.mem_singleton]; rintro a rfl E r; exact .lit
  · simp [declarative, noBackref, noPossessive, behindOk]
  · simp only [List.mem_singleton]; rintro a rfl o; rfl
  · intro f x
    simp only [List.mem_singleton, exists_eq_left]
    rw [matchOne_eq_accepts, accepts_lit_iff]

theorem Members.range {a b : Byte} (h : a.toNat ≤ b.toNat) : Members [.range a b] (fun x => a.toNat ≤ x.toNat ∧ x.toNat ≤ b.toNat) := by
  constructor
  · simp [Ast.triv]
  · simp only [List.mem_singleton]; rintro a rfl E r; exact .range h
  · simp [declarative, noBackref, noPossessive, behindOk]
  · simp only [List.mem_singleton]; rintro a rfl o; rfl
  · intro f x
    simp only [List.mem_singleton, exists_eq_left]
    rw [matchOne_eq_accepts, ← charEq_range]
    simp only [and_assoc]

/-- Classes contain both cases of a letter or none. -/
theorem class_closed {e : Byte} {P : Byte → Prop} (h : ClassEsc e P) {i : Bool} {y x : Byte} (hy : P y) (hc : CharEq i y x) : P x := by
  obtain ⟨a, ha⟩ := classEsc_mem h
  rcases hc with rfl | ⟨_, hc⟩
  · exact hy
  · rw [asciiLower_eq_iff] at hc
    rcases hc with rfl | ⟨hal, rfl⟩
    · exact hy
    · have key : ∀ y : Byte, isAlpha y = true → (DecDigit y ↔ DecDigit (flipLowercaseBit y)) ∧ (WordChar y ↔ WordChar (flipLowercaseBit y)) ∧
          (WhiteSpace y ↔ WhiteSpace (flipLowercaseBit y)) ∧ (LineBreak y ↔ LineBreak (flipLowercaseBit y)) := by
        unfold DecDigit WordChar WhiteSpace LineBreak; decide +kernel
      obtain ⟨h1, h2, h3, h4⟩ := key y hal
      cases h
      · exact h1.1 hy
      · exact h2.1 hy
      · exact h3.1 hy
      · exact h4.1 hy
      · exact fun h => hy (h1.2 h)
      · exact fun h => hy (h2.2 h)
      · exact fun h => hy (h3.2 h)
      · exact fun h => hy (h4.2 h)

theorem Members.cls {e : Byte} {x : Ast} {P : Byte → Prop} (h : (e, x) ∈ classes) (hP : ClassEsc e P) : Members (classItems x) P := by
  have hsem : ∀ (f : Flags) (b : Byte), matchOne f x b = true ↔ ∃ y, P y ∧ CharEq f.icase y b := by
    intro f b
    rw [matchOne_class h hP]
    exact ⟨fun h => ⟨b, h, .inl rfl⟩, fun ⟨y, hy, hc⟩ => class_closed hP hy hc⟩
  have hidx : ∀ o, Ast.index o x = x := by
    simp [classes] at h
    rcases h with ⟨_, rfl⟩ | ⟨_, rfl⟩ | ⟨_, rfl⟩ | ⟨_, rfl⟩ | ⟨_, rfl⟩ | ⟨_, rfl⟩ | ⟨_, rfl⟩ | ⟨_, rfl⟩ <;> exact fun _ => rfl
  have hf := class_facts h
  have hok := class_ok h
  have single : Members [x] P := by
    constructor
    · simp [hf.1]
    · simpa using hok
    · simp [hf.2.1]
    · simpa using hidx
    · intro f b; simpa using hsem f b
  cases x with
  | set l =>
    constructor
    · intro a ha; cases hok ⟨[], {}, .randomAccess, [none]⟩ 0 with | set h1 _ => exact h1 a ha
    · intro a ha E r; cases hok E r with | set _ h2 => exact h2 a ha
    · intro a ha
      have := hf.2.1
      simp only [declarative, noBackref, noPossessive, behindOk, noBackrefAll_eq, noPossessiveAll_eq, behindOkAll_eq, Bool.and_eq_true, List.all_eq_true] at this ⊢
      exact ⟨⟨this.1.1 a ha, this.1.2 a ha⟩, this.2 a ha⟩
    · intro a ha o
      have := hidx o
      simp only [Ast.index, Ast.set.injEq] at this
      have key : ∀ l : List Ast, indexSame o l = l → ∀ a ∈ l, Ast.index o a = a := by
        intro l
        induction l with
        | nil => simp
        | cons b l ih =>
          intro h a ha
          simp only [indexSame, List.cons.injEq] at h
          rcases List.mem_cons.1 ha with rfl | ha
          · exact h.1
          · exact ih h.2 a ha
      exact key l this a ha
    · intro f b
      rw [← hsem f b]
      show _ ↔ matchAny f l b = true
      rw [matchAny_eq, List.any_eq_true]
      rfl
  | _ => exact single

theorem classItems_head {e : Byte} {x : Ast} (h : (e, x) ∈ classes) (hR : e ≠ ch 'R') : ∃ y l, classItems x = y :: l ∧ ∀ c, y ≠ .lit c := by
  simp [classes] at h
  rcases h with ⟨_, rfl⟩ | ⟨_, rfl⟩ | ⟨_, rfl⟩ | ⟨_, rfl⟩ | ⟨_, rfl⟩ | ⟨_, rfl⟩ | ⟨he, rfl⟩ | ⟨_, rfl⟩
  all_goals first | exact absurd he hR | exact ⟨_, _, rfl, fun c h => by cases h⟩

theorem itemList_read {st : SetState} {w : List Byte} {P : Byte → Prop} (h : ItemList false st w P) : ∃ l, SetItems st w l ∧ Members l P := by
  induction h with
  | nil => exact ⟨_, .nil, .nil⟩
  | char _ hc hd ih =>
    obtain ⟨l, h1, h2⟩ := ih
    exact ⟨_, .char h1 hc hd, h2.append (.lit _)⟩
  | range _ hu hd hv hab ih =>
    obtain ⟨l, h1, h2⟩ := ih
    exact ⟨_, .range (.char h1 hu hd) hv, h2.append (.range hab)⟩
  | cls _ he ih =>
    obtain ⟨l, h1, h2⟩ := ih
    obtain ⟨x, hx⟩ := classEsc_mem he
    exact ⟨_, .cls h1 hx, h2.append (.cls hx he)⟩
  | @clsDash st w P e Q v b _ he hR hv ih =>
    obtain ⟨l, h1, h2⟩ := ih
    obtain ⟨x, hx⟩ := classEsc_mem he
    have hc := SetItems.cls h1 hx
    have hm := ((h2.append (.cls hx he)).append (.lit (ch '-'))).append (.lit b)
    obtain ⟨y, l', hl', hy⟩ := classItems_head hx (hR rfl)
    rw [hl'] at hc hm
    refine ⟨_, .dash hc hy hv, ?_⟩
    have e : (fun x => P x ∨ Q x ∨ x = ch '-' ∨ x = b) = (fun x => ((P x ∨ Q x) ∨ x = ch '-') ∨ x = b) := by
      funext x; simp only [or_assoc]
    rw [e]
    exact hm

theorem setContent_read {w : List Byte} {P : Byte → Prop} (h : SetContent false w P) : ∃ l, SetBody w l ∧ Members l P := by
  cases h with
  | plain h =>
    obtain ⟨l, h1, h2⟩ := itemList_read h
    exact ⟨l, .plain h1, h2⟩
  | @dash st w P h =>
    obtain ⟨l, h1, h2⟩ := itemList_read h
    by_cases hst : st = .char ∨ st = .cls
    · exact ⟨_, .dash h1 hst, h2.append (.lit _)⟩
    · refine ⟨_, .plain (.char h1 (.plain (by decide) (by decide)) (fun _ => ?_)), h2.append (.lit _)⟩
      cases st <;> simp_all

theorem indexSame_self {l : List Ast} {o : Nat} (h : ∀ a ∈ l, index o a = a) : indexSame o l = l := by
  induction l with
  | nil => rfl
  | cons a l ih => simp only [indexSame]; rw [h a (by simp), ih (fun a ha => h a (by simp [ha]))]

theorem Members.takesOne {l : List Ast} {P : Byte → Prop} (h : Members l P) : TakesOne (.set l) (fun i x => ∃ y, P y ∧ CharEq i y x) := by
  refine takesOne_of rfl (fun E r => .set h.triv (fun a ha => h.ok a ha E r)) ?_ (fun _ _ _ => rfl) (fun f x => ?_)
  · have := h.decl
    simp only [declarative, noBackref, noPossessive, behindOk, noBackrefAll_eq, noPossessiveAll_eq, behindOkAll_eq, Bool.and_eq_true, List.all_eq_true] at this ⊢
    exact ⟨⟨fun a ha => (this a ha).1.1, fun a ha => (this a ha).1.2⟩, fun a ha => (this a ha).2⟩
  · rw [← h.sem]
    simp only [matchOne, matchAny_eq, List.any_eq_true]

theorem Members.takesOne_neg {l : List Ast} {P : Byte → Prop} (h : Members l P) : TakesOne (.neg (.set l)) (fun i x => ¬∃ y, P y ∧ CharEq i y x) := by
  refine takesOne_of rfl (fun E r => .neg (.inl rfl) (.set h.triv (fun a ha => h.ok a ha E r))) ?_ (fun _ _ _ => rfl) (fun f x => ?_)
  · have := h.decl
    simp only [declarative, noBackref, noPossessive, behindOk, noBackrefAll_eq, noPossessiveAll_eq, behindOkAll_eq, Bool.and_eq_true, List.all_eq_true] at this ⊢
    exact ⟨⟨fun a ha => (this a ha).1.1, fun a ha => (this a ha).1.2⟩, fun a ha => (this a ha).2⟩
  · rw [← h.sem]
    simp only [matchOne, matchAny_eq, Bool.not_eq_true', List.any_eq_false]
    simp

theorem index_set {l : List Ast} {P : Byte → Prop} (h : Members l P) : indexCaptures (.set l) = .set l ∧ indexCaptures (.neg (.set l)) = .neg (.set l) := by
  have := indexSame_self (l := l) (o := 1) (fun a ha => h.index a ha 1)
  exact ⟨by simp [indexCaptures, index, this], by simp [indexCaptures, index, this]⟩

end Mregex
