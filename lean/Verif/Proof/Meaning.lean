import Verif.Spec.Meaning
import Verif.Proof.SetSem
import Verif.Proof.Frame
import Verif.Proof.Formula
import Verif.Proof.Outcome
import Verif.Proof.Preference
import Verif.Proof.Printing
import Verif.Spec.Usable

/-!
# The meaning of a pattern and the ends of its tree
-/

namespace Mregex
open Ast Spec

/-! ### Plain bodies -/

theorem plainBodies_eq (l : List Ast) : plainBodies l = l.all plainBody := by
  induction l with
  | nil => rfl
  | cons a l ih => simp [plainBodies, ih]

theorem calmAll_eq (l : List Ast) : calmAll l = l.all calm := by
  induction l with
  | nil => rfl
  | cons a l ih => simp [calmAll, ih]

theorem plain_facts (a : Ast) (h : plainBody a = true) : reversible a = true ∧ behindOk a = true ∧ noPossessive a = true := by
  induction a using ind with
  | seq l ih =>
    simp only [plainBody, plainBodies_eq, List.all_eq_true] at h
    simp only [reversible, reversibleAll_eq, behindOk, behindOkAll_eq, noPossessive, noPossessiveAll_eq, List.all_eq_true]
    exact ⟨fun a ha => (ih a ha (h a ha)).1, fun a ha => (ih a ha (h a ha)).2.1, fun a ha => (ih a ha (h a ha)).2.2⟩
  | alt l ih =>
    simp only [plainBody, plainBodies_eq, List.all_eq_true] at h
    simp only [reversible, reversibleAll_eq, behindOk, behindOkAll_eq, noPossessive, noPossessiveAll_eq, List.all_eq_true]
    exact ⟨fun a ha => (ih a ha (h a ha)).1, fun a ha => (ih a ha (h a ha)).2.1, fun a ha => (ih a ha (h a ha)).2.2⟩
  | set l ih =>
    simp only [plainBody, plainBodies_eq, List.all_eq_true] at h
    simp only [reversible, reversibleAll_eq, behindOk, behindOkAll_eq, noPossessive, noPossessiveAll_eq, List.all_eq_true]
    exact ⟨fun a ha => (ih a ha (h a ha)).1, fun a ha => (ih a ha (h a ha)).2.1, fun a ha => (ih a ha (h a ha)).2.2⟩
  | cap id n a ih => simp only [plainBody] at h; simpa only [reversible, behindOk, noPossessive] using ih h
  | neg a ih => simp only [plainBody] at h; simpa only [reversible, behindOk, noPossessive] using ih h
  | rep m lo hi a ih => cases m <;> simp only [plainBody, Bool.false_eq_true] at h <;> simpa only [reversible, behindOk, noPossessive] using ih h
  | _ => first | (simp [plainBody] at h; done) | simp [reversible, behindOk, noPossessive]

/-! ### Trees whose patterns have a meaning -/

mutual
/-- Ordered ranges and bounds, no references, plain bodies of lookbehinds. -/
def fits : Ast → Bool
  | .backref _ | .namedBackref _ => false
  | .range a b => decide (a.toNat ≤ b.toNat)
  | .look .behind a => plainBody a && fits a
  | .look .ahead a => fits a
  | .seq l | .alt l | .set l => fitsAll l
  | .rep _ lo (.fin h) a => decide (lo ≤ h) && fits a
  | .rep _ _ .inf a => fits a
  | .neg a | .cap _ _ a => fits a
  | _ => true
def fitsAll : List Ast → Bool
  | [] => true
  | a :: l => fits a && fitsAll l
end

theorem fitsAll_eq (l : List Ast) : fitsAll l = l.all fits := by
  induction l with
  | nil => rfl
  | cons a l ih => simp [fitsAll, ih]

theorem fits_seqParts (a : Ast) : fits a = (Spec.seqParts a).all fits := by
  cases a with
  | seq l => simp [Spec.seqParts, fits, fitsAll_eq]
  | _ => simp [Spec.seqParts]

theorem fits_cat {a b : Ast} (h : fits (catAst a b) = true) : fits a = true ∧ fits b = true := by
  simp only [catAst, fits, fitsAll_eq, List.all_append, Bool.and_eq_true] at h
  rw [fits_seqParts a, fits_seqParts b]
  exact h

theorem fits_alt {a b : Ast} (h : fits (altAst a b) = true) : fits a = true ∧ fits b = true := by
  cases a with
  | alt l => simpa [altAst, fits, fitsAll_eq] using h
  | _ => simpa [altAst, fits, fitsAll_eq] using h

/-- A tree and a meaning that agree. -/
structure Tally (x : Ast) (S : Sem) (b : Bool) : Prop where
  plain : plainBody x = b
  wf : wf x = true
  nb : noBackref x = true
  fits : fits x = true
  agree : ∀ f s p, p ≤ s.length → FEq (ends f s x true false p) (S f s p)

theorem oneChar_semOne {P : Byte → Bool} {Q : Flags → Byte → Prop} {f : Flags} {s : List Byte} {p : Nat} (h : ∀ x, P x = true ↔ Q f x) : oneChar s true P p = semOne Q f s p := by
  classical
  unfold oneChar readChar semOne
  simp only [if_true]
  cases hs : s[p]? with
  | none => simp [CharAt, hs]
  | some x =>
    simp only [Option.map_some]
    by_cases hq : Q f x
    · rw [if_pos ((h x).2 hq), if_pos ⟨x, hs, hq⟩]
    · rw [if_neg (fun h' => hq ((h x).1 h')), if_neg]
      rintro ⟨y, hy, hq'⟩
      rw [hs] at hy
      cases hy
      exact hq hq'

theorem tally_one {x : Ast} {Q : Flags → Byte → Prop} (hp : plainBody x = true) (hw : wf x = true) (hn : noBackref x = true) (hf : fits x = true)
    (he : ∀ f s p, ends f s x true false p = oneChar s true (accepts f x) p) (h : ∀ f b, matchOne f x b = true ↔ Q f b) : Tally x (semOne Q) true :=
  ⟨hp, hw, hn, hf, fun f s p _ => .of_eq ((he f s p).trans (oneChar_semOne fun b => by rw [← matchOne_eq_accepts]; exact h f b))⟩

theorem tally_lit (c : Byte) : Tally (.lit c) (semOne fun f x => CharEq f.icase c x) true :=
  tally_one rfl rfl rfl rfl (fun _ _ _ => rfl) (fun f b => by rw [matchOne_eq_accepts, accepts_lit_iff])

theorem tally_dot : Tally .wildcard (semOne fun f x => f.dotall = true ∨ ¬LineBreak x) true :=
  tally_one rfl rfl rfl rfl (fun _ _ _ => rfl) (fun f b => by
    rw [matchOne_eq_accepts]; simp [accepts, LineBreak])

theorem class_plain {e : Byte} {x : Ast} (h : (e, x) ∈ classes) : plainBody x = true ∧ noBackref x = true ∧ fits x = true ∧ (∀ a ∈ classItems x, plainBody a = true ∧ fits a = true) ∧
    ∀ f s p, ends f s x true false p = oneChar s true (accepts f x) p := by
  simp [classes] at h
  rcases h with ⟨_, rfl⟩ | ⟨_, rfl⟩ | ⟨_, rfl⟩ | ⟨_, rfl⟩ | ⟨_, rfl⟩ | ⟨_, rfl⟩ | ⟨_, rfl⟩ | ⟨_, rfl⟩ <;> exact ⟨rfl, rfl, rfl, by simp (decide := true) [classItems, digit, word, whitespace, linebreak, plainBody, plainBodies, fits, fitsAll, lower, upper], fun _ _ _ => rfl⟩

theorem tally_class {e : Byte} {x : Ast} {P : Byte → Prop} (h : (e, x) ∈ classes) (hP : ClassEsc e P) : Tally x (semOne fun _ b => P b) true :=
  have hc := class_plain h
  tally_one hc.1 (wf_of_ok (class_ok h ⟨[], {}, .randomAccess, [none]⟩ 0)) hc.2.1 hc.2.2.1 hc.2.2.2.2 (fun f b => matchOne_class h hP f b)

theorem class_mem {e : Byte} {x : Ast} (h : (e, x) ∈ classes) : ∃ P, ClassEsc e P := by
  simp [classes] at h
  rcases h with ⟨rfl, _⟩ | ⟨rfl, _⟩ | ⟨rfl, _⟩ | ⟨rfl, _⟩ | ⟨rfl, _⟩ | ⟨rfl, _⟩ | ⟨rfl, _⟩ | ⟨rfl, _⟩
  · exact ⟨_, .d⟩
  · exact ⟨_, .D⟩
  · exact ⟨_, .w⟩
  · exact ⟨_, .W⟩
  · exact ⟨_, .s⟩
  · exact ⟨_, .S⟩
  · exact ⟨_, .R⟩
  · exact ⟨_, .N⟩

/-! ### Sets -/

/-- `Members`, all of them plain. -/
structure Mems (l : List Ast) (P : Byte → Prop) : Prop extends Members l P where
  plain : ∀ a ∈ l, plainBody a = true ∧ fits a = true

theorem Mems.append {l m : List Ast} {P Q : Byte → Prop} (hl : Mems l P) (hm : Mems m Q) : Mems (m ++ l) (fun x => P x ∨ Q x) :=
  ⟨hl.toMembers.append hm.toMembers, fun a ha => (List.mem_append.1 ha).elim (hm.plain a) (hl.plain a)⟩

theorem Mems.nil : Mems [] (fun _ => False) := ⟨.nil, by simp⟩
theorem Mems.lit (c : Byte) : Mems [.lit c] (fun x => x = c) := ⟨.lit c, by simp [plainBody, fits]⟩
theorem Mems.range {a b : Byte} (h : a.toNat ≤ b.toNat) : Mems [.range a b] (fun x => a.toNat ≤ x.toNat ∧ x.toNat ≤ b.toNat) := ⟨.range h, by simp [plainBody, fits, h]⟩
theorem Mems.cls {e : Byte} {x : Ast} {P : Byte → Prop} (h : (e, x) ∈ classes) (hP : ClassEsc e P) : Mems (classItems x) P := ⟨.cls h hP, (class_plain h).2.2.2.1⟩

theorem class_R {x : Ast} (h : (ch 'R', x) ∈ classes) : x = linebreak := by
  simp (decide := true) [classes] at h
  exact h

theorem items_read {st : SetState} {w : List Byte} {P : Byte → Prop} (h : Items st w P) : ∃ l, SetItems st w l ∧ Mems l P := by
  induction h with
  | nil => exact ⟨_, .nil, .nil⟩
  | char _ hc hd ih =>
    obtain ⟨l, h1, h2⟩ := ih
    exact ⟨_, .char h1 hc hd, h2.append (.lit _)⟩
  | range _ hu hd hv hab ih =>
    obtain ⟨l, h1, h2⟩ := ih
    exact ⟨_, .range (.char h1 hu hd) hv, h2.append (.range hab)⟩
  | cls _ he ih =>
    obtain ⟨l, h1, h2⟩ := ih
    obtain ⟨x, hx⟩ := classEsc_mem he
    exact ⟨_, .cls h1 hx, h2.append (.cls hx he)⟩
  | @clsDash st w P e Q v b _ he hR hv ih =>
    obtain ⟨l, h1, h2⟩ := ih
    obtain ⟨x, hx⟩ := classEsc_mem he
    have hc := SetItems.cls h1 hx
    have hm := ((h2.append (.cls hx he)).append (.lit (ch '-'))).append (.lit b)
    obtain ⟨y, l', hl', hy⟩ := classItems_head hx hR
    rw [hl'] at hc hm
    exact ⟨_, .dash hc hy hv, hm⟩
  | @quirk st w P v b _ hv hb ih =>
    obtain ⟨l, h1, h2⟩ := ih
    have hc : SetItems .cls (w ++ txt "\\R") (.lit 10#8 :: .lit 13#8 :: l) := .cls h1 (e := ch 'R') (x := linebreak) (by simp [classes])
    exact ⟨_, .quirk hc hv, (h2.append (.lit _)).append (.range (a := 10#8) hb)⟩

/-- What the last item was. -/
def LastItem : SetState → List Byte → List Ast → Prop
  | .char, w, l => ∃ st w' P u a l', w = w' ++ u ∧ l = .lit a :: l' ∧ Items st w' P ∧ Mems l' P ∧ SetChar u a ∧ (u = txt "-" → st = .start ∨ st = .range)
  | .cls, w, l => ∃ st w' P e x Q l', w = w' ++ [ch '\\', e] ∧ l = classItems x ++ l' ∧ Items st w' P ∧ Mems l' P ∧ (e, x) ∈ classes ∧ ClassEsc e Q
  | _, _, _ => True

theorem read_items {st : SetState} {w : List Byte} {l : List Ast} (h : SetItems st w l) (hw : ∀ a b, .range a b ∈ l → a.toNat ≤ b.toNat) :
    ∃ P, Items st w P ∧ Mems l P ∧ LastItem st w l := by
  induction h with
  | nil => exact ⟨_, .nil, .nil, trivial⟩
  | @char st w l v c h hc hd ih =>
    obtain ⟨P, h1, h2, _⟩ := ih (fun a b h => hw a b (by simp [h]))
    exact ⟨_, .char h1 hc hd, h2.append (.lit _), _, _, _, _, _, _, rfl, rfl, h1, h2, hc, hd⟩
  | @cls st w l e x h hx ih =>
    obtain ⟨P, h1, h2, _⟩ := ih (fun a b h => hw a b (by simp [h]))
    obtain ⟨Q, hQ⟩ := class_mem hx
    exact ⟨_, .cls h1 hQ, h2.append (.cls hx hQ), _, _, _, _, _, _, _, rfl, rfl, h1, h2, hx, hQ⟩
  | @range w l a v b h hv ih =>
    obtain ⟨P, _, _, st, w', P', u, a', l', rfl, hl, h3, h4, h5, h6⟩ := ih (fun a b h => hw a b (by simpa using .inr (by simpa using h)))
    cases hl
    have hab := hw a b (by simp)
    exact ⟨_, .range h3 h5 h6 hv hab, h4.append (.range hab), trivial⟩
  | @dash w l x v b h hx hv ih =>
    obtain ⟨P, _, _, st, w', P', e, y, Q, l', rfl, hl, h3, h4, h5, h6⟩ := ih (fun a b h => hw a b (by simp only [List.mem_cons] at h ⊢; exact .inr (.inr h)))
    have hR : e ≠ ch 'R' := by
      rintro rfl
      rw [class_R h5] at hl
      exact hx _ (List.cons.inj hl).1
    refine ⟨_, .clsDash h3 h6 hR hv, ?_, trivial⟩
    rw [hl]
    exact ((h4.append (.cls h5 h6)).append (.lit (ch '-'))).append (.lit b)
  | @quirk w l a v b h hv ih =>
    obtain ⟨P, _, _, st, w', P', e, y, Q, l', rfl, hl, h3, h4, h5, h6⟩ := ih (fun a b h => hw a b (by simpa using .inr (by simpa using h)))
    by_cases hR : e = ch 'R'
    · subst hR
      rw [class_R h5] at hl
      cases hl
      have hb := hw 10#8 b (by simp)
      exact ⟨_, .quirk h3 hv hb, (h4.append (.lit _)).append (.range (a := 10#8) hb), trivial⟩
    · obtain ⟨y', l'', hl', hy⟩ := classItems_head h5 hR
      rw [hl'] at hl
      exact absurd (List.cons.inj hl).1.symm (hy a)

theorem setMeans_read {w : List Byte} {P : Byte → Prop} (h : SetMeans w P) : ∃ l, SetBody w l ∧ Mems l P := by
  cases h with
  | plain h =>
    obtain ⟨l, h1, h2⟩ := items_read h
    exact ⟨l, .plain h1, h2⟩
  | dash h hst =>
    obtain ⟨l, h1, h2⟩ := items_read h
    exact ⟨_, .dash h1 hst, h2.append (.lit _)⟩

theorem read_setMeans {w : List Byte} {l : List Ast} (h : SetBody w l) (hw : ∀ a b, .range a b ∈ l → a.toNat ≤ b.toNat) : ∃ P, SetMeans w P ∧ Mems l P := by
  cases h with
  | plain h =>
    obtain ⟨P, h1, h2, _⟩ := read_items h hw
    exact ⟨P, .plain h1, h2⟩
  | dash h hst =>
    obtain ⟨P, h1, h2, _⟩ := read_items h (fun a b h => hw a b (by simp [h]))
    exact ⟨_, .dash h1 hst, h2.append (.lit _)⟩

theorem tally_set {l : List Ast} {P : Byte → Prop} (h : Mems l P) : Tally (.set l) (semOne fun f x => ∃ y, P y ∧ CharEq f.icase y x) true := by
  have hd := h.decl
  simp only [declarative, Bool.and_eq_true] at hd
  refine tally_one ?_ (wf_of_ok (E := ⟨[], {}, .randomAccess, [none]⟩) (r := 0) (.set h.triv fun a ha => h.ok a ha _ _)) ?_ ?_ (fun _ _ _ => rfl) (fun f x => ?_)
  · simp only [plainBody, plainBodies_eq, List.all_eq_true]; exact fun a ha => (h.plain a ha).1
  · simp only [noBackref, noBackrefAll_eq, List.all_eq_true]; exact fun a ha => (hd a ha).1.1
  · simp only [fits, fitsAll_eq, List.all_eq_true]; exact fun a ha => (h.plain a ha).2
  · rw [← h.sem]
    simp only [matchOne, matchAny_eq, List.any_eq_true]

theorem tally_negSet {l : List Ast} {P : Byte → Prop} (h : Mems l P) : Tally (.neg (.set l)) (semOne fun f x => ¬∃ y, P y ∧ CharEq f.icase y x) true := by
  have h' := tally_set h
  refine tally_one ?_ ?_ ?_ ?_ (fun _ _ _ => rfl) (fun f x => ?_)
  · simpa only [plainBody] using h'.plain
  · simpa only [wf, triv, Bool.true_or, Bool.true_and] using h'.wf
  · simpa only [noBackref] using h'.nb
  · simpa only [fits] using h'.fits
  · rw [← h.sem]
    simp only [matchOne, matchAny_eq, Bool.not_eq_true', List.any_eq_false]
    simp

/-! ### Composition -/

theorem tally_empty : Tally .empty semEmpty true := ⟨rfl, rfl, rfl, rfl, fun _ _ _ _ => .refl _⟩

theorem plain_seqParts (a : Ast) : plainBody a = (Spec.seqParts a).all plainBody := by
  cases a with
  | seq l => simp [Spec.seqParts, plainBody, plainBodies_eq]
  | _ => simp [Spec.seqParts]

theorem plain_cat (a b : Ast) : plainBody (catAst a b) = (plainBody a && plainBody b) := by
  simp only [catAst, plainBody, plainBodies_eq, List.all_append, ← plain_seqParts]

theorem plain_alt (a b : Ast) : plainBody (altAst a b) = (plainBody a && plainBody b) := by
  cases a with
  | alt l => simp [altAst, plainBody, plainBodies_eq]
  | _ => simp [altAst, plainBody, plainBodies_eq]

theorem wf_cat {a b : Ast} (ha : wf a = true) (hb : wf b = true) : wf (catAst a b) = true := by
  have key : ∀ a : Ast, wf a = true → (Spec.seqParts a).isEmpty = false ∧ (Spec.seqParts a).all wf = true := by
    intro a h
    cases a with
    | seq l => simpa [Spec.seqParts, wf, wfAll_eq] using h
    | _ => simp [Spec.seqParts, h]
  have h1 := key a ha
  have h2 := key b hb
  simp only [catAst, wf, wfAll_eq, List.all_append, h1.2, h2.2, Bool.and_self, Bool.and_true, Bool.not_eq_true']
  cases h : Spec.seqParts a
  · rw [h] at h1; simp at h1
  · rfl

theorem wf_alt {a b : Ast} (ha : wf a = true) (hb : wf b = true) : wf (altAst a b) = true := by
  cases a with
  | alt l =>
    simp only [wf, Bool.and_eq_true, wfAll_eq] at ha
    simp only [altAst, wf, wfAll_eq, List.all_append, ha.2, List.all_cons, hb, List.all_nil, Bool.and_self, Bool.and_true]
    cases l <;> rfl
  | _ => simp only [altAst, wf, wfAll, Bool.and_true, Bool.and_eq_true] at ha ⊢; exact ⟨rfl, ha, hb⟩

theorem fits_cat_mk {a b : Ast} (ha : fits a = true) (hb : fits b = true) : fits (catAst a b) = true := by
  rw [fits_seqParts] at ha hb
  simp only [catAst, fits, fitsAll_eq, List.all_append, ha, hb, Bool.and_self]

theorem fits_alt_mk {a b : Ast} (ha : fits a = true) (hb : fits b = true) : fits (altAst a b) = true := by
  cases a with
  | alt l => simp only [fits, fitsAll_eq] at ha; simp [altAst, fits, fitsAll_eq, ha, hb]
  | _ => simp only [altAst, fits, fitsAll_eq, List.all_cons, List.all_nil, Bool.and_true, hb] at ha ⊢ <;> exact ha

theorem tally_cat {x y : Ast} {S T : Sem} {a b : Bool} (hx : Tally x S a) (hy : Tally y T b) : Tally (catAst x y) (semSeq S T) (a && b) := by
  refine ⟨by rw [plain_cat, hx.plain, hy.plain], wf_cat hx.wf hy.wf, noBackref_cat hx.nb hy.nb, fits_cat_mk hx.fits hy.fits, fun f s p hp => ?_⟩
  rw [ends_cat]
  exact (hx.agree f s p hp).flatMap_mem fun q hq => hy.agree f s q (ends_within hp hq)

theorem tally_alt {x y : Ast} {S T : Sem} {a b : Bool} (hx : Tally x S a) (hy : Tally y T b) : Tally (altAst x y) (semAlt S T) (a && b) := by
  refine ⟨by rw [plain_alt, hx.plain, hy.plain], wf_alt hx.wf hy.wf, noBackref_altAst hx.nb hy.nb, fits_alt_mk hx.fits hy.fits, fun f s p hp => ?_⟩
  rw [ends_altAst]
  exact (hx.agree f s p hp).append (hy.agree f s p hp)

theorem tally_rep {x : Ast} {S : Sem} {b : Bool} {m : Mode} {lo : Nat} {hi : Bound} (hx : Tally x S b) (hh : ∀ n, hi = .fin n → lo ≤ n) :
    Tally (.rep m lo hi x) (semRep m lo hi S) (decide (m ≠ .possessive) && b) := by
  refine ⟨?_, ?_, ?_, ?_, fun f s p hp => ?_⟩
  · cases m <;> simp [plainBody, hx.plain]
  · cases hi with
    | inf => simpa only [wf] using hx.wf
    | fin n => simp only [wf, hx.wf, Bool.and_true, decide_eq_true_eq]; exact hh n rfl
  · simpa only [noBackref] using hx.nb
  · cases hi with
    | inf => simpa only [Mregex.fits] using hx.fits
    | fin n => simp only [Mregex.fits, hx.fits, Bool.and_true, decide_eq_true_eq]; exact hh n rfl
  · simp only [ends, semRep]
    exact quantified_in (n := s.length) (fun p hp => hx.agree f s p hp) (fun p hp q hq => ends_within hp hq) _ _ _ _ _ _ hp

theorem tally_cap {x : Ast} {S : Sem} {b : Bool} {id : Nat} {n : GroupName} (hx : Tally x S b) : Tally (.cap id n x) S b :=
  ⟨by simpa only [plainBody] using hx.plain, by simpa only [wf] using hx.wf, by simpa only [noBackref] using hx.nb, by simpa only [fits] using hx.fits,
    fun f s p hp => by simpa only [ends] using hx.agree f s p hp⟩

theorem tally_atomic {x : Ast} {S : Sem} {b : Bool} (hx : Tally x S b) : Tally (.rep .possessive 1 (.fin 1) x) (semFirst S) false := by
  have h := tally_rep (m := .possessive) (lo := 1) (hi := .fin 1) hx (by rintro n h; cases h; exact Nat.le_refl _)
  refine ⟨rfl, h.wf, h.nb, h.fits, fun f s p hp => (h.agree f s p hp).trans (.of_eq ?_)⟩
  have h1 : ∀ g : Nat → List Nat, exactly g 1 p = g p := by intro g; simp [exactly]
  simp [semRep, semFirst, quantified, h1, extra, possessiveUpTo]

theorem test_semHere {c : Bool} {P : Flags → List Byte → Nat → Prop} {f : Flags} {s : List Byte} {p : Nat} (h : c = true ↔ P f s p) : test c p = semHere P f s p := by
  classical
  unfold test semHere
  by_cases hp : P f s p
  · rw [if_pos hp, h.2 hp]; rfl
  · rw [if_neg hp, if_neg (fun h' => hp (h.1 h'))]

theorem isEmpty_test {b : Bool} {p : Nat} : (test b p).isEmpty = !b := by cases b <;> rfl

theorem nonempty_iff {l : List Nat} : (!l.isEmpty) = true ↔ ∃ q, q ∈ l := by
  cases l with
  | nil => simp
  | cons a l => simp only [List.isEmpty_cons, Bool.not_false, true_iff]; exact ⟨a, by simp⟩

theorem ahead_iff {x : Ast} {S : Sem} {b : Bool} (hx : Tally x S b) {f : Flags} {s : List Byte} {p : Nat} (hp : p ≤ s.length) :
    (!(ends f s x true false p).isEmpty) = true ↔ CanBegin S f s p := by
  rw [nonempty_iff]
  exact exists_congr fun q => (hx.agree f s p hp).mem

theorem behind_iff {x : Ast} {S : Sem} (hx : Tally x S true) {f : Flags} {s : List Byte} {p : Nat} (hp : p ≤ s.length) :
    (!(ends f s x false true p).isEmpty) = true ↔ CanStop S f s p := by
  have hf := plain_facts x hx.plain
  have key : ∀ q, q ∈ ends f s x false true p ↔ Matches f s x q p := fun q => by
    have := ends_iff (E := { inp := s, flags := f }) hx.wf hx.nb hf.2.2 (.inr (.inl ⟨rfl, rfl, hf.1⟩)) (p := p) (q := q) hp
    simpa [DM] using this
  have key' : ∀ q, q ≤ s.length → (p ∈ ends f s x true false q ↔ Matches f s x q p) := fun q hq => by
    have := ends_iff (E := { inp := s, flags := f }) hx.wf hx.nb hf.2.2 (.inl ⟨rfl, rfl, hf.2.1⟩) (p := q) (q := p) hq
    simpa [DM] using this
  rw [nonempty_iff]
  constructor
  · rintro ⟨q, hq⟩
    have hle : q ≤ p := by
      have := ends_inside (E := { inp := s, flags := f }) (r := 1) rfl x true p q hp hq
      unfold Env.Reach at this
      simp at this
      omega
    exact ⟨q, hle, ((hx.agree f s q (by omega)).mem).1 ((key' q (by omega)).2 ((key q).1 hq))⟩
  · rintro ⟨t, ht, h⟩
    exact ⟨t, (key t).2 ((key' t (by omega)).1 (((hx.agree f s t (by omega)).mem).2 h))⟩

theorem tally_here {y : Ast} {P : Flags → List Byte → Nat → Prop} {b : Bool} (hw : wf y = true) (hn : noBackref y = true) (hf : fits y = true) (hp : plainBody y = b)
    (he : ∀ f s p, p ≤ s.length → ∃ c, ends f s y true false p = test c p ∧ (c = true ↔ P f s p)) : Tally y (semHere P) b :=
  ⟨hp, hw, hn, hf, fun f s p hp => by
    obtain ⟨c, h1, h2⟩ := he f s p hp
    rw [h1, test_semHere h2]
    exact .refl _⟩

theorem tally_ahead {x : Ast} {S : Sem} {b : Bool} (hx : Tally x S b) : Tally (.look .ahead x) (semHere (CanBegin S)) false :=
  tally_here (by simpa only [wf] using hx.wf) (by simpa only [noBackref] using hx.nb) (by simpa only [fits] using hx.fits) rfl
    fun f s p hp => ⟨!(ends f s x true false p).isEmpty, by simp [ends], ahead_iff hx hp⟩

theorem tally_negAhead {x : Ast} {S : Sem} {b : Bool} (hx : Tally x S b) : Tally (.neg (.look .ahead x)) (semHere fun f s p => ¬CanBegin S f s p) false :=
  tally_here (by simpa only [wf, triv, isAssertion, Bool.or_true, Bool.true_and] using hx.wf) (by simpa only [noBackref] using hx.nb) (by simpa only [fits] using hx.fits) rfl
    fun f s p hp => ⟨!(!(ends f s x true false p).isEmpty), by simp [ends, assertion, isEmpty_test], by rw [Bool.not_eq_true', ← ahead_iff hx hp, Bool.not_eq_true]⟩

theorem tally_behind {x : Ast} {S : Sem} (hx : Tally x S true) : Tally (.look .behind x) (semHere (CanStop S)) false :=
  tally_here (by simpa only [wf] using hx.wf) (by simpa only [noBackref] using hx.nb) (by simp only [fits, hx.fits, hx.plain, Bool.and_self]) rfl
    fun f s p hp => ⟨!(ends f s x false true p).isEmpty, by simp [ends], behind_iff hx hp⟩

theorem tally_negBehind {x : Ast} {S : Sem} (hx : Tally x S true) : Tally (.neg (.look .behind x)) (semHere fun f s p => ¬CanStop S f s p) false :=
  tally_here (by simpa only [wf, triv, isAssertion, Bool.or_true, Bool.true_and] using hx.wf) (by simpa only [noBackref] using hx.nb) (by simp only [fits, hx.fits, hx.plain, Bool.and_self]) rfl
    fun f s p hp => ⟨!(!(ends f s x false true p).isEmpty), by simp [ends, assertion, isEmpty_test], by rw [Bool.not_eq_true', ← behind_iff hx hp, Bool.not_eq_true]⟩

theorem tally_bol : Tally .bol (semHere fun f s p => p = 0 ∨ (f.multiline = true ∧ CharBefore s p LineBreak)) false :=
  tally_here rfl rfl rfl rfl fun f s p _ => ⟨_, by rw [ends], by simp [atStart, charBefore_iff isBreakAt_iff]⟩

theorem tally_eol : Tally .eol (semHere fun f s p => p = s.length ∨ (f.multiline = true ∧ CharAt s p LineBreak)) false :=
  tally_here rfl rfl rfl rfl fun f s p _ => ⟨_, by rw [ends], by simp [atStop, atStart, isBreakAt_iff]⟩

theorem tally_boi : Tally .boi (semHere fun _ _ p => p = 0) false :=
  tally_here rfl rfl rfl rfl fun f s p _ => ⟨_, by rw [ends], by simp [atStart]⟩

theorem tally_eoi : Tally .eoi (semHere fun _ s p => p = s.length) false :=
  tally_here rfl rfl rfl rfl fun f s p _ => ⟨_, by rw [ends], by simp [atStop, atStart]⟩

theorem wordB_iff {s : List Byte} {p : Nat} : (before (isWordAt s) p != isWordAt s p) = true ↔ ¬(CharBefore s p WordChar ↔ CharAt s p WordChar) := by
  rw [← charBefore_iff isWordAt_iff, ← isWordAt_iff]
  cases before (isWordAt s) p <;> cases isWordAt s p <;> simp

theorem tally_wordB : Tally .wordB (semHere fun _ s p => ¬(CharBefore s p WordChar ↔ CharAt s p WordChar)) true :=
  tally_here rfl rfl rfl rfl fun f s p _ => ⟨_, by rw [ends], wordB_iff⟩

theorem tally_notWordB : Tally (.neg .wordB) (semHere fun _ s p => (CharBefore s p WordChar ↔ CharAt s p WordChar)) true :=
  tally_here rfl rfl rfl rfl fun f s p _ => ⟨!(before (isWordAt s) p != isWordAt s p), by simp [ends, assertion, isEmpty_test], by
    rw [Bool.not_eq_true', ← Bool.not_eq_true, wordB_iff, Classical.not_not]⟩

theorem tally_assertion {e : Byte} {P : Flags → List Byte → Nat → Prop} {k : Bool} (h : AssertAs e P k) : ∃ x, (e, x) ∈ assertions ∧ Tally x (semHere P) k := by
  cases h with
  | b => exact ⟨_, by simp [assertions], tally_wordB⟩
  | B => exact ⟨.neg .wordB, by simp [assertions], tally_notWordB⟩
  | A => exact ⟨.boi, by simp (decide := true) [assertions], tally_boi⟩
  | Z => exact ⟨.eoi, by simp (decide := true) [assertions], tally_eoi⟩

theorem assertion_tally {e : Byte} {x : Ast} (h : (e, x) ∈ assertions) : ∃ P k, AssertAs e P k ∧ Tally x (semHere P) k := by
  simp [assertions] at h
  rcases h with ⟨rfl, rfl⟩ | ⟨rfl, rfl⟩ | ⟨rfl, rfl⟩ | ⟨rfl, rfl⟩
  · exact ⟨_, _, .b, tally_wordB⟩
  · exact ⟨_, _, .B, tally_notWordB⟩
  · exact ⟨_, _, .A, tally_boi⟩
  · exact ⟨_, _, .Z, tally_eoi⟩

theorem fits_start {k : Spec.Cat} {w : List Byte} {f : Option Byte} {z : Ast} (h : Reads k w f z) (hz : fits z = true) :
    ∀ x, k = .seq (some x) ∨ k = .alts (some x) → fits x = true := by
  induction h with
  | start => rintro x (h | h) <;> cases h; exact hz
  | one => rintro x (h | h) <;> cases h
  | more _ _ ih => exact ih (fits_cat hz).1
  | single _ ih => rintro x (h | h) <;> cases h; exact ih hz _ (.inl rfl)
  | or _ _ ih => exact ih (fits_alt hz).1
  | _ => rintro x (h | h) <;> cases h

/-! ### Groups -/

/-- What a group makes of trees and meanings. -/
structure Fold (g : Ast → Ast) (G : Sem → Sem) (n k : Bool) : Prop where
  tally : ∀ x S b, Tally x S b → (n = true → b = true) → Tally (g x) (G S) (k && b)
  fits : ∀ x, fits (g x) = true → fits x = true ∧ (n = true → plainBody x = true)

theorem fold_cap (n : GroupName) : Fold (.cap 0 n) id false true :=
  ⟨fun x S b h _ => by rw [Bool.true_and]; exact tally_cap h, fun x h => ⟨by simpa only [Mregex.fits] using h, nofun⟩⟩
theorem fold_plain : Fold id id false true := ⟨fun x S b h _ => by rw [Bool.true_and]; exact h, fun x h => ⟨h, nofun⟩⟩
theorem fold_atomic : Fold (.rep .possessive 1 (.fin 1)) semFirst false false :=
  ⟨fun x S b h _ => tally_atomic h, fun x h => ⟨by simpa [Mregex.fits] using h, nofun⟩⟩
theorem fold_ahead : Fold (.look .ahead) (fun S => semHere (CanBegin S)) false false :=
  ⟨fun x S b h _ => tally_ahead h, fun x h => ⟨by simpa only [Mregex.fits] using h, nofun⟩⟩
theorem fold_negAhead : Fold (fun a => .neg (.look .ahead a)) (fun S => semHere fun f s p => ¬CanBegin S f s p) false false :=
  ⟨fun x S b h _ => tally_negAhead h, fun x h => ⟨by simpa only [Mregex.fits] using h, nofun⟩⟩
theorem fold_behind : Fold (.look .behind) (fun S => semHere (CanStop S)) true false :=
  ⟨fun x S b h hb => by cases hb rfl; exact tally_behind h, fun x h => by simp only [Mregex.fits, Bool.and_eq_true] at h; exact ⟨h.2, fun _ => h.1⟩⟩
theorem fold_negBehind : Fold (fun a => .neg (.look .behind a)) (fun S => semHere fun f s p => ¬CanStop S f s p) true false :=
  ⟨fun x S b h hb => by cases hb rfl; exact tally_negBehind h, fun x h => by simp only [Mregex.fits, Bool.and_eq_true] at h; exact ⟨h.2, fun _ => h.1⟩⟩

theorem opens_fold {o : List Byte} {G : Sem → Sem} {n k : Bool} (h : OpensAs o G n k) : ∃ g, GroupOpen o g ∧ Fold g G n k := by
  cases h with
  | capture => exact ⟨_, .capture, fold_cap _⟩
  | named h => exact ⟨_, .named h, fold_cap _⟩
  | plain => exact ⟨_, .plain, fold_plain⟩
  | atomic => exact ⟨_, .atomic, fold_atomic⟩
  | ahead => exact ⟨_, .ahead, fold_ahead⟩
  | negAhead => exact ⟨_, .negAhead, fold_negAhead⟩
  | behind => exact ⟨_, .behind, fold_behind⟩
  | negBehind => exact ⟨_, .negBehind, fold_negBehind⟩

theorem fold_opens {o : List Byte} {g : Ast → Ast} (h : GroupOpen o g) : ∃ G n k, OpensAs o G n k ∧ Fold g G n k := by
  cases h with
  | capture => exact ⟨_, _, _, .capture, fold_cap _⟩
  | named h => exact ⟨_, _, _, .named h, fold_cap _⟩
  | plain => exact ⟨_, _, _, .plain, fold_plain⟩
  | atomic => exact ⟨_, _, _, .atomic, fold_atomic⟩
  | ahead => exact ⟨_, _, _, .ahead, fold_ahead⟩
  | negAhead => exact ⟨_, _, _, .negAhead, fold_negAhead⟩
  | behind => exact ⟨_, _, _, .behind, fold_behind⟩
  | negBehind => exact ⟨_, _, _, .negBehind, fold_negBehind⟩

/-! ### Patterns -/

/-- Parts of patterns with the same start. -/
inductive SamePiece : Piece → Spec.Cat → Prop
  | atom b : SamePiece (.atom b) (.atom b)
  | item b : SamePiece (.item b) (.item b)
  | seq : SamePiece (.seq none) (.seq none)
  | seqStart {x S b} : Tally x S b → SamePiece (.seq (some (S, b))) (.seq (some x))
  | alts : SamePiece (.alts none) (.alts none)
  | altsStart {x S b} : Tally x S b → SamePiece (.alts (some (S, b))) (.alts (some x))

theorem denotes_reads {c : Piece} {w : List Byte} {f : Option Byte} {S : Sem} {b : Bool} (h : Denotes c w f S b) :
    ∀ k, SamePiece c k → ∃ x, Reads k w f x ∧ Tally x S b := by
  induction h with
  | plain h => rintro _ ⟨⟩; exact ⟨_, .plain h, tally_lit _⟩
  | dot => rintro _ ⟨⟩; exact ⟨_, .dot, tally_dot⟩
  | esc h => rintro _ ⟨⟩; exact ⟨_, .esc h, tally_lit _⟩
  | cls h =>
    rintro _ ⟨⟩
    obtain ⟨x, hx⟩ := classEsc_mem h
    exact ⟨_, .cls hx, tally_class hx h⟩
  | set h hc =>
    rintro _ ⟨⟩
    obtain ⟨l, h1, h2⟩ := setMeans_read h
    exact ⟨_, .set (.pos h1 hc), tally_set h2⟩
  | negSet h =>
    rintro _ ⟨⟩
    obtain ⟨l, h1, h2⟩ := setMeans_read h
    exact ⟨_, .set (.neg h1), tally_negSet h2⟩
  | emptyGroup h =>
    rintro _ ⟨⟩
    obtain ⟨g, h1, h2⟩ := opens_fold h
    exact ⟨_, .emptyGroup h1, by simpa using h2.tally _ _ _ tally_empty (fun _ => rfl)⟩
  | group h _ hn ih =>
    rintro _ ⟨⟩
    obtain ⟨g, h1, h2⟩ := opens_fold h
    obtain ⟨x, h3, h4⟩ := ih _ .alts
    exact ⟨_, .group h1 h3, h2.tally _ _ _ h4 hn⟩
  | brace h => rintro _ ⟨⟩; exact ⟨_, .brace h, tally_lit _⟩
  | bare _ hq ih =>
    rintro _ ⟨⟩
    obtain ⟨x, h1, h2⟩ := ih _ (.atom _)
    exact ⟨_, .bare h1 hq, h2⟩
  | quant _ hq hh hs hn ih =>
    rintro _ ⟨⟩
    obtain ⟨x, h1, h2⟩ := ih _ (.atom _)
    exact ⟨_, .quant h1 hq hs hn, tally_rep h2 hh⟩
  | bol h => rintro _ ⟨⟩; exact ⟨_, .bol h, tally_bol⟩
  | eol h => rintro _ ⟨⟩; exact ⟨_, .eol h, tally_eol⟩
  | assertion h hn =>
    rintro _ ⟨⟩
    obtain ⟨x, h1, h2⟩ := tally_assertion h
    exact ⟨_, .assertion h1 hn, h2⟩
  | braced _ _ _ he ih1 ih2 ih3 =>
    rintro _ ⟨⟩
    obtain ⟨x, h1, h2⟩ := ih1 _ (.atom _)
    obtain ⟨y, h3, h4⟩ := ih2 _ (.item _)
    obtain ⟨z, h5, h6⟩ := ih3 _ (.altsStart (tally_cat h2 h4))
    exact ⟨_, .braced h1 h3 h5 he, h6⟩
  | start => rintro _ (_ | _ | _ | h); exact ⟨_, .start, h⟩
  | one _ ih =>
    rintro _ ⟨⟩
    obtain ⟨x, h1, h2⟩ := ih _ (.item _)
    exact ⟨_, .one h1, h2⟩
  | more _ _ ih1 ih2 =>
    intro k hk
    obtain ⟨y, h3, h4⟩ := ih2 _ (.item _)
    obtain ⟨x, h1, h2⟩ := ih1 _ hk
    cases hk with
    | seq => exact ⟨_, .more h1 h3, tally_cat h2 h4⟩
    | seqStart h => exact ⟨_, .more h1 h3, tally_cat h2 h4⟩
  | single _ ih =>
    intro k hk
    cases hk with
    | alts => obtain ⟨x, h1, h2⟩ := ih _ .seq; exact ⟨_, .single h1, h2⟩
    | altsStart h => obtain ⟨x, h1, h2⟩ := ih _ (.seqStart h); exact ⟨_, .single h1, h2⟩
  | or _ _ ih1 ih2 =>
    intro k hk
    obtain ⟨y, h3, h4⟩ := ih2 _ .seq
    obtain ⟨x, h1, h2⟩ := ih1 _ hk
    cases hk with
    | alts => exact ⟨_, .or h1 h3, tally_alt h2 h4⟩
    | altsStart h => exact ⟨_, .or h1 h3, tally_alt h2 h4⟩

theorem reads_denotes {k : Spec.Cat} {w : List Byte} {f : Option Byte} {x : Ast} (h : Reads k w f x) (hx : fits x = true) :
    ∀ c, SamePiece c k → ∃ S b, Denotes c w f S b ∧ Tally x S b := by
  induction h with
  | plain h => rintro _ ⟨⟩; exact ⟨_, _, .plain h, tally_lit _⟩
  | dot => rintro _ ⟨⟩; exact ⟨_, _, .dot, tally_dot⟩
  | esc h => rintro _ ⟨⟩; exact ⟨_, _, .esc h, tally_lit _⟩
  | cls h =>
    rintro _ ⟨⟩
    obtain ⟨P, hP⟩ := class_mem h
    exact ⟨_, _, .cls hP, tally_class h hP⟩
  | set h =>
    rintro _ ⟨⟩
    cases h with
    | pos h hc =>
      simp only [fits, fitsAll_eq, List.all_eq_true] at hx
      obtain ⟨P, h1, h2⟩ := read_setMeans h (fun a b h => by simpa [fits] using hx _ h)
      exact ⟨_, _, .set h1 hc, tally_set h2⟩
    | neg h =>
      simp only [fits, fitsAll_eq, List.all_eq_true] at hx
      obtain ⟨P, h1, h2⟩ := read_setMeans h (fun a b h => by simpa [fits] using hx _ h)
      exact ⟨_, _, .negSet h1, tally_negSet h2⟩
  | backref => simp [fits] at hx
  | namedBackref => simp [fits] at hx
  | emptyGroup h =>
    rintro _ ⟨⟩
    obtain ⟨G, n, k, h1, h2⟩ := fold_opens h
    exact ⟨_, _, .emptyGroup h1, by simpa using h2.tally _ _ _ tally_empty (fun _ => rfl)⟩
  | group h _ ih =>
    rintro _ ⟨⟩
    obtain ⟨G, n, k, h1, h2⟩ := fold_opens h
    obtain ⟨h5, h6⟩ := h2.fits _ hx
    obtain ⟨S, b, h3, h4⟩ := ih h5 _ .alts
    have hn : n = true → b = true := fun h => h4.plain ▸ h6 h
    exact ⟨_, _, .group h1 h3 hn, h2.tally _ _ _ h4 hn⟩
  | brace h => rintro _ ⟨⟩; exact ⟨_, _, .brace h, tally_lit _⟩
  | bare _ hq ih =>
    rintro _ ⟨⟩
    obtain ⟨S, b, h1, h2⟩ := ih hx _ (.atom _)
    exact ⟨_, _, .bare h1 hq, h2⟩
  | @quant _ _ _ _ lo hi m _ y _ hq hs hn ih =>
    rintro _ ⟨⟩
    have hh : fits y = true ∧ ∀ n, hi = .fin n → lo ≤ n := by
      cases hi with
      | inf => exact ⟨by simpa only [fits] using hx, nofun⟩
      | fin n => simp only [fits, Bool.and_eq_true, decide_eq_true_eq] at hx; exact ⟨hx.2, fun m h => by cases h; exact hx.1⟩
    obtain ⟨S, b, h1, h2⟩ := ih hh.1 _ (.atom _)
    exact ⟨_, _, .quant h1 hq hh.2 hs hn, tally_rep h2 hh.2⟩
  | bol h => rintro _ ⟨⟩; exact ⟨_, _, .bol h, tally_bol⟩
  | eol h => rintro _ ⟨⟩; exact ⟨_, _, .eol h, tally_eol⟩
  | assertion h hn =>
    rintro _ ⟨⟩
    obtain ⟨P, k, h1, h2⟩ := assertion_tally h
    exact ⟨_, _, .assertion h1 hn, h2⟩
  | braced _ _ h he ih1 ih2 ih3 =>
    rintro _ ⟨⟩
    have hf := fits_cat (fits_start h hx _ (.inr rfl))
    obtain ⟨S, a, h1, h2⟩ := ih1 hf.1 _ (.atom _)
    obtain ⟨T, b, h3, h4⟩ := ih2 hf.2 _ (.item _)
    obtain ⟨U, c, h5, h6⟩ := ih3 hx _ (.altsStart (tally_cat h2 h4))
    exact ⟨_, _, .braced h1 h3 h5 he, h6⟩
  | start => intro c hc; cases hc with | seqStart h => exact ⟨_, _, .start, h⟩
  | one _ ih =>
    rintro _ ⟨⟩
    obtain ⟨S, b, h1, h2⟩ := ih hx _ (.item _)
    exact ⟨_, _, .one h1, h2⟩
  | more _ _ ih1 ih2 =>
    intro c hc
    have hf := fits_cat hx
    obtain ⟨T, b, h3, h4⟩ := ih2 hf.2 _ (.item _)
    obtain ⟨S, a, h1, h2⟩ := ih1 hf.1 _ hc
    cases hc with
    | seq => exact ⟨_, _, .more h1 h3, tally_cat h2 h4⟩
    | seqStart h => exact ⟨_, _, .more h1 h3, tally_cat h2 h4⟩
  | single _ ih =>
    intro c hc
    cases hc with
    | alts => obtain ⟨S, b, h1, h2⟩ := ih hx _ .seq; exact ⟨_, _, .single h1, h2⟩
    | altsStart h => obtain ⟨S, b, h1, h2⟩ := ih hx _ (.seqStart h); exact ⟨_, _, .single h1, h2⟩
  | or _ _ ih1 ih2 =>
    intro c hc
    have hf := fits_alt hx
    obtain ⟨T, b, h3, h4⟩ := ih2 hf.2 _ .seq
    obtain ⟨S, a, h1, h2⟩ := ih1 hf.1 _ hc
    cases hc with
    | alts => exact ⟨_, _, .or h1 h3, tally_alt h2 h4⟩
    | altsStart h => exact ⟨_, _, .or h1 h3, tally_alt h2 h4⟩

theorem means_pattern {w : List Byte} {S : Sem} (h : PatternMeans w S) : ∃ x b, Pattern w x ∧ Tally x S b := by
  cases h with
  | empty => exact ⟨_, _, .empty, tally_empty⟩
  | alts h =>
    obtain ⟨x, h1, h2⟩ := denotes_reads h _ .alts
    exact ⟨_, _, .alts h1, h2⟩

theorem pattern_means {w : List Byte} {x : Ast} (h : Pattern w x) (hx : fits x = true) : ∃ S, PatternMeans w S := by
  cases h with
  | empty => exact ⟨_, .empty⟩
  | alts h =>
    obtain ⟨S, b, h1, h2⟩ := reads_denotes h hx _ .alts
    exact ⟨_, .alts h1⟩

/-! ### Numbering the groups -/

mutual
theorem noBackref_number : ∀ (o : Nat) (a : Ast), noBackref (index o a) = noBackref a
  | o, .cap _ _ a => by simp only [index, noBackref, noBackref_number _ a]
  | o, .seq l => by simp only [index, noBackref, noBackref_numberSeq _ l]
  | o, .alt l => by simp only [index, noBackref, noBackref_numberSame _ l]
  | o, .set l => by simp only [index, noBackref, noBackref_numberSame _ l]
  | o, .neg a => by simp only [index, noBackref, noBackref_number _ a]
  | o, .rep _ _ _ a => by simp only [index, noBackref, noBackref_number _ a]
  | o, .look _ a => by simp only [index, noBackref, noBackref_number _ a]
  | _, .empty | _, .lit _ | _, .range _ _ | _, .wildcard | _, .bol | _, .boi | _, .eol | _, .eoi | _, .wordB | _, .backref _ | _, .namedBackref _ => by simp only [index]
theorem noBackref_numberSeq : ∀ (o : Nat) (l : List Ast), noBackrefAll (indexSeq o l) = noBackrefAll l
  | _, [] => rfl
  | o, a :: l => by simp only [indexSeq, noBackrefAll, noBackref_number _ a, noBackref_numberSeq _ l]
theorem noBackref_numberSame : ∀ (o : Nat) (l : List Ast), noBackrefAll (indexSame o l) = noBackrefAll l
  | _, [] => rfl
  | o, a :: l => by simp only [indexSame, noBackrefAll, noBackref_number _ a, noBackref_numberSame _ l]
end

mutual
theorem plain_number : ∀ (o : Nat) (a : Ast), plainBody (index o a) = plainBody a
  | o, .cap _ _ a => by simp only [index, plainBody, plain_number _ a]
  | o, .seq l => by simp only [index, plainBody, plain_numberSeq _ l]
  | o, .alt l => by simp only [index, plainBody, plain_numberSame _ l]
  | o, .set l => by simp only [index, plainBody, plain_numberSame _ l]
  | o, .neg a => by simp only [index, plainBody, plain_number _ a]
  | o, .rep m _ _ a => by cases m <;> simp only [index, plainBody, plain_number _ a]
  | o, .look _ a => by simp only [index, plainBody]
  | _, .empty | _, .lit _ | _, .range _ _ | _, .wildcard | _, .bol | _, .boi | _, .eol | _, .eoi | _, .wordB | _, .backref _ | _, .namedBackref _ => by simp only [index]
theorem plain_numberSeq : ∀ (o : Nat) (l : List Ast), plainBodies (indexSeq o l) = plainBodies l
  | _, [] => rfl
  | o, a :: l => by simp only [indexSeq, plainBodies, plain_number _ a, plain_numberSeq _ l]
theorem plain_numberSame : ∀ (o : Nat) (l : List Ast), plainBodies (indexSame o l) = plainBodies l
  | _, [] => rfl
  | o, a :: l => by simp only [indexSame, plainBodies, plain_number _ a, plain_numberSame _ l]
end

mutual
theorem fits_number : ∀ (o : Nat) (a : Ast), fits (index o a) = fits a
  | o, .cap _ _ a => by simp only [index, fits, fits_number _ a]
  | o, .seq l => by simp only [index, fits, fits_numberSeq _ l]
  | o, .alt l => by simp only [index, fits, fits_numberSame _ l]
  | o, .set l => by simp only [index, fits, fits_numberSame _ l]
  | o, .neg a => by simp only [index, fits, fits_number _ a]
  | o, .rep _ _ hi a => by cases hi <;> simp only [index, fits, fits_number _ a]
  | o, .look d a => by cases d <;> simp only [index, fits, fits_number _ a, plain_number]
  | _, .empty | _, .lit _ | _, .range _ _ | _, .wildcard | _, .bol | _, .boi | _, .eol | _, .eoi | _, .wordB | _, .backref _ | _, .namedBackref _ => by simp only [index]
theorem fits_numberSeq : ∀ (o : Nat) (l : List Ast), fitsAll (indexSeq o l) = fitsAll l
  | _, [] => rfl
  | o, a :: l => by simp only [indexSeq, fitsAll, fits_number _ a, fits_numberSeq _ l]
theorem fits_numberSame : ∀ (o : Nat) (l : List Ast), fitsAll (indexSame o l) = fitsAll l
  | _, [] => rfl
  | o, a :: l => by simp only [indexSame, fitsAll, fits_number _ a, fits_numberSame _ l]
end

/-! ### Usable patterns -/

theorem calm_plain (a : Ast) (h : plainBody a = true) : calm a = true := by
  induction a using ind with
  | seq l ih =>
    simp only [plainBody, plainBodies_eq, List.all_eq_true] at h
    simp only [calm, calmAll_eq, List.all_eq_true]
    exact fun a ha => ih a ha (h a ha)
  | alt l ih =>
    simp only [plainBody, plainBodies_eq, List.all_eq_true] at h
    simp only [calm, calmAll_eq, List.all_eq_true]
    exact fun a ha => ih a ha (h a ha)
  | set l ih =>
    simp only [plainBody, plainBodies_eq, List.all_eq_true] at h
    simp only [calm, calmAll_eq, List.all_eq_true]
    exact fun a ha => ih a ha (h a ha)
  | cap id n a ih => simp only [plainBody] at h; simpa only [calm] using ih h
  | neg a ih => simp only [plainBody] at h; simpa only [calm] using ih h
  | rep m lo hi a ih => cases m <;> simp only [plainBody, Bool.false_eq_true] at h <;> simpa only [calm] using ih h
  | _ => first | (simp [plainBody] at h; done) | simp [calm]

theorem plain_invert (a : Ast) : plainBody (invert a) = plainBody a := by
  induction a using ind with
  | seq l ih => simp only [invert, plainBody, plainBodies_eq, invertAll_eq, List.all_reverse, List.all_map]; exact all_congr' ih
  | alt l ih => simp only [invert, plainBody, plainBodies_eq, invertAll_eq, List.all_map]; exact all_congr' ih
  | set l ih => simp only [invert, plainBody, plainBodies_eq, invertAll_eq, List.all_map]; exact all_congr' ih
  | cap id n a ih => simpa only [invert, plainBody] using ih
  | rep m lo hi a ih => cases m <;> simp only [invert, plainBody, ih]
  | neg a ih => simp only [invert, plainBody, ih]
  | look d a ih => cases d <;> simp only [invert, plainBody]
  | _ => simp only [invert, plainBody]

theorem fits_invert (a : Ast) (h : plainBody a = true) : fits (invert a) = fits a := by
  induction a using ind with
  | seq l ih =>
    simp only [plainBody, plainBodies_eq, List.all_eq_true] at h
    simp only [invert, fits, fitsAll_eq, invertAll_eq, List.all_reverse, List.all_map]; exact all_congr' fun a ha => ih a ha (h a ha)
  | alt l ih =>
    simp only [plainBody, plainBodies_eq, List.all_eq_true] at h
    simp only [invert, fits, fitsAll_eq, invertAll_eq, List.all_map]; exact all_congr' fun a ha => ih a ha (h a ha)
  | set l ih =>
    simp only [plainBody, plainBodies_eq, List.all_eq_true] at h
    simp only [invert, fits, fitsAll_eq, invertAll_eq, List.all_map]; exact all_congr' fun a ha => ih a ha (h a ha)
  | cap id n a ih => simp only [plainBody] at h; simpa only [invert, fits] using ih h
  | rep m lo hi a ih =>
    cases m <;> simp only [plainBody, Bool.false_eq_true] at h <;> cases hi <;> simp only [invert, fits, ih h]
  | neg a ih => simp only [plainBody] at h; simp only [invert, fits, ih h]
  | look d a ih => simp [plainBody] at h
  | _ => simp only [invert, fits]

theorem fits_of_ok {E : Env} {r : Nat} {a : Ast} (h : Ok E r a) (hn : noBackref a = true) (hc : calm a = true) : fits a = true := by
  induction h with
  | range h => simpa [fits] using h
  | set _ _ ih =>
    simp only [noBackref, noBackrefAll_eq, calm, calmAll_eq, List.all_eq_true] at hn hc
    simp only [fits, fitsAll_eq, List.all_eq_true]
    exact fun a ha => ih a ha (hn a ha) (hc a ha)
  | seq _ _ ih =>
    simp only [noBackref, noBackrefAll_eq, calm, calmAll_eq, List.all_eq_true] at hn hc
    simp only [fits, fitsAll_eq, List.all_eq_true]
    exact fun a ha => ih a ha (hn a ha) (hc a ha)
  | alt _ _ ih =>
    simp only [noBackref, noBackrefAll_eq, calm, calmAll_eq, List.all_eq_true] at hn hc
    simp only [fits, fitsAll_eq, List.all_eq_true]
    exact fun a ha => ih a ha (hn a ha) (hc a ha)
  | neg _ _ ih => simp only [noBackref, calm] at hn hc; simpa only [fits] using ih hn hc
  | cap _ _ _ ih => simp only [noBackref, calm] at hn hc; simpa only [fits] using ih hn hc
  | repFin h _ ih => simp only [noBackref, calm] at hn hc; simp only [fits, ih hn hc, Bool.and_true, decide_eq_true_eq]; exact h
  | repInf _ ih => simp only [noBackref, calm] at hn hc; simpa only [fits] using ih hn hc
  | ahead _ ih => simp only [noBackref, calm] at hn hc; simpa only [fits] using ih hn hc
  | behindTriv _ _ _ ih =>
    simp only [noBackref, calm] at hn hc
    simp only [fits, hc, Bool.true_and]
    exact ih hn (calm_plain _ hc)
  | behind _ _ ih =>
    simp only [noBackref, calm] at hn hc
    simp only [fits, hc, Bool.true_and]
    rw [← fits_invert _ hc]
    exact ih (by rw [noBackref_invert]; exact hn) (calm_plain _ (by rw [plain_invert]; exact hc))
  | backref => simp [noBackref] at hn
  | namedBackref => simp [noBackref] at hn
  | _ => rfl

/-! ### Results -/

theorem firstFrom_reported {e : Nat → List Nat} {n : Nat} : ∀ {k cur i j : Nat}, cur + k = n + 1 → (firstFrom e k cur = some (i, j) ↔
    cur ≤ i ∧ i ≤ n ∧ (∀ t, cur ≤ t → t < i → e t = []) ∧ (e i).head? = some j)
  | 0, cur, i, j, h => by
    simp only [firstFrom]
    constructor
    · nofun
    · rintro ⟨h1, h2, _⟩; omega
  | k + 1, cur, i, j, h => by
    rw [firstFrom]
    cases hc : (e cur).head? with
    | some q =>
      simp only [Option.some.injEq, Prod.mk.injEq]
      constructor
      · rintro ⟨rfl, rfl⟩; exact ⟨Nat.le_refl _, by omega, fun t h1 h2 => by omega, hc⟩
      · rintro ⟨h1, h2, h3, h4⟩
        have : cur = i := by
          rcases Nat.lt_or_ge cur i with h' | h'
          · rw [h3 cur (Nat.le_refl _) h'] at hc; cases hc
          · omega
        subst this
        rw [hc] at h4
        cases h4
        exact ⟨rfl, rfl⟩
    | none =>
      dsimp only
      rw [firstFrom_reported (by omega : cur + 1 + k = n + 1)]
      constructor
      · rintro ⟨h1, h2, h3, h4⟩
        refine ⟨by omega, h2, fun t ht1 ht2 => ?_, h4⟩
        rcases Nat.eq_or_lt_of_le ht1 with rfl | h'
        · exact List.head?_eq_none_iff.1 hc
        · exact h3 t h' ht2
      · rintro ⟨h1, h2, h3, h4⟩
        refine ⟨?_, h2, fun t ht1 ht2 => h3 t (by omega) ht2, h4⟩
        rcases Nat.eq_or_lt_of_le h1 with rfl | h'
        · rw [hc] at h4; cases h4
        · exact h'

theorem outcome_reported {M : Method} {n : Nat} {e : Nat → List Nat} {i j : Nat} : outcome M n e = some (i, j) ↔ Reported M n e i j := by
  cases M with
  | «match» =>
    simp only [outcome, Reported]
    by_cases h : n ∈ e 0
    · simp [h, eq_comm]
    · simp [h]
  | matchPrefix =>
    simp only [outcome, Reported]
    cases (e 0).head? <;> simp [eq_comm]
  | search =>
    simp only [outcome, Reported, FirstBegin]
    rw [firstFrom_reported (n := n) (by omega)]
    constructor
    · rintro ⟨_, h1, h2, h3⟩
      exact ⟨⟨h1, fun h => (by rw [h] at h3; cases h3), fun t ht => h2 t (Nat.zero_le _) ht⟩, h3⟩
    · rintro ⟨⟨h1, _, h2⟩, h3⟩
      exact ⟨Nat.zero_le _, h1, fun t _ ht => h2 t ht, h3⟩

theorem outcome_feq {M : Method} {n : Nat} {e e' : Nat → List Nat} (h : ∀ p, p ≤ n → FEq (e p) (e' p)) : outcome M n e = outcome M n e' := by
  cases M with
  | «match» => simp only [outcome, (h 0 (Nat.zero_le _)).mem]
  | matchPrefix => simp only [outcome, (h 0 (Nat.zero_le _)).head?]
  | search =>
    simp only [outcome]
    have key : ∀ k i, i + k ≤ n + 1 → firstFrom e k i = firstFrom e' k i := by
      intro k
      induction k with
      | zero => intros; rfl
      | succ k ih => intro i hi; rw [firstFrom, firstFrom, (h i (by omega)).head?, ih (i + 1) (by omega)]
    exact key _ _ (by omega)

theorem part_fits {b a : Ast} {k r : Nat} {m : Bool} (h : Part b k r m a) (hf : fits a = true) (hm : m = true → plainBody a = true) :
    fits b = true ∧ k ≤ (if m then r else r + 1) := by
  induction h with
  | @here m => exact ⟨hf, by cases m <;> simp⟩
  | neg _ ih => simp only [fits, plainBody] at hf hm; exact ih hf hm
  | cap _ ih => simp only [fits, plainBody] at hf hm; exact ih hf hm
  | @rep r m q lo hi a _ ih =>
    refine ih ?_ fun h => ?_
    · cases hi <;> simp only [fits, Bool.and_eq_true] at hf
      · exact hf.2
      · exact hf
    · have := hm h
      cases q <;> simp only [plainBody, Bool.false_eq_true] at this <;> exact this
  | set ha _ ih => simp only [fits, fitsAll_eq, plainBody, plainBodies_eq, List.all_eq_true] at hf hm; exact ih (hf _ ha) fun h => hm h _ ha
  | seq ha _ ih => simp only [fits, fitsAll_eq, plainBody, plainBodies_eq, List.all_eq_true] at hf hm; exact ih (hf _ ha) fun h => hm h _ ha
  | alt ha _ ih => simp only [fits, fitsAll_eq, plainBody, plainBodies_eq, List.all_eq_true] at hf hm; exact ih (hf _ ha) fun h => hm h _ ha
  | ahead _ ih => simp only [fits] at hf; exact ih hf nofun
  | behind _ ih => simp only [fits, Bool.and_eq_true] at hf; exact ih hf.2 fun _ => hf.1
  | mirroredAhead => have := hm rfl; simp [plainBody] at this
  | mirroredBehind => have := hm rfl; simp [plainBody] at this

end Mregex
