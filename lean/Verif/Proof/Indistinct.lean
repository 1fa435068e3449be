import Verif.Spec.Indistinct
import Verif.Proof.AstLemmas
import Verif.Props.Proc

/-!
# Procedures in texts that an expression does not tell apart are the same
-/

namespace Mregex
open Ast Spec

section
variable {f : Flags} {s s' : List Byte} (hl : s.length = s'.length)
include hl

/-- The next characters in the reading direction. -/
theorem readChar_both (fwd : Bool) (p : Nat) : (readChar s fwd p = none ∧ readChar s' fwd p = none) ∨
    ∃ (i : Nat) (x x' : Byte) (q : Nat), s[i]? = some x ∧ s'[i]? = some x' ∧ readChar s fwd p = some (x, q) ∧ readChar s' fwd p = some (x', q) := by
  have key : ∀ i : Nat, (s[i]? = none ∧ s'[i]? = none) ∨ ∃ x x', s[i]? = some x ∧ s'[i]? = some x' := by
    intro i
    by_cases hi : i < s.length
    · exact .inr ⟨_, _, List.getElem?_eq_getElem hi, List.getElem?_eq_getElem (hl ▸ hi)⟩
    · exact .inl ⟨List.getElem?_eq_none (by omega), List.getElem?_eq_none (by omega)⟩
  unfold readChar
  cases fwd with
  | true =>
    rcases key p with ⟨e, e'⟩ | ⟨x, x', e, e'⟩
    · left; simp [e, e']
    · right; exact ⟨p, x, x', p + 1, e, e', by simp [e], by simp [e']⟩
  | false =>
    cases p with
    | zero => left; exact ⟨rfl, rfl⟩
    | succ k =>
      rcases key k with ⟨e, e'⟩ | ⟨x, x', e, e'⟩
      · left; simp [e, e']
      · right; exact ⟨k, x, x', k, e, e', by simp [e], by simp [e']⟩

theorem oneChar_both {P P' : Byte → Bool} (h : ∀ (i : Nat) x x', s[i]? = some x → s'[i]? = some x' → P x = P' x') (fwd : Bool) (p : Nat) :
    oneChar s fwd P p = oneChar s' fwd P' p := by
  unfold oneChar
  rcases readChar_both hl fwd p with ⟨e, e'⟩ | ⟨i, x, x', q, e1, e2, e3, e4⟩
  · rw [e, e']
  · rw [e3, e4]
    simp only [h i x x' e1 e2]

theorem isAt_both {P : Byte → Bool} (h : ∀ (i : Nat) x x', s[i]? = some x → s'[i]? = some x' → P x = P x') (p : Nat) :
    (match s[p]? with | none => false | some x => P x) = (match s'[p]? with | none => false | some x => P x) := by
  by_cases hi : p < s.length
  · have e := List.getElem?_eq_getElem hi
    have e' := List.getElem?_eq_getElem (l := s') (hl ▸ hi)
    rw [e, e']
    exact h p _ _ e e'
  · rw [List.getElem?_eq_none (by omega), List.getElem?_eq_none (by omega)]

theorem atStart_both {multi : Bool} (h : multi = true → ∀ (i : Nat) x x', s[i]? = some x → s'[i]? = some x' → breakByte x = breakByte x') (fwd : Bool) (p : Nat) :
    atStart s fwd multi p = atStart s' fwd multi p := by
  unfold atStart
  rw [hl]
  cases multi with
  | false => rfl
  | true =>
    have key : isBreakAt s = isBreakAt s' := by
      funext p
      exact isAt_both hl (P := breakByte) (h rfl) p
    rw [key]

/-- Two lists of characters that compare in the same way with the characters of the texts. -/
theorem copies_both {icase : Bool} (fwd : Bool) : ∀ (w w' : List Byte) (_ : w.length = w'.length)
    (_ : ∀ (k : Nat) x x', w[k]? = some x → w'[k]? = some x' → ∀ (j : Nat) y y', s[j]? = some y → s'[j]? = some y' → sameChar icase x y = sameChar icase x' y')
    (p : Nat), copies icase s fwd w p = copies icase s' fwd w' p := by
  intro w
  induction w with
  | nil =>
    intro w' hw _ p
    cases w' with
    | nil => rfl
    | cons _ _ => simp at hw
  | cons x w ih =>
    intro w' hw h p
    cases w' with
    | nil => simp at hw
    | cons x' w' =>
      simp only [copies]
      rw [oneChar_both hl (P := sameChar icase x) (P' := sameChar icase x') (fun j y y' e e' => h 0 x x' rfl rfl j y y' e e')]
      rw [show copies icase s fwd w = copies icase s' fwd w' from
        funext (ih w' (by simpa using hw) (fun k y y' e e' => h (k + 1) y y' (by simpa using e) (by simpa using e')))]

theorem heldText_both {icase : Bool} (h : ∀ (i j : Nat) x y x' y', s[i]? = some x → s[j]? = some y → s'[i]? = some x' → s'[j]? = some y' →
    sameChar icase x y = sameChar icase x' y') (v : Option (Nat × Nat)) : (heldText s v).length = (heldText s' v).length ∧
    ∀ (k : Nat) x x', (heldText s v)[k]? = some x → (heldText s' v)[k]? = some x' → ∀ (j : Nat) y y', s[j]? = some y → s'[j]? = some y' →
      sameChar icase x y = sameChar icase x' y' := by
  cases v with
  | none => exact ⟨rfl, fun k x x' e => by simp [heldText] at e⟩
  | some v =>
    obtain ⟨b, e⟩ := v
    refine ⟨by simp [heldText, hl], fun k x x' h1 h2 j y y' h3 h4 => ?_⟩
    simp only [heldText, List.getElem?_take, List.getElem?_drop] at h1 h2
    split at h1
    · rename_i hk
      rw [if_pos hk] at h2
      exact h (b + k) j x y x' y' h1 h3 h2 h4
    · cases h1

theorem reference_both (h : ∀ (i j : Nat) x y x' y', s[i]? = some x → s[j]? = some y → s'[i]? = some x' → s'[j]? = some y' →
    sameChar f.icase x y = sameChar f.icase x' y') (k r p : Nat) : reference f s k r p = reference f s' k r p := by
  unfold reference
  congr 1
  funext v
  obtain ⟨h1, h2⟩ := heldText_both hl h v
  congr 1
  split
  · exact copies_both hl _ _ _ h1 h2 p
  · refine copies_both hl _ _ _ (by simpa using h1) (fun k x x' e1 e2 => ?_) p
    have hk : k < (heldText s v).length := by
      have := (List.getElem?_eq_some_iff.1 e1).1
      simpa using this
    rw [List.getElem?_reverse hk] at e1
    rw [List.getElem?_reverse (h1 ▸ hk), ← h1] at e2
    exact h2 _ x x' e1 e2

end

theorem alikeAll_iff {f : Flags} {x y : Byte} {l : List Ast} : alikeAll f x y l = true ↔ ∀ a ∈ l, alike f x y a = true := by
  induction l with
  | nil => simp [alikeAll]
  | cons a l ih => simp [alikeAll, ih]

/-- Expressions that read one character. -/
theorem accepts_alike {f : Flags} {x y : Byte} (a : Ast) : character a = true → alike f x y a = true → accepts f a x = accepts f a y := by
  induction a using ind with
  | lit c => intro _ h; simpa [alike] using h
  | range a b => intro _ h; simpa [alike] using h
  | wildcard => intro _ h; simpa [alike] using h
  | set l _ => intro _ h; simpa [alike] using h
  | neg a _ =>
    intro hc h
    simp only [character, Bool.not_eq_true'] at hc
    simpa [alike, hc] using h
  | seq l ih =>
    intro hc h
    match l with
    | [] => simp [character] at hc
    | [a] =>
      simp only [character] at hc
      simp only [alike, alikeAll, Bool.and_true] at h
      simp only [accepts, acceptsOnly]
      exact ih a List.mem_cons_self hc h
    | _ :: _ :: _ => simp [character] at hc
  | alt l ih =>
    intro hc h
    simp only [character, Bool.and_eq_true] at hc
    simp only [alike] at h
    simp only [accepts]
    replace hc := hc.2
    induction l with
    | nil => rfl
    | cons a l ih' =>
      simp only [characters, Bool.and_eq_true] at hc
      simp only [alikeAll, Bool.and_eq_true] at h
      simp only [acceptsAny]
      rw [ih a List.mem_cons_self hc.1 h.1, ih' (fun b hb => ih b (List.mem_cons_of_mem _ hb)) h.2 hc.2]
  | rep m lo hi a ih =>
    intro hc h
    unfold character at hc
    split at hc <;> simp_all [accepts, alike]
  | _ => intro hc; simp [character] at hc

theorem acceptsAny_alike {f : Flags} {x y : Byte} {l : List Ast} (hc : characters l = true) (h : alikeAll f x y l = true) : acceptsAny f l x = acceptsAny f l y := by
  cases l with
  | nil => rfl
  | cons a l => exact accepts_alike (f := f) (.alt (a :: l)) (by simp [character, hc]) (by simpa [alike] using h)

/-- The procedures are the same. -/
theorem proc_indistinct {f : Flags} {s s' : List Byte} (ν : List Byte → Nat) (a : Ast) : Indistinct f a s s' → ∀ r inv, proc f s ν a r inv = proc f s' ν a r inv := by
  induction a using ind with
  | empty => intro h r inv; funext p; simp only [proc, ends]
  | lit c =>
    intro h r inv; funext p; simp only [proc, ends]
    rw [oneChar_both h.len (fun i x x' e e' => accepts_alike _ rfl (h.tests i x x' e e'))]
  | range a b =>
    intro h r inv; funext p; simp only [proc, ends]
    rw [oneChar_both h.len (fun i x x' e e' => accepts_alike _ rfl (h.tests i x x' e e'))]
  | wildcard =>
    intro h r inv; funext p; simp only [proc, ends]
    rw [oneChar_both h.len (fun i x x' e e' => accepts_alike _ rfl (h.tests i x x' e e'))]
  | set l _ =>
    intro h r inv; funext p; simp only [proc, ends]
    rw [oneChar_both h.len (fun i x x' e e' => accepts_alike _ rfl (h.tests i x x' e e'))]
  | neg a ih =>
    intro h r inv
    funext p
    simp only [proc]
    by_cases ha : assertion a = true
    · rw [if_pos ha, if_pos ha, ih ⟨h.len, fun i x x' e e' => by simpa [alike, ha] using h.tests i x x' e e', fun hn => h.refs (by simpa [noBackref] using hn)⟩]
    · rw [if_neg ha, if_neg ha, oneChar_both h.len (fun i x x' e e' => accepts_alike _ (by simp [character, ha]) (h.tests i x x' e e'))]
  | seq l ih =>
    intro h
    have ht : ∀ (i : Nat) x x', s[i]? = some x → s'[i]? = some x' → alikeAll f x x' l = true := fun i x x' e e' => by
      simpa [alike] using h.tests i x x' e e'
    have hr : noBackrefAll l = false → _ := fun hn => h.refs (by simpa [noBackref] using hn)
    have hlen := h.len
    clear h
    have : ∀ r inv, procAll f s ν l r inv = procAll f s' ν l r inv := by
      induction l with
      | nil => intro r inv; funext p; simp only [procAll]
      | cons a l ih' =>
        intro r inv
        funext p
        simp only [alikeAll, Bool.and_eq_true] at ht
        simp only [noBackrefAll, Bool.and_eq_false_iff] at hr
        simp only [procAll]
        rw [ih a List.mem_cons_self ⟨hlen, fun i x x' e e' => (ht i x x' e e').1, fun hn => hr (.inl hn)⟩,
          ih' (fun b hb => ih b (List.mem_cons_of_mem _ hb)) (fun i x x' e e' => (ht i x x' e e').2) (fun hn => hr (.inr hn))]
    intro r inv
    funext p
    simp only [proc, this]
  | alt l ih =>
    intro h
    have ht : ∀ (i : Nat) x x', s[i]? = some x → s'[i]? = some x' → alikeAll f x x' l = true := fun i x x' e e' => by
      simpa [alike] using h.tests i x x' e e'
    have hr : noBackrefAll l = false → _ := fun hn => h.refs (by simpa [noBackref] using hn)
    have hlen := h.len
    clear h
    have : ∀ r inv, procAny f s ν l r inv = procAny f s' ν l r inv := by
      induction l with
      | nil => intro r inv; funext p; simp only [procAny]
      | cons a l ih' =>
        intro r inv
        funext p
        simp only [procAny]
        have hc : ∀ q : Proc, (if characters (a :: l) = true then Proc.offers (oneChar s (r % 2 == 0) (acceptsAny f (a :: l)) p) else q) =
            if characters (a :: l) = true then Proc.offers (oneChar s' (r % 2 == 0) (acceptsAny f (a :: l)) p) else q := by
          intro q
          by_cases hc : characters (a :: l) = true
          · rw [if_pos hc, if_pos hc, oneChar_both hlen (fun i x x' e e' => acceptsAny_alike hc (ht i x x' e e'))]
          · rw [if_neg hc, if_neg hc]
        rw [hc]
        simp only [alikeAll, Bool.and_eq_true] at ht
        simp only [noBackrefAll, Bool.and_eq_false_iff] at hr
        rw [ih a List.mem_cons_self ⟨hlen, fun i x x' e e' => (ht i x x' e e').1, fun hn => hr (.inl hn)⟩,
          ih' (fun b hb => ih b (List.mem_cons_of_mem _ hb)) (fun i x x' e e' => (ht i x x' e e').2) (fun hn => hr (.inr hn))]
    intro r inv
    funext p
    simp only [proc, this]
  | cap id name a ih =>
    intro h r inv
    funext p
    simp only [proc]
    rw [ih ⟨h.len, fun i x x' e e' => by simpa [alike] using h.tests i x x' e e', fun hn => h.refs (by simpa [noBackref] using hn)⟩]
  | rep m lo hi a ih =>
    intro h r inv
    funext p
    simp only [proc]
    rw [ih ⟨h.len, fun i x x' e e' => by simpa [alike] using h.tests i x x' e e', fun hn => h.refs (by simpa [noBackref] using hn)⟩, h.len]
  | look d a ih =>
    intro h r inv
    have := ih ⟨h.len, fun i x x' e e' => by simpa [alike] using h.tests i x x' e e', fun hn => h.refs (by simpa [noBackref] using hn)⟩
    funext p
    simp only [proc, this]
  | bol =>
    intro h r inv
    funext p
    simp only [proc, ends]
    rw [atStart_both h.len (fun hm i x x' e e' => by simpa [alike, hm] using h.tests i x x' e e')]
  | boi =>
    intro h r inv
    funext p
    simp only [proc, ends]
    rw [atStart_both h.len (fun hm => by cases hm)]
  | eol =>
    intro h r inv
    funext p
    simp only [proc, ends, atStop]
    rw [atStart_both h.len (fun hm i x x' e e' => by simpa [alike, hm] using h.tests i x x' e e')]
  | eoi =>
    intro h r inv
    funext p
    simp only [proc, ends, atStop]
    rw [atStart_both h.len (fun hm => by cases hm)]
  | wordB =>
    intro h r inv
    funext p
    simp only [proc, ends]
    have key : isWordAt s = isWordAt s' := by
      funext p
      exact isAt_both h.len (P := wordByte) (fun i x x' e e' => by simpa [alike] using h.tests i x x' e e') p
    rw [key]
  | backref k =>
    intro h r inv
    funext p
    simp only [proc]
    exact reference_both h.len (h.refs rfl) k r p
  | namedBackref n =>
    intro h r inv
    funext p
    simp only [proc]
    exact reference_both h.len (h.refs rfl) (ν n) r p

end Mregex
