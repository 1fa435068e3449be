import Verif.Proof.Machine
import Verif.Proof.Frame
import Verif.Spec.Exchange

/-!
# Texts with marks
-/

namespace Mregex
open Ast Spec

/-! ### Each position once -/

theorem findSome?_firsts {X : Type} (g : Nat → Option X) (l : List Nat) : (firsts l).findSome? g = l.findSome? g := by
  have skip : ∀ (p : Nat) (l : List Nat), g p = none → (l.filter (· ≠ p)).findSome? g = l.findSome? g := by
    intro p l hp
    induction l with
    | nil => rfl
    | cons q l ih =>
      by_cases hq : q = p
      · subst hq; simp only [ne_eq, not_true_eq_false, decide_false, Bool.false_eq_true, not_false_eq_true, List.filter_cons_of_neg, List.findSome?_cons, hp]
        exact ih
      · simp only [ne_eq, hq, not_false_eq_true, decide_true, List.filter_cons_of_pos, List.findSome?_cons]
        rw [← ih]
  induction l with
  | nil => rfl
  | cons p l ih =>
    simp only [firsts, List.findSome?_cons]
    cases hp : g p with
    | some x => rfl
    | none => exact (skip p _ hp).trans ih

theorem find?_firsts (A : Nat → Bool) (l : List Nat) : (firsts l).find? A = l.find? A := by
  have key : ∀ l : List Nat, l.find? A = l.findSome? (fun q => if A q then some q else none) := by
    intro l
    induction l with
    | nil => rfl
    | cons q l ih => simp only [List.find?_cons, List.findSome?_cons]; cases A q <;> simp [ih]
  rw [key, key, findSome?_firsts]

theorem firsts_nodup (l : List Nat) : (firsts l).Nodup := by
  induction l with
  | nil => exact List.nodup_nil
  | cons p l ih => exact List.nodup_cons.2 ⟨fun h => by simp at h, ih.filter _⟩

theorem eq_of_find? : ∀ {l l' : List Nat}, l.Nodup → l'.Nodup → (∀ A : Nat → Bool, l.find? A = l'.find? A) → l = l'
  | [], [], _, _, _ => rfl
  | [], q :: l', _, _, h => by have := h fun _ => true; simp at this
  | q :: l, [], _, _, h => by have := h fun _ => true; simp at this
  | q :: l, q' :: l', hn, hn', h => by
    have hq : q = q' := by have := h fun _ => true; simpa using this
    subst hq
    obtain ⟨h1, h2⟩ := List.nodup_cons.1 hn
    obtain ⟨h1', h2'⟩ := List.nodup_cons.1 hn'
    refine congrArg (q :: ·) (eq_of_find? h2 h2' fun A => ?_)
    have := h fun r => A r && r != q
    simp only [List.find?_cons, bne_self_eq_false, Bool.and_false] at this
    have drop : ∀ l : List Nat, q ∉ l → l.find? (fun r => A r && r != q) = l.find? A := by
      intro l hl
      induction l with
      | nil => rfl
      | cons r l ih =>
        have hr : r ≠ q := fun e => hl (by simp [e])
        simp only [List.find?_cons, bne_iff_ne.2 hr, Bool.and_true, ih fun h => hl (List.mem_cons_of_mem _ h)]
    rwa [drop l h1, drop l' h1'] at this

theorem firsts_eq_iff {l l' : List Nat} : firsts l = firsts l' ↔ ∀ A : Nat → Bool, l.find? A = l'.find? A :=
  ⟨fun h A => by rw [← find?_firsts, h, find?_firsts],
    fun h => eq_of_find? (firsts_nodup _) (firsts_nodup _) fun A => by rw [find?_firsts, find?_firsts, h]⟩

/-! ### Marks -/

/-- A character and the mark of the position before it. -/
abbrev Marked := Byte × Option Bool

/-- The mark of a position; `e` is the one at the end. -/
def markAt (e : Option Bool) (t : List Marked) (p : Nat) : Option Bool :=
  match t[p]? with
  | some x => x.2
  | none => e

/-- Write the marks into the text. -/
def marked (L : Nat → Option Bool) (s : List Byte) : List Marked := s.zip ((List.range s.length).map L)

theorem marked_text (L : Nat → Option Bool) (s : List Byte) : (marked L s).map Prod.fst = s :=
  List.map_fst_zip (by simp)

theorem marked_mark (L : Nat → Option Bool) (s : List Byte) {p : Nat} (hp : p ≤ s.length) : markAt (L s.length) (marked L s) p = L p := by
  unfold markAt marked
  by_cases h : p = s.length
  · subst h
    rw [List.getElem?_eq_none (by simp)]
  · have h' : p < s.length := by omega
    rw [List.getElem?_eq_getElem (by simpa using h')]
    simp

theorem card_marked : Nat.card Marked = 768 := by
  rw [Nat.card_prod, Recog.card_byte, Finite.card_option, Nat.card_eq_fintype_card, Fintype.card_bool]

/-- **If two expressions give different answers for some text with marks, then they do for a short one.** -/
theorem answers_short {f f' : Flags} {fwd inv : Bool} {X Y : Ast} (g : Option Bool → Option Bool)
    (h : ∀ s, s.length < choiceBound X Y → ∀ p, p ≤ s.length → ∀ L : Nat → Option Bool,
      (ends f s X fwd inv p).findSome? (fun q => g (L q)) = (ends f' s Y fwd inv p).findSome? (fun q => g (L q))) (s : List Byte) (p : Nat) (hp : p ≤ s.length)
    (L : Nat → Option Bool) : (ends f s X fwd inv p).findSome? (fun q => g (L q)) = (ends f' s Y fwd inv p).findSome? (fun q => g (L q)) := by
  apply Classical.byContradiction
  intro hne
  have hK : Recog 769 fun (t : List Marked) p (_ : Bool) => g (markAt (L s.length) t p) := by
    have := Recog.nextOf (α := Marked)
    rw [card_marked] at this
    exact this.map (σ := Bool → Option Bool) fun x (_ : Bool) => g (match x with | some x => x.2 | none => L s.length)
  have hX := (machine f X fwd inv).answerOf (π := Prod.fst) (X := Bool) (x := 2) (by simp) hK false
  have hY := (machine f' Y fwd inv).answerOf (π := Prod.fst) (X := Bool) (x := 2) (by simp) hK false
  have hd := (hX.pair hY).map fun x => x.1 ≠ x.2
  have within : ∀ {f : Flags} {Z : Ast} {q : Nat}, q ∈ ends f s Z fwd inv p → q ≤ s.length := fun hq => ends_within hp hq
  obtain ⟨t, q, h1, h2, h3⟩ := hd.around (s := marked L s) (p := p) (by simpa [marked] using hp) (by
    have e : ∀ (f : Flags) (Z : Ast), ask (ends f ((marked L s).map Prod.fst) Z fwd inv p) (fun _ p => g (markAt (L s.length) (marked L s) p)) false p =
        (ends f s Z fwd inv p).findSome? (fun q => g (L q)) := by
      intro f Z
      rw [marked_text]
      exact findSome?_congr fun j hj => congrArg g (marked_mark L s (within hj))
    dsimp only
    rw [e, e]
    exact hne)
  refine h3 (h (t.map Prod.fst) ?_ q ?_ (markAt (L s.length) t))
  · rw [List.length_map]; exact h2
  · rw [List.length_map]; exact h1

/-- The first position with a property, found by marks. -/
theorem find?_marks {A : Nat → Bool} {j : Nat} (hj : A j = true) (l : List Nat) :
    l.findSome? (fun q => if q = j then some true else if A q then some false else none) = some true ↔ l.find? A = some j := by
  induction l with
  | nil => simp
  | cons q l ih =>
    by_cases hq : q = j
    · subst hq; simp [hj]
    · cases hA : A q
      · simp [hq, hA, ih]
      · simp [hq, hA]

end Mregex
