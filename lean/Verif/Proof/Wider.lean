import Verif.Spec.Wider
import Verif.Proof.Frame

/-!
# Parts that permit more, inside of larger expressions
-/

namespace Mregex
open Ast Spec

section
variable {n : Nat} {g g' : Nat → List Nat} (hg : ∀ p, p ≤ n → ∀ q ∈ g p, q ∈ g' p) (hin : ∀ p, p ≤ n → ∀ q ∈ g p, q ≤ n)
include hg hin

theorem exactly_more (k : Nat) : ∀ p, p ≤ n → ∀ q ∈ exactly g k p, q ∈ exactly g' k p ∧ q ≤ n := by
  induction k with
  | zero => intro p hp q hq; simp only [exactly, List.mem_singleton] at hq ⊢; exact ⟨hq, hq ▸ hp⟩
  | succ k ih =>
    intro p hp q hq
    simp only [exactly, List.mem_flatMap] at hq ⊢
    obtain ⟨t, h1, h2⟩ := hq
    obtain ⟨h3, h4⟩ := ih t (hin p hp t h1) q h2
    exact ⟨⟨t, hg p hp t h1, h3⟩, h4⟩

theorem greedyUpTo_more (k : Nat) : ∀ p, p ≤ n → ∀ q ∈ greedyUpTo g k p, q ∈ greedyUpTo g' k p := by
  induction k with
  | zero => intro p _ q hq; exact hq
  | succ k ih =>
    intro p hp q hq
    simp only [greedyUpTo, List.mem_append, List.mem_flatMap] at hq ⊢
    exact hq.imp_left fun ⟨t, h1, h2⟩ => ⟨t, hg p hp t h1, ih t (hin p hp t h1) q h2⟩

theorem greedyStar_more (k : Nat) : ∀ p, p ≤ n → ∀ q ∈ greedyStar g k p, q ∈ greedyStar g' k p := by
  induction k with
  | zero => intro p _ q hq; exact hq
  | succ k ih =>
    intro p hp q hq
    simp only [greedyStar, List.mem_append, List.mem_flatMap, List.mem_filter] at hq ⊢
    exact hq.imp_left fun ⟨t, ⟨h1, h0⟩, h2⟩ => ⟨t, ⟨hg p hp t h1, h0⟩, ih t (hin p hp t h1) q h2⟩

theorem quantified_more (N : Nat) {m : Mode} (hm : m ≠ .possessive) (u : Bool) (lo : Nat) (hi : Bound) (p : Nat) (hp : p ≤ n) :
    ∀ q ∈ quantified N m u lo hi g p, q ∈ quantified N m u lo hi g' p := by
  have hx : ∀ k t, t ≤ n → ∀ q ∈ extra N m u g k t, q ∈ extra N m u g' k t := by
    intro k t ht q hq
    have h1 := fun k => greedyUpTo_more hg hin k t ht q
    have h3 := fun k => greedyStar_more hg hin k t ht q
    cases k <;> cases m <;> cases u <;> simp only [extra, mem_lazyUpTo, mem_lazyStar] at hq ⊢ <;> first | exact absurd rfl hm | exact h1 _ hq | exact h3 _ hq
  intro q hq
  unfold quantified at hq ⊢
  cases m with
  | possessive => exact absurd rfl hm
  | greedy | lazy =>
    simp only [List.mem_flatMap] at hq ⊢
    obtain ⟨t, h1, h2⟩ := hq
    obtain ⟨h3, h4⟩ := exactly_more hg hin lo p hp t h1
    exact ⟨t, h3, hx _ t h4 q h2⟩

end

section
variable {f : Flags} {s : List Byte} {fwd inv : Bool} {a b : Ast}

theorem endsAll_more (h : ∀ p, p ≤ s.length → ∀ q ∈ ends f s a fwd inv p, q ∈ ends f s b fwd inv p) (pre post : List Ast) :
    ∀ p, p ≤ s.length → ∀ q ∈ endsAll f s (pre ++ a :: post) fwd inv p, q ∈ endsAll f s (pre ++ b :: post) fwd inv p := by
  have bound : ∀ l p q, p ≤ s.length → q ∈ endsAll f s l fwd inv p → q ≤ s.length := fun l p q hp hq =>
    ends_within (a := .seq l) (f := f) (fwd := fwd) (inv := inv) hp (by simpa only [ends] using hq)
  induction pre with
  | nil =>
    intro p hp q hq
    cases inv <;> simp only [List.nil_append, endsAll, if_true, Bool.false_eq_true, if_false, List.mem_flatMap] at hq ⊢ <;> obtain ⟨t, h1, h2⟩ := hq
    · exact ⟨t, h p hp t h1, h2⟩
    · exact ⟨t, h1, h t (bound _ _ _ hp h1) q h2⟩
  | cons c pre ih =>
    intro p hp q hq
    cases inv <;> simp only [List.cons_append, endsAll, if_true, Bool.false_eq_true, if_false, List.mem_flatMap] at hq ⊢ <;> obtain ⟨t, h1, h2⟩ := hq
    · exact ⟨t, h1, ih t (ends_within hp h1) q h2⟩
    · exact ⟨t, ih p hp t h1, h2⟩

theorem endsAny_more {p : Nat} (h : ∀ q ∈ ends f s a fwd inv p, q ∈ ends f s b fwd inv p) (pre post : List Ast) :
    ∀ q ∈ endsAny f s (pre ++ a :: post) fwd inv p, q ∈ endsAny f s (pre ++ b :: post) fwd inv p := by
  intro q hq
  induction pre with
  | nil => simp only [List.nil_append, endsAny, List.mem_append] at hq ⊢; exact hq.imp_left (h q)
  | cons c pre ih => simp only [List.cons_append, endsAny, List.mem_append] at hq ⊢; exact hq.imp_right ih

theorem test_more {l l' : List Nat} {p : Nat} (h : ∀ q ∈ l, q ∈ l') : ∀ q ∈ test (!l.isEmpty) p, q ∈ test (!l'.isEmpty) p := by
  intro q hq
  cases l with
  | nil => cases hq
  | cons x l =>
    cases l' with
    | nil => exact absurd (h x (by simp)) (by simp)
    | cons => exact hq

theorem test_fewer {l l' : List Nat} {p : Nat} (h : ∀ q ∈ l, q ∈ l') : ∀ q ∈ test l'.isEmpty p, q ∈ test l.isEmpty p := by
  intro q hq
  cases l with
  | nil =>
    cases l' with
    | nil => exact hq
    | cons => cases hq
  | cons x l =>
    cases l' with
    | nil => exact absurd (h x (by simp)) (by simp)
    | cons => exact hq

end

/-- No lookbehind around the gap. -/
def Spec.Frame.ahead : Frame → Bool
  | .gap => true
  | .seq _ C _ | .alt _ C _ | .cap _ _ C | .rep _ _ _ C => C.ahead
  | .look d C | .notLook d C => d == .ahead && C.ahead

theorem ahead_of_ok {E : Env} (hc : E.cat = .forward) {X : Ast} : ∀ {C : Frame} {r : Nat}, Ok E r (C.fill X) → C.ahead = true
  | .gap, _, _ => rfl
  | .seq pre C post, r, h => by cases h with | seq _ h => exact ahead_of_ok (C := C) hc (h _ (by simp) : Ok E r (C.fill X))
  | .alt pre C post, r, h => by cases h with | alt _ h => exact ahead_of_ok (C := C) hc (h _ (by simp) : Ok E r (C.fill X))
  | .cap id name C, r, h => by cases h with | cap _ _ h => exact ahead_of_ok (C := C) hc h
  | .rep m lo hi C, r, h => by cases h with | repFin _ h => exact ahead_of_ok (C := C) hc h | repInf h => exact ahead_of_ok (C := C) hc h
  | .look .ahead C, r, h => by cases h with | ahead h => exact ahead_of_ok (C := C) hc h
  | .look .behind C, r, h => absurd hc (ok_behind.1 h).1
  | .notLook .ahead C, r, h => by cases h with | neg _ h => cases h with | ahead h => exact ahead_of_ok (C := C) hc h
  | .notLook .behind C, r, h => by cases h with | neg _ h => exact absurd hc (ok_behind.1 h).1

/-- What permits more in the gap permits more, or less if it is negated. -/
theorem wider_fill {f : Flags} {cat : Cat} (s : List Byte) :
    ∀ (C : Frame), C.backtracks = true → (cat = .forward → C.ahead = true) → ∀ {X Y : Ast},
      (∀ fwd inv, Readings cat fwd inv → ∀ p, p ≤ s.length → ∀ q ∈ ends f s X fwd inv p, q ∈ ends f s Y fwd inv p) →
      ∀ fwd inv, Readings cat fwd inv → ∀ p, p ≤ s.length → ∀ q,
        if C.positive then q ∈ ends f s (C.fill X) fwd inv p → q ∈ ends f s (C.fill Y) fwd inv p
        else q ∈ ends f s (C.fill Y) fwd inv p → q ∈ ends f s (C.fill X) fwd inv p := by
  have looks : ∀ (d : LookDir) (A B : Ast), (cat = .forward → d = .ahead) →
      (∀ fwd inv, Readings cat fwd inv → ∀ p, p ≤ s.length → ∀ q ∈ ends f s A fwd inv p, q ∈ ends f s B fwd inv p) →
      ∀ fwd inv, Readings cat fwd inv → ∀ p, p ≤ s.length → ∀ q ∈ ends f s (.look d A) fwd inv p, q ∈ ends f s (.look d B) fwd inv p := by
    intro d A B hd h fwd inv hr p hp q hq
    simp only [ends] at hq ⊢
    by_cases hc : cat = .forward
    · cases hd hc
      rcases hr with hr | ⟨rfl, rfl⟩
      · exact absurd hc hr
      · simp only [show ((LookDir.ahead == LookDir.ahead) == !false) = true from rfl, if_true] at hq ⊢
        exact test_more (h true false (.inr ⟨rfl, rfl⟩) p hp) q hq
    · split at hq
      · next hi => rw [if_pos hi]; exact test_more (h _ _ (.inl hc) p hp) q hq
      · next hi => rw [if_neg hi]; exact test_more (h _ _ (.inl hc) p hp) q hq
  intro C
  induction C with
  | gap => intro _ _ X Y h fwd inv hr p hp q; exact h fwd inv hr p hp q
  | seq pre C post ih =>
    intro hb ha X Y h fwd inv hr p hp q
    have ih := ih hb ha h fwd inv hr
    simp only [Frame.fill, ends, Frame.positive]
    cases hC : C.positive <;> simp only [hC, if_true, Bool.false_eq_true, if_false] at ih ⊢
    · exact endsAll_more (fun p hp q => ih p hp q) pre post p hp q
    · exact endsAll_more (fun p hp q => ih p hp q) pre post p hp q
  | alt pre C post ih =>
    intro hb ha X Y h fwd inv hr p hp q
    have ih := ih hb ha h fwd inv hr p hp
    simp only [Frame.fill, ends, Frame.positive]
    cases hC : C.positive <;> simp only [hC, if_true, Bool.false_eq_true, if_false] at ih ⊢
    · exact endsAny_more (fun q => ih q) pre post q
    · exact endsAny_more (fun q => ih q) pre post q
  | cap id name C ih =>
    intro hb ha X Y h fwd inv hr p hp q
    simp only [Frame.fill, ends, Frame.positive]
    exact ih hb ha h fwd inv hr p hp q
  | rep m lo hi C ih =>
    intro hb ha X Y h fwd inv hr p hp q
    simp only [Frame.backtracks, Bool.and_eq_true, bne_iff_ne, ne_eq] at hb
    have ih := ih hb.2 ha h fwd inv hr
    simp only [Frame.fill, ends, Frame.positive]
    cases hC : C.positive <;> simp only [hC, if_true, Bool.false_eq_true, if_false] at ih ⊢
    · exact quantified_more (fun p hp q => ih p hp q) (fun p hp q hq => ends_within hp hq) _ hb.1 _ _ _ p hp q
    · exact quantified_more (fun p hp q => ih p hp q) (fun p hp q hq => ends_within hp hq) _ hb.1 _ _ _ p hp q
  | look d C ih =>
    intro hb ha X Y h fwd inv hr p hp q
    have hd : cat = .forward → d = .ahead := fun hc => by
      have := ha hc
      simp only [Frame.ahead, Bool.and_eq_true, beq_iff_eq] at this
      exact this.1
    have ih := ih hb (fun hc => by have := ha hc; simp only [Frame.ahead, Bool.and_eq_true] at this; exact this.2) h
    by_cases hC : C.positive = true
    · rw [if_pos (show (Frame.look d C).positive = true from hC)]
      simp only [if_pos hC] at ih
      exact looks d _ _ hd (fun fwd inv hr p hp q => ih fwd inv hr p hp q) fwd inv hr p hp q
    · rw [if_neg (show ¬(Frame.look d C).positive = true from hC)]
      simp only [if_neg hC] at ih
      exact looks d _ _ hd (fun fwd inv hr p hp q => ih fwd inv hr p hp q) fwd inv hr p hp q
  | notLook d C ih =>
    intro hb ha X Y h fwd inv hr p hp q
    have hd : cat = .forward → d = .ahead := fun hc => by
      have := ha hc
      simp only [Frame.ahead, Bool.and_eq_true, beq_iff_eq] at this
      exact this.1
    have ih := ih hb (fun hc => by have := ha hc; simp only [Frame.ahead, Bool.and_eq_true] at this; exact this.2) h
    simp only [Frame.fill, Frame.positive]
    rw [ends, ends]
    simp only [assertion, if_true]
    cases hC : C.positive <;> simp only [hC, if_true, Bool.not_true, Bool.not_false, Bool.false_eq_true, if_false] at ih ⊢
    · exact test_fewer (looks d _ _ hd (fun fwd inv hr p hp q => ih fwd inv hr p hp q) fwd inv hr p hp) q
    · exact test_fewer (looks d _ _ hd (fun fwd inv hr p hp q => ih fwd inv hr p hp q) fwd inv hr p hp) q

end Mregex
