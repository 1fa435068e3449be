import Verif.Proof.Lengths

/-!
# What holds at all positions that an expression visits
-/

namespace Mregex
open Ast Spec

theorem fit_and {N N' : Nat → Nat → Nat → Prop} {Q Q' : Nat → Prop} {P : Proc} (h : Proc.Fit N Q P) (h' : Proc.Fit N' Q' P) :
    Proc.Fit (fun k b e => N k b e ∧ N' k b e) (fun q => Q q ∧ Q' q) P := by
  induction P with
  | done => trivial
  | note k b e P ih => exact ⟨⟨h.1, h'.1⟩, ih h.2 h'.2⟩
  | cross k P ih => exact ih h h'
  | offer q P ih => exact ⟨⟨h.1, h'.1⟩, ih h.2 h'.2⟩
  | recall k f ih => exact fun v => ih v (h v) (h' v)

section
variable {N : Nat → Nat → Nat → Prop} {Q : Nat → Prop} {g : Nat → Proc} (hg : ∀ q, Q q → Proc.Fit N Q (g q))
include hg

theorem stay_times (k p : Nat) (hp : Q p) : Proc.Fit N Q (Proc.times g k p) := by
  induction k generalizing p with
  | zero => exact fit_only hp
  | succ k ih => exact fit_proceed (hg p hp) ih

theorem stay_extra (n : Nat) (m : Mode) (u : Bool) (k : Option Nat) (p : Nat) (hp : Q p) : Proc.Fit N Q (Proc.extra n m u g k p) := by
  have h1 : ∀ k p, Q p → Proc.Fit N Q (Proc.greedyUpTo g k p) := by
    intro k
    induction k with
    | zero => exact fun p hp => fit_only hp
    | succ k ih => exact fun p hp => fit_andThen (fit_proceed (hg p hp) ih) (fit_only hp)
  have h2 : ∀ k p, Q p → Proc.Fit N Q (Proc.lazyUpTo g k p) := by
    intro k
    induction k with
    | zero => exact fun p hp => fit_only hp
    | succ k ih => exact fun p hp => fit_andThen (fit_only hp) (fit_proceed (hg p hp) ih)
  have h3 : ∀ k p, Q p → Proc.Fit N Q (Proc.greedyStar g k p) := by
    intro k
    induction k with
    | zero => exact fun p hp => trivial
    | succ k ih => exact fun p hp => fit_andThen (fit_proceed (fit_except (hg p hp) p) ih) (fit_only hp)
  have h4 : ∀ k p, Q p → Proc.Fit N Q (Proc.lazyStar g k p) := by
    intro k
    induction k with
    | zero => exact fun p hp => trivial
    | succ k ih => exact fun p hp => fit_andThen (fit_only hp) (fit_proceed (fit_except (hg p hp) p) ih)
  have h5 : ∀ k p, Q p → Proc.Fit N Q (Proc.possessiveUpTo g k p) := by
    intro k
    induction k with
    | zero => exact fun p hp => fit_only hp
    | succ k ih => exact fun p hp => fit_commit (hg p hp) ih (fit_only hp)
  have h6 : ∀ k p, Q p → Proc.Fit N Q (Proc.possessiveStar g k p) := by
    intro k
    induction k with
    | zero => exact fun p hp => trivial
    | succ k ih =>
      refine fun p hp => fit_commit (hg p hp) (fun q hq => ?_) (fit_only hp)
      split
      · exact fit_only hp
      · exact ih q hq
  cases k <;> cases m <;> cases u <;> first | exact h1 _ _ hp | exact h2 _ _ hp | exact h3 _ _ hp | exact h4 _ _ hp | exact h5 _ _ hp | exact h6 _ _ hp

theorem stay_quantified (n : Nat) (m : Mode) (u : Bool) (lo : Nat) (hi : Bound) (p : Nat) (hp : Q p) : Proc.Fit N Q (Proc.quantified n m u lo hi g p) := by
  unfold Proc.quantified
  have ht := stay_times hg lo p hp
  have ht : Proc.Fit N Q (match m with | .possessive => (Proc.times g lo p).commit .only .done | _ => Proc.times g lo p) := by
    cases m
    · exact ht
    · exact ht
    · exact fit_commit ht (fun q hq => fit_only hq) trivial
  exact fit_proceed ht (fun q hq => stay_extra hg _ _ _ _ q hq)

end

theorem carryOut_stay {N : Nat → Nat → Nat → Prop} {n : Nat} {g : Nat → Proc} {Q : Nat → Nat → Prop} (hg : ∀ p, p ≤ n → Proc.Fit N (Q p) (g p)) (cur : Nat)
    (hcur : cur ≤ n) (h : Notes) (hh : Kept N h) (M : Method) :
    (∀ b e, (carryOut n g cur h M).1 = some (b, e) → Q b e) ∧ Kept N (carryOut n g cur h M).2 := by
  have hc : carryOut n g cur h M = carryOut n (fun p => if p ≤ n then g p else .done) cur h M := by
    cases M with
    | «match» => simp only [carryOut, hcur, if_true]
    | matchPrefix => simp only [carryOut, hcur, if_true]
    | search =>
      simp only [carryOut]
      have hl : ∀ j ∈ List.range' cur (n + 1 - cur), j ≤ n := by
        intro j hj
        rw [List.mem_range'_1] at hj
        omega
      generalize List.range' cur (n + 1 - cur) = l at hl
      induction l generalizing h with
      | nil => rfl
      | cons j l ih =>
        simp only [tryFrom, hl j (by simp), if_true]
        split
        · rfl
        · next h' hf => exact ih h' (by have := (follow_fit (acc := fun _ => true) (hg j (hl j (by simp))) h hh).2; rw [hf] at this; exact this) (fun t ht => hl t (List.mem_cons_of_mem _ ht))
  rw [hc]
  refine carryOut_fit (fun p => ?_) cur h hh M
  split
  · next hp => exact hg p hp
  · exact trivial

theorem oneChar_le {s : List Byte} {fwd : Bool} {acc : Byte → Bool} {p q : Nat} (h : q ∈ oneChar s fwd acc p) : q ≤ s.length := by
  unfold oneChar readChar at h
  cases fwd with
  | true =>
    simp only [if_true] at h
    cases hs : s[p]? with
    | none => simp [hs] at h
    | some x =>
      have := (List.getElem?_eq_some_iff.1 hs).1
      simp only [hs, Option.map_some] at h
      split at h <;> simp at h
      omega
  | false =>
    cases p with
    | zero => simp at h
    | succ p =>
      cases hs : s[p]? with
      | none => simp [hs] at h
      | some x =>
        have := (List.getElem?_eq_some_iff.1 hs).1
        simp only [hs, Bool.false_eq_true, if_false, Option.map_some] at h
        split at h <;> simp at h
        omega

theorem copies_le {ic : Bool} {s : List Byte} {fwd : Bool} {w : List Byte} {p q : Nat} (hp : p ≤ s.length) (h : q ∈ copies ic s fwd w p) : q ≤ s.length := by
  induction w generalizing p with
  | nil => simp only [copies, List.mem_singleton] at h; omega
  | cons x w ih =>
    simp only [copies, List.mem_flatMap] at h
    obtain ⟨t, h1, h2⟩ := h
    exact ih (oneChar_le h1) h2

theorem test_le {b : Bool} {s : List Byte} {p q : Nat} (hp : p ≤ s.length) (h : q ∈ Spec.test b p) : q ≤ s.length := by
  unfold Spec.test at h
  split at h
  · simp only [List.mem_singleton] at h; omega
  · cases h

/-- All positions lie in the input. -/
theorem stay_proc (f : Flags) (s : List Byte) (ν : List Byte → Nat) (a : Ast) (r : Nat) (inv : Bool) (p : Nat) (hp : p ≤ s.length) :
    Proc.Fit (fun _ b e => b ≤ s.length ∧ e ≤ s.length) (· ≤ s.length) (proc f s ν a r inv p) := by
  induction a using ind generalizing r inv p with
  | neg a ih =>
    simp only [proc]
    split
    · exact fit_commit (ih r inv p hp) (fun _ _ => trivial) (fit_only hp)
    · exact fit_offers (fun q hq => oneChar_le hq)
  | seq l ih =>
    simp only [proc]
    induction l generalizing p with
    | nil => exact fit_only hp
    | cons a l ihl =>
      have ihl := ihl (fun b h => ih b (List.mem_cons_of_mem _ h))
      have iha := ih a (by simp) r inv
      simp only [procAll]
      split
      · exact fit_proceed (ihl p hp) iha
      · exact fit_proceed (iha p hp) ihl
  | alt l ih =>
    simp only [proc]
    induction l with
    | nil => exact trivial
    | cons a l ihl =>
      simp only [procAny]
      split
      · exact fit_offers (fun q hq => oneChar_le hq)
      · exact fit_andThen (ih a (by simp) r inv p hp) (ihl (fun b h => ih b (List.mem_cons_of_mem _ h)))
  | cap id n a ih =>
    simp only [proc]
    refine fit_andThen (fit_proceed (ih r inv p hp) (fun q hq => ?_)) trivial
    split
    · exact ⟨⟨hp, hq⟩, hq, trivial⟩
    · exact ⟨⟨hq, hp⟩, hq, trivial⟩
  | rep m lo hi a ih => simp only [proc]; exact stay_quantified (fun q hq => ih r inv q hq) _ _ _ _ _ p hp
  | look d a ih =>
    simp only [proc]
    split
    · exact fit_commit (ih r false p hp) (fun _ _ => fit_only hp) trivial
    · exact fit_commit (ih (r + 1) true p hp) (fun _ _ => fit_only hp) trivial
  | backref k => simp only [proc, reference]; exact fun v => fit_offers (fun q hq => copies_le hp hq)
  | namedBackref n => simp only [proc, reference]; exact fun v => fit_offers (fun q hq => copies_le hp hq)
  | empty => simp only [proc, ends]; exact fit_offers (fun q hq => by simp only [List.mem_singleton] at hq; omega)
  | lit | range | wildcard | set => simp only [proc, ends]; exact fit_offers (fun q hq => oneChar_le hq)
  | bol | boi | eol | eoi | wordB => simp only [proc, ends]; exact fit_offers (fun q hq => test_le hp hq)

end Mregex
