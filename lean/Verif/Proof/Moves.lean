import Verif.Proof.ProcMain
import Verif.Spec.Unfold

/-!
# Where procedures go
-/

namespace Mregex
open Ast Spec

/-- All offers have the property. -/
def Proc.All (Q : Nat → Prop) : Proc → Prop
  | .done => True
  | .note _ _ _ P => Proc.All Q P
  | .cross _ P => Proc.All Q P
  | .offer q P => Q q ∧ Proc.All Q P
  | .recall _ f => ∀ v, Proc.All Q (f v)

section
variable {Q Q' : Nat → Prop}

theorem all_mono {P : Proc} (h : Proc.All Q P) (hq : ∀ q, Q q → Q' q) : Proc.All Q' P := by
  induction P with
  | done => trivial
  | note _ _ _ P ih => exact ih h
  | cross _ P ih => exact ih h
  | offer q P ih => exact ⟨hq q h.1, ih h.2⟩
  | recall _ f ih => exact fun v => ih v (h v)

theorem all_andThen {P P' : Proc} (h : Proc.All Q P) (h' : Proc.All Q P') : Proc.All Q (P.andThen P') := by
  induction P with
  | done => exact h'
  | note _ _ _ P ih => exact ih h
  | cross _ P ih => exact ih h
  | offer q P ih => exact ⟨h.1, ih h.2⟩
  | recall _ f ih => exact fun v => ih v (h v)

theorem all_proceed {P : Proc} {g : Nat → Proc} (h : Proc.All Q P) (hg : ∀ q, Q q → Proc.All Q' (g q)) : Proc.All Q' (P.proceed g) := by
  induction P with
  | done => trivial
  | note _ _ _ P ih => exact ih h
  | cross _ P ih => exact ih h
  | offer q P ih => exact all_andThen (hg q h.1) (ih h.2)
  | recall _ f ih => exact fun v => ih v (h v)

theorem all_commit {P P' : Proc} {g : Nat → Proc} (h : Proc.All Q P) (hg : ∀ q, Q q → Proc.All Q' (g q)) (h' : Proc.All Q' P') :
    Proc.All Q' (P.commit g P') := by
  induction P with
  | done => exact h'
  | note _ _ _ P ih => exact ih h
  | cross _ P ih => exact ih h
  | offer q P ih => exact hg q h.1
  | recall _ f ih => exact fun v => ih v (h v)

theorem all_except {P : Proc} (h : Proc.All Q P) (p : Nat) : Proc.All (fun q => Q q ∧ q ≠ p) (P.except p) := by
  induction P with
  | done => trivial
  | note _ _ _ P ih => exact ih h
  | cross _ P ih => exact ih h
  | offer q P ih =>
    simp only [Proc.except]
    split
    · exact ih h.2
    · next hq => exact ⟨⟨h.1, hq⟩, ih h.2⟩
  | recall _ f ih => exact fun v => ih v (h v)

theorem all_offers {l : List Nat} (h : ∀ q ∈ l, Q q) : Proc.All Q (.offers l) := by
  induction l with
  | nil => trivial
  | cons q l ih => exact ⟨h q (by simp), ih (fun q hq => h q (List.mem_cons_of_mem _ hq))⟩

theorem all_only {q : Nat} (h : Q q) : Proc.All Q (.only q) := ⟨h, trivial⟩

theorem all_true (P : Proc) : Proc.All (fun _ => True) P := by
  induction P with
  | done => trivial
  | note _ _ _ P ih => exact ih
  | cross _ P ih => exact ih
  | offer q P ih => exact ⟨trivial, ih⟩
  | recall _ f ih => exact fun v => ih v

theorem proceed_on {P : Proc} {g g' : Nat → Proc} (h : Proc.All Q P) (hg : ∀ q, Q q → g q = g' q) : P.proceed g = P.proceed g' := by
  induction P with
  | done => rfl
  | note _ _ _ P ih => simp only [Proc.proceed, ih h]
  | cross _ P ih => simp only [Proc.proceed, ih h]
  | offer q P ih => simp only [Proc.proceed, hg q h.1, ih h.2]
  | recall _ f ih => simp only [Proc.proceed, fun v => ih v (h v)]

theorem commit_on {P P' : Proc} {g g' : Nat → Proc} (h : Proc.All Q P) (hg : ∀ q, Q q → g q = g' q) : P.commit g P' = P.commit g' P' := by
  induction P with
  | done => rfl
  | note _ _ _ P ih => simp only [Proc.commit, ih h]
  | cross _ P ih => simp only [Proc.commit, ih h]
  | offer q P ih => simp only [Proc.commit, hg q h.1]
  | recall _ f ih => simp only [Proc.commit, fun v => ih v (h v)]

theorem except_eq {P : Proc} {p : Nat} (h : Proc.All (· ≠ p) P) : P.except p = P := by
  induction P with
  | done => rfl
  | note _ _ _ P ih => simp only [Proc.except, ih h]
  | cross _ P ih => simp only [Proc.except, ih h]
  | offer q P ih => simp only [Proc.except, if_neg h.1, ih h.2]
  | recall _ f ih => simp only [Proc.except, fun v => ih v (h v)]

end

/-- Onwards in reading direction, in a text of length `n`. -/
def Onward (n : Nat) (fwd : Bool) (p q : Nat) : Prop := (fwd = true ∧ p < q ∧ q ≤ n) ∨ (fwd = false ∧ q < p ∧ p ≤ n)

/-- Onwards, or (unless `z`) nowhere. -/
def Moves (n : Nat) (fwd z : Bool) (p q : Nat) : Prop := (q = p ∧ z = false) ∨ Onward n fwd p q

section
variable {n : Nat} {fwd : Bool}

theorem Onward.trans {p q t : Nat} (h : Onward n fwd p q) (h' : Onward n fwd q t) : Onward n fwd p t := by
  rcases h with ⟨e, h⟩ | ⟨e, h⟩ <;> rcases h' with ⟨e', h'⟩ | ⟨e', h'⟩
  · exact .inl ⟨e, by omega, by omega⟩
  · rw [e] at e'; cases e'
  · rw [e] at e'; cases e'
  · exact .inr ⟨e, by omega, by omega⟩

theorem Onward.ne {p q : Nat} (h : Onward n fwd p q) : q ≠ p := by
  rcases h with ⟨_, h⟩ | ⟨_, h⟩ <;> omega

theorem Moves.self (p : Nat) : Moves n fwd false p p := .inl ⟨rfl, rfl⟩

theorem Moves.trans {z z' : Bool} {p q t : Nat} (h : Moves n fwd z p q) (h' : Moves n fwd z' q t) : Moves n fwd (z || z') p t := by
  rcases h with ⟨rfl, rfl⟩ | h
  · simpa using h'
  · rcases h' with ⟨rfl, rfl⟩ | h'
    · exact .inr h
    · exact .inr (h.trans h')

theorem Moves.weaken {z z' : Bool} {p q : Nat} (h : Moves n fwd z p q) (hz : z' = true → z = true) : Moves n fwd z' p q := by
  rcases h with ⟨rfl, rfl⟩ | h
  · refine .inl ⟨rfl, ?_⟩
    cases z' with
    | false => rfl
    | true => cases hz rfl
  · exact .inr h

theorem onward_oneChar {s : List Byte} {acc : Byte → Bool} {p q : Nat} (h : q ∈ oneChar s fwd acc p) : Onward s.length fwd p q := by
  unfold oneChar readChar at h
  cases fwd with
  | true =>
    simp only [if_true] at h
    cases hs : s[p]? with
    | none => simp [hs] at h
    | some x =>
      have := (List.getElem?_eq_some_iff.1 hs).1
      simp only [hs, Option.map_some] at h
      split at h
      · simp only [List.mem_singleton] at h
        exact .inl ⟨rfl, by omega, by omega⟩
      · simp at h
  | false =>
    simp only [Bool.false_eq_true, if_false] at h
    cases p with
    | zero => simp at h
    | succ k =>
      cases hs : s[k]? with
      | none => simp [hs] at h
      | some x =>
        have := (List.getElem?_eq_some_iff.1 hs).1
        simp only [hs, Option.map_some] at h
        split at h
        · simp only [List.mem_singleton] at h
          exact .inr ⟨rfl, by omega, by omega⟩
        · simp at h

theorem moves_copies {ic : Bool} {s w : List Byte} {p q : Nat} (h : q ∈ copies ic s fwd w p) : Moves s.length fwd false p q := by
  induction w generalizing p with
  | nil =>
    simp only [copies, List.mem_singleton] at h
    exact h ▸ .self q
  | cons x w ih =>
    simp only [copies, List.mem_flatMap] at h
    obtain ⟨t, h1, h2⟩ := h
    exact (show Moves s.length fwd false p t from .inr (onward_oneChar h1)).trans (ih h2)

theorem moves_test {b : Bool} {p q : Nat} (h : q ∈ Spec.test b p) : Moves n fwd false p q := by
  unfold Spec.test at h
  split at h
  · simp only [List.mem_singleton] at h
    exact h ▸ .self q
  · simp at h

section
variable {g : Nat → Proc} {z : Bool} (hg : ∀ p, Proc.All (Moves n fwd z p) (g p))
include hg

theorem moves_times (k p : Nat) : Proc.All (Moves n fwd (k != 0 && z) p) (Proc.times g k p) := by
  induction k generalizing p with
  | zero => exact all_only (.self p)
  | succ k ih =>
    refine all_proceed (hg p) (fun q hq => all_mono (ih q) (fun t ht => (hq.trans ht).weaken (fun h => ?_)))
    cases z <;> simp_all

theorem moves_greedyUpTo (k p : Nat) : Proc.All (Moves n fwd false p) (Proc.greedyUpTo g k p) := by
  induction k generalizing p with
  | zero => exact all_only (.self p)
  | succ k ih =>
    exact all_andThen (all_proceed (hg p) (fun q hq => all_mono (ih q) (fun t ht => (hq.trans ht).weaken (by simp)))) (all_only (.self p))

theorem moves_lazyUpTo (k p : Nat) : Proc.All (Moves n fwd false p) (Proc.lazyUpTo g k p) := by
  induction k generalizing p with
  | zero => exact all_only (.self p)
  | succ k ih =>
    exact ⟨.self p, all_proceed (hg p) (fun q hq => all_mono (ih q) (fun t ht => (hq.trans ht).weaken (by simp)))⟩

theorem moves_possessiveUpTo (k p : Nat) : Proc.All (Moves n fwd false p) (Proc.possessiveUpTo g k p) := by
  induction k generalizing p with
  | zero => exact all_only (.self p)
  | succ k ih =>
    exact all_commit (hg p) (fun q hq => all_mono (ih q) (fun t ht => (hq.trans ht).weaken (by simp))) (all_only (.self p))

theorem moves_greedyStar (k p : Nat) : Proc.All (Moves n fwd false p) (Proc.greedyStar g k p) := by
  induction k generalizing p with
  | zero => trivial
  | succ k ih =>
    exact all_andThen (all_proceed (all_except (hg p) p) (fun q hq => all_mono (ih q) (fun t ht => (hq.1.trans ht).weaken (by simp)))) (all_only (.self p))

theorem moves_lazyStar (k p : Nat) : Proc.All (Moves n fwd false p) (Proc.lazyStar g k p) := by
  induction k generalizing p with
  | zero => trivial
  | succ k ih =>
    exact ⟨.self p, all_proceed (all_except (hg p) p) (fun q hq => all_mono (ih q) (fun t ht => (hq.1.trans ht).weaken (by simp)))⟩

theorem moves_possessiveStar (k p : Nat) : Proc.All (Moves n fwd false p) (Proc.possessiveStar g k p) := by
  induction k generalizing p with
  | zero => trivial
  | succ k ih =>
    refine all_commit (hg p) (fun q hq => ?_) (all_only (.self p))
    split
    · exact all_only (.self p)
    · exact all_mono (ih q) (fun t ht => (hq.trans ht).weaken (by simp))

theorem moves_extra (N : Nat) (m : Mode) (u : Bool) (k : Option Nat) (p : Nat) : Proc.All (Moves n fwd false p) (Proc.extra N m u g k p) := by
  cases k <;> cases m <;> cases u <;>
    first
      | exact moves_possessiveUpTo hg _ _ | exact moves_possessiveStar hg _ _ | exact moves_greedyUpTo hg _ _ | exact moves_greedyStar hg _ _
      | exact moves_lazyUpTo hg _ _ | exact moves_lazyStar hg _ _

theorem moves_quantified (N : Nat) (m : Mode) (u : Bool) (lo : Nat) (hi : Bound) (p : Nat) :
    Proc.All (Moves n fwd (lo != 0 && z) p) (Proc.quantified N m u lo hi g p) := by
  unfold Proc.quantified
  refine all_proceed (Q := Moves n fwd (lo != 0 && z) p) ?_ (fun q hq => all_mono (moves_extra hg N m u _ q) (fun t ht => (hq.trans ht).weaken (by simp)))
  cases m
  · exact moves_times hg lo p
  · exact moves_times hg lo p
  · exact all_commit (moves_times hg lo p) (fun q hq => all_only hq) trivial

end
end

theorem advances_of_character {a : Ast} (h : character a = true) : advances a = true := by
  rw [character_eq] at h
  induction a using ind with
  | seq l ih =>
    match l with
    | [] => simp [triv, trivSingle] at h
    | [a] => simp only [triv, trivSingle] at h; simp [advances, advancesSome, ih a (by simp) h]
    | a :: b :: l => simp [triv, trivSingle] at h
  | alt l ih =>
    simp only [triv, trivAlt_eq, Bool.and_eq_true, List.all_eq_true] at h
    have : ∀ l : List Ast, (∀ a ∈ l, advances a = true) → advancesEach l = true := by
      intro l
      induction l with
      | nil => intro _; rfl
      | cons a l ihl => intro h; simp [advancesEach, h a (by simp), ihl (fun b hb => h b (List.mem_cons_of_mem _ hb))]
    exact this l (fun a ha => ih a ha (h.2 a ha))
  | rep m lo hi a ih =>
    simp only [triv, Bool.and_eq_true, beq_iff_eq] at h
    obtain ⟨⟨rfl, rfl⟩, h⟩ := h
    simp [advances, ih h]
  | neg a ih =>
    simp only [triv, Bool.not_eq_true'] at h
    simp [advances, assertion_eq, h]
  | _ => first | rfl | simp [triv] at h

/-- Procedures go onwards. -/
theorem proc_moves (f : Flags) (s : List Byte) (ν : List Byte → Nat) (a : Ast) (r : Nat) (inv : Bool) (p : Nat) :
    Proc.All (Moves s.length (r % 2 == 0) (advances a) p) (proc f s ν a r inv p) := by
  induction a using ind generalizing r inv p with
  | neg a ih =>
    simp only [proc, advances]
    split
    · next h =>
      refine all_commit (all_true _) (fun _ _ => trivial) (all_only ?_)
      rw [h]; exact .self p
    · exact all_offers (fun q hq => .inr (onward_oneChar hq))
  | seq l ih =>
    simp only [proc, advances]
    induction l generalizing p with
    | nil => exact all_only (.self p)
    | cons a l ihl =>
      have ihl := ihl (fun b hb => ih b (List.mem_cons_of_mem _ hb))
      simp only [procAll, advancesSome]
      split
      · exact all_proceed (ihl p) (fun q hq => all_mono (ih a (by simp) r inv q) (fun t ht => (hq.trans ht).weaken (by rw [Bool.or_comm]; exact id)))
      · exact all_proceed (ih a (by simp) r inv p) (fun q hq => all_mono (ihl q) (fun t ht => hq.trans ht))
  | alt l ih =>
    simp only [proc, advances]
    induction l with
    | nil => trivial
    | cons a l ihl =>
      have ihl := ihl (fun b hb => ih b (List.mem_cons_of_mem _ hb))
      simp only [procAny, advancesEach]
      split
      · exact all_offers (fun q hq => .inr (onward_oneChar hq))
      · exact all_andThen (all_mono (ih a (by simp) r inv p) (fun q hq => hq.weaken (by simp +contextual)))
          (all_mono ihl (fun q hq => hq.weaken (by simp +contextual)))
  | cap id n a ih =>
    simp only [proc, advances]
    refine all_andThen (all_proceed (ih r inv p) (fun q hq => ?_)) trivial
    split
    · exact ⟨hq, trivial⟩
    · exact ⟨hq, trivial⟩
  | rep m lo hi a ih =>
    simp only [proc, advances]
    exact moves_quantified (fun q => ih r inv q) ..
  | look d a ih =>
    simp only [proc, advances]
    split
    · exact all_commit (all_true _) (fun _ _ => all_only (.self p)) trivial
    · exact all_commit (all_true _) (fun _ _ => all_only (.self p)) trivial
  | backref k =>
    simp only [proc, reference, advances]
    exact fun v => all_offers (fun q hq => moves_copies hq)
  | namedBackref k =>
    simp only [proc, reference, advances]
    exact fun v => all_offers (fun q hq => moves_copies hq)
  | empty =>
    simp only [proc, ends]
    exact all_offers (fun q hq => by simp only [List.mem_singleton] at hq; exact hq ▸ .self q)
  | lit | range | wildcard | set =>
    simp only [proc, ends]
    exact all_offers (fun q hq => .inr (onward_oneChar hq))
  | bol | boi | eol | eoi | wordB =>
    simp only [proc, ends]
    exact all_offers (fun q hq => moves_test hq)

/-! ### The limit of rounds does not matter -/

/-- How far one can still go. -/
def room (n : Nat) (fwd : Bool) (p : Nat) : Nat := if fwd then n - p else if p ≤ n then p else 0

theorem room_lt {n : Nat} {fwd : Bool} {p q : Nat} (h : Onward n fwd p q) : room n fwd q < room n fwd p := by
  unfold Onward at h
  unfold room
  cases fwd
  · simp only [Bool.false_eq_true, false_and, false_or, true_and, if_false] at h ⊢
    rw [if_pos h.2, if_pos (by omega)]
    exact h.1
  · simp only [true_and, Bool.true_eq_false, false_and, or_false, if_true] at h ⊢
    omega

theorem room_le (n : Nat) (fwd : Bool) (p : Nat) : room n fwd p ≤ n := by
  unfold room
  split
  · omega
  · split <;> omega

section
variable {n : Nat} {fwd : Bool} {g : Nat → Proc} (hg : ∀ p, Proc.All (Moves n fwd false p) (g p))
include hg

theorem all_except_moves (p : Nat) : Proc.All (Onward n fwd p) ((g p).except p) := by
  refine all_mono (all_except (hg p) p) (fun q hq => ?_)
  rcases hq.1 with ⟨h, _⟩ | h
  · exact absurd h hq.2
  · exact h

theorem greedyStar_fuel (k k' p : Nat) (h : room n fwd p < k) (h' : room n fwd p < k') : Proc.greedyStar g k p = Proc.greedyStar g k' p := by
  induction k generalizing k' p with
  | zero => omega
  | succ k ih =>
    match k', h' with
    | k' + 1, h' =>
      simp only [Proc.greedyStar]
      congr 1
      refine proceed_on (all_except_moves hg p) (fun q hq => ?_)
      have := room_lt hq
      exact ih k' q (by omega) (by omega)

theorem lazyStar_fuel (k k' p : Nat) (h : room n fwd p < k) (h' : room n fwd p < k') : Proc.lazyStar g k p = Proc.lazyStar g k' p := by
  induction k generalizing k' p with
  | zero => omega
  | succ k ih =>
    match k', h' with
    | k' + 1, h' =>
      simp only [Proc.lazyStar]
      congr 1
      refine proceed_on (all_except_moves hg p) (fun q hq => ?_)
      have := room_lt hq
      exact ih k' q (by omega) (by omega)

theorem possessiveStar_fuel (k k' p : Nat) (h : room n fwd p < k) (h' : room n fwd p < k') : Proc.possessiveStar g k p = Proc.possessiveStar g k' p := by
  induction k generalizing k' p with
  | zero => omega
  | succ k ih =>
    match k', h' with
    | k' + 1, h' =>
      simp only [Proc.possessiveStar]
      refine commit_on (hg p) (fun q hq => ?_)
      split
      · rfl
      · next hne =>
        rcases hq with ⟨e, _⟩ | hq
        · exact absurd e hne
        · have := room_lt hq
          exact ih k' q (by omega) (by omega)

end
end Mregex
