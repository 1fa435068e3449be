import Verif.Proof.Watch
import Verif.Proof.Lengths

/-!
# How far one looks
-/

namespace Mregex
open Ast Spec

/-- With the answers that `s` gives, no position from `B` on is looked at. -/
def Eyes (s : List Byte) (B : Nat) : Watch → Prop
  | .done => True
  | .note _ _ _ P => Eyes s B P
  | .cross _ P => Eyes s B P
  | .offer _ P => Eyes s B P
  | .recall _ f => ∀ v, Eyes s B (f v)
  | .look t f => t < B ∧ Eyes s B (f s[t]?)

section
variable {s : List Byte} {B : Nat}

theorem eyes_run {W : Watch} (hW : Eyes s B W) (h : Notes) : ∀ t ∈ (W.run s h).asked, t < B := by
  induction W generalizing h with
  | done => simp [Watch.run]
  | note _ _ _ P ih => exact ih hW _
  | cross _ P ih => exact ih hW _
  | offer q P ih => simp [Watch.run]
  | recall k f ih => exact ih _ (hW _) _
  | look t f ih =>
    intro u hu
    simp only [Watch.run, List.mem_cons] at hu
    rcases hu with rfl | hu
    · exact hW.1
    · exact ih _ hW.2 h u hu

theorem eyes_andThen {P P' : Watch} (h : Eyes s B P) (h' : Eyes s B P') : Eyes s B (P.andThen P') := by
  induction P with
  | done => exact h'
  | note _ _ _ P ih => exact ih h
  | cross _ P ih => exact ih h
  | offer q P ih => exact ih h
  | recall k f ih => exact fun v => ih v (h v)
  | look t f ih => exact ⟨h.1, ih _ h.2⟩

theorem eyes_proceed {P : Watch} {g : Nat → Watch} {Q : Nat → Prop} (h : Eyes s B P) (ho : Proc.All Q (settle s P)) (hg : ∀ q, Q q → Eyes s B (g q)) :
    Eyes s B (P.proceed g) := by
  induction P with
  | done => trivial
  | note _ _ _ P ih => exact ih h ho
  | cross _ P ih => exact ih h ho
  | offer q P ih => exact eyes_andThen (hg q ho.1) (ih h ho.2)
  | recall k f ih => exact fun v => ih v (h v) (ho v)
  | look t f ih => exact ⟨h.1, ih _ h.2 ho⟩

theorem eyes_commit {P P' : Watch} {g : Nat → Watch} {Q : Nat → Prop} (h : Eyes s B P) (ho : Proc.All Q (settle s P)) (hg : ∀ q, Q q → Eyes s B (g q))
    (h' : Eyes s B P') : Eyes s B (P.commit g P') := by
  induction P with
  | done => exact h'
  | note _ _ _ P ih => exact ih h ho
  | cross _ P ih => exact ih h ho
  | offer q P ih => exact hg q ho.1
  | recall k f ih => exact fun v => ih v (h v) (ho v)
  | look t f ih => exact ⟨h.1, ih _ h.2 ho⟩

theorem eyes_except {P : Watch} (h : Eyes s B P) (p : Nat) : Eyes s B (P.except p) := by
  induction P with
  | done => trivial
  | note _ _ _ P ih => exact ih h
  | cross _ P ih => exact ih h
  | offer q P ih => simp only [Watch.except]; split <;> exact ih h
  | recall k f ih => exact fun v => ih v (h v)
  | look t f ih => exact ⟨h.1, ih _ h.2⟩

theorem all_of_fit {N : Nat → Nat → Nat → Prop} {Q : Nat → Prop} {P : Proc} (h : Proc.Fit N Q P) : Proc.All Q P := by
  induction P with
  | done => trivial
  | note _ _ _ P ih => exact ih h.2
  | cross _ P ih => exact ih h
  | offer q P ih => exact ⟨h.1, ih h.2⟩
  | recall k f ih => exact fun v => ih v (h v)

theorem all_except' {Q : Nat → Prop} {P : Proc} (h : Proc.All Q P) (p : Nat) : Proc.All Q (P.except p) := by
  induction P with
  | done => trivial
  | note _ _ _ P ih => exact ih h
  | cross _ P ih => exact ih h
  | offer q P ih => 
    simp only [Proc.except]
    split
    · exact ih h.2
    · exact ⟨h.1, ih h.2⟩
  | recall k f ih => exact fun v => ih v (h v)

theorem all_whatever (P : Proc) : Proc.All (fun _ => True) P := by
  induction P with
  | done => trivial
  | note _ _ _ P ih => exact ih
  | cross _ P ih => exact ih
  | offer q P ih => exact ⟨trivial, ih⟩
  | recall k f ih => exact ih

/-! ### Rounds -/

section
variable {g : Nat → Watch} {L Y : Nat} (hg : ∀ q, q + L ≤ Y → Eyes s B (g q)) (ho : ∀ q, Proc.All (· ≤ q + L) (settle s (g q)))
include ho

theorem all_rounds (k p : Nat) : Proc.All (· ≤ p + k * L) (settle s (Watch.times g k p)) := by
  induction k generalizing p with
  | zero => exact ⟨by omega, trivial⟩
  | succ k ih =>
    rw [Watch.times, settle_proceed]
    refine all_proceed (ho p) fun q hq => all_mono (ih q) fun t ht => ?_
    rw [Nat.add_mul]; omega

include hg

theorem eyes_times (k p : Nat) (h : p + k * L ≤ Y) : Eyes s B (Watch.times g k p) := by
  induction k generalizing p with
  | zero => trivial
  | succ k ih =>
    rw [Nat.add_mul] at h
    exact eyes_proceed (hg p (by omega)) (ho p) fun q hq => ih q (by omega)

theorem eyes_greedyUpTo (k p : Nat) (h : p + k * L ≤ Y) : Eyes s B (Watch.greedyUpTo g k p) := by
  induction k generalizing p with
  | zero => trivial
  | succ k ih =>
    rw [Nat.add_mul] at h
    exact eyes_andThen (eyes_proceed (hg p (by omega)) (ho p) fun q hq => ih q (by omega)) trivial

theorem eyes_lazyUpTo (k p : Nat) (h : p + k * L ≤ Y) : Eyes s B (Watch.lazyUpTo g k p) := by
  induction k generalizing p with
  | zero => trivial
  | succ k ih =>
    rw [Nat.add_mul] at h
    exact eyes_proceed (hg p (by omega)) (ho p) fun q hq => ih q (by omega)

theorem eyes_possessiveUpTo (k p : Nat) (h : p + k * L ≤ Y) : Eyes s B (Watch.possessiveUpTo g k p) := by
  induction k generalizing p with
  | zero => trivial
  | succ k ih =>
    rw [Nat.add_mul] at h
    exact eyes_commit (hg p (by omega)) (ho p) (fun q hq => ih q (by omega)) trivial

theorem eyes_greedyStar (hL : L = 0) (k p : Nat) (h : p ≤ Y) : Eyes s B (Watch.greedyStar g k p) := by
  induction k generalizing p with
  | zero => trivial
  | succ k ih =>
    refine eyes_andThen (eyes_proceed (eyes_except (hg p (by omega)) p) ?_ fun q (hq : q ≤ p + L) => ih q (by omega)) trivial
    rw [settle_except]; exact all_except' (ho p) p

theorem eyes_lazyStar (hL : L = 0) (k p : Nat) (h : p ≤ Y) : Eyes s B (Watch.lazyStar g k p) := by
  induction k generalizing p with
  | zero => trivial
  | succ k ih =>
    refine eyes_proceed (eyes_except (hg p (by omega)) p) ?_ fun q (hq : q ≤ p + L) => ih q (by omega)
    rw [settle_except]; exact all_except' (ho p) p

theorem eyes_possessiveStar (hL : L = 0) (k p : Nat) (h : p ≤ Y) : Eyes s B (Watch.possessiveStar g k p) := by
  induction k generalizing p with
  | zero => trivial
  | succ k ih =>
    refine eyes_commit (hg p (by omega)) (ho p) (fun q hq => ?_) trivial
    split
    · trivial
    · exact ih q (by omega)

theorem eyes_quantified (N : Nat) (m : Mode) (u : Bool) (lo : Nat) (hi : Bound) (p : Nat)
    (h : match hi with | .fin k => p + max lo k * L ≤ Y | .inf => L = 0 ∧ p ≤ Y) : Eyes s B (Watch.quantified N m u lo hi g p) := by
  have hlo : p + lo * L ≤ Y := by
    cases hi with
    | fin k => exact Nat.le_trans (Nat.add_le_add_left (Nat.mul_le_mul_right _ (Nat.le_max_left _ _)) _) h
    | inf => obtain ⟨h1, h2⟩ := h; subst h1; exact h2
  unfold Watch.quantified
  refine eyes_proceed (Q := (· ≤ p + lo * L)) ?_ ?_ fun q hq => ?_
  · cases m
    · exact eyes_times hg ho lo p hlo
    · exact eyes_times hg ho lo p hlo
    · exact eyes_commit (eyes_times hg ho lo p hlo) (all_rounds ho lo p) (fun _ _ => trivial) trivial
  · cases m
    · exact all_rounds ho lo p
    · exact all_rounds ho lo p
    · simp only [settle_commit]
      exact all_commit (all_rounds ho lo p) (fun q hq => ⟨hq, trivial⟩) trivial
  · cases hi with
    | fin k =>
      have hq' : q + (k - lo) * L ≤ Y := by
        have e : max lo k * L = lo * L + (k - lo) * L := by rw [← Nat.add_mul]; congr 1; omega
        dsimp only at h
        omega
      cases m <;> cases u <;> first
        | exact eyes_greedyUpTo hg ho _ _ hq' | exact eyes_lazyUpTo hg ho _ _ hq' | exact eyes_possessiveUpTo hg ho _ _ hq'
    | inf =>
      obtain ⟨h1, h2⟩ := h
      have hq' : q ≤ Y := by subst h1; omega
      cases m <;> cases u <;> first
        | exact eyes_greedyStar hg ho h1 _ _ hq' | exact eyes_lazyStar hg ho h1 _ _ hq' | exact eyes_possessiveStar hg ho h1 _ _ hq'

end

theorem eyes_zero {N : Nat} {m : Mode} {u : Bool} {g : Nat → Watch} {p : Nat} : Eyes s B (Watch.quantified N m u 0 (.fin 0) g p) := by
  cases m <;> cases u <;> trivial

/-! ### Single questions -/

theorem eyes_offerIf (b : Bool) (q : Nat) : Eyes s B (offerIf b q) := by cases b <;> trivial

theorem eyes_askChar {fwd : Bool} {P : Byte → Bool} {p : Nat} (h : p + (if fwd then 1 else 0) ≤ B) : Eyes s B (askChar fwd P p) := by
  unfold askChar
  cases fwd with
  | true =>
    refine ⟨h, ?_⟩
    cases s[p]? with
    | none => trivial
    | some x => exact eyes_offerIf _ _
  | false =>
    cases p with
    | zero => trivial
    | succ k =>
      refine ⟨h, ?_⟩
      cases s[k]? with
      | none => trivial
      | some x => exact eyes_offerIf _ _

theorem eyes_askBefore {p : Nat} {k : Option Byte → Watch} (h : p ≤ B) (hk : ∀ x, Eyes s B (k x)) : Eyes s B (askBefore p k) := by
  cases p with
  | zero => exact hk _
  | succ j => exact ⟨h, hk _⟩

theorem eyes_askStart {multi : Bool} {p : Nat} (h : p ≤ B) : Eyes s B (askStart multi p) := by
  unfold askStart
  split
  · trivial
  · split
    · exact eyes_askBefore h fun _ => eyes_offerIf _ _
    · trivial

theorem eyes_askStop {multi : Bool} {p : Nat} (h : p + 1 ≤ B) : Eyes s B (askStop multi p) := by
  refine ⟨h, ?_⟩
  cases s[p]? with
  | some x => exact eyes_offerIf _ _
  | none =>
    show Eyes s B (if p = 0 then .only p else _)
    split
    · trivial
    · exact eyes_askBefore (by omega) fun _ => eyes_offerIf _ _

theorem eyes_askBoundary {p : Nat} (h : p + 1 ≤ B) : Eyes s B (askBoundary p) :=
  eyes_askBefore (by omega) fun _ => ⟨h, eyes_offerIf _ _⟩

/-! ### Expressions -/

theorem addLimit_some {x y : Option Nat} {m : Nat} (h : addLimit x y = some m) : ∃ i j, x = some i ∧ y = some j ∧ m = i + j := by
  cases x <;> cases y <;> simp [addLimit] at h
  exact ⟨_, _, rfl, rfl, h.symm⟩

theorem maxLimit_some {x y : Option Nat} {m : Nat} (h : maxLimit x y = some m) : ∃ i j, x = some i ∧ y = some j ∧ i ≤ m ∧ j ≤ m := by
  cases x <;> cases y <;> simp [maxLimit] at h
  exact ⟨_, _, rfl, rfl, by omega, by omega⟩

theorem within_drift {fwd : Bool} {mn L p q : Nat} {mx : Option Nat} (h : WithinLengths fwd mn mx p q) (hL : drift fwd mx = some L) : q ≤ p + L := by
  obtain ⟨d, h1, _, h3⟩ := h
  cases fwd with
  | true => have := h3 L hL; simp only [if_true] at h1; omega
  | false => simp only [Bool.false_eq_true, if_false] at h1; omega

/-- Single characters are looked at. -/
theorem reach_of_character {a : Ast} (h : character a = true) {fwd inv : Bool} {m : Nat} (hm : reach a fwd inv = some m) : (if fwd then 1 else 0) ≤ m := by
  cases fwd with
  | false => exact Nat.zero_le _
  | true =>
    rw [character_eq] at h
    simp only [if_true]
    induction a using ind generalizing m with
    | seq l ih =>
      match l with
      | [] => simp [triv, trivSingle] at h
      | [a] =>
        simp only [triv, trivSingle] at h
        simp only [reach, reachAll] at hm
        split at hm
        · obtain ⟨i, j, e1, e2, h1, h2⟩ := maxLimit_some hm
          obtain ⟨x, y, e3, e4, rfl⟩ := addLimit_some e2
          have := ih a (by simp) h e4
          omega
        · obtain ⟨i, j, e1, e2, h1, h2⟩ := maxLimit_some hm
          have := ih a (by simp) h e1
          omega
      | a :: b :: l => simp [triv, trivSingle] at h
    | alt l ih =>
      simp only [triv, trivAlt_eq, Bool.and_eq_true, List.all_eq_true] at h
      cases l with
      | nil => simp at h
      | cons a l =>
        simp only [reach, reachAny] at hm
        obtain ⟨i, j, e1, e2, h1, h2⟩ := maxLimit_some hm
        have := ih a (by simp) (h.2 a (by simp)) e1
        omega
    | rep md lo hi a ih =>
      simp only [triv, Bool.and_eq_true, beq_iff_eq] at h
      obtain ⟨⟨rfl, rfl⟩, h⟩ := h
      simp only [reach] at hm
      rw [if_neg (by simp)] at hm
      obtain ⟨i, j, e1, e2, rfl⟩ := addLimit_some hm
      have := ih h e2
      omega
    | neg a ih =>
      simp only [triv, Bool.not_eq_true'] at h
      simp only [reach, assertion_eq, h] at hm
      cases hm; exact Nat.le_refl _
    | lit | range | wildcard | set => simp only [reach, if_true] at hm; cases hm; exact Nat.le_refl _
    | _ => simp [triv] at h

theorem eyes_watch {N : Nat} (hN : s.length ≤ N) (f : Flags) (ν : List Byte → Nat) (a : Ast) (r : Nat) (inv : Bool) (p : Nat) {m : Nat}
    (hm : reach a (r % 2 == 0) inv = some m) (hB : p + m ≤ B) : Eyes s B (watch N f ν a r inv p) := by
  have hoff : ∀ a r inv q, Proc.All (WithinLengths (r % 2 == 0) (shortest a) (longest a) q) (settle s (watch N f ν a r inv q)) := by
    intro a r inv q; rw [settle_watch s hN]; exact all_of_fit (fit_proc f s ν a r inv q)
  induction a using ind generalizing r inv p m with
  | neg a ih =>
    simp only [watch]
    simp only [reach] at hm
    split
    · next h =>
      rw [if_pos h] at hm
      exact eyes_commit (ih r inv p hm hB) (all_whatever _) (fun _ _ => trivial) trivial
    · next h =>
      rw [if_neg h] at hm
      cases hm; exact eyes_askChar hB
  | seq l ih =>
    simp only [watch]
    simp only [reach] at hm
    have hl : ∀ l', (∀ b ∈ l', b ∈ l) → ∀ p m, reachAll l' (r % 2 == 0) inv = some m → p + m ≤ B → Eyes s B (watchAll N f ν l' r inv p) := by
      intro l'
      induction l' with
      | nil => exact fun _ p m _ _ => trivial
      | cons a l' ihl =>
        intro hb p m hm hB
        have ihl := ihl (fun b h => hb b (List.mem_cons_of_mem _ h))
        have iha := fun q m => ih a (hb a (by simp)) r inv q (m := m)
        simp only [reachAll] at hm
        simp only [watchAll]
        split
        · next h =>
          rw [if_pos h] at hm
          obtain ⟨i, j, e1, e2, h1, h2⟩ := maxLimit_some hm
          obtain ⟨x, y, e3, e4, rfl⟩ := addLimit_some e2
          have ho := hoff (.seq l') r inv p
          simp only [watch, longest] at ho
          exact eyes_proceed (ihl p i e1 (by omega)) ho fun q hq => by
            have := within_drift hq e3
            exact iha q y e4 (by omega)
        · next h =>
          rw [if_neg h] at hm
          obtain ⟨i, j, e1, e2, h1, h2⟩ := maxLimit_some hm
          obtain ⟨x, y, e3, e4, rfl⟩ := addLimit_some e2
          exact eyes_proceed (iha p i e1 (by omega)) (hoff a r inv p) fun q hq => by
            have := within_drift hq e3
            exact ihl q y e4 (by omega)
    exact hl l (fun _ h => h) p m hm hB
  | alt l ih =>
    simp only [watch]
    simp only [reach] at hm
    have hl : ∀ l', (∀ b ∈ l', b ∈ l) → ∀ m, reachAny l' (r % 2 == 0) inv = some m → p + m ≤ B → Eyes s B (watchAny N f ν l' r inv p) := by
      intro l'
      induction l' with
      | nil => exact fun _ _ _ _ => trivial
      | cons a l' ihl =>
        intro hb m hm hB
        simp only [reachAny] at hm
        obtain ⟨i, j, e1, e2, h1, h2⟩ := maxLimit_some hm
        simp only [watchAny]
        split
        · next hc =>
          simp only [characters, Bool.and_eq_true] at hc
          have := reach_of_character hc.1 e1
          exact eyes_askChar (by omega)
        · exact eyes_andThen (ih a (hb a (by simp)) r inv p e1 (by omega)) (ihl (fun b h => hb b (List.mem_cons_of_mem _ h)) j e2 (by omega))
    exact hl l (fun _ h => h) m hm hB
  | cap id n a ih =>
    simp only [watch]
    simp only [reach] at hm
    refine eyes_andThen (eyes_proceed (ih r inv p hm hB) (all_whatever _) fun q _ => ?_) trivial
    split <;> trivial
  | rep md lo hi a ih =>
    simp only [watch]
    cases hi with
    | fin k =>
      simp only [reach] at hm
      split at hm
      · next h0 =>
        obtain ⟨rfl, rfl⟩ : lo = 0 ∧ k = 0 := by omega
        exact eyes_zero
      · next h0 =>
        obtain ⟨x, y, e1, e2, rfl⟩ := addLimit_some hm
        obtain ⟨L, eL, rfl⟩ := Option.map_eq_some_iff.1 e1
        refine eyes_quantified (L := L) (Y := p + max lo k * L) (fun q hq => ih r inv q e2 ?_) (fun q => all_mono (hoff a r inv q) fun t ht => within_drift ht eL)
          N md f.ungreedy lo (.fin k) p (Nat.le_refl _)
        have e : max lo k * L = (max lo k - 1) * L + L := by
          obtain ⟨z, hz⟩ : ∃ z, max lo k = z + 1 := ⟨max lo k - 1, by omega⟩
          rw [hz, Nat.add_mul, Nat.one_mul]; rfl
        omega
    | inf =>
      simp only [reach] at hm
      obtain ⟨x, y, e1, e2, rfl⟩ := addLimit_some hm
      have eL : drift (r % 2 == 0) (longest a) = some 0 := by
        unfold anyRounds at e1; split at e1
        · assumption
        · cases e1
      exact eyes_quantified (L := 0) (Y := p) (fun q hq => ih r inv q e2 (by omega)) (fun q => all_mono (hoff a r inv q) fun t ht => within_drift ht eL)
          N md f.ungreedy lo .inf p ⟨rfl, Nat.le_refl _⟩
  | look d a ih =>
    simp only [watch]
    simp only [reach] at hm
    split
    · next h =>
      rw [if_pos h] at hm
      exact eyes_commit (ih r false p hm hB) (all_whatever _) (fun _ _ => trivial) trivial
    · next h =>
      rw [if_neg h] at hm
      refine eyes_commit (ih (r + 1) true p ?_ hB) (all_whatever _) (fun _ _ => trivial) trivial
      rw [← hm]; congr 1
      rcases Nat.mod_two_eq_zero_or_one r with e | e <;> simp [Nat.add_mod, e]
  | backref k => cases hm
  | namedBackref k => cases hm
  | empty => trivial
  | lit | range | wildcard | set => simp only [reach] at hm; cases hm; exact eyes_askChar hB
  | bol | boi =>
    simp only [reach] at hm
    simp only [watch]
    cases hr : r % 2 == 0 <;> rw [hr] at hm <;> cases hm
    · exact eyes_askStop hB
    · exact eyes_askStart hB
  | eol | eoi =>
    simp only [reach] at hm
    simp only [watch]
    cases hr : r % 2 == 0 <;> rw [hr] at hm <;> cases hm
    · exact eyes_askStart hB
    · exact eyes_askStop hB
  | wordB => cases hm; exact eyes_askBoundary hB

end

/-- A search that finds a match at `i` does not look beyond what is looked at from `i`. -/
theorem hunt_reach {s : List Byte} {g : Nat → Watch} {m i e : Nat} (hg : ∀ q, Eyes s (q + m) (g q)) (k j : Nat) (h : Notes) (hf : (hunt s g k j h).found = some (i, e)) :
    j ≤ i ∧ ∀ t ∈ (hunt s g k j h).asked, t < i + m := by
  induction k generalizing j h with
  | zero => cases hf
  | succ k ih =>
    simp only [hunt] at hf ⊢
    cases ho : ((g j).run s h).found with
    | some q =>
      rw [ho] at hf
      cases hf
      exact ⟨Nat.le_refl _, eyes_run (hg _) h⟩
    | none =>
      rw [ho] at hf
      dsimp only at hf ⊢
      cases hj : s[j]? with
      | none => rw [hj] at hf; cases hf
      | some x =>
        rw [hj] at hf
        dsimp only at hf ⊢
        obtain ⟨h1, h2⟩ := ih _ _ hf
        refine ⟨by omega, fun t ht => ?_⟩
        simp only [List.mem_append, List.mem_cons] at ht
        rcases ht with ht | rfl | ht
        · have := eyes_run (hg j) h t ht; omega
        · omega
        · exact h2 t ht

end Mregex
