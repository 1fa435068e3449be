import Verif.Proof.Moves
import Verif.Spec.Tidy

/-!
# What failed attempts leave behind
-/

namespace Mregex
open Ast Spec

/-- None of the groups in `O` is noted. -/
def Silent (O : Nat → Prop) : Proc → Prop
  | .done => True
  | .note k _ _ P => ¬ O k ∧ Silent O P
  | .cross _ P => Silent O P
  | .offer _ P => Silent O P
  | .recall _ f => ∀ v, Silent O (f v)

/-- If no offer is accepted, all groups in `O` that are noted (and those in `D`) are crossed out in the end. -/
def Tidy (O : Nat → Prop) : (D : Nat → Prop) → Proc → Prop
  | D, .done => ∀ j, D j → ¬ O j
  | D, .note k _ _ P => Tidy O (fun j => j = k ∨ D j) P
  | D, .cross k P => Tidy O (fun j => D j ∧ j ≠ k) P
  | D, .offer _ P => Tidy O D P
  | D, .recall _ f => ∀ v, Tidy O D (f v)

/-- Only the texts of groups in `O` are asked for. -/
def Textual (s : List Byte) (O : Nat → Prop) : Proc → Prop
  | .done => True
  | .note _ _ _ P => Textual s O P
  | .cross _ P => Textual s O P
  | .offer _ P => Textual s O P
  | .recall k f => O k ∧ (∀ v v', heldText s v = heldText s v' → f v = f v') ∧ ∀ v, Textual s O (f v)

section
variable {O : Nat → Prop}

theorem silent_andThen {P Q : Proc} (h : Silent O P) (h' : Silent O Q) : Silent O (P.andThen Q) := by
  induction P with
  | done => exact h'
  | note _ _ _ P ih => exact ⟨h.1, ih h.2⟩
  | cross _ P ih => exact ih h
  | offer q P ih => exact ih h
  | recall _ f ih => exact fun v => ih v (h v)

theorem silent_proceed {P : Proc} {g : Nat → Proc} (h : Silent O P) (hg : ∀ q, Silent O (g q)) : Silent O (P.proceed g) := by
  induction P with
  | done => trivial
  | note _ _ _ P ih => exact ⟨h.1, ih h.2⟩
  | cross _ P ih => exact ih h
  | offer q P ih => exact silent_andThen (hg q) (ih h)
  | recall _ f ih => exact fun v => ih v (h v)

theorem silent_commit {P Q : Proc} {g : Nat → Proc} (h : Silent O P) (hg : ∀ q, Silent O (g q)) (h' : Silent O Q) : Silent O (P.commit g Q) := by
  induction P with
  | done => exact h'
  | note _ _ _ P ih => exact ⟨h.1, ih h.2⟩
  | cross _ P ih => exact ih h
  | offer q P ih => exact hg q
  | recall _ f ih => exact fun v => ih v (h v)

theorem silent_except {P : Proc} (h : Silent O P) (p : Nat) : Silent O (P.except p) := by
  induction P with
  | done => trivial
  | note _ _ _ P ih => exact ⟨h.1, ih h.2⟩
  | cross _ P ih => exact ih h
  | offer q P ih =>
    simp only [Proc.except]
    split
    · exact ih h
    · exact ih h
  | recall _ f ih => exact fun v => ih v (h v)

theorem silent_only (q : Nat) : Silent O (.only q) := trivial

theorem silent_offers (l : List Nat) : Silent O (.offers l) := by
  induction l with
  | nil => trivial
  | cons q l ih => exact ih

theorem tidy_mono {D D' : Nat → Prop} {P : Proc} (h : Tidy O D P) (hd : ∀ j, O j → D' j → D j) : Tidy O D' P := by
  induction P generalizing D D' with
  | done => exact fun j hj ho => h j (hd j ho hj) ho
  | note k _ _ P ih => exact ih h (fun j ho hj => hj.elim .inl (fun hj => .inr (hd j ho hj)))
  | cross k P ih => exact ih h (fun j ho hj => ⟨hd j ho hj.1, hj.2⟩)
  | offer q P ih => exact ih h hd
  | recall _ f ih => exact fun v => ih v (h v) hd

theorem tidy_of_silent {D : Nat → Prop} {P : Proc} (h : Silent O P) (hd : ∀ j, D j → ¬ O j) : Tidy O D P := by
  induction P generalizing D with
  | done => exact hd
  | note k _ _ P ih => exact ih h.2 (fun j hj => hj.elim (fun e => e ▸ h.1) (hd j))
  | cross k P ih => exact ih h (fun j hj => hd j hj.1)
  | offer q P ih => exact ih h hd
  | recall _ f ih => exact fun v => ih v (h v) hd

theorem tidy_andThen {D D' : Nat → Prop} {P Q : Proc} (h : Tidy O D P) (h' : Tidy O D' Q) : Tidy O (fun j => D j ∨ D' j) (P.andThen Q) := by
  induction P generalizing D with
  | done => exact tidy_mono h' (fun j ho hj => hj.elim (fun hj => absurd ho (h j hj)) id)
  | note k _ _ P ih =>
    show Tidy O (fun j => j = k ∨ D j ∨ D' j) (P.andThen Q)
    have h : Tidy O (fun j => j = k ∨ D j) P := h
    exact tidy_mono (ih h) (fun j _ hj => hj.elim (fun e => .inl (.inl e)) (fun hj => hj.elim (fun e => .inl (.inr e)) .inr))
  | cross k P ih =>
    show Tidy O (fun j => (D j ∨ D' j) ∧ j ≠ k) (P.andThen Q)
    have h : Tidy O (fun j => D j ∧ j ≠ k) P := h
    exact tidy_mono (ih h) (fun j _ hj => hj.1.elim (fun e => .inl ⟨e, hj.2⟩) .inr)
  | offer q P ih => exact ih h
  | recall _ f ih => exact fun v => ih v (h v)

/-- Nothing is noted at the beginning. -/
abbrev Clean (O : Nat → Prop) (P : Proc) : Prop := Tidy O (fun _ => False) P

theorem clean_andThen {D : Nat → Prop} {P Q : Proc} (h : Clean O P) (h' : Tidy O D Q) : Tidy O D (P.andThen Q) :=
  tidy_mono (tidy_andThen h h') (fun _ _ hj => .inr hj)

theorem tidy_proceed {D : Nat → Prop} {P : Proc} {g : Nat → Proc} (h : Tidy O D P) (hg : ∀ q, Clean O (g q)) : Tidy O D (P.proceed g) := by
  induction P generalizing D with
  | done => exact h
  | note k _ _ P ih => exact ih h
  | cross k P ih => exact ih h
  | offer q P ih => exact clean_andThen (hg q) (ih h)
  | recall _ f ih => exact fun v => ih v (h v)

theorem tidy_except {D : Nat → Prop} {P : Proc} (h : Tidy O D P) (p : Nat) : Tidy O D (P.except p) := by
  induction P generalizing D with
  | done => exact h
  | note k _ _ P ih => exact ih h
  | cross k P ih => exact ih h
  | offer q P ih =>
    simp only [Proc.except]
    split
    · exact ih h
    · exact ih h
  | recall _ f ih => exact fun v => ih v (h v)

theorem clean_only (q : Nat) : Clean O (.only q) := fun _ hj => hj.elim

/-- A group: what is noted is crossed out at the end. -/
theorem tidy_crossed {k : Nat} {D : Nat → Prop} {P : Proc} (h : Tidy (fun j => O j ∧ j ≠ k) D P) : Tidy O D (P.andThen (.cross k .done)) := by
  induction P generalizing D with
  | done => exact fun j hj ho => h j hj.1 ⟨ho, hj.2⟩
  | note _ _ _ P ih => exact ih h
  | cross _ P ih => exact ih h
  | offer q P ih => exact ih h
  | recall _ f ih => exact fun v => ih v (h v)

section
variable {g : Nat → Proc} (hg : ∀ q, Silent O (g q))
include hg

theorem silent_times (k p : Nat) : Silent O (Proc.times g k p) := by
  induction k generalizing p with
  | zero => trivial
  | succ k ih => exact silent_proceed (hg p) ih

theorem silent_extra (n : Nat) (m : Mode) (u : Bool) (k : Option Nat) (p : Nat) : Silent O (Proc.extra n m u g k p) := by
  have h1 : ∀ k p, Silent O (Proc.greedyUpTo g k p) := by
    intro k
    induction k with
    | zero => exact fun p => trivial
    | succ k ih => exact fun p => silent_andThen (silent_proceed (hg p) ih) trivial
  have h2 : ∀ k p, Silent O (Proc.lazyUpTo g k p) := by
    intro k
    induction k with
    | zero => exact fun p => trivial
    | succ k ih => exact fun p => silent_proceed (hg p) ih
  have h3 : ∀ k p, Silent O (Proc.possessiveUpTo g k p) := by
    intro k
    induction k with
    | zero => exact fun p => trivial
    | succ k ih => exact fun p => silent_commit (hg p) ih trivial
  have h4 : ∀ k p, Silent O (Proc.greedyStar g k p) := by
    intro k
    induction k with
    | zero => exact fun p => trivial
    | succ k ih => exact fun p => silent_andThen (silent_proceed (silent_except (hg p) p) ih) trivial
  have h5 : ∀ k p, Silent O (Proc.lazyStar g k p) := by
    intro k
    induction k with
    | zero => exact fun p => trivial
    | succ k ih => exact fun p => silent_proceed (silent_except (hg p) p) ih
  have h6 : ∀ k p, Silent O (Proc.possessiveStar g k p) := by
    intro k
    induction k with
    | zero => exact fun p => trivial
    | succ k ih =>
      refine fun p => silent_commit (hg p) (fun q => ?_) trivial
      split
      · trivial
      · exact ih q
  cases k <;> cases m <;> cases u <;> first | exact h3 _ _ | exact h6 _ _ | exact h1 _ _ | exact h4 _ _ | exact h2 _ _ | exact h5 _ _

theorem silent_quantified (n : Nat) (m : Mode) (u : Bool) (lo : Nat) (hi : Bound) (p : Nat) : Silent O (Proc.quantified n m u lo hi g p) := by
  unfold Proc.quantified
  refine silent_proceed ?_ (fun q => silent_extra hg n m u _ q)
  cases m
  · exact silent_times hg lo p
  · exact silent_times hg lo p
  · exact silent_commit (silent_times hg lo p) silent_only trivial

end

section
variable {g : Nat → Proc} (hg : ∀ q, Clean O (g q))
include hg

theorem clean_quantified (n : Nat) {m : Mode} (hm : m ≠ .possessive) (u : Bool) (lo : Nat) (hi : Bound) (p : Nat) :
    Clean O (Proc.quantified n m u lo hi g p) := by
  have h0 : ∀ k p, Clean O (Proc.times g k p) := by
    intro k
    induction k with
    | zero => exact clean_only
    | succ k ih => exact fun p => tidy_proceed (hg p) ih
  have h1 : ∀ k p, Clean O (Proc.greedyUpTo g k p) := by
    intro k
    induction k with
    | zero => exact clean_only
    | succ k ih => exact fun p => clean_andThen (tidy_proceed (hg p) ih) (clean_only p)
  have h2 : ∀ k p, Clean O (Proc.lazyUpTo g k p) := by
    intro k
    induction k with
    | zero => exact clean_only
    | succ k ih => exact fun p => tidy_proceed (hg p) ih
  have h4 : ∀ k p, Clean O (Proc.greedyStar g k p) := by
    intro k
    induction k with
    | zero => exact fun p _ hj => hj.elim
    | succ k ih => exact fun p => clean_andThen (tidy_proceed (tidy_except (hg p) p) ih) (clean_only p)
  have h5 : ∀ k p, Clean O (Proc.lazyStar g k p) := by
    intro k
    induction k with
    | zero => exact fun p _ hj => hj.elim
    | succ k ih => exact fun p => tidy_proceed (tidy_except (hg p) p) ih
  unfold Proc.quantified
  cases m with
  | possessive => exact absurd rfl hm
  | greedy =>
    refine tidy_proceed (h0 lo p) (fun q => ?_)
    cases hi <;> cases u <;> first | exact h1 _ _ | exact h2 _ _ | exact h4 _ _ | exact h5 _ _
  | lazy =>
    refine tidy_proceed (h0 lo p) (fun q => ?_)
    cases hi <;> cases u <;> first | exact h1 _ _ | exact h2 _ _ | exact h4 _ _ | exact h5 _ _

end
end

section
variable (f : Flags) (s : List Byte) (ν : List Byte → Nat)

theorem proc_silent {O : Nat → Prop} (a : Ast) (ha : ∀ k ∈ groupIds a, ¬ O k) (r : Nat) (inv : Bool) (p : Nat) : Silent O (proc f s ν a r inv p) := by
  induction a using ind generalizing r inv p with
  | neg a ih =>
    simp only [proc]
    split
    · exact silent_commit (ih ha r inv p) (fun _ => trivial) trivial
    · exact silent_offers _
  | seq l ih =>
    simp only [proc]
    simp only [groupIds] at ha
    induction l generalizing p with
    | nil => trivial
    | cons a l ihl =>
      simp only [groupIdsAll, List.mem_append] at ha
      have ihl := ihl (fun b hb => ih b (List.mem_cons_of_mem _ hb)) (fun k hk => ha k (.inr hk))
      have ih := ih a (by simp) (fun k hk => ha k (.inl hk)) r inv
      simp only [procAll]
      split
      · exact silent_proceed (ihl p) ih
      · exact silent_proceed (ih p) ihl
  | alt l ih =>
    simp only [proc]
    simp only [groupIds] at ha
    induction l with
    | nil => trivial
    | cons a l ihl =>
      simp only [groupIdsAll, List.mem_append] at ha
      simp only [procAny]
      split
      · exact silent_offers _
      · exact silent_andThen (ih a (by simp) (fun k hk => ha k (.inl hk)) r inv p)
          (ihl (fun b hb => ih b (List.mem_cons_of_mem _ hb)) (fun k hk => ha k (.inr hk)))
  | cap id n a ih =>
    simp only [groupIds, List.mem_cons] at ha
    simp only [proc]
    refine silent_andThen (silent_proceed (ih (fun k hk => ha k (.inr hk)) r inv p) (fun q => ?_)) trivial
    split
    · exact ⟨ha id (.inl rfl), trivial⟩
    · exact ⟨ha id (.inl rfl), trivial⟩
  | rep m lo hi a ih => exact silent_quantified (ih ha r inv) ..
  | look d a ih =>
    simp only [proc]
    split
    · exact silent_commit (ih ha _ _ p) (fun _ => trivial) trivial
    · exact silent_commit (ih ha _ _ p) (fun _ => trivial) trivial
  | backref k => exact fun v => silent_offers _
  | namedBackref k => exact fun v => silent_offers _
  | _ => exact silent_offers _

theorem proc_clean {O : Nat → Prop} (a : Ast) (ha : ∀ k ∈ innerGroups a, ¬ O k) (r : Nat) (inv : Bool) (p : Nat) : Clean O (proc f s ν a r inv p) := by
  induction a using ind generalizing O r inv p with
  | neg a ih => exact tidy_of_silent (proc_silent f s ν (.neg a) ha r inv p) (fun _ h => h.elim)
  | look d a ih => exact tidy_of_silent (proc_silent f s ν (.look d a) ha r inv p) (fun _ h => h.elim)
  | seq l ih =>
    simp only [proc]
    simp only [innerGroups] at ha
    induction l generalizing p with
    | nil => exact clean_only p
    | cons a l ihl =>
      simp only [innerGroupsAll, List.mem_append] at ha
      have ihl := ihl (fun b hb => ih b (List.mem_cons_of_mem _ hb)) (fun k hk => ha k (.inr hk))
      have ih := ih a (by simp) (fun k hk => ha k (.inl hk)) r inv
      simp only [procAll]
      split
      · exact tidy_proceed (ihl p) ih
      · exact tidy_proceed (ih p) ihl
  | alt l ih =>
    simp only [proc]
    simp only [innerGroups] at ha
    induction l with
    | nil => exact fun _ h => h.elim
    | cons a l ihl =>
      simp only [innerGroupsAll, List.mem_append] at ha
      simp only [procAny]
      split
      · exact tidy_of_silent (silent_offers _) (fun _ h => h.elim)
      · exact clean_andThen (ih a (by simp) (fun k hk => ha k (.inl hk)) r inv p)
          (ihl (fun b hb => ih b (List.mem_cons_of_mem _ hb)) (fun k hk => ha k (.inr hk)))
  | cap id n a ih =>
    simp only [innerGroups] at ha
    simp only [proc]
    refine tidy_crossed (tidy_proceed (ih (fun k hk hk' => ha k hk hk'.1) r inv p) (fun q => ?_))
    split
    · exact fun j hj hj' => hj.elim hj'.2 (fun h => h)
    · exact fun j hj hj' => hj.elim hj'.2 (fun h => h)
  | rep m lo hi a ih =>
    cases m with
    | possessive => exact tidy_of_silent (proc_silent f s ν (.rep .possessive lo hi a) ha r inv p) (fun _ h => h.elim)
    | greedy => exact clean_quantified (ih ha r inv) _ (by simp) ..
    | lazy => exact clean_quantified (ih ha r inv) _ (by simp) ..
  | backref k => exact fun v => tidy_of_silent (silent_offers _) (fun _ h => h.elim)
  | namedBackref k => exact fun v => tidy_of_silent (silent_offers _) (fun _ h => h.elim)
  | _ => exact tidy_of_silent (silent_offers _) (fun _ h => h.elim)

end

/-! ### Asking for texts only -/

section
variable {s : List Byte} {O : Nat → Prop}

theorem textual_andThen {P Q : Proc} (h : Textual s O P) (h' : Textual s O Q) : Textual s O (P.andThen Q) := by
  induction P with
  | done => exact h'
  | note _ _ _ P ih => exact ih h
  | cross _ P ih => exact ih h
  | offer q P ih => exact ih h
  | recall _ f ih => exact ⟨h.1, fun v v' hv => by simp only [h.2.1 v v' hv], fun v => ih v (h.2.2 v)⟩

theorem textual_proceed {P : Proc} {g : Nat → Proc} (h : Textual s O P) (hg : ∀ q, Textual s O (g q)) : Textual s O (P.proceed g) := by
  induction P with
  | done => trivial
  | note _ _ _ P ih => exact ih h
  | cross _ P ih => exact ih h
  | offer q P ih => exact textual_andThen (hg q) (ih h)
  | recall _ f ih => exact ⟨h.1, fun v v' hv => by simp only [h.2.1 v v' hv], fun v => ih v (h.2.2 v)⟩

theorem textual_commit {P Q : Proc} {g : Nat → Proc} (h : Textual s O P) (hg : ∀ q, Textual s O (g q)) (h' : Textual s O Q) : Textual s O (P.commit g Q) := by
  induction P with
  | done => exact h'
  | note _ _ _ P ih => exact ih h
  | cross _ P ih => exact ih h
  | offer q P ih => exact hg q
  | recall _ f ih => exact ⟨h.1, fun v v' hv => by simp only [h.2.1 v v' hv], fun v => ih v (h.2.2 v)⟩

theorem textual_except {P : Proc} (h : Textual s O P) (p : Nat) : Textual s O (P.except p) := by
  induction P with
  | done => trivial
  | note _ _ _ P ih => exact ih h
  | cross _ P ih => exact ih h
  | offer q P ih =>
    simp only [Proc.except]
    split
    · exact ih h
    · exact ih h
  | recall _ f ih => exact ⟨h.1, fun v v' hv => by simp only [h.2.1 v v' hv], fun v => ih v (h.2.2 v)⟩

theorem textual_offers (l : List Nat) : Textual s O (.offers l) := by
  induction l with
  | nil => trivial
  | cons q l ih => exact ih

section
variable {g : Nat → Proc} (hg : ∀ q, Textual s O (g q))
include hg

theorem textual_times (k p : Nat) : Textual s O (Proc.times g k p) := by
  induction k generalizing p with
  | zero => trivial
  | succ k ih => exact textual_proceed (hg p) ih

theorem textual_extra (n : Nat) (m : Mode) (u : Bool) (k : Option Nat) (p : Nat) : Textual s O (Proc.extra n m u g k p) := by
  have h1 : ∀ k p, Textual s O (Proc.greedyUpTo g k p) := by
    intro k
    induction k with
    | zero => exact fun p => trivial
    | succ k ih => exact fun p => textual_andThen (textual_proceed (hg p) ih) trivial
  have h2 : ∀ k p, Textual s O (Proc.lazyUpTo g k p) := by
    intro k
    induction k with
    | zero => exact fun p => trivial
    | succ k ih => exact fun p => textual_proceed (hg p) ih
  have h3 : ∀ k p, Textual s O (Proc.possessiveUpTo g k p) := by
    intro k
    induction k with
    | zero => exact fun p => trivial
    | succ k ih => exact fun p => textual_commit (hg p) ih trivial
  have h4 : ∀ k p, Textual s O (Proc.greedyStar g k p) := by
    intro k
    induction k with
    | zero => exact fun p => trivial
    | succ k ih => exact fun p => textual_andThen (textual_proceed (textual_except (hg p) p) ih) trivial
  have h5 : ∀ k p, Textual s O (Proc.lazyStar g k p) := by
    intro k
    induction k with
    | zero => exact fun p => trivial
    | succ k ih => exact fun p => textual_proceed (textual_except (hg p) p) ih
  have h6 : ∀ k p, Textual s O (Proc.possessiveStar g k p) := by
    intro k
    induction k with
    | zero => exact fun p => trivial
    | succ k ih =>
      refine fun p => textual_commit (hg p) (fun q => ?_) trivial
      split
      · trivial
      · exact ih q
  cases k <;> cases m <;> cases u <;> first | exact h3 _ _ | exact h6 _ _ | exact h1 _ _ | exact h4 _ _ | exact h2 _ _ | exact h5 _ _

theorem textual_quantified (n : Nat) (m : Mode) (u : Bool) (lo : Nat) (hi : Bound) (p : Nat) : Textual s O (Proc.quantified n m u lo hi g p) := by
  unfold Proc.quantified
  refine textual_proceed ?_ (fun q => textual_extra hg n m u _ q)
  cases m
  · exact textual_times hg lo p
  · exact textual_times hg lo p
  · exact textual_commit (textual_times hg lo p) (fun _ => trivial) trivial

end

theorem proc_textual (f : Flags) (ν : List Byte → Nat) (a : Ast) (ha : ∀ k ∈ referred ν a, O k) (r : Nat) (inv : Bool) (p : Nat) :
    Textual s O (proc f s ν a r inv p) := by
  induction a using ind generalizing r inv p with
  | neg a ih =>
    simp only [proc]
    split
    · exact textual_commit (ih ha r inv p) (fun _ => trivial) trivial
    · exact textual_offers _
  | seq l ih =>
    simp only [proc]
    simp only [referred] at ha
    induction l generalizing p with
    | nil => trivial
    | cons a l ihl =>
      simp only [referredAll, List.mem_append] at ha
      have ihl := ihl (fun b hb => ih b (List.mem_cons_of_mem _ hb)) (fun k hk => ha k (.inr hk))
      have ih := ih a (by simp) (fun k hk => ha k (.inl hk)) r inv
      simp only [procAll]
      split
      · exact textual_proceed (ihl p) ih
      · exact textual_proceed (ih p) ihl
  | alt l ih =>
    simp only [proc]
    simp only [referred] at ha
    induction l with
    | nil => trivial
    | cons a l ihl =>
      simp only [referredAll, List.mem_append] at ha
      simp only [procAny]
      split
      · exact textual_offers _
      · exact textual_andThen (ih a (by simp) (fun k hk => ha k (.inl hk)) r inv p)
          (ihl (fun b hb => ih b (List.mem_cons_of_mem _ hb)) (fun k hk => ha k (.inr hk)))
  | cap id n a ih =>
    simp only [proc]
    refine textual_andThen (textual_proceed (ih ha r inv p) (fun q => ?_)) trivial
    split
    · trivial
    · trivial
  | rep m lo hi a ih => exact textual_quantified (ih ha r inv) ..
  | look d a ih =>
    simp only [proc]
    split
    · exact textual_commit (ih ha _ _ p) (fun _ => trivial) trivial
    · exact textual_commit (ih ha _ _ p) (fun _ => trivial) trivial
  | backref k => exact ⟨ha k (by simp [referred]), fun v v' hv => by simp only [hv], fun v => textual_offers _⟩
  | namedBackref k => exact ⟨ha (ν k) (by simp [referred]), fun v v' hv => by simp only [hv], fun v => textual_offers _⟩
  | _ => exact textual_offers _

/-! ### Carrying them out -/

/-- The groups in `O` hold the same texts. -/
def SameTexts (s : List Byte) (O : Nat → Prop) (h h' : Notes) : Prop := ∀ k, O k → heldText s (h k) = heldText s (h' k)

theorem SameTexts.put {h h' : Notes} (hh : SameTexts s O h h') (j : Nat) {v v' : Cap} (hv : heldText s v = heldText s v') :
    SameTexts s O (h.put j v) (h'.put j v') := by
  intro k hk
  unfold Notes.put
  split
  · exact hv
  · exact hh k hk

theorem heldText_crossed (v : Cap) : heldText s (v.map (fun x => (x.1, x.1))) = [] := by
  cases v with
  | none => rfl
  | some x => simp [heldText]

/-- If only texts are asked for, only texts matter. -/
theorem follow_textual {P : Proc} (hP : Textual s O P) (acc : Nat → Bool) {h h' : Notes} (hh : SameTexts s O h h') :
    (P.follow acc h).1 = (P.follow acc h').1 ∧ SameTexts s O (P.follow acc h).2 (P.follow acc h').2 := by
  induction P generalizing h h' with
  | done => exact ⟨rfl, hh⟩
  | note k b e P ih => exact ih hP (hh.put k rfl)
  | cross k P ih => exact ih hP (hh.put k (by rw [heldText_crossed, heldText_crossed]))
  | offer q P ih =>
    simp only [Proc.follow]
    split
    · exact ⟨rfl, hh⟩
    · exact ih hP hh
  | recall k f ih =>
    simp only [Proc.follow]
    rw [hP.2.1 _ _ (hh k hP.1)]
    exact ih _ (hP.2.2 _) hh

/-- What a failed attempt leaves behind. -/
theorem follow_tidy {D : Nat → Prop} {P : Proc} (hP : Tidy O D P) (acc : Nat → Bool) {h : Notes} (hh : ∀ k, O k → ¬ D k → heldText s (h k) = [])
    (hf : (P.follow acc h).1 = none) (k : Nat) (hk : O k) : heldText s ((P.follow acc h).2 k) = [] := by
  induction P generalizing D h with
  | done => exact hh k hk (fun hd => hP k hd hk)
  | note j b e P ih =>
    refine ih hP (fun i hi hd => ?_) hf
    simp only [not_or] at hd
    unfold Notes.put
    rw [if_neg hd.1]
    exact hh i hi hd.2
  | cross j P ih =>
    refine ih hP (fun i hi hd => ?_) hf
    unfold Notes.put
    split
    · exact heldText_crossed _
    · next he => exact hh i hi (fun hd' => hd ⟨hd', he⟩)
  | offer q P ih =>
    simp only [Proc.follow] at hf ⊢
    split at hf
    · cases hf
    · next he => rw [if_neg he]; exact ih hP hh hf
  | recall j f ih => exact ih _ (hP _) hh hf

/-- A search makes independent attempts. -/
theorem tryFrom_fresh {g : Nat → Proc} (hc : ∀ j, Clean O (g j)) (ht : ∀ j, Textual s O (g j)) (l : List Nat) {h : Notes}
    (hh : SameTexts s O h (fun _ => none)) :
    (∀ b e, (tryFrom g l h).1 = some (b, e) → ∃ l₁ l₂, l = l₁ ++ b :: l₂ ∧ ((g b).follow (fun _ => true) (fun _ => none)).1 = some e ∧
      (∀ j ∈ l₁, ((g j).follow (fun _ => true) (fun _ => none)).1 = none) ∧
      SameTexts s O (tryFrom g l h).2 ((g b).follow (fun _ => true) (fun _ => none)).2) ∧
    ((tryFrom g l h).1 = none → (∀ j ∈ l, ((g j).follow (fun _ => true) (fun _ => none)).1 = none) ∧ SameTexts s O (tryFrom g l h).2 (fun _ => none)) := by
  induction l generalizing h with
  | nil => exact ⟨fun b e he => (by cases he), fun _ => ⟨by simp, hh⟩⟩
  | cons j l ih =>
    obtain ⟨h1, h2⟩ := follow_textual (ht j) (fun _ => true) hh
    have h3 := fun hf => follow_tidy (s := s) (hc j) (fun _ => true) (h := h) (fun k hk _ => hh k hk) hf
    simp only [tryFrom]
    generalize (g j).follow (fun _ => true) h = x at h1 h2 h3 ⊢
    obtain ⟨q, n⟩ := x
    cases q with
    | some q =>
      refine ⟨fun b e he => ?_, fun he => (by cases he)⟩
      simp only [Option.some.injEq, Prod.mk.injEq] at he
      obtain ⟨rfl, rfl⟩ := he
      exact ⟨[], l, rfl, h1.symm, by simp, h2⟩
    | none =>
      obtain ⟨ih1, ih2⟩ := ih (h := n) (fun k hk => h3 rfl k hk)
      refine ⟨fun b e he => ?_, fun he => ⟨fun i hi => ?_, (ih2 he).2⟩⟩
      · obtain ⟨l₁, l₂, e1, e2, e3, e4⟩ := ih1 b e he
        refine ⟨j :: l₁, l₂, by rw [e1]; rfl, e2, fun i hi => ?_, e4⟩
        rcases List.mem_cons.1 hi with rfl | hi
        · exact h1.symm
        · exact e3 i hi
      · rcases List.mem_cons.1 hi with rfl | hi
        · exact h1.symm
        · exact (ih2 he).1 i hi

/-- After a failure, the groups in `O` hold no text. -/
theorem carryOut_tidy {g : Nat → Proc} (hc : ∀ j, Clean O (g j)) (n cur : Nat) (M : Method) {h : Notes} (hh : ∀ k, O k → heldText s (h k) = [])
    (hf : (carryOut n g cur h M).1 = none) (k : Nat) (hk : O k) : heldText s ((carryOut n g cur h M).2 k) = [] := by
  have key : ∀ acc, ((g cur).follow acc h).1.map (cur, ·) = none → heldText s (((g cur).follow acc h).2 k) = [] := fun acc hm =>
    follow_tidy (hc cur) acc (fun k hk _ => hh k hk) (Option.map_eq_none_iff.1 hm) k hk
  cases M with
  | «match» => exact key _ hf
  | matchPrefix => exact key _ hf
  | search =>
    simp only [carryOut] at hf ⊢
    clear key
    generalize List.range' cur (n + 1 - cur) = l at hf ⊢
    induction l generalizing h with
    | nil => exact hh k hk
    | cons j l ih =>
      have h3 := fun hf => follow_tidy (s := s) (hc j) (fun _ => true) (h := h) (fun k hk _ => hh k hk) hf
      simp only [tryFrom] at hf ⊢
      generalize (g j).follow (fun _ => true) h = x at hf h3 ⊢
      obtain ⟨q, n⟩ := x
      cases q with
      | some q => cases hf
      | none => exact ih (fun k hk => h3 rfl k hk) hf

end
end Mregex
