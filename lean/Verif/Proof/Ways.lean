import Verif.Spec.Ways
import Verif.Proof.Lengths
import Verif.Proof.Sound
import Verif.Proof.Ends
import Verif.Proof.ProcMain

/-!
# The offers of an expression without references are its ways to match
-/

namespace Mregex
open Ast Spec

/-- No group is recalled. -/
def Proc.Plain : Proc → Prop
  | .done => True
  | .note _ _ _ P => Proc.Plain P
  | .cross _ P => Proc.Plain P
  | .offer _ P => Proc.Plain P
  | .recall _ _ => False

/-- The offers. -/
def Proc.list : Proc → List Nat
  | .done => []
  | .note _ _ _ P => Proc.list P
  | .cross _ P => Proc.list P
  | .offer q P => q :: Proc.list P
  | .recall _ _ => []

/-- No group is recalled, and these are the offers. -/
def Lists (P : Proc) (l : List Nat) : Prop := Proc.Plain P ∧ Proc.list P = l

theorem lists_andThen {P Q : Proc} {l l' : List Nat} (h : Lists P l) (h' : Lists Q l') : Lists (P.andThen Q) (l ++ l') := by
  induction P generalizing l with
  | done => obtain ⟨_, rfl⟩ := h; exact h'
  | note k b e P ih => exact ih h
  | cross k P ih => exact ih h
  | offer q P ih =>
    obtain ⟨h1, rfl⟩ := h
    have := ih ⟨h1, rfl⟩
    exact ⟨this.1, by show q :: Proc.list _ = _; rw [this.2]; rfl⟩
  | recall k f ih => exact h.1.elim

theorem lists_proceed {P : Proc} {g : Nat → Proc} {l : List Nat} {G : Nat → List Nat} (h : Lists P l) (hg : ∀ q, Lists (g q) (G q)) :
    Lists (P.proceed g) (l.flatMap G) := by
  induction P generalizing l with
  | done => obtain ⟨_, rfl⟩ := h; exact ⟨trivial, rfl⟩
  | note k b e P ih => exact ih h
  | cross k P ih => exact ih h
  | offer q P ih =>
    obtain ⟨h1, rfl⟩ := h
    exact lists_andThen (hg q) (ih ⟨h1, rfl⟩)
  | recall k f ih => exact h.1.elim

theorem lists_commit {P P' : Proc} {g : Nat → Proc} {l l' : List Nat} {G : Nat → List Nat} (h : Lists P l) (hg : ∀ q, Lists (g q) (G q)) (h' : Lists P' l') :
    Lists (P.commit g P') (match (generalizing := false) l with | [] => l' | q :: _ => G q) := by
  induction P generalizing l with
  | done => obtain ⟨_, rfl⟩ := h; exact h'
  | note k b e P ih => exact ih h
  | cross k P ih => exact ih h
  | offer q P ih => obtain ⟨_, rfl⟩ := h; exact hg q
  | recall k f ih => exact h.1.elim

theorem lists_except {P : Proc} {l : List Nat} (h : Lists P l) (p : Nat) : Lists (P.except p) (l.filter (· ≠ p)) := by
  induction P generalizing l with
  | done => obtain ⟨_, rfl⟩ := h; exact ⟨trivial, rfl⟩
  | note k b e P ih => exact ih h
  | cross k P ih => exact ih h
  | offer q P ih =>
    obtain ⟨h1, rfl⟩ := h
    have := ih ⟨h1, rfl⟩
    simp only [Proc.except, Proc.list]
    by_cases hq : q = p
    · rw [if_pos hq, List.filter_cons_of_neg (by simp [hq])]
      exact this
    · rw [if_neg hq, List.filter_cons_of_pos (by simp [hq])]
      exact ⟨this.1, by show q :: Proc.list _ = _; rw [this.2]⟩
  | recall k f ih => exact h.1.elim

theorem lists_offers (l : List Nat) : Lists (.offers l) l := by
  induction l with
  | nil => exact ⟨trivial, rfl⟩
  | cons q l ih => exact ⟨ih.1, by show q :: Proc.list _ = _; rw [ih.2]⟩

theorem lists_only (q : Nat) : Lists (.only q) [q] := ⟨trivial, rfl⟩

section
variable {g : Nat → Proc} {G : Nat → List Nat} (hg : ∀ q, Lists (g q) (G q))
include hg

theorem lists_times (k p : Nat) : Lists (Proc.times g k p) (exactly G k p) := by
  induction k generalizing p with
  | zero => exact lists_only p
  | succ k ih => exact lists_proceed (hg p) ih

theorem lists_greedyUpTo (k p : Nat) : Lists (Proc.greedyUpTo g k p) (Spec.greedyUpTo G k p) := by
  induction k generalizing p with
  | zero => exact lists_only p
  | succ k ih => exact lists_andThen (lists_proceed (hg p) ih) (lists_only p)

theorem lists_lazyUpTo (k p : Nat) : Lists (Proc.lazyUpTo g k p) (Spec.lazyUpTo G k p) := by
  induction k generalizing p with
  | zero => exact lists_only p
  | succ k ih => exact lists_andThen (lists_only p) (lists_proceed (hg p) ih)

theorem lists_possessiveUpTo (k p : Nat) : Lists (Proc.possessiveUpTo g k p) (Spec.possessiveUpTo G k p) := by
  induction k generalizing p with
  | zero => exact lists_only p
  | succ k ih => exact lists_commit (hg p) ih (lists_only p)

theorem lists_greedyStar (k p : Nat) : Lists (Proc.greedyStar g k p) (Spec.greedyStar G k p) := by
  induction k generalizing p with
  | zero => exact ⟨trivial, rfl⟩
  | succ k ih => exact lists_andThen (lists_proceed (lists_except (hg p) p) ih) (lists_only p)

theorem lists_lazyStar (k p : Nat) : Lists (Proc.lazyStar g k p) (Spec.lazyStar G k p) := by
  induction k generalizing p with
  | zero => exact ⟨trivial, rfl⟩
  | succ k ih => exact lists_andThen (lists_only p) (lists_proceed (lists_except (hg p) p) ih)

theorem lists_possessiveStar (k p : Nat) : Lists (Proc.possessiveStar g k p) (Spec.possessiveStar G k p) := by
  induction k generalizing p with
  | zero => exact ⟨trivial, rfl⟩
  | succ k ih =>
    refine lists_commit (G := fun q => if q = p then [p] else Spec.possessiveStar G k q) (hg p) (fun q => ?_) (lists_only p)
    split
    · exact lists_only p
    · exact ih q

theorem lists_extra (n : Nat) (m : Mode) (u : Bool) (k : Option Nat) (p : Nat) : Lists (Proc.extra n m u g k p) (Spec.extra n m u G k p) := by
  have h1 := lists_greedyUpTo hg
  have h2 := lists_lazyUpTo hg
  have h3 := lists_greedyStar hg
  have h4 := lists_lazyStar hg
  have h5 := lists_possessiveUpTo hg
  have h6 := lists_possessiveStar hg
  cases k <;> cases m <;> cases u <;> first | apply h1 | apply h2 | apply h3 | apply h4 | apply h5 | apply h6

theorem lists_quantified (n : Nat) (m : Mode) (u : Bool) (lo : Nat) (hi : Bound) (p : Nat) :
    Lists (Proc.quantified n m u lo hi g p) (Spec.quantified n m u lo hi G p) := by
  unfold Proc.quantified Spec.quantified
  refine lists_proceed ?_ (fun q => lists_extra hg n m u _ q)
  have ht := lists_times hg lo p
  cases m with
  | possessive =>
    have := lists_commit ht lists_only (show Lists .done [] from ⟨trivial, rfl⟩)
    show Lists _ (List.take 1 (exactly G lo p))
    revert this
    cases exactly G lo p <;> exact fun h => h
  | greedy => exact ht
  | lazy => exact ht

end

/-- The same for the first of several equal offers. -/
def Offering (P : Proc) (l : List Nat) : Prop := ∃ l', Lists P l' ∧ FEq l' l

theorem offering_list {P : Proc} {l : List Nat} (h : Offering P l) : Lists P (Proc.list P) := by
  obtain ⟨l', h, _⟩ := h
  exact ⟨h.1, rfl⟩

theorem offering_feq {P : Proc} {l : List Nat} (h : Offering P l) : FEq (Proc.list P) l := by
  obtain ⟨l', h, h'⟩ := h
  rw [h.2]
  exact h'

/-- The offers of an expression without references are its ways to match. -/
theorem offering_proc (f : Flags) (s : List Byte) (ν : List Byte → Nat) (a : Ast) (hb : noBackref a = true) (r : Nat) (inv : Bool) (p : Nat) :
    Offering (proc f s ν a r inv p) (ends f s a (r % 2 == 0) inv p) := by
  induction a using ind generalizing r inv p with
  | neg a ih =>
    simp only [noBackref] at hb
    simp only [proc, ends]
    split
    · obtain ⟨l, h1, h2⟩ := ih hb r inv p
      refine ⟨_, lists_commit h1 (fun _ => ⟨trivial, rfl⟩) (lists_only p), ?_⟩
      rw [← h2.isEmpty]
      cases l <;> exact .refl _
    · exact ⟨_, lists_offers _, .refl _⟩
  | seq l ih =>
    simp only [noBackref] at hb
    simp only [proc, ends]
    induction l generalizing p with
    | nil => exact ⟨_, lists_only p, .refl _⟩
    | cons a l ihl =>
      simp only [noBackrefAll, Bool.and_eq_true] at hb
      have ihl := fun q => ihl (fun b h => ih b (List.mem_cons_of_mem _ h)) hb.2 q
      have iha := fun q => ih a (by simp) hb.1 r inv q
      simp only [procAll, endsAll]
      split
      · exact ⟨_, lists_proceed (offering_list (ihl p)) (fun q => offering_list (iha q)), (offering_feq (ihl p)).flatMap (fun q => offering_feq (iha q))⟩
      · exact ⟨_, lists_proceed (offering_list (iha p)) (fun q => offering_list (ihl q)), (offering_feq (iha p)).flatMap (fun q => offering_feq (ihl q))⟩
  | alt l ih =>
    simp only [noBackref] at hb
    simp only [proc, ends]
    induction l with
    | nil => exact ⟨_, ⟨trivial, rfl⟩, .refl _⟩
    | cons a l ihl =>
      simp only [noBackrefAll, Bool.and_eq_true] at hb
      have ihl := ihl (fun b h => ih b (List.mem_cons_of_mem _ h)) hb.2
      have iha := ih a (by simp) hb.1 r inv p
      simp only [procAny]
      split
      · next hc =>
        refine ⟨_, lists_offers _, ?_⟩
        have : triv (.alt (a :: l)) = true := by
          rw [← character_eq]
          simp [character, hc]
        have := (ends_triv this f s (r % 2 == 0) inv p).symm
        simpa only [accepts, ends] using this
      · exact ⟨_, lists_andThen (offering_list iha) (offering_list ihl), (offering_feq iha).append (offering_feq ihl)⟩
  | cap id n a ih =>
    simp only [noBackref] at hb
    simp only [proc, ends]
    have iha := ih hb r inv p
    refine ⟨_, lists_andThen (lists_proceed (offering_list iha) (G := fun q => [q]) (fun q => ?_)) (l' := []) ⟨trivial, rfl⟩, ?_⟩
    · split <;> exact ⟨trivial, rfl⟩
    · simpa using offering_feq iha
  | rep m lo hi a ih =>
    simp only [noBackref] at hb
    simp only [proc, ends]
    exact ⟨_, lists_quantified (fun q => offering_list (ih hb r inv q)) _ _ _ _ _ _, quantified_feq (fun q => offering_feq (ih hb r inv q)) _ _ _ _ _ _⟩
  | look d a ih =>
    simp only [noBackref] at hb
    simp only [proc, ends]
    split
    · obtain ⟨l, h1, h2⟩ := ih hb r false p
      refine ⟨_, lists_commit h1 (fun _ => lists_only p) (show Lists .done [] from ⟨trivial, rfl⟩), ?_⟩
      rw [← h2.isEmpty]
      cases l <;> exact .refl _
    · obtain ⟨l, h1, h2⟩ := ih hb (r + 1) true p
      refine ⟨_, lists_commit h1 (fun _ => lists_only p) (show Lists .done [] from ⟨trivial, rfl⟩), ?_⟩
      have e : (!(r % 2 == 0)) = ((r + 1) % 2 == 0) := by
        rcases Nat.mod_two_eq_zero_or_one r with h | h <;> simp [Nat.add_mod, h]
      rw [e, ← h2.isEmpty]
      cases l <;> exact .refl _
  | backref k => simp [noBackref] at hb
  | namedBackref n => simp [noBackref] at hb
  | _ => simp only [proc]; exact ⟨_, lists_offers _, .refl _⟩

theorem fit_lists {P : Proc} {l : List Nat} (h : Lists P l) {N : Nat → Nat → Nat → Prop} {Q : Nat → Prop} (hP : Proc.Fit N Q P) : Proc.Fit N (fun q => Q q ∧ q ∈ l) P := by
  obtain ⟨h1, rfl⟩ := h
  suffices H : ∀ m : List Nat, (∀ q ∈ Proc.list P, q ∈ m) → Proc.Fit N (fun q => Q q ∧ q ∈ m) P from H _ (fun _ h => h)
  intro m
  induction P with
  | done => exact fun _ => trivial
  | note k b e P ih => exact fun hm => ⟨hP.1, ih hP.2 h1 hm⟩
  | cross k P ih => exact fun hm => ih hP h1 hm
  | offer q P ih => exact fun hm => ⟨⟨hP.1, hm q (by simp [Proc.list])⟩, ih hP.2 h1 (fun t ht => hm t (by simp [Proc.list, ht]))⟩
  | recall k f ih => exact h1.elim

theorem fit_swap {N N' : Nat → Nat → Nat → Prop} {Q Q' : Nat → Prop} {P : Proc} (h : Proc.Fit N Q P) (h' : Proc.Fit N' Q' P) : Proc.Fit N Q' P := by
  induction P with
  | done => trivial
  | note k b e P ih => exact ⟨h.1, ih h.2 h'.2⟩
  | cross k P ih => exact ih h h'
  | offer q P ih => exact ⟨h'.1, ih h.2 h'.2⟩
  | recall k f ih => exact fun v => ih v (h v) (h' v)

/-- The range `b` to `e` is one that a group `k` of `a` takes. -/
def Took (f : Flags) (s : List Byte) (a : Ast) (fwd inv : Bool) (k b e : Nat) : Prop :=
  ∃ X fwd' inv', ReadGroup k a fwd inv X fwd' inv' ∧ (noBackref X = true → Taken f s X fwd' inv' b e)

theorem Took.lift {f : Flags} {s : List Byte} {a a' : Ast} {fwd inv fwd' inv' : Bool} (h : ∀ k X d i, ReadGroup k a fwd inv X d i → ReadGroup k a' fwd' inv' X d i)
    (k b e : Nat) (hs : Took f s a fwd inv k b e) : Took f s a' fwd' inv' k b e := by
  obtain ⟨X, d, i, h1, h2⟩ := hs
  exact ⟨X, d, i, h k X d i h1, h2⟩

theorem took_proc (f : Flags) (s : List Byte) (ν : List Byte → Nat) (a : Ast) (r : Nat) (inv : Bool) (p : Nat) :
    Proc.Fit (Took f s a (r % 2 == 0) inv) (fun _ => True) (proc f s ν a r inv p) := by
  induction a using ind generalizing r inv p with
  | neg a ih =>
    simp only [proc]
    split
    · exact fit_commit (fit_mono (ih r inv p) (Took.lift fun _ _ _ _ => .neg) (fun _ h => h)) (fun _ _ => trivial) (fit_only trivial)
    · exact fit_offers (fun q hq => trivial)
  | seq l ih =>
    simp only [proc]
    have hl : ∀ l', (∀ b ∈ l', b ∈ l) → ∀ p, Proc.Fit (Took f s (.seq l) (r % 2 == 0) inv) (fun _ => True) (procAll f s ν l' r inv p) := by
      intro l'
      induction l' with
      | nil => exact fun _ p => fit_only trivial
      | cons a l' ihl =>
        intro hb p
        have ihl := ihl (fun b h => hb b (List.mem_cons_of_mem _ h))
        have iha := fun q => fit_mono (ih a (hb a (by simp)) r inv q) (Took.lift fun _ _ _ _ => .seq (l := l) (hb a (by simp))) (fun _ h => h)
        simp only [procAll]
        split
        · exact fit_proceed (ihl p) (fun q _ => iha q)
        · exact fit_proceed (iha p) (fun q _ => ihl q)
    exact hl l (fun _ h => h) p
  | alt l ih =>
    simp only [proc]
    have hl : ∀ l', (∀ b ∈ l', b ∈ l) → Proc.Fit (Took f s (.alt l) (r % 2 == 0) inv) (fun _ => True) (procAny f s ν l' r inv p) := by
      intro l'
      induction l' with
      | nil => exact fun _ => trivial
      | cons a l' ihl =>
        intro hb
        have ihl := ihl (fun b h => hb b (List.mem_cons_of_mem _ h))
        have iha := fit_mono (ih a (hb a (by simp)) r inv p) (Took.lift fun _ _ _ _ => .alt (l := l) (hb a (by simp))) (fun _ h => h)
        simp only [procAny]
        split
        · exact fit_offers (fun q hq => trivial)
        · exact fit_andThen iha ihl
    exact hl l (fun _ h => h)
  | cap id n a ih =>
    have h : Proc.Fit (Took f s (.cap id n a) (r % 2 == 0) inv) (fun q => noBackref a = true → q ∈ ends f s a (r % 2 == 0) inv p) (proc f s ν a r inv p) := by
      have h0 := fit_mono (ih r inv p) (Took.lift fun _ _ _ _ => .cap (id := id) (name := n)) (fun _ h => h)
      by_cases hb : noBackref a = true
      · have ho := offering_proc f s ν a hb r inv p
        exact fit_mono (fit_lists (offering_list ho) h0) (fun _ _ _ h => h) (fun q hq _ => (offering_feq ho).mem.1 hq.2)
      · exact fit_mono h0 (fun _ _ _ h => h) (fun _ _ h => absurd h hb)
    simp only [proc]
    refine fit_andThen (fit_proceed h (fun q hq => ?_)) trivial
    split
    · next hr =>
      refine ⟨⟨a, _, _, .here, fun hb => ?_⟩, trivial, trivial⟩
      have := hq hb
      simpa only [Taken, hr, beq_self_eq_true, if_true] using this
    · next hr =>
      refine ⟨⟨a, _, _, .here, fun hb => ?_⟩, trivial, trivial⟩
      have := hq hb
      rw [show (r % 2 == 0) = false by simp [hr]] at this ⊢
      simpa only [Taken, Bool.false_eq_true, if_false] using this
  | rep m lo hi a ih =>
    have hg : ∀ q, Proc.Fit (Took f s (.rep m lo hi a) (r % 2 == 0) inv) (WithinLengths (r % 2 == 0) (shortest a) (longest a) q) (proc f s ν a r inv q) := fun q =>
      fit_swap (fit_mono (ih r inv q) (Took.lift fun _ _ _ _ => .rep) (fun _ h => h)) (fit_proc f s ν a r inv q)
    simp only [proc]
    exact fit_mono (fit_quantified hg _ _ _ _ _ _) (fun _ _ _ h => h) (fun _ _ => trivial)
  | look d a ih =>
    simp only [proc]
    split
    · next h => exact fit_commit (fit_mono (ih r false p) (Took.lift fun _ _ _ _ => .same (by simpa using h)) (fun _ h => h)) (fun _ _ => fit_only trivial) trivial
    · next h =>
      refine fit_commit (fit_mono (ih (r + 1) true p) (Took.lift fun _ _ _ _ h' => .turn (by revert h; cases d <;> cases inv <;> decide) ?_) (fun _ h => h))
        (fun _ _ => fit_only trivial) trivial
      rwa [show (!(r % 2 == 0)) = ((r + 1) % 2 == 0) by rcases Nat.mod_two_eq_zero_or_one r with h | h <;> simp [Nat.add_mod, h]]
  | backref k => simp only [proc]; exact fun v => fit_offers (fun _ _ => trivial)
  | namedBackref n => simp only [proc]; exact fun v => fit_offers (fun _ _ => trivial)
  | _ => simp only [proc]; exact fit_offers (fun _ _ => trivial)

section
variable {k : Nat} {a X : Ast} {fwd inv fwd' inv' : Bool}

theorem Spec.ReadGroup.body (h : ReadGroup k a fwd inv X fwd' inv') : GroupBody a k X := by
  induction h with
  | here => exact .here
  | cap _ ih => exact .cap ih
  | neg _ ih => exact .neg ih
  | rep _ ih => exact .rep ih
  | seq h _ ih => exact .seq h ih
  | alt h _ ih => exact .alt h ih
  | same _ _ ih => exact .look ih
  | turn _ _ ih => exact .look ih

theorem wfAll_mem {l : List Ast} (h : wfAll l = true) {a : Ast} (ha : a ∈ l) : wf a = true := by
  induction l with
  | nil => cases ha
  | cons b l ih =>
    simp only [wfAll, Bool.and_eq_true] at h
    rcases List.mem_cons.1 ha with rfl | ha
    · exact h.1
    · exact ih h.2 ha

theorem Spec.ReadGroup.wf (h : ReadGroup k a fwd inv X fwd' inv') (hw : wf a = true) : Mregex.wf X = true := by
  induction h with
  | here => exact hw
  | cap _ ih => exact ih hw
  | neg _ ih => simp only [Mregex.wf, Bool.and_eq_true] at hw; exact ih hw.2
  | @rep _ _ hi _ _ _ _ _ _ _ ih =>
    cases hi with
    | fin h => simp only [Mregex.wf, Bool.and_eq_true] at hw; exact ih hw.2
    | inf => exact ih hw
  | seq h _ ih => simp only [Mregex.wf, Bool.and_eq_true] at hw; exact ih (wfAll_mem hw.2 h)
  | alt h _ ih => simp only [Mregex.wf, Bool.and_eq_true] at hw; exact ih (wfAll_mem hw.2 h)
  | same _ _ ih => exact ih hw
  | turn _ _ ih => exact ih hw

theorem Spec.ReadGroup.readable (h : ReadGroup k a fwd inv X fwd' inv') (hr : Readable fwd inv a) : Readable fwd' inv' X := by
  induction h with
  | here => exact hr.cap
  | cap _ ih => exact ih hr.cap
  | neg _ ih => exact ih hr.neg
  | rep _ ih => exact ih hr.rep
  | seq h _ ih => exact ih (hr.seq _ h)
  | alt h _ ih => exact ih (hr.alt _ h)
  | @same d a fwd inv X _ _ hd _ ih =>
    refine ih ?_
    rcases hr with ⟨rfl, rfl, h⟩ | ⟨rfl, rfl, h⟩ | h
    · cases d with
      | ahead => exact .inl ⟨rfl, rfl, h⟩
      | behind => cases hd
    · cases d with
      | ahead => cases hd
      | behind => simp [reversible] at h; exact .inr (.inr h)
    · simp [palindromic] at h
  | @turn d a fwd inv X _ _ hd _ ih =>
    refine ih ?_
    rcases hr with ⟨rfl, rfl, h⟩ | ⟨rfl, rfl, h⟩ | h
    · cases d with
      | ahead => cases hd
      | behind => exact .inr (.inl ⟨rfl, rfl, h⟩)
    · cases d with
      | ahead => simp [reversible] at h; exact .inr (.inr h)
      | behind => cases hd
    · simp [palindromic] at h

end

end Mregex
