import Verif.Proof.Moves
import Verif.Proof.ProcMethods
import Verif.Spec.Lengths

/-! Lemmas for C81. -/

namespace Mregex
open Ast Spec

/-! ### Offers and notes of a procedure -/

/-- All offers satisfy `Q`, all notes `N`. -/
def Proc.Fit (N : Nat → Nat → Nat → Prop) (Q : Nat → Prop) : Proc → Prop
  | .done => True
  | .note k b e P => N k b e ∧ Proc.Fit N Q P
  | .cross _ P => Proc.Fit N Q P
  | .offer q P => Q q ∧ Proc.Fit N Q P
  | .recall _ f => ∀ v, Proc.Fit N Q (f v)

section
variable {N N' : Nat → Nat → Nat → Prop} {Q Q' : Nat → Prop}

theorem fit_mono {P : Proc} (h : Proc.Fit N Q P) (hn : ∀ k b e, N k b e → N' k b e) (hq : ∀ q, Q q → Q' q) : Proc.Fit N' Q' P := by
  induction P with
  | done => trivial
  | note _ _ _ P ih => exact ⟨hn _ _ _ h.1, ih h.2⟩
  | cross _ P ih => exact ih h
  | offer q P ih => exact ⟨hq _ h.1, ih h.2⟩
  | recall _ f ih => exact fun v => ih v (h v)

theorem fit_andThen {P P' : Proc} (h : Proc.Fit N Q P) (h' : Proc.Fit N Q P') : Proc.Fit N Q (P.andThen P') := by
  induction P with
  | done => exact h'
  | note _ _ _ P ih => exact ⟨h.1, ih h.2⟩
  | cross _ P ih => exact ih h
  | offer q P ih => exact ⟨h.1, ih h.2⟩
  | recall _ f ih => exact fun v => ih v (h v)

theorem fit_proceed {P : Proc} {g : Nat → Proc} (h : Proc.Fit N Q P) (hg : ∀ q, Q q → Proc.Fit N Q' (g q)) : Proc.Fit N Q' (P.proceed g) := by
  induction P with
  | done => trivial
  | note _ _ _ P ih => exact ⟨h.1, ih h.2⟩
  | cross _ P ih => exact ih h
  | offer q P ih => exact fit_andThen (hg q h.1) (ih h.2)
  | recall _ f ih => exact fun v => ih v (h v)

theorem fit_commit {P P' : Proc} {g : Nat → Proc} (h : Proc.Fit N Q P) (hg : ∀ q, Q q → Proc.Fit N Q' (g q)) (h' : Proc.Fit N Q' P') :
    Proc.Fit N Q' (P.commit g P') := by
  induction P with
  | done => exact h'
  | note _ _ _ P ih => exact ⟨h.1, ih h.2⟩
  | cross _ P ih => exact ih h
  | offer q P ih => exact hg q h.1
  | recall _ f ih => exact fun v => ih v (h v)

theorem fit_except {P : Proc} (h : Proc.Fit N Q P) (p : Nat) : Proc.Fit N Q (P.except p) := by
  induction P with
  | done => trivial
  | note _ _ _ P ih => exact ⟨h.1, ih h.2⟩
  | cross _ P ih => exact ih h
  | offer q P ih =>
    simp only [Proc.except]
    split
    · exact ih h.2
    · exact ⟨h.1, ih h.2⟩
  | recall _ f ih => exact fun v => ih v (h v)

theorem fit_offers {l : List Nat} (h : ∀ q ∈ l, Q q) : Proc.Fit N Q (.offers l) := by
  induction l with
  | nil => trivial
  | cons q l ih => exact ⟨h q (by simp), ih (fun t ht => h t (List.mem_cons_of_mem _ ht))⟩

theorem fit_only {q : Nat} (h : Q q) : Proc.Fit N Q (.only q) := ⟨h, trivial⟩

/-- Nothing is noted, or something that satisfies `N`, or an empty range. -/
def Kept (N : Nat → Nat → Nat → Prop) (h : Notes) : Prop := ∀ k b e, h k = some (b, e) → N k b e ∨ b = e

theorem follow_fit {acc : Nat → Bool} {P : Proc} (hP : Proc.Fit N Q P) (h : Notes) (hh : Kept N h) :
    (∀ q, (P.follow acc h).1 = some q → Q q) ∧ Kept N (P.follow acc h).2 := by
  induction P generalizing h with
  | done => exact ⟨fun q e => (by cases e), hh⟩
  | note k b e P ih =>
    refine ih hP.2 _ (fun j b' e' hj => ?_)
    simp only [Notes.put] at hj
    split at hj
    · next hjk => cases hj; exact .inl (hjk ▸ hP.1)
    · exact hh j b' e' hj
  | cross k P ih =>
    refine ih hP _ (fun j b' e' hj => ?_)
    simp only [Notes.put] at hj
    split at hj
    · rw [Option.map_eq_some_iff] at hj
      obtain ⟨x, _, hx⟩ := hj
      cases hx; exact .inr rfl
    · exact hh j b' e' hj
  | offer q P ih =>
    simp only [Proc.follow]
    split
    · exact ⟨fun t e => by cases e; exact hP.1, hh⟩
    · exact ih hP.2 h hh
  | recall k f ih => exact ih _ (hP _) h hh

/-- What is followed up to is accepted. -/
theorem follow_accepts {acc : Nat → Bool} {P : Proc} {h : Notes} {q : Nat} (hq : (P.follow acc h).1 = some q) : acc q = true := by
  induction P generalizing h with
  | done => cases hq
  | note k b e P ih => exact ih hq
  | cross k P ih => exact ih hq
  | offer p P ih =>
    simp only [Proc.follow] at hq
    split at hq
    · next hp => cases hq; exact hp
    · exact ih hq
  | recall k f ih => exact ih _ hq

theorem carryOut_fit {n : Nat} {g : Nat → Proc} {Q : Nat → Nat → Prop} (hg : ∀ p, Proc.Fit N (Q p) (g p)) (cur : Nat) (h : Notes) (hh : Kept N h) (M : Method) :
    (∀ b e, (carryOut n g cur h M).1 = some (b, e) → Q b e) ∧ Kept N (carryOut n g cur h M).2 := by
  cases M with
  | «match» =>
    have := follow_fit (acc := (· == n)) (hg cur) h hh
    refine ⟨fun b e hb => ?_, this.2⟩
    simp only [carryOut, Option.map_eq_some_iff, Prod.mk.injEq] at hb
    obtain ⟨q, hq, rfl, rfl⟩ := hb
    exact this.1 q hq
  | matchPrefix =>
    have := follow_fit (acc := fun _ => true) (hg cur) h hh
    refine ⟨fun b e hb => ?_, this.2⟩
    simp only [carryOut, Option.map_eq_some_iff, Prod.mk.injEq] at hb
    obtain ⟨q, hq, rfl, rfl⟩ := hb
    exact this.1 q hq
  | search =>
    simp only [carryOut]
    generalize List.range' cur (n + 1 - cur) = l
    induction l generalizing h with
    | nil => exact ⟨fun b e hb => (by cases hb), hh⟩
    | cons j l ih =>
      have := follow_fit (acc := fun _ => true) (hg j) h hh
      simp only [tryFrom]
      generalize hF : (g j).follow (fun _ => true) h = F at this
      obtain ⟨o, h'⟩ := F
      cases o with
      | some q => exact ⟨fun b e hb => by cases hb; exact this.1 q rfl, this.2⟩
      | none => exact ih h' this.2

end

/-! ### Lengths -/

/-- `q` is reached from `p` by at least `mn` and at most `mx` characters. -/
def WithinLengths (fwd : Bool) (mn : Nat) (mx : Option Nat) (p q : Nat) : Prop :=
  ∃ d, (if fwd then q = p + d else p = q + d) ∧ mn ≤ d ∧ ∀ m, mx = some m → d ≤ m

section
variable {fwd : Bool} {mn mn' : Nat} {mx mx' : Option Nat} {p q t : Nat}

theorem WithinLengths.self : WithinLengths fwd 0 (some 0) p p := ⟨0, by cases fwd <;> simp, Nat.le_refl _, fun _ e => by cases e; exact Nat.le_refl _⟩
theorem WithinLengths.zero : WithinLengths fwd 0 mx p p := ⟨0, by cases fwd <;> simp, Nat.le_refl _, fun _ _ => Nat.zero_le _⟩

theorem WithinLengths.trans (h : WithinLengths fwd mn mx p q) (h' : WithinLengths fwd mn' mx' q t) : WithinLengths fwd (mn + mn') (addLimit mx mx') p t := by
  obtain ⟨d, h1, h2, h3⟩ := h
  obtain ⟨d', h1', h2', h3'⟩ := h'
  refine ⟨d + d', ?_, by omega, fun m e => ?_⟩
  · cases fwd <;> simp only [Bool.false_eq_true, if_false, if_true] at * <;> omega
  · cases mx with
    | none => cases e
    | some x =>
      cases mx' with
      | none => cases e
      | some x' =>
        have := h3 x rfl
        have := h3' x' rfl
        simp only [addLimit, Option.bind_some, Option.map_some, Option.some.injEq] at e
        omega

theorem WithinLengths.weaken (h : WithinLengths fwd mn mx p q) (h1 : mn' ≤ mn) (h2 : ∀ m', mx' = some m' → ∃ m, mx = some m ∧ m ≤ m') : WithinLengths fwd mn' mx' p q := by
  obtain ⟨d, e1, e2, e3⟩ := h
  refine ⟨d, e1, by omega, fun m e => ?_⟩
  obtain ⟨m', hm, hle⟩ := h2 m e
  exact Nat.le_trans (e3 _ hm) hle

theorem within_oneChar {s : List Byte} {acc : Byte → Bool} (h : q ∈ oneChar s fwd acc p) : WithinLengths fwd 1 (some 1) p q := by
  have ho := h
  unfold oneChar at h
  split at h
  · cases h
  · next x t hr =>
    split at h
    · simp only [List.mem_singleton] at h
      subst h
      refine ⟨1, ?_, Nat.le_refl _, fun m e => by cases e; exact Nat.le_refl _⟩
      unfold readChar at hr
      split at hr
      · next hf =>
        simp only [Option.map_eq_some_iff, Prod.mk.injEq] at hr
        obtain ⟨_, _, _, rfl⟩ := hr
        simp [hf]
      · next hf =>
        split at hr
        · cases hr
        · simp only [Option.map_eq_some_iff, Prod.mk.injEq] at hr
          obtain ⟨_, _, _, rfl⟩ := hr
          simp [hf]
    · cases h

theorem within_copies {ic : Bool} {s w : List Byte} (h : q ∈ copies ic s fwd w p) : WithinLengths fwd 0 none p q := by
  induction w generalizing p with
  | nil => simp only [copies, List.mem_singleton] at h; exact h ▸ .zero
  | cons x w ih =>
    simp only [copies, List.mem_flatMap] at h
    obtain ⟨t, h1, h2⟩ := h
    exact ((within_oneChar h1).trans (ih h2)).weaken (Nat.zero_le _) (fun _ e => by cases e)

theorem within_test {b : Bool} (h : q ∈ Spec.test b p) : WithinLengths fwd 0 (some 0) p q := by
  unfold Spec.test at h
  split at h
  · simp only [List.mem_singleton] at h; exact h ▸ .self
  · cases h

end

theorem rounds_succ {k : Nat} {mx : Option Nat} : limitRounds (k + 1) mx = addLimit mx (limitRounds k mx) := by
  unfold limitRounds addLimit
  cases mx with
  | none => simp
  | some m =>
    by_cases hk : k = 0
    · subst hk; simp
    · simp [hk, Nat.succ_mul]; omega

theorem rounds_add (j k : Nat) (mx : Option Nat) : limitRounds (j + k) mx = addLimit (limitRounds j mx) (limitRounds k mx) := by
  unfold limitRounds addLimit
  by_cases hj : j = 0
  · subst hj; by_cases hk : k = 0 <;> cases mx <;> simp [hk]
  · by_cases hk : k = 0
    · subst hk; cases mx <;> simp [hj]
    · cases mx <;> simp [hj, hk, Nat.add_mul]

theorem limit_rounds_mono {j k : Nat} {mx : Option Nat} (h : j ≤ k) : ∀ m', limitRounds k mx = some m' → ∃ m, limitRounds j mx = some m ∧ m ≤ m' := by
  intro m' e
  unfold limitRounds at *
  by_cases hj : j = 0
  · exact ⟨0, by simp [hj], Nat.zero_le _⟩
  · have hk : ¬ k = 0 := by omega
    simp only [hj, hk, if_false] at *
    cases mx with
    | none => cases e
    | some m => cases e; exact ⟨_, rfl, Nat.mul_le_mul_right _ h⟩

section
variable {N : Nat → Nat → Nat → Prop} {fwd : Bool} {mn : Nat} {mx : Option Nat} {g : Nat → Proc} (hg : ∀ p, Proc.Fit N (WithinLengths fwd mn mx p) (g p))
include hg

theorem fit_times (k p : Nat) : Proc.Fit N (WithinLengths fwd (k * mn) (limitRounds k mx) p) (Proc.times g k p) := by
  induction k generalizing p with
  | zero => exact fit_only (by rw [Nat.zero_mul]; exact .self)
  | succ k ih =>
    refine fit_proceed (hg p) (fun q hq => fit_mono (ih q) (fun _ _ _ h => h) (fun t ht => ?_))
    rw [Nat.succ_mul, Nat.add_comm, rounds_succ]
    exact hq.trans ht

omit hg in
/-- The step common to all bounded loops. -/
theorem fit_round {k p : Nat} {L : Nat → Proc} (ih : ∀ q, Proc.Fit N (WithinLengths fwd 0 (limitRounds k mx) q) (L q)) :
    ∀ q, WithinLengths fwd mn mx p q → Proc.Fit N (WithinLengths fwd 0 (limitRounds (k + 1) mx) p) (L q) := fun q hq =>
  fit_mono (ih q) (fun _ _ _ h => h) (fun t ht => by rw [rounds_succ]; exact (hq.trans ht).weaken (Nat.zero_le _) (fun m e => ⟨m, e, Nat.le_refl _⟩))

theorem fit_greedyUpTo (k p : Nat) : Proc.Fit N (WithinLengths fwd 0 (limitRounds k mx) p) (Proc.greedyUpTo g k p) := by
  induction k generalizing p with
  | zero => exact fit_only .zero
  | succ k ih => exact fit_andThen (fit_proceed (hg p) (fit_round ih)) (fit_only .zero)

theorem fit_lazyUpTo (k p : Nat) : Proc.Fit N (WithinLengths fwd 0 (limitRounds k mx) p) (Proc.lazyUpTo g k p) := by
  induction k generalizing p with
  | zero => exact fit_only .zero
  | succ k ih => exact ⟨.zero, fit_proceed (hg p) (fit_round ih)⟩

theorem fit_possessiveUpTo (k p : Nat) : Proc.Fit N (WithinLengths fwd 0 (limitRounds k mx) p) (Proc.possessiveUpTo g k p) := by
  induction k generalizing p with
  | zero => exact fit_only .zero
  | succ k ih => exact fit_commit (hg p) (fit_round ih) (fit_only .zero)

omit hg in
/-- Arbitrarily many rounds. -/
theorem star_trans {p q t : Nat} (h : WithinLengths fwd mn mx p q) (h' : WithinLengths fwd 0 (anyRounds mx) q t) :
    WithinLengths fwd 0 (anyRounds mx) p t := by
  refine (h.trans h').weaken (Nat.zero_le _) (fun m e => ?_)
  unfold anyRounds at e ⊢
  split at e
  · next hm => cases e; subst hm; exact ⟨0, rfl, Nat.le_refl _⟩
  · cases e

theorem fit_greedyStar (k p : Nat) : Proc.Fit N (WithinLengths fwd 0 (anyRounds mx) p) (Proc.greedyStar g k p) := by
  induction k generalizing p with
  | zero => trivial
  | succ k ih =>
    exact fit_andThen (fit_proceed (fit_except (hg p) p) (fun q hq => fit_mono (ih q) (fun _ _ _ h => h) (fun t ht => star_trans hq ht))) (fit_only .zero)

theorem fit_lazyStar (k p : Nat) : Proc.Fit N (WithinLengths fwd 0 (anyRounds mx) p) (Proc.lazyStar g k p) := by
  induction k generalizing p with
  | zero => trivial
  | succ k ih =>
    exact ⟨.zero, fit_proceed (fit_except (hg p) p) (fun q hq => fit_mono (ih q) (fun _ _ _ h => h) (fun t ht => star_trans hq ht))⟩

theorem fit_possessiveStar (k p : Nat) : Proc.Fit N (WithinLengths fwd 0 (anyRounds mx) p) (Proc.possessiveStar g k p) := by
  induction k generalizing p with
  | zero => trivial
  | succ k ih =>
    refine fit_commit (hg p) (fun q hq => ?_) (fit_only .zero)
    split
    · exact fit_only .zero
    · exact fit_mono (ih q) (fun _ _ _ h => h) (fun t ht => star_trans hq ht)

theorem fit_quantified (n : Nat) (m : Mode) (u : Bool) (lo : Nat) (hi : Bound) (p : Nat) :
    Proc.Fit N (WithinLengths fwd (lo * mn) (match hi with | .fin h => limitRounds (max lo h) mx | .inf => anyRounds mx) p)
      (Proc.quantified n m u lo hi g p) := by
  unfold Proc.quantified
  have ht : Proc.Fit N (WithinLengths fwd (lo * mn) (limitRounds lo mx) p) (match m with | .possessive => (Proc.times g lo p).commit .only .done | _ => Proc.times g lo p) := by
    cases m
    · exact fit_times hg lo p
    · exact fit_times hg lo p
    · exact fit_commit (fit_times hg lo p) (fun q hq => fit_only hq) trivial
  refine fit_proceed ht (fun q hq => ?_)
  cases hi with
  | fin h =>
    have hx : Proc.Fit N (WithinLengths fwd 0 (limitRounds (h - lo) mx) q) (Proc.extra n m u g (some (h - lo)) q) := by
      cases m <;> cases u <;> first | exact fit_greedyUpTo hg _ _ | exact fit_lazyUpTo hg _ _ | exact fit_possessiveUpTo hg _ _
    refine fit_mono hx (fun _ _ _ h => h) (fun t ht => (hq.trans ht).weaken (by omega) (fun m' e => ?_))
    exact ⟨m', by rw [← rounds_add, show lo + (h - lo) = max lo h by omega]; exact e, Nat.le_refl _⟩
  | inf =>
    have hx : Proc.Fit N (WithinLengths fwd 0 (anyRounds mx) q) (Proc.extra n m u g none q) := by
      cases m <;> cases u <;> first | exact fit_greedyStar hg _ _ | exact fit_lazyStar hg _ _ | exact fit_possessiveStar hg _ _
    refine fit_mono hx (fun _ _ _ h => h) (fun t ht => (hq.trans ht).weaken (by omega) (fun m' e => ?_))
    dsimp only at e
    unfold anyRounds at e ⊢
    split at e
    · next hm =>
      cases e; subst hm
      refine ⟨0, ?_, Nat.le_refl _⟩
      by_cases hl : lo = 0 <;> simp [limitRounds, addLimit, hl]
    · cases e

end

/-- The range `b` to `e` has a length that fits a group `k` of `a`. -/
def Sized (a : Ast) (k b e : Nat) : Prop := b ≤ e ∧ ∃ X, GroupBody a k X ∧ Fits X (e - b)

theorem Sized.lift {a a' : Ast} (h : ∀ k X, GroupBody a k X → GroupBody a' k X) (k b e : Nat) (hs : Sized a k b e) : Sized a' k b e :=
  ⟨hs.1, hs.2.imp (fun X hX => ⟨h k X hX.1, hX.2⟩)⟩

theorem shortestAny_cons_le (a : Ast) (l : List Ast) : shortestAny (a :: l) ≤ shortest a ∧ (l ≠ [] → shortestAny (a :: l) ≤ shortestAny l) := by
  cases l with
  | nil => exact ⟨Nat.le_refl _, fun h => absurd rfl h⟩
  | cons b l => simp only [shortestAny]; exact ⟨by omega, fun _ => by omega⟩

theorem longestAny_cons_le (a : Ast) (l : List Ast) :
    (∀ m', longestAny (a :: l) = some m' → ∃ m, longest a = some m ∧ m ≤ m') ∧ (∀ m', longestAny (a :: l) = some m' → ∃ m, longestAny l = some m ∧ m ≤ m') := by
  simp only [longestAny, maxLimit]
  cases longest a with
  | none => exact ⟨fun _ e => (by cases e), fun _ e => (by cases e)⟩
  | some x =>
    cases longestAny l with
    | none => exact ⟨fun _ e => (by cases e), fun _ e => (by cases e)⟩
    | some y =>
      simp only [Option.bind_some, Option.map_some, Option.some.injEq]
      exact ⟨fun _ e => ⟨x, rfl, by omega⟩, fun _ e => ⟨y, rfl, by omega⟩⟩

/-- Single characters have the length 1. -/
theorem lengths_of_character {a : Ast} (h : character a = true) : shortest a = 1 ∧ longest a = some 1 := by
  rw [character_eq] at h
  induction a using ind with
  | seq l ih =>
    match l with
    | [] => simp [triv, trivSingle] at h
    | [a] =>
      simp only [triv, trivSingle] at h
      have := ih a (by simp) h
      simp [shortest, longest, shortestAll, longestAll, addLimit, this.1, this.2]
    | a :: b :: l => simp [triv, trivSingle] at h
  | alt l ih =>
    simp only [triv, trivAlt_eq, Bool.and_eq_true, List.all_eq_true] at h
    simp only [shortest, longest]
    have hl := h.2
    have hne : l ≠ [] := by
      intro e; subst e; simp at h
    clear h
    induction l with
    | nil => exact absurd rfl hne
    | cons a l ihl =>
      have ha := ih a (by simp) (hl a (by simp))
      cases l with
      | nil => simp [shortestAny, longestAny, maxLimit, ha.1, ha.2]
      | cons b l =>
        have := ihl (fun c hc => ih c (List.mem_cons_of_mem _ hc)) (fun c hc => hl c (List.mem_cons_of_mem _ hc)) (by simp)
        rw [shortestAny, longestAny, this.1, this.2, ha.1, ha.2]
        · exact ⟨rfl, rfl⟩
        · simp
  | rep m lo hi a ih =>
    simp only [triv, Bool.and_eq_true, beq_iff_eq] at h
    obtain ⟨⟨rfl, rfl⟩, h⟩ := h
    simp [shortest, longest, limitRounds, ih h]
  | neg a ih =>
    simp only [triv, Bool.not_eq_true'] at h
    simp [shortest, longest, assertion_eq, h]
  | _ => first | exact ⟨rfl, rfl⟩ | simp [triv] at h

theorem fit_proc (f : Flags) (s : List Byte) (ν : List Byte → Nat) (a : Ast) (r : Nat) (inv : Bool) (p : Nat) :
    Proc.Fit (Sized a) (WithinLengths (r % 2 == 0) (shortest a) (longest a) p) (proc f s ν a r inv p) := by
  induction a using ind generalizing r inv p with
  | neg a ih =>
    simp only [proc, shortest, longest]
    split
    · next h =>
      exact fit_commit (fit_mono (ih r inv p) (Sized.lift fun _ _ => .neg) (fun _ h => h)) (fun _ _ => trivial) (fit_only .self)
    · exact fit_offers (fun q hq => within_oneChar hq)
  | seq l ih =>
    simp only [proc, shortest, longest]
    have hl : ∀ l', (∀ b ∈ l', b ∈ l) → ∀ p, Proc.Fit (Sized (.seq l)) (WithinLengths (r % 2 == 0) (shortestAll l') (longestAll l') p) (procAll f s ν l' r inv p) := by
      intro l'
      induction l' with
      | nil => exact fun _ p => fit_only .self
      | cons a l' ihl =>
        intro hb p
        have ihl := ihl (fun b h => hb b (List.mem_cons_of_mem _ h))
        have iha := fun q => fit_mono (ih a (hb a (by simp)) r inv q) (Sized.lift fun _ _ => .seq (l := l) (hb a (by simp))) (fun _ h => h)
        simp only [procAll, shortestAll, longestAll]
        split
        · refine fit_proceed (ihl p) (fun q hq => fit_mono (iha q) (fun _ _ _ h => h) (fun t ht => ?_))
          refine (hq.trans ht).weaken (by omega) (fun m e => ⟨m, ?_, Nat.le_refl _⟩)
          rw [← e]
          cases longest a <;> cases longestAll l' <;> simp [addLimit, Nat.add_comm]
        · exact fit_proceed (iha p) (fun q hq => fit_mono (ihl q) (fun _ _ _ h => h) (fun t ht => hq.trans ht))
    exact hl l (fun _ h => h) p
  | alt l ih =>
    simp only [proc, shortest, longest]
    have hl : ∀ l', (∀ b ∈ l', b ∈ l) → Proc.Fit (Sized (.alt l)) (WithinLengths (r % 2 == 0) (shortestAny l') (longestAny l') p) (procAny f s ν l' r inv p) := by
      intro l'
      induction l' with
      | nil => exact fun _ => trivial
      | cons a l' ihl =>
        intro hb
        have ihl := ihl (fun b h => hb b (List.mem_cons_of_mem _ h))
        have iha := fit_mono (ih a (hb a (by simp)) r inv p) (Sized.lift fun _ _ => .alt (l := l) (hb a (by simp))) (fun _ h => h)
        simp only [procAny]
        split
        · next hc =>
          have hh := lengths_of_character (a := .alt (a :: l')) (by simpa [character] using hc)
          simp only [shortest, longest] at hh
          rw [hh.1, hh.2]
          exact fit_offers (fun q hq => within_oneChar hq)
        · refine fit_andThen (fit_mono iha (fun _ _ _ h => h) (fun q hq => hq.weaken (shortestAny_cons_le a l').1 (longestAny_cons_le a l').1)) ?_
          by_cases hne : l' = []
          · subst hne; exact trivial
          · exact fit_mono ihl (fun _ _ _ h => h) (fun q hq => hq.weaken ((shortestAny_cons_le a l').2 hne) (longestAny_cons_le a l').2)
    exact hl l (fun _ h => h)
  | cap id n a ih =>
    simp only [proc, shortest, longest]
    refine fit_andThen (fit_proceed (fit_mono (ih r inv p) (Sized.lift fun _ _ => .cap) (fun _ h => h)) (fun q hq => ?_)) trivial
    obtain ⟨d, h1, h2, h3⟩ := hq
    split
    · next hr =>
      rw [show (r % 2 == 0) = true by simp [hr]] at h1 ⊢
      simp only [if_true] at h1
      exact ⟨⟨by omega, a, .here, by rw [show q - p = d by omega]; exact ⟨h2, h3⟩⟩, ⟨d, h1, h2, h3⟩, trivial⟩
    · next hr =>
      rw [show (r % 2 == 0) = false by simp [hr]] at h1 ⊢
      simp only [Bool.false_eq_true, if_false] at h1
      exact ⟨⟨by omega, a, .here, by rw [show p - q = d by omega]; exact ⟨h2, h3⟩⟩, ⟨d, h1, h2, h3⟩, trivial⟩
  | rep m lo hi a ih =>
    simp only [proc, shortest]
    have := fit_quantified (fun q => fit_mono (ih r inv q) (Sized.lift fun _ _ => .rep (m := m) (lo := lo) (hi := hi)) (fun _ h => h)) s.length m f.ungreedy lo hi p
    cases hi <;> simp only [longest] <;> exact this
  | look d a ih =>
    simp only [proc, shortest, longest]
    split
    · exact fit_commit (fit_mono (ih r false p) (Sized.lift fun _ _ => .look) (fun _ h => h)) (fun _ _ => fit_only .self) trivial
    · exact fit_commit (fit_mono (ih (r + 1) true p) (Sized.lift fun _ _ => .look) (fun _ h => h)) (fun _ _ => fit_only .self) trivial
  | backref k =>
    simp only [proc, reference, shortest, longest]
    exact fun v => fit_offers (fun q hq => within_copies hq)
  | namedBackref k =>
    simp only [proc, reference, shortest, longest]
    exact fun v => fit_offers (fun q hq => within_copies hq)
  | empty =>
    simp only [proc, ends, shortest, longest]
    exact fit_offers (fun q hq => by simp only [List.mem_singleton] at hq; exact hq ▸ .self)
  | lit | range | wildcard | set =>
    simp only [proc, ends, shortest, longest]
    exact fit_offers (fun q hq => within_oneChar hq)
  | bol | boi | eol | eoi | wordB =>
    simp only [proc, ends, shortest, longest]
    exact fit_offers (fun q hq => within_test hq)

end Mregex
