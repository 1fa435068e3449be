import Verif.Spec.Derives
import Verif.Proof.Ways
import Verif.Proof.Stay
import Verif.Proof.Local

/-!
# Every match has a derivation
-/

namespace Mregex
open Ast Spec

/-- What may be noted for a group. -/
def Holds (N : Nat → Nat → Nat → Prop) (k : Nat) (v : Cap) : Prop := ∀ b e, v = some (b, e) → N k b e ∨ b = e

/-- Like `Proc.Fit`, relying on what is noted. -/
def Proc.Just (N : Nat → Nat → Nat → Prop) (Q : Nat → Prop) : Proc → Prop
  | .done => True
  | .note k b e P => N k b e ∧ Proc.Just N Q P
  | .cross _ P => Proc.Just N Q P
  | .offer q P => Q q ∧ Proc.Just N Q P
  | .recall k f => ∀ v, Holds N k v → Proc.Just N Q (f v)

section
variable {N : Nat → Nat → Nat → Prop} {Q Q' : Nat → Prop}

theorem just_mono {P : Proc} (h : Proc.Just N Q P) (hq : ∀ q, Q q → Q' q) : Proc.Just N Q' P := by
  induction P with
  | done => trivial
  | note _ _ _ P ih => exact ⟨h.1, ih h.2⟩
  | cross _ P ih => exact ih h
  | offer q P ih => exact ⟨hq _ h.1, ih h.2⟩
  | recall _ f ih => exact fun v hv => ih v (h v hv)

theorem just_andThen {P P' : Proc} (h : Proc.Just N Q P) (h' : Proc.Just N Q P') : Proc.Just N Q (P.andThen P') := by
  induction P with
  | done => exact h'
  | note _ _ _ P ih => exact ⟨h.1, ih h.2⟩
  | cross _ P ih => exact ih h
  | offer q P ih => exact ⟨h.1, ih h.2⟩
  | recall _ f ih => exact fun v hv => ih v (h v hv)

theorem just_proceed {P : Proc} {g : Nat → Proc} (h : Proc.Just N Q P) (hg : ∀ q, Q q → Proc.Just N Q' (g q)) : Proc.Just N Q' (P.proceed g) := by
  induction P with
  | done => trivial
  | note _ _ _ P ih => exact ⟨h.1, ih h.2⟩
  | cross _ P ih => exact ih h
  | offer q P ih => exact just_andThen (hg q h.1) (ih h.2)
  | recall _ f ih => exact fun v hv => ih v (h v hv)

theorem just_commit {P P' : Proc} {g : Nat → Proc} (h : Proc.Just N Q P) (hg : ∀ q, Q q → Proc.Just N Q' (g q)) (h' : Proc.Just N Q' P') :
    Proc.Just N Q' (P.commit g P') := by
  induction P with
  | done => exact h'
  | note _ _ _ P ih => exact ⟨h.1, ih h.2⟩
  | cross _ P ih => exact ih h
  | offer q P ih => exact hg q h.1
  | recall _ f ih => exact fun v hv => ih v (h v hv)

theorem just_except {P : Proc} (h : Proc.Just N Q P) (p : Nat) : Proc.Just N Q (P.except p) := by
  induction P with
  | done => trivial
  | note _ _ _ P ih => exact ⟨h.1, ih h.2⟩
  | cross _ P ih => exact ih h
  | offer q P ih =>
    simp only [Proc.except]
    split
    · exact ih h.2
    · exact ⟨h.1, ih h.2⟩
  | recall _ f ih => exact fun v hv => ih v (h v hv)

theorem just_offers {l : List Nat} (h : ∀ q ∈ l, Q q) : Proc.Just N Q (.offers l) := by
  induction l with
  | nil => trivial
  | cons q l ih => exact ⟨h q (by simp), ih (fun t ht => h t (List.mem_cons_of_mem _ ht))⟩

theorem just_only {q : Nat} (h : Q q) : Proc.Just N Q (.only q) := ⟨h, trivial⟩

theorem follow_just {acc : Nat → Bool} {P : Proc} (hP : Proc.Just N Q P) (h : Notes) (hh : Kept N h) :
    (∀ q, (P.follow acc h).1 = some q → Q q) ∧ Kept N (P.follow acc h).2 := by
  induction P generalizing h with
  | done => exact ⟨fun q e => (by cases e), hh⟩
  | note k b e P ih =>
    refine ih hP.2 _ (fun j b' e' hj => ?_)
    simp only [Notes.put] at hj
    split at hj
    · next hjk => cases hj; exact .inl (hjk ▸ hP.1)
    · exact hh j b' e' hj
  | cross k P ih =>
    refine ih hP _ (fun j b' e' hj => ?_)
    simp only [Notes.put] at hj
    split at hj
    · rw [Option.map_eq_some_iff] at hj
      obtain ⟨x, _, hx⟩ := hj
      cases hx; exact .inr rfl
    · exact hh j b' e' hj
  | offer q P ih =>
    simp only [Proc.follow]
    split
    · exact ⟨fun t e => by cases e; exact hP.1, hh⟩
    · exact ih hP.2 h hh
  | recall k f ih => exact ih _ (hP _ (fun b e => hh k b e)) h hh

theorem carryOut_just {n : Nat} {g : Nat → Proc} {Q : Nat → Nat → Prop} (hg : ∀ p, p ≤ n → Proc.Just N (Q p) (g p)) (cur : Nat) (hcur : cur ≤ n) (h : Notes) (hh : Kept N h) (M : Method) :
    (∀ b e, (carryOut n g cur h M).1 = some (b, e) → Q b e) ∧ Kept N (carryOut n g cur h M).2 := by
  cases M with
  | «match» =>
    have := follow_just (acc := (· == n)) (hg cur hcur) h hh
    refine ⟨fun b e hb => ?_, this.2⟩
    simp only [carryOut, Option.map_eq_some_iff, Prod.mk.injEq] at hb
    obtain ⟨q, hq, rfl, rfl⟩ := hb
    exact this.1 q hq
  | matchPrefix =>
    have := follow_just (acc := fun _ => true) (hg cur hcur) h hh
    refine ⟨fun b e hb => ?_, this.2⟩
    simp only [carryOut, Option.map_eq_some_iff, Prod.mk.injEq] at hb
    obtain ⟨q, hq, rfl, rfl⟩ := hb
    exact this.1 q hq
  | search =>
    simp only [carryOut]
    have hl : ∀ j ∈ List.range' cur (n + 1 - cur), j ≤ n := fun j hj => by rw [List.mem_range'_1] at hj; omega
    generalize List.range' cur (n + 1 - cur) = l at hl
    induction l generalizing h with
    | nil => exact ⟨fun b e hb => (by cases hb), hh⟩
    | cons j l ih =>
      have := follow_just (acc := fun _ => true) (hg j (hl j (by simp))) h hh
      simp only [tryFrom]
      generalize hF : (g j).follow (fun _ => true) h = F at this
      obtain ⟨o, h'⟩ := F
      cases o with
      | some q => exact ⟨fun b e hb => by cases hb; exact this.1 q rfl, this.2⟩
      | none => exact ih h' this.2 (fun t ht => hl t (List.mem_cons_of_mem _ ht))

end

/-- A negated expression that has a way to match offers nothing. -/
theorem just_refuse {N : Nat → Nat → Nat → Prop} {Q Q' : Nat → Prop} {P P' : Proc} {q : Nat} {l : List Nat} (h : Lists P (q :: l)) (hP : Proc.Just N Q P) :
    Proc.Just N Q' (P.commit (fun _ => .done) P') := by
  induction P with
  | done => have := h.2; cases this
  | note k b e P ih => exact ⟨hP.1, ih h hP.2⟩
  | cross k P ih => exact ih h hP
  | offer t P ih => exact trivial
  | recall k f ih => exact h.1.elim

section
variable {N : Nat → Nat → Nat → Prop} {D : Nat → Nat → Prop} {n : Nat} {g : Nat → Proc} (hg : ∀ p, p ≤ n → Proc.Just N (fun q => D p q ∧ q ≤ n) (g p))
include hg

theorem just_times (k p : Nat) (hp : p ≤ n) : Proc.Just N (fun q => Pow D k p q ∧ q ≤ n) (Proc.times g k p) := by
  induction k generalizing p with
  | zero => exact just_only ⟨rfl, hp⟩
  | succ k ih => exact just_proceed (hg p hp) (fun q hq => just_mono (ih q hq.2) (fun t ht => ⟨⟨q, hq.1, ht.1⟩, ht.2⟩))

/-- At most `k` rounds. -/
def UpToRounds (D : Nat → Nat → Prop) (n : Nat) (k : Option Nat) (p q : Nat) : Prop := (∃ i, (∀ h, k = some h → i ≤ h) ∧ Pow D i p q) ∧ q ≤ n

omit hg in
theorem UpToRounds.zero {k : Option Nat} {p : Nat} (hp : p ≤ n) : UpToRounds D n k p p := ⟨⟨0, fun _ _ => Nat.zero_le _, rfl⟩, hp⟩

omit hg in
theorem UpToRounds.more {k : Nat} {p q t : Nat} (h : D p q) (h' : UpToRounds D n (some k) q t) : UpToRounds D n (some (k + 1)) p t := by
  obtain ⟨⟨i, h1, h2⟩, h3⟩ := h'
  exact ⟨⟨i + 1, fun h e => by cases e; have := h1 k rfl; omega, q, h, h2⟩, h3⟩

omit hg in
theorem UpToRounds.any {p q t : Nat} (h : D p q) (h' : UpToRounds D n none q t) : UpToRounds D n none p t := by
  obtain ⟨⟨i, _, h2⟩, h3⟩ := h'
  exact ⟨⟨i + 1, fun h e => (by cases e), q, h, h2⟩, h3⟩

theorem just_extra (N' : Nat) (m : Mode) (u : Bool) (k : Option Nat) (p : Nat) (hp : p ≤ n) : Proc.Just N (UpToRounds D n k p) (Proc.extra N' m u g k p) := by
  have h1 : ∀ k p, p ≤ n → Proc.Just N (UpToRounds D n (some k) p) (Proc.greedyUpTo g k p) := by
    intro k
    induction k with
    | zero => exact fun p hp => just_only (.zero hp)
    | succ k ih => exact fun p hp => just_andThen (just_proceed (hg p hp) (fun q hq => just_mono (ih q hq.2) (fun t ht => .more hq.1 ht))) (just_only (.zero hp))
  have h2 : ∀ k p, p ≤ n → Proc.Just N (UpToRounds D n (some k) p) (Proc.lazyUpTo g k p) := by
    intro k
    induction k with
    | zero => exact fun p hp => just_only (.zero hp)
    | succ k ih => exact fun p hp => just_andThen (just_only (.zero hp)) (just_proceed (hg p hp) (fun q hq => just_mono (ih q hq.2) (fun t ht => .more hq.1 ht)))
  have h3 : ∀ k p, p ≤ n → Proc.Just N (UpToRounds D n none p) (Proc.greedyStar g k p) := by
    intro k
    induction k with
    | zero => exact fun p hp => trivial
    | succ k ih =>
      exact fun p hp => just_andThen (just_proceed (just_except (hg p hp) p) (fun q hq => just_mono (ih q hq.2) (fun t ht => .any hq.1 ht))) (just_only (.zero hp))
  have h4 : ∀ k p, p ≤ n → Proc.Just N (UpToRounds D n none p) (Proc.lazyStar g k p) := by
    intro k
    induction k with
    | zero => exact fun p hp => trivial
    | succ k ih =>
      exact fun p hp => just_andThen (just_only (.zero hp)) (just_proceed (just_except (hg p hp) p) (fun q hq => just_mono (ih q hq.2) (fun t ht => .any hq.1 ht)))
  have h5 : ∀ k p, p ≤ n → Proc.Just N (UpToRounds D n (some k) p) (Proc.possessiveUpTo g k p) := by
    intro k
    induction k with
    | zero => exact fun p hp => just_only (.zero hp)
    | succ k ih => exact fun p hp => just_commit (hg p hp) (fun q hq => just_mono (ih q hq.2) (fun t ht => .more hq.1 ht)) (just_only (.zero hp))
  have h6 : ∀ k p, p ≤ n → Proc.Just N (UpToRounds D n none p) (Proc.possessiveStar g k p) := by
    intro k
    induction k with
    | zero => exact fun p hp => trivial
    | succ k ih =>
      refine fun p hp => just_commit (hg p hp) (fun q hq => ?_) (just_only (.zero hp))
      split
      · exact just_only (.zero hp)
      · exact just_mono (ih q hq.2) (fun t ht => .any hq.1 ht)
  cases k <;> cases m <;> cases u <;> first | exact h1 _ _ hp | exact h2 _ _ hp | exact h3 _ _ hp | exact h4 _ _ hp | exact h5 _ _ hp | exact h6 _ _ hp

theorem just_quantified (N' : Nat) (m : Mode) (u : Bool) (lo : Nat) (hi : Bound) (hlo : ∀ h, hi = .fin h → lo ≤ h) (p : Nat) (hp : p ≤ n) :
    Proc.Just N (fun q => (∃ i, lo ≤ i ∧ AtMost i hi ∧ Pow D i p q) ∧ q ≤ n) (Proc.quantified N' m u lo hi g p) := by
  unfold Proc.quantified
  have ht := just_times hg lo p hp
  have ht : Proc.Just N (fun q => Pow D lo p q ∧ q ≤ n) (match m with | .possessive => (Proc.times g lo p).commit .only .done | _ => Proc.times g lo p) := by
    cases m
    · exact ht
    · exact ht
    · exact just_commit ht (fun q hq => just_only hq) trivial
  refine just_proceed ht (fun q hq => just_mono (just_extra hg _ _ _ _ q hq.2) (fun t ht => ?_))
  obtain ⟨⟨i, h1, h2⟩, h3⟩ := ht
  refine ⟨⟨lo + i, by omega, ?_, hq.1.comp h2⟩, h3⟩
  cases hi with
  | fin h =>
    have := h1 (h - lo) rfl
    have := hlo h rfl
    simp only [AtMost]
    omega
  | inf => trivial

end

/-! ### Copies -/

section
variable {ic : Bool} {s : List Byte}

theorem copies_append (fwd : Bool) (u w : List Byte) (p : Nat) : copies ic s fwd (u ++ w) p = (copies ic s fwd u p).flatMap (copies ic s fwd w) := by
  induction u generalizing p with
  | nil => simp [copies]
  | cons x u ih =>
    simp only [List.cons_append, copies, List.flatMap_assoc]
    congr 1
    funext q
    exact ih q

theorem mem_copies_forward {w : List Byte} {p q : Nat} (h : q ∈ copies ic s true w p) :
    q = p + w.length ∧ ∀ i x, w[i]? = some x → ∃ y, s[p + i]? = some y ∧ sameChar ic x y = true := by
  induction w generalizing p with
  | nil => simp only [copies, List.mem_singleton] at h; exact ⟨h, fun i x hx => by simp at hx⟩
  | cons x w ih =>
    simp only [copies, List.mem_flatMap, mem_oneChar, if_true] at h
    obtain ⟨t, ⟨rfl, y, hy, hxy⟩, h2⟩ := h
    obtain ⟨h3, h4⟩ := ih h2
    refine ⟨by simp only [List.length_cons]; omega, fun i z hz => ?_⟩
    cases i with
    | zero => cases hz; exact ⟨y, hy, hxy⟩
    | succ i =>
      obtain ⟨y', h5, h6⟩ := h4 i z hz
      exact ⟨y', by rw [← h5]; congr 1; omega, h6⟩

theorem mem_copies_backward {w : List Byte} {p q : Nat} (h : q ∈ copies ic s false w.reverse p) :
    p = q + w.length ∧ ∀ i x, w[i]? = some x → ∃ y, s[q + i]? = some y ∧ sameChar ic x y = true := by
  induction w generalizing q with
  | nil => simp only [List.reverse_nil, copies, List.mem_singleton] at h; exact ⟨h.symm, fun i x hx => by simp at hx⟩
  | cons x w ih =>
    rw [List.reverse_cons, copies_append, List.mem_flatMap] at h
    obtain ⟨t, h1, h2⟩ := h
    simp only [copies, List.mem_flatMap, mem_oneChar, Bool.false_eq_true, if_false, List.mem_singleton] at h2
    obtain ⟨t', ⟨rfl, y, hy, hxy⟩, rfl⟩ := h2
    obtain ⟨h3, h4⟩ := ih h1
    refine ⟨by simp only [List.length_cons]; omega, fun i z hz => ?_⟩
    cases i with
    | zero => cases hz; exact ⟨y, hy, hxy⟩
    | succ i =>
      obtain ⟨y', h5, h6⟩ := h4 i z hz
      exact ⟨y', by rw [← h5]; congr 1; omega, h6⟩

theorem copied_of {b e p q : Nat} (hb : b ≤ e) (he : e ≤ s.length) (h1 : q = p + (heldText s (some (b, e))).length)
    (h2 : ∀ i x, (heldText s (some (b, e)))[i]? = some x → ∃ y, s[p + i]? = some y ∧ sameChar ic x y = true) : Copied ic s b e p q := by
  simp only [heldText] at h1 h2
  have hl : ((s.drop b).take (e - b)).length = e - b := by simp; omega
  rw [hl] at h1
  refine ⟨e - b, by omega, h1, fun i hi => ?_⟩
  obtain ⟨x, hx⟩ : ∃ x, ((s.drop b).take (e - b))[i]? = some x := ⟨_, List.getElem?_eq_getElem (by rw [hl]; exact hi)⟩
  obtain ⟨y, h3, h4⟩ := h2 i x hx
  rw [List.getElem?_take, if_pos hi, List.getElem?_drop] at hx
  exact ⟨x, y, hx, h3, h4⟩

theorem heldText_empty {v : Cap} (h : ∀ b e, v = some (b, e) → b = e) : heldText s v = [] := by
  match v with
  | none => rfl
  | some (b, e) => have := h b e rfl; subst this; simp [heldText]

end

/-! ### Reading directions -/

theorem mirroredAll_eq (l : List Ast) : mirroredAll l = l.all mirrored := by
  induction l with
  | nil => rfl
  | cons a l ih => simp [mirroredAll, ih]

theorem orderlyAll_eq (l : List Ast) : orderlyAll l = l.all orderly := by
  induction l with
  | nil => rfl
  | cons a l ih => simp [orderlyAll, ih]

/-- The conditions under which an expression is read correctly. -/
def ReadInOrder (r : Nat) (inv : Bool) (a : Ast) : Prop :=
  (r = 0 ∧ inv = false ∧ orderly a = true) ∨ (r = 1 ∧ inv = true ∧ mirrored a = true) ∨ (palindromic a = true ∧ noBackref a = true)

section
variable {r : Nat} {inv : Bool} {a : Ast}

theorem reversible_of_mirrored (h : mirrored a = true) : reversible a = true := by
  induction a using ind with
  | seq l ih => simp only [mirrored, reversible, mirroredAll_eq, reversibleAll_eq, List.all_eq_true] at *; exact fun b hb => ih b hb (h b hb)
  | alt l ih => simp only [mirrored, reversible, mirroredAll_eq, reversibleAll_eq, List.all_eq_true] at *; exact fun b hb => ih b hb (h b hb)
  | set l ih => simp only [mirrored, reversible, mirroredAll_eq, reversibleAll_eq, List.all_eq_true] at *; exact fun b hb => ih b hb (h b hb)
  | neg a ih => exact ih h
  | cap id n a ih => exact ih h
  | rep m lo hi a ih => exact ih h
  | look d a ih => simp only [mirrored, Bool.and_eq_true] at h; exact h.1
  | _ => first | rfl | exact h

theorem behindOk_of_orderly (h : orderly a = true) : behindOk a = true := by
  induction a using ind with
  | seq l ih => simp only [orderly, behindOk, orderlyAll_eq, behindOkAll_eq, List.all_eq_true] at *; exact fun b hb => ih b hb (h b hb)
  | alt l ih => simp only [orderly, behindOk, orderlyAll_eq, behindOkAll_eq, List.all_eq_true] at *; exact fun b hb => ih b hb (h b hb)
  | set l ih => simp only [orderly, behindOk, orderlyAll_eq, behindOkAll_eq, List.all_eq_true] at *; exact fun b hb => ih b hb (h b hb)
  | neg a ih => exact ih h
  | cap id n a ih => exact ih h
  | rep m lo hi a ih => exact ih h
  | look d a ih =>
    cases d with
    | ahead => exact ih h
    | behind => exact reversible_of_mirrored h
  | _ => first | rfl | exact h

theorem ReadInOrder.readable (h : ReadInOrder r inv a) : Readable (r % 2 == 0) inv a := by
  rcases h with ⟨rfl, rfl, h⟩ | ⟨rfl, rfl, h⟩ | h
  · exact .inl ⟨rfl, rfl, behindOk_of_orderly h⟩
  · exact .inr (.inl ⟨rfl, rfl, reversible_of_mirrored h⟩)
  · exact .inr (.inr h.1)

theorem ReadInOrder.seq {l : List Ast} (h : ReadInOrder r inv (.seq l)) : ∀ a ∈ l, ReadInOrder r inv a := by
  intro a ha
  rcases h with ⟨h1, h2, h⟩ | ⟨h1, h2, h⟩ | h
  · simp only [orderly, orderlyAll_eq, List.all_eq_true] at h; exact .inl ⟨h1, h2, h a ha⟩
  · simp only [mirrored, mirroredAll_eq, List.all_eq_true] at h; exact .inr (.inl ⟨h1, h2, h a ha⟩)
  · simp only [palindromic, palindromicAll_eq, noBackref, noBackrefAll_eq, Bool.and_eq_true, List.all_eq_true] at h
    exact .inr (.inr ⟨h.1.2 a ha, h.2 a ha⟩)

theorem ReadInOrder.seq_dir {l : List Ast} (h : ReadInOrder r inv (.seq l)) : (r = 0 ∧ inv = false) ∨ (r = 1 ∧ inv = true) ∨ l.length ≤ 1 := by
  rcases h with ⟨h1, h2, _⟩ | ⟨h1, h2, _⟩ | h
  · exact .inl ⟨h1, h2⟩
  · exact .inr (.inl ⟨h1, h2⟩)
  · simp only [palindromic, Bool.and_eq_true, decide_eq_true_eq] at h; exact .inr (.inr h.1.1)

theorem ReadInOrder.alt {l : List Ast} (h : ReadInOrder r inv (.alt l)) : ∀ a ∈ l, ReadInOrder r inv a := by
  intro a ha
  rcases h with ⟨h1, h2, h⟩ | ⟨h1, h2, h⟩ | h
  · simp only [orderly, orderlyAll_eq, List.all_eq_true] at h; exact .inl ⟨h1, h2, h a ha⟩
  · simp only [mirrored, mirroredAll_eq, List.all_eq_true] at h; exact .inr (.inl ⟨h1, h2, h a ha⟩)
  · simp only [palindromic, palindromicAll_eq, noBackref, noBackrefAll_eq, List.all_eq_true] at h
    exact .inr (.inr ⟨h.1 a ha, h.2 a ha⟩)

theorem ReadInOrder.neg (h : ReadInOrder r inv (.neg a)) : ReadInOrder r inv a := by
  simpa only [ReadInOrder, orderly, mirrored, palindromic, noBackref] using h
theorem ReadInOrder.cap {id : Nat} {n : GroupName} (h : ReadInOrder r inv (.cap id n a)) : ReadInOrder r inv a := by
  simpa only [ReadInOrder, orderly, mirrored, palindromic, noBackref] using h
theorem ReadInOrder.rep {m : Mode} {lo : Nat} {hi : Bound} (h : ReadInOrder r inv (.rep m lo hi a)) : ReadInOrder r inv a := by
  simpa only [ReadInOrder, orderly, mirrored, palindromic, noBackref] using h

end

/-! ### Derivations -/

/-- A derivation in the reading direction, inside of the text. -/
def Derived (f : Flags) (s : List Byte) (ν : List Byte → Nat) (A : Ast) (r : Nat) (a : Ast) (p q : Nat) : Prop :=
  (if r % 2 = 0 then Derives f s ν A a p q else Derives f s ν A a q p) ∧ q ≤ s.length

/-- A derivation for the text of a group. -/
def GroupDerived (f : Flags) (s : List Byte) (ν : List Byte → Nat) (A : Ast) (k b e : Nat) : Prop :=
  b ≤ e ∧ e ≤ s.length ∧ ∃ body, GroupBody A k body ∧ Derives f s ν A body b e

section
variable {f : Flags} {s : List Byte} {ν : List Byte → Nat} {A : Ast}

theorem derived_atom {r : Nat} {a : Ast} (ha : indivisible a = true) {p q : Nat} (hq : q ≤ s.length) (h : DM f s (r % 2 == 0) a p q) : Derived f s ν A r a p q := by
  refine ⟨?_, hq⟩
  unfold DM at h
  rcases Nat.mod_two_eq_zero_or_one r with hr | hr <;> rw [hr] at h ⊢
  · exact .atom ha h
  · exact .atom ha h

theorem Derived.lift {r : Nat} {a a' : Ast} {p q : Nat} (h : Derived f s ν A r a p q) (hl : ∀ i j, Derives f s ν A a i j → Derives f s ν A a' i j) : Derived f s ν A r a' p q := by
  refine ⟨?_, h.2⟩
  have := h.1
  by_cases hm : r % 2 = 0 <;> simp only [hm, if_true, if_false] at this ⊢
  · exact hl _ _ this
  · exact hl _ _ this

theorem derives_le {a : Ast} {i j : Nat} (h : Derives f s ν A a i j) : i ≤ j := by
  induction h with
  | atom _ h => exact matches_le h
  | neg => exact Nat.le_refl _
  | nil => exact Nat.le_refl _
  | cons _ _ h1 h2 => omega
  | alt _ _ h => exact h
  | cap _ h => exact h
  | rep _ _ _ h => exact h
  | ahead => exact Nat.le_refl _
  | behind => exact Nat.le_refl _
  | nothing => exact Nat.le_refl _
  | copy _ _ h => obtain ⟨n, _, h, _⟩ := h; omega
  | named _ h => exact h

theorem derives_replicate {a : Ast} {k i j : Nat} (h : Pow (Derives f s ν A a) k i j) : Derives f s ν A (.seq (List.replicate k a)) i j := by
  induction k generalizing i with
  | zero => cases h; exact .nil
  | succ k ih => obtain ⟨t, h1, h2⟩ := h; exact .cons h1 (ih h2)

theorem just_reference {r k p : Nat} (hr : r = 0 ∨ r = 1) (hp : p ≤ s.length) :
    Proc.Just (GroupDerived f s ν A) (Derived f s ν A r (.backref k) p) (reference f s k r p) := by
  intro v hv
  refine just_offers (fun q hq => ⟨?_, copies_le hp hq⟩)
  by_cases he : ∀ b e, v = some (b, e) → b = e
  · rw [heldText_empty he] at hq
    have : q = p := by split at hq <;> simpa [copies] using hq
    subst this
    split <;> exact .nothing
  · match v with
    | none => exact absurd (fun _ _ h => (by cases h)) he
    | some (b, e) =>
      rcases hv b e rfl with ⟨h1, h2, X, h3, h4⟩ | hbe
      · rcases hr with rfl | rfl
        · obtain ⟨h5, h6⟩ := mem_copies_forward hq
          exact .copy h3 h4 (copied_of h1 h2 h5 h6)
        · obtain ⟨h5, h6⟩ := mem_copies_backward hq
          exact .copy h3 h4 (copied_of h1 h2 h5 h6)
      · exact absurd (fun _ _ h => by cases h; exact hbe) he

theorem just_proc {a : Ast} (hw : wf a = true) {r : Nat} {inv : Bool} (hr : ReadInOrder r inv a) (hA : ∀ k X, GroupBody a k X → GroupBody A k X) {p : Nat} (hp : p ≤ s.length) :
    Proc.Just (GroupDerived f s ν A) (Derived f s ν A r a p) (proc f s ν a r inv p) := by
  have hchar : ∀ {a : Ast} {r : Nat} {p : Nat}, wf a = true → character a = true → ∀ q ∈ oneChar s (r % 2 == 0) (accepts f a) p, Derived f s ν A r a p q := by
    intro a r p hw hc q hq
    refine derived_atom ?_ (oneChar_le hq) ((dm_triv hw (by rw [← character_eq]; exact hc)).2 hq)
    revert hc
    cases a <;> first | exact fun h => h | exact fun _ => rfl
  induction a using ind generalizing r inv p with
  | neg a ih =>
    simp only [proc]
    split
    · next ha =>
      simp only [wf, Bool.and_eq_true] at hw
      have ih := ih hw.2 hr.neg (fun k X h => hA k X (.neg h)) hp
      have hd : (noBackref a = true → noPossessive a = true → ¬ Matches f s a p p) → Derived f s ν A r (.neg a) p p := fun h =>
        ⟨by split <;> exact .neg ha h, hp⟩
      by_cases hb : noBackref a = true ∧ noPossessive a = true
      · have key := ends_iff (E := { inp := s, flags := f }) (q := p) hw.2 hb.1 hb.2 hr.neg.readable hp
        have ho := offering_proc f s ν a hb.1 r inv p
        by_cases hm : Matches f s a p p
        · have : p ∈ Proc.list (proc f s ν a r inv p) := (offering_feq ho).mem.2 (key.2 (by unfold DM; split <;> exact hm))
          have hl := offering_list ho
          revert this hl
          cases Proc.list (proc f s ν a r inv p) with
          | nil => exact fun h => (by cases h)
          | cons q l => exact fun _ hl => just_refuse hl ih
        · exact just_commit ih (fun _ _ => trivial) (just_only (hd (fun _ _ => hm)))
      · exact just_commit ih (fun _ _ => trivial) (just_only (hd (fun h1 h2 => absurd ⟨h1, h2⟩ hb)))
    · next ha => exact just_offers (fun q hq => hchar hw (by simpa [character] using ha) q hq)
  | seq l ih =>
    simp only [proc]
    have hdir := hr.seq_dir
    have hr' := hr.seq
    simp only [wf, wfAll_eq, Bool.and_eq_true, List.all_eq_true] at hw
    replace hw := hw.2
    have hl : ∀ l', (∀ b ∈ l', b ∈ l) → l'.length ≤ l.length → ∀ p, p ≤ s.length →
        Proc.Just (GroupDerived f s ν A) (Derived f s ν A r (.seq l') p) (procAll f s ν l' r inv p) := by
      intro l'
      induction l' with
      | nil => exact fun _ _ p hp => just_only ⟨by split <;> exact .nil, hp⟩
      | cons a l' ihl =>
        intro hb hle p hp
        have ihl := ihl (fun b h => hb b (List.mem_cons_of_mem _ h)) (by simp only [List.length_cons] at hle; omega)
        have ham := hb a (by simp)
        have iha := fun q hq => ih a ham (hw a ham) (hr' a ham) (fun k X h => hA k X (.seq ham h)) (p := q) hq
        simp only [procAll]
        rcases hdir with ⟨rfl, rfl⟩ | ⟨rfl, rfl⟩ | hlen
        · exact just_proceed (iha p hp) (fun q hq => just_mono (ihl q hq.2) (fun t ht => ⟨.cons hq.1 ht.1, ht.2⟩))
        · exact just_proceed (ihl p hp) (fun q hq => just_mono (iha q hq.2) (fun t ht => ⟨.cons ht.1 hq.1, ht.2⟩))
        · have : l' = [] := by
            simp only [List.length_cons] at hle
            exact List.length_eq_zero_iff.1 (by omega)
          subst this
          have hx : ∀ q t, Derived f s ν A r a p q → q = t → Derived f s ν A r (.seq [a]) p t := by
            rintro q _ h rfl
            exact h.lift (fun _ _ h => .cons h .nil)
          split
          · exact just_proceed (just_only (Q := (· = p)) rfl) (fun q hq => by subst hq; exact just_mono (iha q hp) (fun t ht => hx t t ht rfl))
          · exact just_proceed (iha p hp) (fun q hq => just_only (hx q q hq rfl))
    exact hl l (fun _ h => h) (Nat.le_refl _) p hp
  | alt l ih =>
    simp only [proc]
    have hr' := hr.alt
    simp only [wf, wfAll_eq, Bool.and_eq_true, List.all_eq_true] at hw
    replace hw := hw.2
    have hd : ∀ b ∈ l, ∀ q, Derived f s ν A r b p q → Derived f s ν A r (.alt l) p q := by
      intro b hb q h
      exact h.lift (fun _ _ h => .alt hb h)
    have hl : ∀ l', (∀ b ∈ l', b ∈ l) → Proc.Just (GroupDerived f s ν A) (Derived f s ν A r (.alt l) p) (procAny f s ν l' r inv p) := by
      intro l'
      induction l' with
      | nil => exact fun _ => trivial
      | cons a l' ihl =>
        intro hb
        have ihl := ihl (fun b h => hb b (List.mem_cons_of_mem _ h))
        have ham := hb a (by simp)
        simp only [procAny]
        split
        · next hc =>
          refine just_offers (fun q hq => ?_)
          rw [mem_oneChar] at hq
          have : ∃ b ∈ a :: l', q ∈ oneChar s (r % 2 == 0) (accepts f b) p := by
            simp only [mem_oneChar]
            have hex : ∀ x, acceptsAny f (a :: l') x = true → ∃ b ∈ a :: l', accepts f b x = true := by
              intro x hx
              simpa [acceptsAny_eq] using hx
            cases hfw : (r % 2 == 0) <;> rw [hfw] at hq
            · obtain ⟨h1, x, h2, h3⟩ := hq
              obtain ⟨b, h4, h5⟩ := hex x h3
              exact ⟨b, h4, h1, x, h2, h5⟩
            · obtain ⟨h1, x, h2, h3⟩ := hq
              obtain ⟨b, h4, h5⟩ := hex x h3
              exact ⟨b, h4, h1, x, h2, h5⟩
          obtain ⟨b, h1, h2⟩ := this
          refine hd b (hb b h1) q (hchar (hw b (hb b h1)) ?_ q h2)
          rw [characters_eq, List.all_eq_true] at hc
          exact hc b h1
        · exact just_andThen (just_mono (ih a ham (hw a ham) (hr' a ham) (fun k X h => hA k X (.alt ham h)) hp) (hd a ham)) ihl
    exact hl l (fun _ h => h)
  | cap id n a ih =>
    simp only [wf] at hw
    simp only [proc]
    refine just_andThen (just_proceed (ih hw hr.cap (fun k X h => hA k X (.cap h)) hp) (fun q hq => ?_)) trivial
    have hq1 := hq.1
    split
    · next hm =>
      rw [if_pos hm] at hq1
      exact ⟨⟨derives_le hq1, hq.2, a, hA _ _ .here, hq1⟩, ⟨by rw [if_pos hm]; exact .cap hq1, hq.2⟩, trivial⟩
    · next hm =>
      rw [if_neg hm] at hq1
      exact ⟨⟨derives_le hq1, hp, a, hA _ _ .here, hq1⟩, ⟨by rw [if_neg hm]; exact .cap hq1, hq.2⟩, trivial⟩
  | rep m lo hi a ih =>
    have hw2 : wf a = true ∧ ∀ h, hi = .fin h → lo ≤ h := by
      cases hi with
      | inf => simp only [wf] at hw; exact ⟨hw, by simp⟩
      | fin b =>
        simp only [wf, Bool.and_eq_true, decide_eq_true_eq] at hw
        exact ⟨hw.2, fun h e => by cases e; exact hw.1⟩
    simp only [proc]
    refine just_mono (just_quantified (D := fun p q => if r % 2 = 0 then Derives f s ν A a p q else Derives f s ν A a q p)
      (fun q hq => ih hw2.1 hr.rep (fun k X h => hA k X (.rep h)) hq) _ _ _ _ _ hw2.2 p hp) (fun q hq => ?_)
    obtain ⟨⟨i, h1, h2, h3⟩, h4⟩ := hq
    refine ⟨?_, h4⟩
    split
    · next hm => simp only [hm, if_true] at h3; exact .rep h1 h2 (derives_replicate h3)
    · next hm =>
      simp only [hm, if_false] at h3
      exact .rep h1 h2 (derives_replicate (pow_flip.1 h3))
  | look d a ih =>
    simp only [wf] at hw
    have hA' : ∀ k X, GroupBody a k X → GroupBody A k X := fun k X h => hA k X (.look h)
    have hd : (∃ t, (d = .ahead ∧ Derives f s ν A a p t) ∨ (d = .behind ∧ Derives f s ν A a t p)) → Derived f s ν A r (.look d a) p p := by
      rintro ⟨t, ⟨rfl, h⟩ | ⟨rfl, h⟩⟩
      · exact ⟨by split <;> exact .ahead h, hp⟩
      · exact ⟨by split <;> exact .behind h, hp⟩
    simp only [proc]
    rcases hr with ⟨rfl, rfl, h⟩ | ⟨rfl, rfl, h⟩ | h
    · cases d with
      | ahead => exact just_commit (ih hw (.inl ⟨rfl, rfl, h⟩) hA' hp) (fun q hq => just_only (hd ⟨q, .inl ⟨rfl, hq.1⟩⟩)) trivial
      | behind => exact just_commit (ih hw (.inr (.inl ⟨rfl, rfl, h⟩)) hA' hp) (fun q hq => just_only (hd ⟨q, .inr ⟨rfl, hq.1⟩⟩)) trivial
    · simp only [mirrored, Bool.and_eq_true] at h
      cases d with
      | ahead => exact just_commit (ih hw (.inr (.inr h)) hA' hp) (fun q hq => just_only (hd ⟨q, .inl ⟨rfl, hq.1⟩⟩)) trivial
      | behind => exact just_commit (ih hw (.inr (.inr h)) hA' hp) (fun q hq => just_only (hd ⟨q, .inr ⟨rfl, hq.1⟩⟩)) trivial
    · simp [palindromic] at h
  | backref k =>
    simp only [proc]
    refine just_reference ?_ hp
    rcases hr with ⟨rfl, _, _⟩ | ⟨rfl, _, _⟩ | h
    · exact .inl rfl
    · exact .inr rfl
    · simp [noBackref] at h
  | namedBackref n =>
    simp only [proc]
    refine just_mono (just_reference ?_ hp) (fun q hq => hq.lift (fun _ _ h => .named h))
    rcases hr with ⟨rfl, _, _⟩ | ⟨rfl, _, _⟩ | h
    · exact .inl rfl
    · exact .inr rfl
    · simp [noBackref] at h
  | lit | range | wildcard | set => simp only [proc, ends]; exact just_offers (fun q hq => hchar hw rfl q hq)
  | empty | bol | boi | eol | eoi | wordB =>
    simp only [proc]
    refine just_offers (fun q hq => ?_)
    have key := (ends_iff (E := { inp := s, flags := f }) hw rfl rfl hr.readable hp).1 hq
    refine derived_atom rfl ?_ key
    exact (ends_inside (E := { inp := s, flags := f }) (r := r) rfl _ inv p q hp hq).right_le

theorem matches_within {a : Ast} {i j : Nat} (h : Matches f s a i j) (hi : i ≤ s.length) : j ≤ s.length := by
  have hc : ∀ {P : Byte → Prop} {i j : Nat}, j = i + 1 ∧ CharAt s i P → j ≤ s.length := by
    rintro P i j ⟨rfl, x, hx, _⟩
    exact (List.getElem?_eq_some_iff.1 hx).1
  induction a using ind generalizing i j with
  | empty => cases h; exact hi
  | lit c => exact hc h
  | range a b => exact hc h
  | wildcard => exact hc h
  | set l ih =>
    simp only [Matches, matchesAny_iff] at h
    obtain ⟨_, a, ha, h⟩ := h
    exact ih a ha h hi
  | neg a ih =>
    simp only [Matches] at h
    split at h
    · exact h.1 ▸ hi
    · obtain ⟨rfl, h, _⟩ := h; exact h
  | seq l ih =>
    simp only [Matches] at h
    induction l generalizing i with
    | nil => cases h; exact hi
    | cons a l ihl =>
      obtain ⟨t, h1, h2⟩ := h
      exact ihl (fun b hb => ih b (List.mem_cons_of_mem _ hb)) h2 (ih a (by simp) h1 hi)
  | alt l ih =>
    simp only [Matches, matchesAny_iff] at h
    obtain ⟨a, ha, h⟩ := h
    exact ih a ha h hi
  | cap id n a ih => exact ih h hi
  | rep m lo hi' a ih =>
    obtain ⟨k, h1, h2, h⟩ := h
    clear h1 h2
    induction k generalizing i with
    | zero => cases h; exact hi
    | succ k ihk => obtain ⟨t, h1, h2⟩ := h; exact ihk (ih h1 hi) h2
  | look d a ih => cases d <;> (simp only [Matches] at h; exact h.1 ▸ hi)
  | backref k => exact h.2
  | namedBackref n => exact h.2
  | _ => simp only [Matches] at h; exact h.1 ▸ hi

theorem iter_of_replicate {a : Ast} {k i j : Nat} (h : MatchesAll f s (List.replicate k a) i j) : Iter (Matches f s a) k i j := by
  induction k generalizing i with
  | zero => exact h
  | succ k ih => obtain ⟨t, h1, h2⟩ := h; exact ⟨t, h1, ih h2⟩

theorem derives_within {a : Ast} {i j : Nat} (h : Derives f s ν A a i j) (hi : i ≤ s.length) : j ≤ s.length := by
  induction h with
  | atom _ h => exact matches_within h hi
  | neg => exact hi
  | nil => exact hi
  | cons _ _ h1 h2 => exact h2 (h1 hi)
  | alt _ _ h => exact h hi
  | cap _ h => exact h hi
  | rep _ _ _ h => exact h hi
  | ahead => exact hi
  | behind => exact hi
  | nothing => exact hi
  | copy _ _ h =>
    obtain ⟨n, _, rfl, h⟩ := h
    cases n with
    | zero => exact hi
    | succ n =>
      obtain ⟨_, y, _, hy, _⟩ := h n (by omega)
      have := (List.getElem?_eq_some_iff.1 hy).1
      omega
  | named _ h => exact h hi

theorem negatePlainly_eq (l : List Ast) : negatePlainly l = l.all negatesPlainly := by
  induction l with
  | nil => rfl
  | cons a l ih => simp [negatePlainly, ih]

/-- Derivations of expressions in which negated assertions contain neither references nor possessive quantifiers. -/
theorem matches_of_derives {a : Ast} {i j : Nat} (h : Derives f s ν A a i j) (hn : negatesPlainly a = true) (hi : i ≤ s.length) : Matches f s a i j := by
  induction h with
  | atom _ h => exact h
  | @neg a i ha h =>
    simp only [negatesPlainly, ha, Bool.and_eq_true, Bool.not_true, Bool.false_or] at hn
    simp only [Matches, ha, if_true]
    exact ⟨trivial, h hn.1 hn.2⟩
  | nil => exact rfl
  | cons h h' ih ih' =>
    simp only [negatesPlainly, negatePlainly, Bool.and_eq_true] at hn
    exact ⟨_, ih hn.1 hi, ih' hn.2 (derives_within h hi)⟩
  | @alt a l i j ha _ ih =>
    simp only [negatesPlainly, negatePlainly_eq, List.all_eq_true] at hn
    simp only [Matches, matchesAny_iff]
    exact ⟨a, ha, ih (hn a ha) hi⟩
  | cap _ ih => exact ih hn hi
  | @rep m lo hi' a k i j h1 h2 _ ih =>
    have : MatchesAll f s (List.replicate k a) i j := ih (by
      simp only [negatesPlainly, negatePlainly_eq, List.all_eq_true]
      intro b hb
      rw [List.eq_of_mem_replicate hb]
      exact hn) hi
    exact ⟨k, h1, h2, iter_of_replicate this⟩
  | @ahead a i t h ih => exact ⟨rfl, t, derives_le h, ih hn hi⟩
  | behind h ih => exact ⟨rfl, _, derives_le h, ih hn (Nat.le_trans (derives_le h) hi)⟩
  | nothing => exact ⟨Nat.le_refl _, hi⟩
  | @copy k body b e i j h1 h2 h ih =>
    have := derives_within (.copy h1 h2 h) hi
    obtain ⟨n, _, h, _⟩ := h; exact ⟨by omega, this⟩
  | named _ ih => exact ih rfl hi

/-- Without references, possessive quantifiers do not matter for derivations. -/
theorem derives_of_matches {a : Ast} (hb : noBackref a = true) {i j : Nat} (h : Matches f s a i j) : Derives f s ν A a i j := by
  induction a using ind generalizing i j with
  | neg a ih =>
    cases ha : assertion a with
    | true =>
      simp only [Matches, ha, if_true] at h
      obtain ⟨rfl, h⟩ := h
      exact .neg ha (fun _ _ => h)
    | false => exact .atom (by simp [indivisible, character, ha]) h
  | seq l ih =>
    simp only [noBackref, noBackrefAll_eq, List.all_eq_true] at hb
    simp only [Matches] at h
    induction l generalizing i with
    | nil => cases h; exact .nil
    | cons a l ihl =>
      obtain ⟨t, h1, h2⟩ := h
      exact .cons (ih a (by simp) (hb a (by simp)) h1) (ihl (fun b hb => ih b (List.mem_cons_of_mem _ hb)) h2 (fun b h => hb b (List.mem_cons_of_mem _ h)))
  | alt l ih =>
    simp only [noBackref, noBackrefAll_eq, List.all_eq_true] at hb
    simp only [Matches, matchesAny_iff] at h
    obtain ⟨a, ha, h⟩ := h
    exact .alt ha (ih a ha (hb a ha) h)
  | cap id n a ih => exact .cap (ih hb h)
  | rep m lo hi a ih =>
    simp only [noBackref] at hb
    obtain ⟨k, h1, h2, h3⟩ := h
    exact .rep h1 h2 (derives_replicate ((pow_iter.1 h3).mono (fun _ _ h => ih hb h)))
  | look d a ih =>
    cases d with
    | ahead => obtain ⟨rfl, t, _, h⟩ := h; exact .ahead (ih hb h)
    | behind => obtain ⟨rfl, t, _, h⟩ := h; exact .behind (ih hb h)
  | backref k => simp [noBackref] at hb
  | namedBackref n => simp [noBackref] at hb
  | _ => exact .atom rfl h

end

end Mregex
