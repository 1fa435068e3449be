import Verif.Proof.Lengths
import Verif.Proof.CaptureLemmas
import Verif.Spec.Layout

/-! Lemmas for C82. -/

namespace Mregex
open Ast Spec

/-! ### Notes while a procedure is followed -/

/-- Following `P` with the notes `h`: at each offer `O` holds, at the end `X`, if after a refused offer the notes are related by `C` to those at the offer. -/
def Proc.Hold (C : Notes → Notes → Prop) (O : Nat → Notes → Prop) (X : Notes → Prop) : Proc → Notes → Prop
  | .done, h => X h
  | .note k b e P, h => Proc.Hold C O X P (h.put k (some (b, e)))
  | .cross k P, h => Proc.Hold C O X P (h.put k ((h k).map (fun x => (x.1, x.1))))
  | .offer q P, h => O q h ∧ ∀ h', C h h' → Proc.Hold C O X P h'
  | .recall k f, h => Proc.Hold C O X (f (h k)) h

section
variable {C C' : Notes → Notes → Prop} {O O' : Nat → Notes → Prop} {X X' : Notes → Prop}

theorem hold_mono {P : Proc} {h : Notes} (hP : Proc.Hold C O X P h) (hc : ∀ h h', C' h h' → C h h') (ho : ∀ q h, O q h → O' q h) (hx : ∀ h, X h → X' h) :
    Proc.Hold C' O' X' P h := by
  induction P generalizing h with
  | done => exact hx _ hP
  | note k b e P ih => exact ih hP
  | cross k P ih => exact ih hP
  | offer q P ih => exact ⟨ho _ _ hP.1, fun h' hh => ih (hP.2 h' (hc _ _ hh))⟩
  | recall k f ih => exact ih _ hP

theorem hold_fit {N : Nat → Nat → Nat → Prop} {Q : Nat → Prop} {P : Proc} {h : Notes} (hP : Proc.Hold C O X P h) (hf : Proc.Fit N Q P) :
    Proc.Hold C (fun q h => Q q ∧ O q h) X P h := by
  induction P generalizing h with
  | done => exact hP
  | note k b e P ih => exact ih hP hf.2
  | cross k P ih => exact ih hP hf
  | offer q P ih => exact ⟨⟨hf.1, hP.1⟩, fun h' hh => ih (hP.2 h' hh) hf.2⟩
  | recall k f ih => exact ih _ hP (hf _)

theorem hold_andThen {P Q : Proc} {h : Notes} (hP : Proc.Hold C O X P h) (hQ : ∀ h, X h → Proc.Hold C O X' Q h) : Proc.Hold C O X' (P.andThen Q) h := by
  induction P generalizing h with
  | done => exact hQ _ hP
  | note k b e P ih => exact ih hP
  | cross k P ih => exact ih hP
  | offer q P ih => exact ⟨hP.1, fun h' hh => ih (hP.2 h' hh)⟩
  | recall k f ih => exact ih _ hP

theorem hold_proceed {P : Proc} {g : Nat → Proc} {h : Notes} (hP : Proc.Hold C O X P h) (hg : ∀ q h, O q h → Proc.Hold C' O' (C h) (g q) h) :
    Proc.Hold C' O' X (P.proceed g) h := by
  induction P generalizing h with
  | done => exact hP
  | note k b e P ih => exact ih hP
  | cross k P ih => exact ih hP
  | offer q P ih => exact hold_andThen (hg q h hP.1) (fun h' hh => ih (hP.2 h' hh))
  | recall k f ih => exact ih _ hP

theorem hold_commit {P Q : Proc} {g : Nat → Proc} {h : Notes} (hP : Proc.Hold C O X P h) (hg : ∀ q h, O q h → Proc.Hold C' O' X' (g q) h)
    (hQ : ∀ h, X h → Proc.Hold C' O' X' Q h) : Proc.Hold C' O' X' (P.commit g Q) h := by
  induction P generalizing h with
  | done => exact hQ _ hP
  | note k b e P ih => exact ih hP
  | cross k P ih => exact ih hP
  | offer q P ih => exact hg q h hP.1
  | recall k f ih => exact ih _ hP

theorem hold_except (hc : ∀ h, C h h) {P : Proc} {h : Notes} (hP : Proc.Hold C O X P h) (p : Nat) : Proc.Hold C O X (P.except p) h := by
  induction P generalizing h with
  | done => exact hP
  | note k b e P ih => exact ih hP
  | cross k P ih => exact ih hP
  | offer q P ih =>
    simp only [Proc.except]
    split
    · exact ih (hP.2 h (hc h))
    · exact ⟨hP.1, fun h' hh => ih (hP.2 h' hh)⟩
  | recall k f ih => exact ih _ hP

theorem hold_follow (hc : ∀ h, C h h) {acc : Nat → Bool} {P : Proc} {h : Notes} (hP : Proc.Hold C O X P h) :
    (∀ q, (P.follow acc h).1 = some q → O q (P.follow acc h).2) ∧ ((P.follow acc h).1 = none → X (P.follow acc h).2) := by
  induction P generalizing h with
  | done => exact ⟨fun q e => (by cases e), fun _ => hP⟩
  | note k b e P ih => exact ih hP
  | cross k P ih => exact ih hP
  | offer q P ih =>
    simp only [Proc.follow]
    split
    · exact ⟨fun q e => by cases e; exact hP.1, fun e => (by cases e)⟩
    · exact ih (hP.2 h (hc h))
  | recall k f ih => exact ih _ hP

/-- What holds for the procedures at all positions holds for the methods. -/
theorem hold_carryOut (hc : ∀ h, C h h) {n : Nat} {g : Nat → Proc} {O : Nat → Nat → Notes → Prop} (hg : ∀ p h, X h → Proc.Hold C (O p) X (g p) h) (cur : Nat)
    {h : Notes} (hh : X h) (M : Method) {b e : Nat} (hb : (carryOut n g cur h M).1 = some (b, e)) : O b e (carryOut n g cur h M).2 := by
  cases M with
  | «match» =>
    have := (hold_follow hc (acc := (· == n)) (hg cur h hh)).1
    simp only [carryOut, Option.map_eq_some_iff, Prod.mk.injEq] at hb
    obtain ⟨q, hq, rfl, rfl⟩ := hb
    exact this q hq
  | matchPrefix =>
    have := (hold_follow hc (acc := fun _ => true) (hg cur h hh)).1
    simp only [carryOut, Option.map_eq_some_iff, Prod.mk.injEq] at hb
    obtain ⟨q, hq, rfl, rfl⟩ := hb
    exact this q hq
  | search =>
    simp only [carryOut] at hb ⊢
    generalize List.range' cur (n + 1 - cur) = l at hb
    induction l generalizing h with
    | nil => cases hb
    | cons j l ih =>
      have := hold_follow hc (acc := fun _ => true) (hg j h hh)
      simp only [tryFrom] at hb ⊢
      generalize hF : (g j).follow (fun _ => true) h = F at this hb
      obtain ⟨o, h'⟩ := F
      cases o with
      | some q => cases hb; exact this.1 _ rfl
      | none => exact ih (this.2 rfl) hb

end

/-! ### Flows -/

/-- `B p h q h'`: what can be said about `q` and `h'` at offers of a procedure that starts at `p` with `h`.  `C h h'`: about the notes at its end. -/
structure Flow (B : Nat → Notes → Nat → Notes → Prop) (C : Notes → Notes → Prop) : Prop where
  crefl : ∀ h, C h h
  ctrans : ∀ {h h' h''}, C h h' → C h' h'' → C h h''
  brefl : ∀ p h, B p h p h
  btrans : ∀ {p h q h' t h''}, B p h q h' → B q h' t h'' → B p h t h''
  bc : ∀ {p h q h' h''}, B p h q h' → C h' h'' → B p h q h''

/-- The procedures `g` flow. -/
def Flows (B : Nat → Notes → Nat → Notes → Prop) (C : Notes → Notes → Prop) (g : Nat → Proc) : Prop :=
  ∀ p h, Proc.Hold C (B p h) (C h) (g p) h

section
variable {B : Nat → Notes → Nat → Notes → Prop} {C : Notes → Notes → Prop} (F : Flow B C)
include F

theorem flows_offers {l : Nat → List Nat} (hl : ∀ p, ∀ q ∈ l p, ∀ h, B p h q h) : Flows B C (fun p => .offers (l p)) := by
  intro p h0
  suffices key : ∀ m : List Nat, (∀ q ∈ m, ∀ h, B p h q h) → ∀ h, C h0 h → Proc.Hold C (B p h0) (C h0) (.offers m) h from key _ (hl p) _ (F.crefl _)
  intro m
  induction m with
  | nil => exact fun _ h hh => hh
  | cons q m ih =>
    intro hm h hh
    refine ⟨?_, fun h' hh' => ih (fun t ht => hm t (List.mem_cons_of_mem _ ht)) _ (F.ctrans hh hh')⟩
    exact F.bc (hm q (by simp) h0) hh

theorem flows_done : Flows B C (fun _ => .done) := fun _ h => F.crefl h

theorem flows_only : Flows B C .only := fun p h => ⟨F.brefl p h, fun _ hh => hh⟩

theorem flows_andThen {g g' : Nat → Proc} (hg : Flows B C g) (hg' : Flows B C g') : Flows B C (fun p => (g p).andThen (g' p)) := fun p h =>
  hold_andThen (hg p h) (fun h' hh => hold_mono (hg' p h') (fun _ _ hh => hh)
    (fun _ _ hb => F.btrans (F.bc (F.brefl p h) hh) hb) (fun _ hx => F.ctrans hh hx))

theorem flows_proceed {g g' : Nat → Proc} (hg : Flows B C g) (hg' : Flows B C g') : Flows B C (fun p => (g p).proceed g') := fun p h =>
  hold_proceed (hg p h) (fun q h' hb => hold_mono (hg' q h') (fun _ _ hh => hh) (fun _ _ hb' => F.btrans hb hb') (fun _ hx => hx))

theorem flows_except {g : Nat → Proc} (hg : Flows B C g) : Flows B C (fun p => (g p).except p) := fun p h => hold_except F.crefl (hg p h) p

theorem flows_times {g : Nat → Proc} (hg : Flows B C g) (k : Nat) : Flows B C (Proc.times g k) := by
  induction k with
  | zero => exact flows_only F
  | succ k ih => exact flows_proceed F hg ih

theorem flows_greedyUpTo {g : Nat → Proc} (hg : Flows B C g) (k : Nat) : Flows B C (Proc.greedyUpTo g k) := by
  induction k with
  | zero => exact flows_only F
  | succ k ih => exact flows_andThen F (flows_proceed F hg ih) (flows_only F)

theorem flows_offer {g : Nat → Proc} (hg : Flows B C g) : Flows B C (fun p => .offer p (g p)) := fun p h =>
  ⟨F.brefl p h, fun h' hh => hold_mono (hg p h') (fun _ _ hh => hh) (fun _ _ hb => F.btrans (F.bc (F.brefl p h) hh) hb) (fun _ hx => F.ctrans hh hx)⟩

theorem flows_lazyUpTo {g : Nat → Proc} (hg : Flows B C g) (k : Nat) : Flows B C (Proc.lazyUpTo g k) := by
  induction k with
  | zero => exact flows_only F
  | succ k ih => exact flows_offer F (flows_proceed F hg ih)

theorem flows_greedyStar {g : Nat → Proc} (hg : Flows B C g) (k : Nat) : Flows B C (Proc.greedyStar g k) := by
  induction k with
  | zero => exact flows_done F
  | succ k ih => exact flows_andThen F (flows_proceed F (flows_except F hg) ih) (flows_only F)

theorem flows_lazyStar {g : Nat → Proc} (hg : Flows B C g) (k : Nat) : Flows B C (Proc.lazyStar g k) := by
  induction k with
  | zero => exact flows_done F
  | succ k ih => exact flows_offer F (flows_proceed F (flows_except F hg) ih)

theorem flows_extra {g : Nat → Proc} (hg : Flows B C g) (n : Nat) {m : Mode} (hm : m ≠ .possessive) (u : Bool) (k : Option Nat) :
    Flows B C (Proc.extra n m u g k) := by
  cases m with
  | possessive => exact absurd rfl hm
  | greedy => cases k <;> cases u <;> first | exact flows_greedyUpTo F hg _ | exact flows_lazyUpTo F hg _ | exact flows_greedyStar F hg _ | exact flows_lazyStar F hg _
  | lazy => cases k <;> cases u <;> first | exact flows_greedyUpTo F hg _ | exact flows_lazyUpTo F hg _ | exact flows_greedyStar F hg _ | exact flows_lazyStar F hg _

theorem flows_quantified {g : Nat → Proc} (hg : Flows B C g) (n : Nat) {m : Mode} (hm : m ≠ .possessive) (u : Bool) (lo : Nat) (hi : Bound) :
    Flows B C (Proc.quantified n m u lo hi g) := by
  have := flows_proceed F (flows_times F hg lo) (flows_extra F hg n hm u (match hi with | .fin h => some (h - lo) | .inf => none))
  cases m with
  | possessive => exact absurd rfl hm
  | greedy => exact this
  | lazy => exact this

end

/-! ### Procedures that do not matter -/

/-- Nothing happens, as far as `C` can tell. -/
def Neutral (C : Notes → Notes → Prop) (P : Proc) : Prop := ∀ h, Proc.Hold C (fun _ => C h) (C h) P h

section
variable {C : Notes → Notes → Prop} (cr : ∀ h, C h h) (ct : ∀ h h' h'', C h h' → C h' h'' → C h h'')
include cr ct

theorem flow_neutral : Flow (fun _ h _ h' => C h h') C := ⟨cr, ct _ _ _, fun _ => cr, ct _ _ _, ct _ _ _⟩

omit cr in
theorem neutral_from {P : Proc} (hP : Neutral C P) {h h' : Notes} (hh : C h h') : Proc.Hold C (fun _ => C h) (C h) P h' :=
  hold_mono (hP h') (fun _ _ hh => hh) (fun _ _ hb => ct _ _ _ hh hb) (fun _ hx => ct _ _ _ hh hx)

theorem neutral_only (q : Nat) : Neutral C (.only q) := fun h => ⟨cr h, fun _ hh => hh⟩

theorem neutral_offers (l : List Nat) : Neutral C (.offers l) := by
  induction l with
  | nil => exact cr
  | cons q l ih => exact fun h => ⟨cr h, fun h' hh => neutral_from ct ih hh⟩

omit cr in
theorem neutral_andThen {P Q : Proc} (hP : Neutral C P) (hQ : Neutral C Q) : Neutral C (P.andThen Q) := fun h =>
  hold_andThen (hP h) (fun _ hh => neutral_from ct hQ hh)

omit cr in
theorem neutral_proceed {P : Proc} {g : Nat → Proc} (hP : Neutral C P) (hg : ∀ q, Neutral C (g q)) : Neutral C (P.proceed g) := fun h =>
  hold_proceed (hP h) (fun q h' hb => hold_mono (hg q h') (fun _ _ hh => hh) (fun _ _ hb' => ct _ _ _ hb hb') (fun _ hx => hx))

omit cr in
theorem neutral_commit {P Q : Proc} {g : Nat → Proc} (hP : Neutral C P) (hg : ∀ q, Neutral C (g q)) (hQ : Neutral C Q) : Neutral C (P.commit g Q) := fun h =>
  hold_commit (hP h) (fun q _ hb => neutral_from ct (hg q) hb) (fun _ hh => neutral_from ct hQ hh)

theorem neutral_possessiveUpTo {g : Nat → Proc} (hg : ∀ q, Neutral C (g q)) (k p : Nat) : Neutral C (Proc.possessiveUpTo g k p) := by
  induction k generalizing p with
  | zero => exact neutral_only cr ct p
  | succ k ih => exact neutral_commit ct (hg p) ih (neutral_only cr ct p)

theorem neutral_possessiveStar {g : Nat → Proc} (hg : ∀ q, Neutral C (g q)) (k p : Nat) : Neutral C (Proc.possessiveStar g k p) := by
  induction k generalizing p with
  | zero => exact cr
  | succ k ih =>
    refine neutral_commit ct (hg p) (fun q => ?_) (neutral_only cr ct p)
    split
    · exact neutral_only cr ct p
    · exact ih q

theorem neutral_quantified {g : Nat → Proc} (hg : ∀ q, Neutral C (g q)) (n : Nat) (m : Mode) (u : Bool) (lo : Nat) (hi : Bound) (p : Nat) :
    Neutral C (Proc.quantified n m u lo hi g p) := by
  have F := flow_neutral cr ct
  by_cases hm : m = .possessive
  · subst hm
    refine neutral_proceed ct (neutral_commit ct (fun h => flows_times F hg lo p h) (fun q => neutral_only cr ct q) (fun h => cr h)) (fun q => ?_)
    cases hi with
    | fin k => exact neutral_possessiveUpTo cr ct hg _ q
    | inf => exact neutral_possessiveStar cr ct hg _ q
  · exact fun h => flows_quantified F hg n hm u lo hi p h

/-- Groups that do not matter do not matter. -/
theorem neutral_proc (f : Flags) (s : List Byte) (ν : List Byte → Nat) {a : Ast} (hC : ∀ k ∈ groupIds a, ∀ h v, C h (h.put k v)) (r : Nat) (inv : Bool) (p : Nat) :
    Neutral C (proc f s ν a r inv p) := by
  induction a using ind generalizing r inv p with
  | neg a ih =>
    simp only [proc]
    split
    · exact neutral_commit ct (ih hC r inv p) (fun _ h => cr h) (neutral_only cr ct p)
    · exact neutral_offers cr ct _
  | seq l ih =>
    simp only [proc]
    have hl : ∀ l', (∀ b ∈ l', b ∈ l) → ∀ p, Neutral C (procAll f s ν l' r inv p) := by
      intro l'
      induction l' with
      | nil => exact fun _ p => neutral_only cr ct p
      | cons a l' ihl =>
        intro hb p
        have ihl := ihl (fun b h => hb b (List.mem_cons_of_mem _ h))
        have iha := ih a (hb a (by simp)) (fun k hk => hC k (by
          simp only [groupIds, groupIdsAll_eq, List.mem_flatMap]; exact ⟨a, hb a (by simp), hk⟩)) r inv
        simp only [procAll]
        split
        · exact neutral_proceed ct (ihl p) iha
        · exact neutral_proceed ct (iha p) ihl
    exact hl l (fun _ h => h) p
  | alt l ih =>
    simp only [proc]
    have hl : ∀ l', (∀ b ∈ l', b ∈ l) → Neutral C (procAny f s ν l' r inv p) := by
      intro l'
      induction l' with
      | nil => exact fun _ h => cr h
      | cons a l' ihl =>
        intro hb
        have ihl := ihl (fun b h => hb b (List.mem_cons_of_mem _ h))
        have iha := ih a (hb a (by simp)) (fun k hk => hC k (by
          simp only [groupIds, groupIdsAll_eq, List.mem_flatMap]; exact ⟨a, hb a (by simp), hk⟩)) r inv p
        simp only [procAny]
        split
        · exact neutral_offers cr ct _
        · exact neutral_andThen ct iha ihl
    exact hl l (fun _ h => h)
  | cap id n a ih =>
    simp only [proc]
    have hk := hC id (by simp [groupIds])
    refine neutral_andThen ct (neutral_proceed ct (ih (fun k hk => hC k (by simp [groupIds, hk])) r inv p) (fun q h => ?_)) (fun h => hk h _)
    split
    · exact ⟨hk h _, fun h' hh => ct _ _ _ (hk h _) hh⟩
    · exact ⟨hk h _, fun h' hh => ct _ _ _ (hk h _) hh⟩
  | rep m lo hi a ih =>
    simp only [proc]
    exact neutral_quantified cr ct (ih hC r inv) _ _ _ _ _ p
  | look d a ih =>
    simp only [proc]
    split
    · exact neutral_commit ct (ih hC _ _ p) (fun _ => neutral_only cr ct p) (fun h => cr h)
    · exact neutral_commit ct (ih hC _ _ p) (fun _ => neutral_only cr ct p) (fun h => cr h)
  | backref k => exact fun h => neutral_offers cr ct _ h
  | namedBackref n => exact fun h => neutral_offers cr ct _ h
  | _ => exact neutral_offers cr ct _

end

/-! ### Where groups are -/

/-- The groups in `S` are as they were, or hold no text. -/
def Fewer (S : Nat → Prop) (h h' : Notes) : Prop := ∀ k, S k → h' k = h k ∨ NoText (h' k)

/-- A range inside another one. -/
def InRange (p q : Nat) : Cap → Prop
  | none => False
  | some (b, e) => p ≤ b ∧ b ≤ e ∧ e ≤ q

/-- The groups in `S` are as they were, or hold no text, or have been set to something between `p` and `q`, if they are in `I`. -/
def Between (S : Nat → Prop) (I : List Nat) (p : Nat) (h : Notes) (q : Nat) (h' : Notes) : Prop :=
  p ≤ q ∧ ∀ k, S k → h' k = h k ∨ NoText (h' k) ∨ (k ∈ I ∧ InRange p q (h' k))

section
variable {S : Nat → Prop} {I : List Nat}

theorem fewer_refl (h : Notes) : Fewer S h h := fun _ _ => .inl rfl

theorem fewer_trans {h h' h'' : Notes} (h1 : Fewer S h h') (h2 : Fewer S h' h'') : Fewer S h h'' := fun k hk => by
  rcases h2 k hk with e | e
  · rw [e]; exact h1 k hk
  · exact .inr e

theorem InRange.mono {p q p' q' : Nat} (h1 : p' ≤ p) (h2 : q ≤ q') {v : Cap} (h : InRange p q v) : InRange p' q' v := by
  cases v with
  | none => exact h
  | some x => obtain ⟨b, e⟩ := x; simp only [InRange] at *; omega

theorem flow_between : Flow (Between S I) (Fewer S) where
  crefl := fewer_refl
  ctrans := fewer_trans
  brefl := fun _ _ => ⟨Nat.le_refl _, fun _ _ => .inl rfl⟩
  btrans := by
    intro p h q h' t h'' h1 h2
    refine ⟨Nat.le_trans h1.1 h2.1, fun k hk => ?_⟩
    rcases h2.2 k hk with e | e | ⟨e, e'⟩
    · rw [e]
      rcases h1.2 k hk with e | e | ⟨e, e'⟩
      · exact .inl e
      · exact .inr (.inl e)
      · exact .inr (.inr ⟨e, e'.mono (Nat.le_refl _) h2.1⟩)
    · exact .inr (.inl e)
    · exact .inr (.inr ⟨e, e'.mono h1.1 (Nat.le_refl _)⟩)
  bc := by
    intro p h q h' h'' h1 h2
    refine ⟨h1.1, fun k hk => ?_⟩
    rcases h2 k hk with e | e
    · rw [e]; exact h1.2 k hk
    · exact .inr (.inl e)

theorem fit_le (f : Flags) (s : List Byte) (ν : List Byte → Nat) (a : Ast) (inv : Bool) (p : Nat) :
    Proc.Fit (fun _ _ _ => True) (p ≤ ·) (proc f s ν a 0 inv p) :=
  fit_mono (fit_proc f s ν a 0 inv p) (fun _ _ _ _ => trivial) (fun q hq => by obtain ⟨d, h1, _⟩ := hq; simp at h1; omega)

/-- Without groups in `S`. -/
theorem between_neutral (f : Flags) (s : List Byte) (ν : List Byte → Nat) {a : Ast} (ha : ∀ k ∈ groupIds a, ¬ S k) :
    Flows (Between S I) (Fewer S) (proc f s ν a 0 false) := by
  intro p h
  have := neutral_proc (C := Fewer S) fewer_refl (fun _ _ _ => fewer_trans) f s ν (a := a) (fun k hk h v j hj => by
    left
    simp only [Notes.put]
    rw [if_neg (fun e : j = k => ha k hk (e ▸ hj))]) 0 false p h
  exact hold_mono (hold_fit this (fit_le f s ν a false p)) (fun _ _ hh => hh)
    (fun q h' hb => ⟨hb.1, fun k hk => (hb.2 k hk).elim .inl (fun e => .inr (.inl e))⟩) (fun _ hx => hx)

theorem between_proc (f : Flags) (s : List Byte) (ν : List Byte → Nat) {a : Ast} (ha : ∀ k, S k → outside k a = true) (hI : ∀ k ∈ groupIds a, k ∈ I) :
    Flows (Between S I) (Fewer S) (proc f s ν a 0 false) := by
  induction a using ind generalizing S with
  | seq l ih =>
    have hl : ∀ l', (∀ b ∈ l', b ∈ l) → (∀ k, S k → outsideAll k l' = true) → Flows (Between S I) (Fewer S) (procAll f s ν l' 0 false) := by
      intro l'
      induction l' with
      | nil => intro _ _; rw [procAll_nil]; exact flows_only flow_between
      | cons a l' ihl =>
        intro hb ho
        simp only [outsideAll, Bool.and_eq_true] at ho
        have ihl := ihl (fun b h => hb b (List.mem_cons_of_mem _ h)) (fun k hk => (ho k hk).2)
        have iha := ih a (hb a (by simp)) (fun k hk => (ho k hk).1) (fun k hk => hI k (by
          simp only [groupIds, groupIdsAll_eq, List.mem_flatMap]; exact ⟨a, hb a (by simp), hk⟩))
        have := flows_proceed flow_between iha ihl
        exact this
    exact hl l (fun _ h => h) (fun k hk => by simpa [outside] using ha k hk)
  | alt l ih =>
    have hl : ∀ l', (∀ b ∈ l', b ∈ l) → (∀ k, S k → outsideAll k l' = true) → Flows (Between S I) (Fewer S) (procAny f s ν l' 0 false) := by
      intro l'
      induction l' with
      | nil => exact fun _ _ => flows_done flow_between
      | cons a l' ihl =>
        intro hb ho
        simp only [outsideAll, Bool.and_eq_true] at ho
        have ihl := ihl (fun b h => hb b (List.mem_cons_of_mem _ h)) (fun k hk => (ho k hk).2)
        have iha := ih a (hb a (by simp)) (fun k hk => (ho k hk).1) (fun k hk => hI k (by
          simp only [groupIds, groupIdsAll_eq, List.mem_flatMap]; exact ⟨a, hb a (by simp), hk⟩))
        by_cases hc : characters (a :: l') = true
        · have : Flows (Between S I) (Fewer S) (fun p => .offers (oneChar s true (acceptsAny f (a :: l')) p)) :=
            flows_offers flow_between (fun p q hq h => ⟨by obtain ⟨d, h1, _⟩ := within_oneChar hq; simp at h1; omega, fun _ _ => .inl rfl⟩)
          intro p h
          have := this p h
          simp only [procAny, if_pos hc]
          exact this
        · intro p h
          have := flows_andThen flow_between iha ihl p h
          simp only [procAny, if_neg hc]
          exact this
    exact hl l (fun _ h => h) (fun k hk => by simpa [outside] using ha k hk)
  | cap id n a ih =>
    have iha := ih (S := fun k => S k ∧ k ≠ id) (fun k hk => by simpa [outside] using ha k hk.1) (fun k hk => hI k (by simp [groupIds, hk]))
    intro p h
    simp only [proc, Nat.zero_mod, if_true]
    refine hold_andThen (X := Fewer (fun k => S k ∧ k ≠ id) h) ?_ (fun h' hh k hk => ?_)
    · refine hold_proceed (iha p h) (fun q h' hb => ?_)
      refine ⟨⟨hb.1, fun k hk => ?_⟩, fun h'' hh k hk => ?_⟩
      · simp only [Notes.put]
        split
        · next e => subst e; exact .inr (.inr ⟨hI k (by simp [groupIds]), Nat.le_refl _, hb.1, Nat.le_refl _⟩)
        · next e => exact hb.2 k ⟨hk, e⟩
      · have := hh k hk.1
        simp only [Notes.put, if_neg hk.2] at this
        exact this
    · simp only [Notes.put]
      split
      · right
        cases h' id with
        | none => trivial
        | some x => exact rfl
      · next e => exact hh k ⟨hk, e⟩
  | rep m lo hi a ih =>
    by_cases hm : m = .possessive
    · subst hm
      exact between_neutral f s ν (fun k hk hs => by
        have := ha k hs
        simp only [outside, Bool.not_eq_true', List.contains_eq_mem, decide_eq_false_iff_not] at this
        exact this hk)
    · have iha := ih (fun k hk => by
        have := ha k hk
        cases m with
        | possessive => exact absurd rfl hm
        | greedy => simpa [outside] using this
        | lazy => simpa [outside] using this) hI
      exact flows_quantified flow_between iha s.length hm f.ungreedy lo hi
  | _ =>
    exact between_neutral f s ν (fun k hk hs => by
      have := ha k hs
      simp only [outside, Bool.not_eq_true', List.contains_eq_mem, decide_eq_false_iff_not] at this
      exact this hk)

end

/-! ### Two groups -/

/-- The groups `i` and `j` hold what they held, or nothing as before. -/
def SameTwo (i j : Nat) (h h' : Notes) : Prop := ∀ k, k = i ∨ k = j → h' k = h k ∨ (NoText (h k) ∧ NoText (h' k))

/-- Neither of them holds a text. -/
def Blank (i j : Nat) (h : Notes) : Prop := NoText (h i) ∧ NoText (h j)

/-- If neither of the groups holds a text at the beginning, `K` is true at each offer, and neither of them holds a text at the end. -/
def KeepsTwo (i j : Nat) (K : Notes → Prop) (g : Nat → Proc) : Prop :=
  ∀ p h, Blank i j h → Proc.Hold (SameTwo i j) (fun _ => K) (Blank i j) (g p) h

section
variable {i j : Nat}

theorem sameTwo_refl (h : Notes) : SameTwo i j h h := fun _ _ => .inl rfl

theorem sameTwo_trans (h h' h'' : Notes) (h1 : SameTwo i j h h') (h2 : SameTwo i j h' h'') : SameTwo i j h h'' := fun k hk => by
  rcases h2 k hk with e | e
  · rw [e]; exact h1 k hk
  · rcases h1 k hk with e' | e'
    · rw [← e']; exact .inr e
    · exact .inr ⟨e'.1, e.2⟩

theorem sameTwo_blank {h h' : Notes} (hh : Blank i j h) (h1 : SameTwo i j h h') : Blank i j h' := by
  have key : ∀ k, k = i ∨ k = j → NoText (h k) → NoText (h' k) := by
    intro k hk hn
    rcases h1 k hk with e | e
    · rw [e]; exact hn
    · exact e.2
  exact ⟨key i (.inl rfl) hh.1, key j (.inr rfl) hh.2⟩

theorem sameTwo_of_blank {h h' : Notes} (hh : Blank i j h) (hh' : Blank i j h') : SameTwo i j h h' := by
  intro k hk
  right
  rcases hk with rfl | rfl
  · exact ⟨hh.1, hh'.1⟩
  · exact ⟨hh.2, hh'.2⟩

theorem sameTwo_put {k : Nat} (hi : k ≠ i) (hj : k ≠ j) (h : Notes) (v : Cap) : SameTwo i j h (h.put k v) := by
  intro m hm
  left
  simp only [Notes.put]
  rw [if_neg]
  rintro rfl
  rcases hm with rfl | rfl
  · exact hi rfl
  · exact hj rfl

theorem fewer_of_sameTwo {S : Nat → Prop} (hS : ∀ k, S k → k = i ∨ k = j) {h h' : Notes} (h1 : SameTwo i j h h') : Fewer S h h' := fun k hk =>
  (h1 k (hS k hk)).imp id (fun e => e.2)

variable (f : Flags) (s : List Byte) (ν : List Byte → Nat)

theorem neutral_two {a : Ast} (hi : i ∉ groupIds a) (hj : j ∉ groupIds a) (r : Nat) (inv : Bool) (p : Nat) : Neutral (SameTwo i j) (proc f s ν a r inv p) :=
  neutral_proc sameTwo_refl sameTwo_trans f s ν (fun k hk h v => sameTwo_put (by rintro rfl; exact hi hk) (by rintro rfl; exact hj hk) h v) r inv p

variable {K : Notes → Prop} (hB : ∀ h, Blank i j h → K h) (hK : ∀ h h', K h → SameTwo i j h h' → K h')

section
include hB

omit f s ν in
theorem keeps_neutral {P : Proc} (hP : Neutral (SameTwo i j) P) {h : Notes} (hh : Blank i j h) : Proc.Hold (SameTwo i j) (fun _ => K) (Blank i j) P h :=
  hold_mono (hP h) (fun _ _ e => e) (fun _ _ e => hB _ (sameTwo_blank hh e)) (fun _ e => sameTwo_blank hh e)

theorem keeps_any {l : List Ast} (ha : ∀ a ∈ l, KeepsTwo i j K (proc f s ν a 0 false)) : KeepsTwo i j K (procAny f s ν l 0 false) := by
  have offers : ∀ m h, Blank i j h → Proc.Hold (SameTwo i j) (fun _ => K) (Blank i j) (.offers m) h := fun m h hh =>
    keeps_neutral hB (neutral_offers sameTwo_refl sameTwo_trans m) hh
  induction l with
  | nil =>
    intro p h hh
    have := neutral_two (i := i) (j := j) f s ν (a := .alt []) (by simp [groupIds, groupIdsAll]) (by simp [groupIds, groupIdsAll]) 0 false p
    rw [proc] at this
    exact keeps_neutral hB this hh
  | cons b l ih =>
    intro p h hh
    simp only [procAny]
    split
    · exact offers _ h hh
    · exact hold_andThen (ha b List.mem_cons_self p h hh) (fun h' hh' => ih (fun a hm => ha a (List.mem_cons_of_mem _ hm)) p h' hh')

end

section
include hK

theorem keeps_all {l l' : List Ast} {a : Ast} (ha : KeepsTwo i j K (proc f s ν a 0 false)) (hi : i ∉ groupIdsAll l) (hj : j ∉ groupIdsAll l)
    (hi' : i ∉ groupIdsAll l') (hj' : j ∉ groupIdsAll l') : KeepsTwo i j K (procAll f s ν (l ++ a :: l') 0 false) := by
  intro p h hh
  rw [procAll_append]
  simp only [Bool.false_eq_true, if_false]
  have h1 := neutral_two f s ν (a := .seq l) (by simpa [groupIds] using hi) (by simpa [groupIds] using hj) 0 false p h
  rw [proc] at h1
  refine hold_mono (X := SameTwo i j h) (C := SameTwo i j) (O := fun _ => K) ?_ (fun _ _ e => e) (fun _ _ e => e) (fun _ e => sameTwo_blank hh e)
  refine hold_proceed h1 (fun q h' hb => ?_)
  have hb' := sameTwo_blank hh hb
  refine hold_mono (X := Blank i j) (C := SameTwo i j) (O := fun _ => K) ?_ (fun _ _ e => e) (fun _ _ e => e) (fun _ e => sameTwo_of_blank hb' e)
  simp only [procAll, Bool.false_eq_true, if_false]
  refine hold_proceed (ha q h' hb') (fun t h'' hk => ?_)
  have h2 := neutral_two f s ν (a := .seq l') (by simpa [groupIds] using hi') (by simpa [groupIds] using hj') 0 false t h''
  rw [proc] at h2
  exact hold_mono h2 (fun _ _ e => e) (fun _ _ e => hK _ _ hk e) (fun _ e => e)

theorem keeps_cap {k : Nat} {n : GroupName} {a : Ast} (ha : KeepsTwo i j K (proc f s ν a 0 false)) (hi : k ≠ i) (hj : k ≠ j) :
    KeepsTwo i j K (proc f s ν (.cap k n a) 0 false) := by
  intro p h hh
  simp only [proc, Nat.zero_mod, if_true]
  refine hold_andThen (hold_proceed (ha p h hh) (fun q h' hk => ?_)) (fun h' hh' => ?_)
  · exact ⟨hK _ _ hk (sameTwo_put hi hj _ _), fun h'' e => sameTwo_trans _ _ _ (sameTwo_put hi hj _ _) e⟩
  · exact sameTwo_blank hh' (sameTwo_put hi hj _ _)

include hB

omit f s ν hK in
theorem keeps_opt {g : Nat → Proc} (hg : KeepsTwo i j K g) (n : Nat) {m : Mode} (hm : m ≠ .possessive) (u : Bool) {lo : Nat} (hlo : lo ≤ 1) :
    KeepsTwo i j K (Proc.quantified n m u lo (.fin 1) g) := by
  have only : ∀ q h, Blank i j h → Proc.Hold (SameTwo i j) (fun _ => K) (Blank i j) (.only q) h := fun q h hh =>
    keeps_neutral hB (neutral_only sameTwo_refl sameTwo_trans q) hh
  have after : ∀ p h, Blank i j h → Proc.Hold (SameTwo i j) (fun _ => K) (Blank i j) ((g p).proceed .only) h := fun p h hh =>
    hold_proceed (hg p h hh) (fun q h' hk => ⟨hk, fun _ e => e⟩)
  have greedy : ∀ k, k ≤ 1 → KeepsTwo i j K (Proc.greedyUpTo g k) := by
    intro k hk p h hh
    match k with
    | 0 => exact only p h hh
    | 1 => exact hold_andThen (after p h hh) (fun h' hh' => only p h' hh')
  have lazy : ∀ k, k ≤ 1 → KeepsTwo i j K (Proc.lazyUpTo g k) := by
    intro k hk p h hh
    match k with
    | 0 => exact only p h hh
    | 1 => exact ⟨hB _ hh, fun h' e => after p h' (sameTwo_blank hh e)⟩
  have extra : ∀ k, k ≤ 1 → KeepsTwo i j K (Proc.extra n m u g (some k)) := by
    intro k hk
    cases m with
    | possessive => exact absurd rfl hm
    | greedy => cases u <;> first | exact greedy k hk | exact lazy k hk
    | lazy => cases u <;> first | exact greedy k hk | exact lazy k hk
  have zero : ∀ p, Proc.extra n m u g (some 0) p = .only p := by
    intro p
    cases m with
    | possessive => exact absurd rfl hm
    | greedy => cases u <;> rfl
    | lazy => cases u <;> rfl
  have hq : ∀ lo, Proc.quantified n m u lo (.fin 1) g = fun p => (Proc.times g lo p).proceed (Proc.extra n m u g (some (1 - lo))) := by
    intro lo
    funext p
    cases m with
    | possessive => exact absurd rfl hm
    | greedy => rfl
    | lazy => rfl
  rw [hq]
  intro p h hh
  match lo with
  | 0 => exact hold_andThen (extra 1 (Nat.le_refl _) p h hh) (fun h' hh' => hh')
  | 1 =>
    refine hold_proceed (after p h hh) (fun q h' hk => ?_)
    rw [zero]
    exact ⟨hk, fun _ e => e⟩

end

end

/-- Inside. -/
def KeepsInside (i j : Nat) (h : Notes) : Prop :=
  NoText (h j) ∨ ∃ b e b' e', h i = some (b, e) ∧ h j = some (b', e') ∧ b ≤ b' ∧ b' < e' ∧ e' ≤ e

/-- In order. -/
def KeepsOrder (i j : Nat) (h : Notes) : Prop := ∀ b e b' e', h i = some (b, e) → h j = some (b', e') → b ≠ e → b' ≠ e' → e ≤ b'

theorem keepsInside_blank {i j : Nat} {h : Notes} (hh : Blank i j h) : KeepsInside i j h := .inl hh.2

theorem keepsInside_same {i j : Nat} {h h' : Notes} (hk : KeepsInside i j h) (hs : SameTwo i j h h') : KeepsInside i j h' := by
  rcases hk with hk | ⟨b, e, b', e', h1, h2, h3, h4, h5⟩
  · left
    rcases hs j (.inr rfl) with e | e
    · rw [e]; exact hk
    · exact e.2
  · rcases hs j (.inr rfl) with e1 | e1
    · rcases hs i (.inl rfl) with e2 | e2
      · exact .inr ⟨b, e, b', e', by rw [e2, h1], by rw [e1, h2], h3, h4, h5⟩
      · rw [h1] at e2
        have : b = e := e2.1
        omega
    · exact .inl e1.2

theorem keepsOrder_blank {i j : Nat} {h : Notes} (hh : Blank i j h) : KeepsOrder i j h := by
  intro b e b' e' h1 _ h3 _
  have := hh.1
  rw [h1] at this
  exact absurd this h3

theorem keepsOrder_same {i j : Nat} {h h' : Notes} (hk : KeepsOrder i j h) (hs : SameTwo i j h h') : KeepsOrder i j h' := by
  intro b e b' e' h1 h2 h3 h4
  rcases hs i (.inl rfl) with e1 | e1
  · rcases hs j (.inr rfl) with e2 | e2
    · exact hk b e b' e' (e1 ▸ h1) (e2 ▸ h2) h3 h4
    · rw [h2] at e2; exact absurd e2.2 h4
  · rw [h1] at e1; exact absurd e1.2 h3

theorem outsideAll_iff {k : Nat} {l : List Ast} : outsideAll k l = true ↔ ∀ a ∈ l, outside k a = true := by
  induction l with
  | nil => simp [outsideAll]
  | cons a l ih => simp [outsideAll, ih]

theorem outside_opt {k : Nat} {m : Mode} (hm : m ≠ .possessive) {lo : Nat} {hi : Bound} {a : Ast} (h : outside k (.rep m lo hi a) = true) : outside k a = true := by
  cases m with
  | possessive => exact absurd rfl hm
  | greedy => simpa [outside] using h
  | lazy => simpa [outside] using h

theorem blank_of_fewer {i j : Nat} {h h' : Notes} (hh : Blank i j h) (hx : Fewer (fun k => k = i ∨ k = j) h h') : Blank i j h' := by
  have key : ∀ k, k = i ∨ k = j → NoText (h k) → NoText (h' k) := by
    intro k hk hn
    rcases hx k hk with e | e
    · rw [e]; exact hn
    · exact e
  exact ⟨key i (.inl rfl) hh.1, key j (.inr rfl) hh.2⟩

variable (f : Flags) (s : List Byte) (ν : List Byte → Nat)

/-- If one of the groups does not occur, the other one is of no importance. -/
theorem keeps_free {a : Ast} {i j : Nat} {K : Notes → Prop} (oi : outside i a = true) (oj : outside j a = true)
    (h : ∀ h, (i ∉ groupIds a → NoText (h i)) → (j ∉ groupIds a → NoText (h j)) → K h) : KeepsTwo i j K (proc f s ν a 0 false) := by
  intro p h0 hh
  have hb := between_proc (S := fun k => k = i ∨ k = j) (I := groupIds a) f s ν (a := a) (by rintro k (rfl | rfl) <;> assumption) (fun k hk => hk) p h0
  refine hold_mono hb (fun _ _ e => fewer_of_sameTwo (fun _ hk => hk) e) (fun q h' hq => ?_) (fun h' hx => blank_of_fewer hh hx)
  refine h h' (fun hn => ?_) (fun hn => ?_)
  · rcases hq.2 i (.inl rfl) with e | e | ⟨e, _⟩
    · rw [e]; exact hh.1
    · exact e
    · exact absurd e hn
  · rcases hq.2 j (.inr rfl) with e | e | ⟨e, _⟩
    · rw [e]; exact hh.2
    · exact e
    · exact absurd e hn

theorem keeps_inside {a : Ast} {i j : Nat} (he : Encloses i j a) (oi : outside i a = true) (oj : outside j a = true) : KeepsTwo i j (KeepsInside i j) (proc f s ν a 0 false) := by
  induction he with
  | free hj => exact keeps_free f s ν oi oj (fun h _ h2 => .inl (h2 hj))
  | @here n a hij =>
    simp only [outside] at oi oj
    intro p h hh
    simp only [proc, Nat.zero_mod, if_true]
    have hb := between_proc (S := (· = j)) (I := groupIds a) f s ν (a := a) (fun k hk => hk ▸ oj) (fun k hk => hk) p h
    refine hold_andThen (X := Fewer (· = j) h) (hold_proceed hb (fun q h' hbt => ?_)) (fun h' hx => ?_)
    · have e1 : (h'.put i (some (p, q))) j = h' j := if_neg (fun e => hij e.symm)
      have e2 : (h'.put i (some (p, q))) i = some (p, q) := if_pos rfl
      refine ⟨?_, fun h'' hs k hk => ?_⟩
      · rcases hbt.2 j rfl with e | e | ⟨_, e⟩
        · left; rw [e1, e]; exact hh.2
        · left; rw [e1]; exact e
        · cases hv : h' j with
          | none => left; rw [e1, hv]; trivial
          | some x =>
            obtain ⟨b', e'⟩ := x
            rw [hv] at e
            simp only [InRange] at e
            by_cases hbe : b' = e'
            · left; rw [e1, hv]; exact hbe
            · exact .inr ⟨p, q, b', e', e2, by rw [e1, hv], e.1, by omega, e.2.2⟩
      · subst hk
        rcases hs k (.inr rfl) with e | e
        · left; rw [e, e1]
        · exact .inr e.2
    · refine ⟨?_, ?_⟩
      · show NoText (if i = i then _ else _)
        rw [if_pos rfl]
        cases h' i with
        | none => trivial
        | some x => exact rfl
      · show NoText (if j = i then _ else _)
        rw [if_neg (fun e => hij e.symm)]
        rcases hx j rfl with e | e
        · rw [e]; exact hh.2
        · exact e
  | cap h1 h2 _ ih =>
    simp only [outside] at oi oj
    exact keeps_cap f s ν (fun _ _ => keepsInside_same) (ih oi oj) h1 h2
  | @seq l l' a h1 h2 _ h3 h4 ih =>
    have o1 := outsideAll_iff.1 (by simpa only [outside] using oi) a (by simp)
    have o2 := outsideAll_iff.1 (by simpa only [outside] using oj) a (by simp)
    have := keeps_all f s ν (fun _ _ => keepsInside_same) (ih o1 o2) h1 h2 h3 h4
    intro p h0 hh
    rw [proc]
    exact this p h0 hh
  | @alt l _ ih =>
    have o1 := outsideAll_iff.1 (by simpa only [outside] using oi)
    have o2 := outsideAll_iff.1 (by simpa only [outside] using oj)
    have := keeps_any f s ν (fun _ => keepsInside_blank) (fun a ha => ih a ha (o1 a ha) (o2 a ha))
    intro p h0 hh
    rw [proc]
    exact this p h0 hh
  | opt hm hlo h ih =>
    have := keeps_opt (fun _ => keepsInside_blank) (ih (outside_opt hm oi) (outside_opt hm oj)) s.length hm f.ungreedy hlo
    intro p h0 hh
    rw [proc]
    exact this p h0 hh

theorem keeps_order {a : Ast} {i j : Nat} (he : Precedes i j a) (oi : outside i a = true) (oj : outside j a = true) : KeepsTwo i j (KeepsOrder i j) (proc f s ν a 0 false) := by
  induction he with
  | left hj =>
    refine keeps_free f s ν oi oj (fun h _ h2 b e b' e' v1 v2 n1 n2 => ?_)
    have := h2 hj
    rw [v2] at this
    exact absurd this n2
  | right hi =>
    refine keeps_free f s ν oi oj (fun h h1 _ b e b' e' v1 v2 n1 n2 => ?_)
    have := h1 hi
    rw [v1] at this
    exact absurd this n1
  | @here l l' nj ni =>
    intro p h hh
    rw [proc, procAll_append]
    simp only [Bool.false_eq_true, if_false]
    have oi := outsideAll_iff.1 (by simpa only [outside] using oi)
    have oj := outsideAll_iff.1 (by simpa only [outside] using oj)
    have hS : ∀ k, (k = i ∨ k = j) → outside k (.seq l) = true ∧ outside k (.seq l') = true := by
      rintro k (rfl | rfl)
      · simp only [outside]
        exact ⟨outsideAll_iff.2 (fun a ha => oi a (List.mem_append_left _ ha)), outsideAll_iff.2 (fun a ha => oi a (List.mem_append_right _ ha))⟩
      · simp only [outside]
        exact ⟨outsideAll_iff.2 (fun a ha => oj a (List.mem_append_left _ ha)), outsideAll_iff.2 (fun a ha => oj a (List.mem_append_right _ ha))⟩
    have b1 := between_proc (S := fun k => k = i ∨ k = j) (I := groupIds (.seq l)) f s ν (a := .seq l) (fun k hk => (hS k hk).1) (fun k hk => hk) p h
    rw [proc] at b1
    refine hold_mono (C := Fewer (fun k => k = i ∨ k = j)) (O := fun _ => KeepsOrder i j) (X := Fewer (fun k => k = i ∨ k = j) h) ?_
      (fun _ _ e => fewer_of_sameTwo (fun _ hk => hk) e) (fun _ _ e => e) (fun h' hx => blank_of_fewer hh hx)
    refine hold_proceed b1 (fun q h1 hb1 => ?_)
    have b2 := between_proc (S := fun k => k = i ∨ k = j) (I := groupIds (.seq l')) f s ν (a := .seq l') (fun k hk => (hS k hk).2) (fun k hk => hk) q h1
    rw [proc] at b2
    refine hold_mono b2 (fun _ _ e => e) (fun t h2 hb2 => ?_) (fun _ e => e)
    intro b e b' e' v1 v2 n1 n2
    have t1 : e ≤ q := by
      have v1' : ∀ v, v = some (b, e) → ¬ NoText v := by rintro v rfl hv; exact n1 hv
      rcases hb2.2 i (.inl rfl) with x | x | ⟨x, _⟩
      · rw [x] at v1
        rcases hb1.2 i (.inl rfl) with y | y | ⟨_, y⟩
        · exact absurd (y ▸ hh.1) (v1' _ v1)
        · exact absurd y (v1' _ v1)
        · rw [v1] at y; exact y.2.2
      · exact absurd x (v1' _ v1)
      · exact absurd x ni
    have t2 : q ≤ b' := by
      have v2' : ∀ v, v = some (b', e') → ¬ NoText v := by rintro v rfl hv; exact n2 hv
      rcases hb2.2 j (.inr rfl) with x | x | ⟨_, x⟩
      · rw [x] at v2
        rcases hb1.2 j (.inr rfl) with y | y | ⟨y, _⟩
        · exact absurd (y ▸ hh.2) (v2' _ v2)
        · exact absurd y (v2' _ v2)
        · exact absurd y nj
      · exact absurd x (v2' _ v2)
      · rw [v2] at x; exact x.1
    omega
  | cap h1 h2 _ ih =>
    simp only [outside] at oi oj
    exact keeps_cap f s ν (fun _ _ => keepsOrder_same) (ih oi oj) h1 h2
  | @seq l l' a h1 h2 _ h3 h4 ih =>
    have o1 := outsideAll_iff.1 (by simpa only [outside] using oi) a (by simp)
    have o2 := outsideAll_iff.1 (by simpa only [outside] using oj) a (by simp)
    have := keeps_all f s ν (fun _ _ => keepsOrder_same) (ih o1 o2) h1 h2 h3 h4
    intro p h0 hh
    rw [proc]
    exact this p h0 hh
  | @alt l _ ih =>
    have o1 := outsideAll_iff.1 (by simpa only [outside] using oi)
    have o2 := outsideAll_iff.1 (by simpa only [outside] using oj)
    have := keeps_any f s ν (fun _ => keepsOrder_blank) (fun a ha => ih a ha (o1 a ha) (o2 a ha))
    intro p h0 hh
    rw [proc]
    exact this p h0 hh
  | opt hm hlo h ih =>
    have := keeps_opt (fun _ => keepsOrder_blank) (ih (outside_opt hm oi) (outside_opt hm oj)) s.length hm f.ungreedy hlo
    intro p h0 hh
    rw [proc]
    exact this p h0 hh

end Mregex
