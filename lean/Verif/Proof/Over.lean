import Verif.Proof.Positions
import Verif.Proof.AstLemmas

/-!
# An over-approximation of the positions at which a node may call its continuation

`Over E a r inv p q`: starting at `p` with iterators of layer `r`, the node `a` (mirrored if `inv`) may continue
at `q`.  Backreferences are read as arbitrary text, negated assertions carry no information,
and possessive repetitions are read as ordinary ones.
-/

namespace Mregex
open Ast

/-- `k`-fold composition. -/
def Pow (R : Nat → Nat → Prop) : Nat → Nat → Nat → Prop
  | 0, p, q => p = q
  | k + 1, p, q => ∃ t, R p t ∧ Pow R k t q

/-- One character accepted by `P`. -/
def CharStep (E : Env) (P : Byte → Bool) (r p q : Nat) : Prop :=
  E.remaining r p ≠ 0 ∧ q = Env.next r p ∧ ∃ x, E.deref r p = some x ∧ P x = true

mutual
def Over (E : Env) : Ast → Nat → Bool → Nat → Nat → Prop
  | .empty, _, _, p, q => p = q
  | .lit c, r, _, p, q => CharStep E (matchOne E.flags (.lit c)) r p q
  | .range a b, r, _, p, q => CharStep E (matchOne E.flags (.range a b)) r p q
  | .wildcard, r, _, p, q => CharStep E (matchOne E.flags .wildcard) r p q
  | .set l, r, _, p, q => CharStep E (matchOne E.flags (.set l)) r p q
  | .neg a, r, _, p, q => if isAssertion a then p = q else CharStep E (matchOne E.flags (.neg a)) r p q
  | .seq l, r, inv, p, q => OverSeq E l r inv p q
  | .alt l, r, inv, p, q => OverAny E l r inv p q
  | .cap _ _ a, r, inv, p, q => Over E a r inv p q
  | .rep _ lo hi a, r, inv, p, q =>
      ∃ k, lo ≤ k ∧ (∀ h, hi = .fin h → k ≤ h) ∧ Pow (Over E a r inv) k p q
  | .look .ahead a, r, inv, p, q =>
      p = q ∧ if inv then ∃ t, Over E a (r + 1) true p t else ∃ t, Over E a r false p t
  | .look .behind a, r, inv, p, q =>
      p = q ∧ if inv then ∃ t, Over E a r false p t else ∃ t, Over E a (r + 1) true p t
  | .bol, r, _, p, q => p = q ∧ beginPred E r true p = some true
  | .boi, r, _, p, q => p = q ∧ beginPred E r false p = some true
  | .eol, r, _, p, q => p = q ∧ endPred E r true p = some true
  | .eoi, r, _, p, q => p = q ∧ endPred E r false p = some true
  | .wordB, r, _, p, q => p = q ∧ wordBoundaryPred E r p = some true
  | .backref _, r, _, p, q => E.Reach r p q
  | .namedBackref _, r, _, p, q => E.Reach r p q
def OverSeq (E : Env) : List Ast → Nat → Bool → Nat → Nat → Prop
  | [], _, _, p, q => p = q
  | a :: l, r, inv, p, q =>
      if inv then ∃ t, OverSeq E l r inv p t ∧ Over E a r inv t q
      else ∃ t, Over E a r inv p t ∧ OverSeq E l r inv t q
def OverAny (E : Env) : List Ast → Nat → Bool → Nat → Nat → Prop
  | [], _, _, _, _ => False
  | a :: l, r, inv, p, q => Over E a r inv p q ∨ OverAny E l r inv p q
end

section
variable {E : Env}

theorem overAny_iff {l : List Ast} {r : Nat} {inv : Bool} {p q : Nat} :
    OverAny E l r inv p q ↔ ∃ a ∈ l, Over E a r inv p q := by
  induction l with
  | nil => simp [OverAny]
  | cons a l ih => simp [OverAny, ih]

theorem Pow.mono {R R' : Nat → Nat → Prop} (h : ∀ p q, R p q → R' p q) {k p q : Nat} (hk : Pow R k p q) :
    Pow R' k p q := by
  induction k generalizing p with
  | zero => exact hk
  | succ k ih => obtain ⟨t, h1, h2⟩ := hk; exact ⟨t, h _ _ h1, ih h2⟩

theorem Pow.comp {R : Nat → Nat → Prop} {i j p q t : Nat} (h : Pow R i p q) (h' : Pow R j q t) :
    Pow R (i + j) p t := by
  induction i generalizing p with
  | zero => cases h; simpa using h'
  | succ i ih =>
    obtain ⟨u, h1, h2⟩ := h
    rw [Nat.succ_add]
    exact ⟨u, h1, ih h2⟩

theorem Pow.split {R : Nat → Nat → Prop} {i j p t : Nat} (h : Pow R (i + j) p t) :
    ∃ q, Pow R i p q ∧ Pow R j q t := by
  induction i generalizing p with
  | zero => exact ⟨p, rfl, by simpa using h⟩
  | succ i ih =>
    rw [Nat.succ_add] at h
    obtain ⟨u, h1, h2⟩ := h
    obtain ⟨q, h3, h4⟩ := ih h2
    exact ⟨q, ⟨u, h1, h3⟩, h4⟩

theorem Pow.one {R : Nat → Nat → Prop} {p q : Nat} : Pow R 1 p q ↔ R p q := by
  constructor
  · rintro ⟨t, h, rfl⟩; exact h
  · intro h; exact ⟨q, h, rfl⟩

theorem Pow.reach {R : Nat → Nat → Prop} {r : Nat} (hR : ∀ p q, p ≤ E.inp.length → R p q → E.Reach r p q)
    {k p q : Nat} (hp : p ≤ E.inp.length) (h : Pow R k p q) : E.Reach r p q := by
  induction k generalizing p with
  | zero => cases h; exact .refl hp
  | succ k ih => obtain ⟨t, h1, h2⟩ := h; exact (hR _ _ hp h1).trans (ih (hR _ _ hp h1).right_le h2)

theorem CharStep.reach {P : Byte → Bool} {r p q : Nat} (hp : p ≤ E.inp.length) (h : CharStep E P r p q) :
    E.Reach r p q := by
  obtain ⟨h0, rfl, _⟩ := h; exact Env.reach_next hp h0

theorem CharStep.ne {P : Byte → Bool} {r p q : Nat} (hp : p ≤ E.inp.length) (h : CharStep E P r p q) :
    p ≠ q := by
  obtain ⟨h0, rfl, _⟩ := h; exact (Env.next_ne hp h0).symm

theorem over_reach {a : Ast} {r : Nat} {inv : Bool} {p q : Nat} (hp : p ≤ E.inp.length)
    (h : Over E a r inv p q) : E.Reach r p q := by
  induction a using ind generalizing r inv p q with
  | seq l ih =>
    simp only [Over] at h
    induction l generalizing p q with
    | nil => cases h; exact .refl hp
    | cons a l ihl =>
      have ihl' := fun {p q} => @ihl (fun b hb => ih b (List.mem_cons_of_mem _ hb)) p q
      simp only [OverSeq] at h
      split at h
      · obtain ⟨t, h1, h2⟩ := h
        have := ihl' hp h1
        exact this.trans (ih a (by simp) this.right_le h2)
      · obtain ⟨t, h1, h2⟩ := h
        have := ih a (by simp) hp h1
        exact this.trans (ihl' this.right_le h2)
  | alt l ih =>
    simp only [Over, overAny_iff] at h
    obtain ⟨a, ha, h⟩ := h
    exact ih a ha hp h
  | cap id n a ih => exact ih hp (by simpa only [Over] using h)
  | rep m lo hi a ih =>
    simp only [Over] at h
    obtain ⟨k, _, _, h⟩ := h
    exact Pow.reach (fun p q hp h => ih hp h) hp h
  | neg a ih =>
    simp only [Over] at h
    split at h
    · cases h; exact .refl hp
    · exact h.reach hp
  | look d a ih => cases d <;> (simp only [Over] at h; rw [← h.1]; exact .refl hp)
  | backref id => simpa only [Over] using h
  | namedBackref id => simpa only [Over] using h
  | empty => simp only [Over] at h; rw [← h]; exact .refl hp
  | lit => simp only [Over] at h; exact h.reach hp
  | range => simp only [Over] at h; exact h.reach hp
  | wildcard => simp only [Over] at h; exact h.reach hp
  | set => simp only [Over] at h; exact h.reach hp
  | _ => simp only [Over] at h; rw [← h.1]; exact .refl hp

theorem overSeq_reach {l : List Ast} {r : Nat} {inv : Bool} {p q : Nat} (hp : p ≤ E.inp.length)
    (h : OverSeq E l r inv p q) : E.Reach r p q :=
  over_reach (a := .seq l) hp (by simpa only [Over] using h)

/-- C49: a node that is not classified as a zero-length matcher always advances. -/
theorem over_ne {a : Ast} {r : Nat} {inv : Bool} {p q : Nat} (hp : p ≤ E.inp.length)
    (hz : zlm a = false) (h : Over E a r inv p q) : p ≠ q := by
  induction a using ind generalizing r inv p q with
  | seq l ih =>
    simp only [Over] at h
    simp only [zlm] at hz
    induction l generalizing p q with
    | nil => simp [zlmAll] at hz
    | cons a l ihl =>
      have ihl' := fun {p q} => @ihl (fun b hb => ih b (List.mem_cons_of_mem _ hb)) p q
      simp only [OverSeq] at h
      simp only [zlmAll, Bool.and_eq_false_iff] at hz
      split at h
      · obtain ⟨t, h1, h2⟩ := h
        have r1 := overSeq_reach hp h1
        have r2 := over_reach r1.right_le h2
        rintro rfl
        have := r1.antisymm r2
        subst this
        rcases hz with hz | hz
        · exact ih a (by simp) hp hz h2 rfl
        · exact ihl' hp hz h1 rfl
      · obtain ⟨t, h1, h2⟩ := h
        have r1 := over_reach hp h1
        have r2 := overSeq_reach r1.right_le h2
        rintro rfl
        have := r1.antisymm r2
        subst this
        rcases hz with hz | hz
        · exact ih a (by simp) hp hz h1 rfl
        · exact ihl' hp hz h2 rfl
  | alt l ih =>
    simp only [Over, overAny_iff] at h
    obtain ⟨a, ha, h⟩ := h
    simp only [zlm, zlmAny_eq, List.any_eq_false, Bool.not_eq_true] at hz
    exact ih a ha hp (hz a ha) h
  | cap id n a ih =>
    simp only [zlm] at hz
    exact ih hp hz (by simpa only [Over] using h)
  | rep m lo hi a ih =>
    simp only [Over] at h
    simp only [zlm, Bool.or_eq_false_iff, beq_eq_false_iff_ne] at hz
    obtain ⟨k, hk, _, h⟩ := h
    match k with
    | 0 => omega
    | k + 1 =>
      obtain ⟨t, h1, h2⟩ := h
      have r1 := over_reach hp h1
      have r2 := Pow.reach (fun p q hp h => over_reach hp h) r1.right_le h2
      rintro rfl
      exact ih hp hz.2 h1 (r1.antisymm r2)
  | neg a ih =>
    simp only [Over] at h
    simp only [zlm] at hz
    rw [hz] at h
    exact CharStep.ne hp (by simpa using h)
  | lit => simp only [Over] at h; exact h.ne hp
  | range => simp only [Over] at h; exact h.ne hp
  | wildcard => simp only [Over] at h; exact h.ne hp
  | set => simp only [Over] at h; exact h.ne hp
  | _ => simp [zlm] at hz

/-- A trivially matchable node consumes exactly one character. -/
theorem over_triv {a : Ast} (ht : triv a = true) {r : Nat} {inv : Bool} {p q : Nat} :
    Over E a r inv p q ↔ CharStep E (matchOne E.flags a) r p q := by
  induction a using ind generalizing p q with
  | seq l ih =>
    match l with
    | [] => simp [triv, trivSingle] at ht
    | [a] =>
      simp only [triv, trivSingle] at ht
      have := ih a (by simp) ht (p := p) (q := q)
      have e : matchOne E.flags (.seq [a]) = matchOne E.flags a := by
        funext x; simp [matchOne, matchSingle]
      rw [e, ← this]
      simp only [Over, OverSeq]
      cases inv <;> simp
    | a :: b :: l => simp [triv, trivSingle] at ht
  | alt l ih =>
    simp only [triv, trivAlt_eq, Bool.and_eq_true, List.all_eq_true] at ht
    simp only [Over, overAny_iff]
    constructor
    · rintro ⟨a, ha, h⟩
      rw [ih a ha (ht.2 a ha)] at h
      obtain ⟨h0, h1, x, hx, hm⟩ := h
      refine ⟨h0, h1, x, hx, ?_⟩
      simp only [matchOne, matchAny_eq, List.any_eq_true]
      exact ⟨a, ha, hm⟩
    · rintro ⟨h0, h1, x, hx, hm⟩
      simp only [matchOne, matchAny_eq, List.any_eq_true] at hm
      obtain ⟨a, ha, hm⟩ := hm
      exact ⟨a, ha, (ih a ha (ht.2 a ha)).2 ⟨h0, h1, x, hx, hm⟩⟩
  | neg a ih =>
    simp only [triv, Bool.not_eq_true'] at ht
    simp [Over, ht]
  | rep m lo hi a ih =>
    simp only [triv, Bool.and_eq_true, beq_iff_eq] at ht
    obtain ⟨⟨rfl, rfl⟩, ht⟩ := ht
    have e : matchOne E.flags (.rep m 1 (.fin 1) a) = matchOne E.flags a := by
      funext x; simp [matchOne]
    rw [e, ← ih ht]
    simp only [Over]
    constructor
    · rintro ⟨k, h1, h2, h3⟩
      have : k = 1 := by have := h2 1 rfl; omega
      subst this
      exact Pow.one.1 h3
    · intro h
      exact ⟨1, by omega, by intro h h'; cases h'; omega, Pow.one.2 h⟩
  | look d a ih => simp [triv] at ht
  | cap id n a ih => simp [triv] at ht
  | lit => simp only [Over]
  | range => simp only [Over]
  | wildcard => simp only [Over]
  | set => simp only [Over]
  | _ => simp [triv] at ht

theorem overSeq_append_false {l l' : List Ast} {r p q : Nat} :
    OverSeq E (l ++ l') r false p q ↔ ∃ t, OverSeq E l r false p t ∧ OverSeq E l' r false t q := by
  induction l generalizing p with
  | nil => simp [OverSeq]
  | cons a l ih =>
    simp only [List.cons_append, OverSeq, ih]
    simp only [Bool.false_eq_true, if_false]
    constructor
    · rintro ⟨t, h1, u, h2, h3⟩; exact ⟨u, ⟨t, h1, h2⟩, h3⟩
    · rintro ⟨u, ⟨t, h1, h2⟩, h3⟩; exact ⟨t, h1, u, h2, h3⟩

theorem overSeq_append_true {l l' : List Ast} {r p q : Nat} :
    OverSeq E (l ++ l') r true p q ↔ ∃ t, OverSeq E l' r true p t ∧ OverSeq E l r true t q := by
  induction l generalizing q with
  | nil => simp [OverSeq]
  | cons a l ih =>
    simp only [List.cons_append, OverSeq, ih]
    simp only [if_true]
    constructor
    · rintro ⟨t, ⟨u, h1, h2⟩, h3⟩; exact ⟨u, h1, t, h2, h3⟩
    · rintro ⟨u, h1, t, h2, h3⟩; exact ⟨t, ⟨u, h1, h2⟩, h3⟩

/-- Mirroring the tree and mirroring the relation agree. -/
theorem over_invert {a : Ast} {r : Nat} {inv : Bool} {p q : Nat} :
    Over E (invert a) r inv p q ↔ Over E a r (!inv) p q := by
  induction a using ind generalizing r inv p q with
  | seq l ih =>
    simp only [invert, Over, invertAll_eq]
    induction l generalizing p q with
    | nil => simp [OverSeq]
    | cons a l ihl =>
      have ihl' := fun {p q} => @ihl (fun b hb => ih b (List.mem_cons_of_mem _ hb)) p q
      simp only [List.map_cons, List.reverse_cons]
      cases inv with
      | false =>
        rw [overSeq_append_false]
        simp only [ihl', OverSeq]
        simp [ih a (by simp)]
      | true =>
        rw [overSeq_append_true]
        simp only [ihl', OverSeq]
        simp [ih a (by simp)]
  | alt l ih =>
    simp only [invert, Over, invertAll_eq, overAny_iff, List.mem_map]
    constructor
    · rintro ⟨_, ⟨a, ha, rfl⟩, h⟩; exact ⟨a, ha, (ih a ha).1 h⟩
    · rintro ⟨a, ha, h⟩; exact ⟨_, ⟨a, ha, rfl⟩, (ih a ha).2 h⟩
  | cap id n a ih => simp only [invert, Over, ih]
  | rep m lo hi a ih =>
    have : Over E (invert a) r inv = Over E a r (!inv) := by funext p q; exact propext ih
    simp only [invert, Over, this]
  | neg a ih =>
    have e : matchOne E.flags (.neg (invert a)) = matchOne E.flags (.neg a) := by
      funext x; simp [matchOne, matchOne_invert]
    simp only [invert, Over, isAssertion_invert, e]
  | set l ih =>
    have e : matchOne E.flags (.set (invertAll l)) = matchOne E.flags (.set l) := by
      funext x; simpa [invert] using matchOne_invert E.flags (.set l) x
    simp only [invert, Over, e]
  | look d a ih => cases d <;> cases inv <;> simp [invert, Over]
  | _ => simp only [invert, Over]

end
end Mregex
