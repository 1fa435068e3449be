import Verif.Proof.Recog
import Verif.Proof.AstLemmas
import Verif.Spec.Order

/-!
# Lists of possible ends that are explored with finitely many states

A continuation that gives answers from a finite set is asked at the possible ends in order, until it has an answer.  The answer can be
computed from the far end of the text towards the starting position, with finitely many states, whatever the continuation.
-/

namespace Mregex
open Spec

/-- The first answer.  The continuation is told whether characters have been read. -/
def ask {X : Type} (l : List Nat) (K : Bool → Nat → Option X) (c : Bool) (p : Nat) : Option X :=
  l.findSome? fun j => K (c || j != p) j

/-- `q` is at or after `p` in the reading direction. -/
def Yonder (fwd : Bool) (s : List Byte) (p q : Nat) : Prop :=
  if fwd then p ≤ q ∧ q ≤ s.length else q ≤ p ∧ p ≤ s.length

section onward
variable {fwd : Bool} {s : List Byte} {p q r : Nat}

theorem Yonder.refl (h : p ≤ s.length) : Yonder fwd s p p := by unfold Yonder; split <;> omega
theorem Yonder.trans (h : Yonder fwd s p q) (h' : Yonder fwd s q r) : Yonder fwd s p r := by
  unfold Yonder at *; split at h <;> simp_all <;> omega
theorem Yonder.le (h : Yonder fwd s p q) : q ≤ s.length := by unfold Yonder at h; split at h <;> omega
theorem Yonder.antisymm (h : Yonder fwd s p q) (h' : Yonder fwd s q p) : p = q := by
  unfold Yonder at *; split at h <;> simp_all <;> omega
theorem Yonder.conv_lt (h : Yonder fwd s p q) (hp : p ≤ s.length) (hne : q ≠ p) : conv fwd s q < conv fwd s p := by
  unfold Yonder at h; unfold conv; split at h <;> simp_all <;> omega
end onward

/-- All possible ends are at or after the start. -/
def Goes (fwd : Bool) (G : List Byte → Nat → List Nat) : Prop := ∀ s p q, p ≤ s.length → q ∈ G s p → Yonder fwd s p q

theorem Spec.Size.both_comm (a b : Size) : a.both b = b.both a := by simp only [Size.both, Nat.mul_comm]

structure Machine (z : Size) (fwd : Bool) (G : List Byte → Nat → List Nat) : Prop where
  goes : Goes fwd G
  steps : ∃ (τ : Type) (T : List Byte → Nat → τ), Recog z.classes T ∧ ∀ (X : Type) [Finite X] (x : Nat), Nat.card X ≤ x → ∃ (D : Type) (_ : Finite D) (_ : Nat.card D ≤ z.states x) (d : D)
    (δ : τ × (Bool → Option X) → D → D) (out : D → Bool → Option X), ∀ s K c r, r ≤ s.length →
      ask (G s (conv fwd s r)) K c (conv fwd s r) = out (flow δ d (fun p => (T s p, fun c => K c p)) (conv fwd s) r) c

theorem findSome?_congr {X : Type} {l : List Nat} {f g : Nat → Option X} (h : ∀ j ∈ l, f j = g j) : l.findSome? f = l.findSome? g := by
  induction l with
  | nil => rfl
  | cons a l ih =>
    simp only [List.findSome?_cons, h a (by simp), ih (fun j hj => h j (List.mem_cons_of_mem _ hj))]

theorem findSome?_kept {X : Type} (l : List Nat) (P : Nat → Bool) (f : Nat → Option X) :
    (l.filter P).findSome? f = l.findSome? fun j => if P j then f j else none := by
  induction l with
  | nil => rfl
  | cons a l ih =>
    simp only [List.filter_cons, List.findSome?_cons]
    split
    · simp only [List.findSome?_cons, ih]
    · exact ih

theorem findSome?_bind {X : Type} (l : List Nat) (g : Nat → List Nat) (f : Nat → Option X) :
    (l.flatMap g).findSome? f = l.findSome? fun j => (g j).findSome? f := by
  induction l with
  | nil => rfl
  | cons a l ih =>
    simp only [List.flatMap_cons, List.findSome?_append, List.findSome?_cons, ih]
    cases (g a).findSome? f <;> rfl

theorem conv_inj {fwd : Bool} {s : List Byte} {r r' : Nat} (h : r ≤ s.length) (h' : r' ≤ s.length) (he : conv fwd s r = conv fwd s r') : r = r' := by
  have := congrArg (conv fwd s) he
  rwa [conv_conv fwd s h, conv_conv fwd s h'] at this

theorem flow_agree {ι D : Type} {δ : ι → D → D} {d : D} {I I' : Nat → ι} {at_ : Nat → Nat} {r : Nat}
    (h : ∀ r' ≤ r, I (at_ r') = I' (at_ r')) : flow δ d I at_ r = flow δ d I' at_ r := by
  induction r with
  | zero => simp only [flow, h 0 (Nat.le_refl _)]
  | succ r ih => simp only [flow, h (r + 1) (Nat.le_refl _), ih (fun r' hr => h r' (by omega))]

section combinators
variable {z z' : Size} {fwd : Bool} {G G' : List Byte → Nat → List Nat}

theorem card_answers {X : Type} [Finite X] {x : Nat} (hx : Nat.card X ≤ x) : Nat.card (Bool → Option X) ≤ (x + 1) ^ 2 := by
  rw [Nat.card_fun, Finite.card_option, Nat.card_eq_fintype_card (α := Bool), Fintype.card_bool]
  exact Nat.pow_le_pow_left (Nat.succ_le_succ hx) 2

namespace Machine

theorem resize (hG : Machine z fwd G) (h : z = z') : Machine z' fwd G := h ▸ hG

theorem congr (hG : Machine z fwd G) (h : ∀ s p, p ≤ s.length → G' s p = G s p) : Machine z fwd G' := by
  refine ⟨fun s p q hp hq => hG.goes s p q hp (by rwa [h s p hp] at hq), ?_⟩
  obtain ⟨τ, T, hT, hX⟩ := hG.steps
  refine ⟨τ, T, hT, fun X _ x hx => ?_⟩
  obtain ⟨D, hD, hDc, d, δ, out, h1⟩ := hX X x hx
  exact ⟨D, hD, hDc, d, δ, out, fun s K c r hr => by rw [h s _ (conv_le fwd s hr)]; exact h1 s K c r hr⟩

/-- A test at the position. -/
theorem test {n : Nat} {b : List Byte → Nat → Bool} (hb : Recog n b) : Machine (.test n) fwd fun s p => Spec.test (b s p) p := by
  refine ⟨fun s p q hp hq => ?_, Bool, b, hb, fun X _ x hx => ?_⟩
  · cases h : b s p <;> simp [Spec.test, h] at hq
    subst hq; exact .refl hp
  · refine ⟨Bool → Option X, inferInstance, card_answers hx, fun _ => none, fun i _ c => if i.1 then i.2 c else none, fun e c => e c, fun s K c r hr => ?_⟩
    have : ∀ r, flow (fun (i : Bool × (Bool → Option X)) _ c => if i.1 then i.2 c else none) (fun _ => none)
        (fun p => (b s p, fun c => K c p)) (conv fwd s) r = fun c => if b s (conv fwd s r) then K c (conv fwd s r) else none := by
      intro r; cases r <;> rfl
    rw [this]
    cases h : b s (conv fwd s r) <;> simp [Spec.test, ask]

/-- One character. -/
theorem oneChar (P : Byte → Bool) : Machine .char fwd fun s p => Spec.oneChar s fwd P p := by
  have hread : Recog 257 fun s p => (readChar s fwd p).map Prod.fst := by
    cases fwd with
    | true => exact Recog.next.congr fun s p _ => by simp [readChar, Function.comp_def]
    | false =>
      refine Recog.prev.congr fun s p _ => ?_
      cases p <;> simp [readChar, Function.comp_def]
  have hval : ∀ s p, p ≤ s.length → Spec.oneChar s fwd P p = match (readChar s fwd p).map Prod.fst with
      | some x => if P x then [if fwd then p + 1 else p - 1] else []
      | none => [] := by
    intro s p hp
    cases fwd with
    | true =>
      simp only [Spec.oneChar, readChar, if_true]
      cases s[p]? <;> rfl
    | false =>
      cases p with
      | zero => rfl
      | succ k => simp only [Spec.oneChar, readChar, Bool.false_eq_true, if_false]; cases s[k]? <;> rfl
  have hroom : ∀ s p x, (readChar s fwd p).map Prod.fst = some x → p ≤ s.length → 0 < conv fwd s p := by
    intro s p x hx hp
    cases fwd with
    | true =>
      simp only [readChar, if_true, Option.map_map, Option.map_eq_some_iff] at hx
      obtain ⟨y, hy, _⟩ := hx
      have := (List.getElem?_eq_some_iff.1 hy).1
      simp only [conv, if_true]; omega
    | false =>
      cases p with
      | zero => cases hx
      | succ k => simp [conv]
  refine ⟨fun s p q hp hq => ?_, Option Byte, _, hread, fun X _ x hx => ?_⟩
  · rw [hval s p hp] at hq
    cases hr : (readChar s fwd p).map Prod.fst with
    | none => simp [hr] at hq
    | some x =>
      have := hroom s p x hr hp
      simp only [hr] at hq
      split at hq
      · simp only [List.mem_singleton] at hq
        subst hq
        unfold Yonder; unfold conv at this
        cases fwd <;> simp_all <;> omega
      · cases hq
  · refine ⟨(Bool → Option X) × (Bool → Option X), inferInstance, by rw [Nat.card_prod]; exact Nat.mul_le_mul (card_answers hx) (card_answers hx), (fun _ => none, fun _ => none),
      fun i e => (i.2, fun _ => match i.1 with | some x => if P x then e.1 true else none | none => none), fun e c => e.2 c, fun s K c r hr => ?_⟩
    rw [hval s _ (conv_le fwd s hr)]
    cases r with
    | zero =>
      simp only [flow]
      cases hx : (readChar s fwd (conv fwd s 0)).map Prod.fst with
      | none => rfl
      | some x => have := hroom s _ x hx (conv_le fwd s hr); rw [conv_conv fwd s hr] at this; omega
    | succ r =>
      have h1 : ∀ r, (flow (fun (i : Option Byte × (Bool → Option X)) (e : (Bool → Option X) × (Bool → Option X)) =>
          (i.2, fun (_ : Bool) => match i.1 with | some x => if P x then e.1 true else none | none => none)) (fun _ => none, fun _ => none)
          (fun p => ((readChar s fwd p).map Prod.fst, fun c => K c p)) (conv fwd s) r).1 = fun c => K c (conv fwd s r) := by
        intro r; cases r <;> rfl
      simp only [flow]
      rw [h1]
      cases hx : (readChar s fwd (conv fwd s (r + 1))).map Prod.fst with
      | none => rfl
      | some x =>
        dsimp only
        split
        · have : (if fwd = true then conv fwd s (r + 1) + 1 else conv fwd s (r + 1) - 1) = conv fwd s r ∧ conv fwd s r ≠ conv fwd s (r + 1) := by
            unfold conv; cases fwd <;> simp <;> omega
          rw [this.1]
          simp only [ask, List.findSome?_cons, List.findSome?_nil, bne_iff_ne.2 this.2, Bool.or_true]
          cases K true (conv fwd s r) <;> rfl
        · rfl

theorem goes_seq (hG : Goes fwd G) (hG' : Goes fwd G') : Goes fwd fun s p => (G s p).flatMap (G' s) := by
  intro s p q hp hq
  obtain ⟨j, h1, h2⟩ := List.mem_flatMap.1 hq
  have := hG s p j hp h1
  exact this.trans (hG' s j q this.le h2)

/-- One after the other. -/
theorem seq (hG : Machine z fwd G) (hG' : Machine z' fwd G') : Machine (z.both z') fwd fun s p => (G s p).flatMap (G' s) := by
  refine ⟨goes_seq hG.goes hG'.goes, ?_⟩
  obtain ⟨τ, T, hT, hX⟩ := hG.steps
  obtain ⟨τ', T', hT', hX'⟩ := hG'.steps
  refine ⟨τ × τ', _, hT.pair hT', fun X _ x hx => ?_⟩
  obtain ⟨D, hD, hDc, d, δ, out, h1⟩ := hX X x hx
  obtain ⟨D', hD', hDc', d', δ', out', h1'⟩ := hX' X x hx
  refine ⟨D × D', inferInstance, by rw [Nat.card_prod]; exact Nat.mul_le_mul hDc hDc', (d, d'), fun i e => let e' := δ' (i.1.2, i.2) e.2; (δ (i.1.1, out' e') e.1, e'), fun e c => out e.1 c,
    fun s K c r hr => ?_⟩
  have hask : ∀ c p, p ≤ s.length → ask ((G s p).flatMap (G' s)) K c p = ask (G s p) (fun c j => ask (G' s j) K c j) c p := by
    intro c p hp
    simp only [ask, findSome?_bind]
    refine findSome?_congr fun j hj => findSome?_congr fun q hq => ?_
    have h2 := hG.goes s p j hp hj
    have h3 := hG'.goes s j q h2.le hq
    congr 1
    rw [Bool.eq_iff_iff]
    simp only [Bool.or_eq_true, bne_iff_ne, ne_eq]
    constructor
    · rintro (h | h)
      · exact .inl (.inl h)
      · by_cases hjp : j = p
        · exact .inr (fun e => h (e.trans hjp))
        · exact .inl (.inr hjp)
    · rintro ((h | h) | h)
      · exact .inl h
      · exact .inr (fun e => h ((h2.antisymm (e ▸ h3)).symm))
      · refine .inr (fun e => h ?_)
        subst e
        exact h3.antisymm h2 |>.symm
  rw [hask c _ (conv_le fwd s hr), h1 s _ c r hr]
  have key : ∀ r ≤ s.length, flow (fun (i : (τ × τ') × (Bool → Option X)) (e : D × D') => let e' := δ' (i.1.2, i.2) e.2; (δ (i.1.1, out' e') e.1, e')) (d, d')
      (fun p => ((T s p, T' s p), fun c => K c p)) (conv fwd s) r =
      (flow δ d (fun p => (T s p, fun c => ask (G' s p) K c p)) (conv fwd s) r, flow δ' d' (fun p => (T' s p, fun c => K c p)) (conv fwd s) r) := by
    intro r hr
    have h3 : (fun c => ask (G' s (conv fwd s r)) K c (conv fwd s r)) = out' (flow δ' d' (fun p => (T' s p, fun c => K c p)) (conv fwd s) r) :=
      funext fun c => h1' s K c r hr
    induction r with
    | zero => simp only [flow] at h3 ⊢; rw [h3]
    | succ r ih =>
      have h4 := ih (by omega) (funext fun c => h1' s K c r (by omega))
      simp only [flow] at h3 ⊢
      rw [h4, h3]
  rw [key r hr]

/-- One or the other. -/
theorem alt (hG : Machine z fwd G) (hG' : Machine z' fwd G') : Machine (z.both z') fwd fun s p => G s p ++ G' s p := by
  refine ⟨fun s p q hp hq => (List.mem_append.1 hq).elim (hG.goes s p q hp) (hG'.goes s p q hp), ?_⟩
  obtain ⟨τ, T, hT, hX⟩ := hG.steps
  obtain ⟨τ', T', hT', hX'⟩ := hG'.steps
  refine ⟨τ × τ', _, hT.pair hT', fun X _ x hx => ?_⟩
  obtain ⟨D, hD, hDc, d, δ, out, h1⟩ := hX X x hx
  obtain ⟨D', hD', hDc', d', δ', out', h1'⟩ := hX' X x hx
  refine ⟨D × D', inferInstance, by rw [Nat.card_prod]; exact Nat.mul_le_mul hDc hDc', (d, d'), fun i e => (δ (i.1.1, i.2) e.1, δ' (i.1.2, i.2) e.2), fun e c => (out e.1 c).or (out' e.2 c),
    fun s K c r hr => ?_⟩
  have key : ∀ r, flow (fun (i : (τ × τ') × (Bool → Option X)) (e : D × D') => (δ (i.1.1, i.2) e.1, δ' (i.1.2, i.2) e.2)) (d, d')
      (fun p => ((T s p, T' s p), fun c => K c p)) (conv fwd s) r =
      (flow δ d (fun p => (T s p, fun c => K c p)) (conv fwd s) r, flow δ' d' (fun p => (T' s p, fun c => K c p)) (conv fwd s) r) := by
    intro r
    induction r with
    | zero => rfl
    | succ r ih => simp only [flow, ih]
  rw [key]
  beta_reduce
  rw [← h1 s K c r hr, ← h1' s K c r hr]
  simp only [ask, List.findSome?_append]

/-- The first only. -/
theorem first (hG : Machine z fwd G) : Machine z.first fwd fun s p => (G s p).take 1 := by
  refine ⟨fun s p q hp hq => hG.goes s p q hp (List.mem_of_mem_take hq), ?_⟩
  obtain ⟨τ, T, hT, hX⟩ := hG.steps
  refine ⟨τ, T, hT, fun X _ x hx => ?_⟩
  obtain ⟨D, hD, hDc, d, δ, out, h1⟩ := hX (Option X) (x + 1) (by rw [Finite.card_option]; omega)
  refine ⟨D, hD, hDc, d, fun i => δ (i.1, fun c => some (i.2 c)), fun e c => (out e c).join, fun s K c r hr => ?_⟩
  have key : ∀ r, flow (fun (i : τ × (Bool → Option X)) => δ (i.1, fun c => some (i.2 c))) d (fun p => (T s p, fun c => K c p)) (conv fwd s) r =
      flow δ d (fun p => (T s p, fun c => some (K c p))) (conv fwd s) r := by
    intro r
    induction r with
    | zero => rfl
    | succ r ih => simp only [flow, ih]
  rw [key]
  beta_reduce
  rw [← h1 s (fun c p => some (K c p)) c r hr]
  cases G s (conv fwd s r) with
  | nil => rfl
  | cons j l => simp only [ask, List.take_succ_cons, List.take_zero, List.findSome?_cons, Option.join_some, List.findSome?_nil]; cases K (c || j != conv fwd s r) j <;> rfl

/-- Loops, where the continuation of the body is the loop itself if the body has read something. -/
theorem loop {y : Nat} (hG : Machine z fwd G) (hgo : Goes fwd G') (hlaw : ∀ (X : Type) [Finite X], ∃ (Y : Type) (_ : Finite Y) (_ : Nat.card Y = Nat.card X + y)
      (fb : Bool → Option X → Option Y) (res : Option Y → Option X → Option X), (∀ z z', fb false z = fb false z') ∧
      ∀ s p K c, p ≤ s.length → ask (G' s p) K c p = res (ask (G s p) (fun c j => fb c (ask (G' s j) K true j)) false p) (K c p)) :
    Machine (z.loop y) fwd G' := by
  refine ⟨hgo, ?_⟩
  obtain ⟨τ, T, hT, hX⟩ := hG.steps
  refine ⟨τ, T, hT, fun X _ x hx => ?_⟩
  obtain ⟨Y, hY, hYc, fb, res, hfb, hl⟩ := hlaw X
  obtain ⟨D, hD, hDc, d, δ, out, h1⟩ := hX Y (x + y) (by omega)
  refine ⟨D × (Bool → Option X), inferInstance, by rw [Nat.card_prod]; exact Nat.mul_le_mul hDc (card_answers hx), (d, fun _ => none),
    fun i e =>
      let m := out (δ (i.1, fun _ => fb false none) e.1) false
      (δ (i.1, fun c => fb c (res m (i.2 true))) e.1, fun c => res m (i.2 c)), fun e c => e.2 c, fun s K c r hr => ?_⟩
  have key : ∀ r ≤ s.length, flow (fun (i : τ × (Bool → Option X)) (e : D × (Bool → Option X)) =>
        let m := out (δ (i.1, fun _ => fb false none) e.1) false
        ((δ (i.1, fun c => fb c (res m (i.2 true))) e.1, fun c => res m (i.2 c)) : D × (Bool → Option X))) (d, fun _ => none)
      (fun p => (T s p, fun c => K c p)) (conv fwd s) r =
      (flow δ d (fun p => (T s p, fun c => fb c (ask (G' s p) K true p))) (conv fwd s) r,
        fun c => ask (G' s (conv fwd s r)) K c (conv fwd s r)) := by
    have hcom : ∀ r ≤ s.length, ∀ c, ask (G' s (conv fwd s r)) K c (conv fwd s r) =
        res (out (flow δ d (fun p => (T s p, fun c => if p = conv fwd s r then fb false none else fb c (ask (G' s p) K true p))) (conv fwd s) r) false)
          (K c (conv fwd s r)) := by
      intro r hr c
      have h2 := h1 s (fun c j => if j = conv fwd s r then fb false none else fb c (ask (G' s j) K true j)) false r hr
      have h3 : ask (G s (conv fwd s r)) (fun c j => if j = conv fwd s r then fb false none else fb c (ask (G' s j) K true j)) false (conv fwd s r) =
          ask (G s (conv fwd s r)) (fun c j => fb c (ask (G' s j) K true j)) false (conv fwd s r) := by
        refine findSome?_congr fun j hj => ?_
        beta_reduce
        by_cases hjp : j = conv fwd s r
        · rw [if_pos hjp, hjp]
          simp only [bne_self_eq_false, Bool.or_self]
          exact hfb _ _
        · rw [if_neg hjp]
      rw [hl s _ K c (conv_le fwd s hr), ← h3, h2]
    intro r
    induction r with
    | zero =>
      intro hr
      have h5 := hcom 0 hr
      simp only [flow, if_true] at h5 ⊢
      rw [funext h5, h5 true]
    | succ r ih =>
      intro hr
      have h5 := hcom (r + 1) hr
      rw [show flow δ d (fun p => (T s p, fun c => if p = conv fwd s (r + 1) then fb false none else fb c (ask (G' s p) K true p))) (conv fwd s) (r + 1) =
        δ (T s (conv fwd s (r + 1)), fun _ => fb false none) (flow δ d (fun p => (T s p, fun c => fb c (ask (G' s p) K true p))) (conv fwd s) r) from ?_] at h5
      · rw [flow, ih (by omega)]
        simp only [flow]
        rw [funext h5, h5 true]
      · simp only [flow, if_true]
        congr 1
        refine flow_agree fun r' hr' => ?_
        have : conv fwd s r' ≠ conv fwd s (r + 1) := fun e => by have := conv_inj (by omega) hr e; omega
        simp only [if_neg this]
  rw [key r hr]

/-- The answer of a continuation that finitely many classes of texts with marks determine is determined by finitely many classes. -/
theorem answerOf {α : Type} (π : α → Byte) (hG : Machine z fwd G) {X : Type} [Finite X] {x k : Nat} (hx : Nat.card X ≤ x) {K : List α → Bool → Nat → Option X}
    (hK : Recog k fun s p c => K s c p) (c : Bool) : Recog (z.answer k x) fun s p => ask (G (s.map π) p) (K s) c p := by
  obtain ⟨τ, T, hT, hX⟩ := hG.steps
  obtain ⟨D, hD, hDc, d, δ, out, h1⟩ := hX X x hx
  refine ((Recog.flow δ d hDc ((hT.comap π).pair hK) fwd).map (fun e => out e c)).congr fun s p hp => ?_
  have := h1 (s.map π) (K s) c (conv fwd s p) (by rw [List.length_map]; exact conv_le fwd s hp)
  have hc : conv fwd (s.map π) = conv fwd s := funext fun r => by rw [conv, conv, List.length_map]
  rw [hc, conv_conv fwd s hp] at this
  exact this

theorem answer (hG : Machine z fwd G) {X : Type} [Finite X] {x k : Nat} (hx : Nat.card X ≤ x) {K : List Byte → Bool → Nat → Option X}
    (hK : Recog k fun s p c => K s c p) (c : Bool) : Recog (z.answer k x) fun s p => ask (G s p) (K s) c p := by
  have := hG.answerOf id hx hK c
  simpa only [List.map_id] using this

/-- Whether there are possible ends. -/
theorem dead (hG : Machine z fwd G) : Recog z.dead fun s p => (G s p).isEmpty := by
  refine ((hG.answer (X := Unit) (x := 1) (by simp) (K := fun _ _ _ => some ()) (Recog.const _) false).map Option.isNone).congr fun s p _ => ?_
  cases G s p <;> simp [ask]

theorem unit : Machine .unit fwd fun _ p => [p] := (test (Recog.const true)).congr fun _ _ _ => rfl

theorem none : Machine .unit fwd fun _ _ => [] := (test (Recog.const false)).congr fun _ _ _ => rfl

theorem exactly (hG : Machine z fwd G) (k : Nat) : Machine (z.exactly k) fwd fun s => Spec.exactly (G s) k := by
  induction k with
  | zero => exact unit
  | succ k ih => exact hG.seq ih

theorem greedyUpTo (hG : Machine z fwd G) (k : Nat) : Machine (z.upTo k) fwd fun s => Spec.greedyUpTo (G s) k := by
  induction k with
  | zero => exact unit
  | succ k ih => exact (hG.seq ih).alt unit

theorem lazyUpTo (hG : Machine z fwd G) (k : Nat) : Machine (z.upTo k) fwd fun s => Spec.lazyUpTo (G s) k := by
  induction k with
  | zero => exact unit
  | succ k ih => exact (unit.alt (hG.seq ih)).resize (Size.both_comm _ _)

theorem possessiveUpTo (hG : Machine z fwd G) (k : Nat) : Machine (z.possessiveUpTo k) fwd fun s => Spec.possessiveUpTo (G s) k := by
  induction k with
  | zero => exact unit
  | succ k ih =>
    refine ((hG.first.seq ih).alt (test hG.dead)).congr fun s p _ => ?_
    simp only [Spec.possessiveUpTo]
    cases G s p <;> simp [Spec.test]

section stars
variable {s : List Byte} {g : Nat → List Nat} (hg : ∀ p q, p ≤ s.length → q ∈ g p → Yonder fwd s p q)
include hg

theorem greedyStar_more (k k' p : Nat) (hp : p ≤ s.length) (hk : conv fwd s p < k) (hk' : conv fwd s p < k') :
    Spec.greedyStar g k p = Spec.greedyStar g k' p := by
  induction k generalizing p k' with
  | zero => omega
  | succ k ih =>
    obtain ⟨k', rfl⟩ : ∃ i, k' = i + 1 := ⟨k' - 1, by omega⟩
    simp only [Spec.greedyStar]
    congr 1
    rw [List.flatMap_def, List.flatMap_def]
    congr 1
    refine List.map_congr_left fun q hq => ?_
    simp only [ne_eq, decide_not, List.mem_filter, Bool.not_eq_eq_eq_not, Bool.not_true, decide_eq_false_iff_not] at hq
    have hr := hg p q hp hq.1
    have := hr.conv_lt hp hq.2
    exact ih k' q hr.le (by omega) (by omega)

theorem lazyStar_more (k k' p : Nat) (hp : p ≤ s.length) (hk : conv fwd s p < k) (hk' : conv fwd s p < k') :
    Spec.lazyStar g k p = Spec.lazyStar g k' p := by
  induction k generalizing p k' with
  | zero => omega
  | succ k ih =>
    obtain ⟨k', rfl⟩ : ∃ i, k' = i + 1 := ⟨k' - 1, by omega⟩
    simp only [Spec.lazyStar]
    congr 1
    rw [List.flatMap_def, List.flatMap_def]
    congr 1
    refine List.map_congr_left fun q hq => ?_
    simp only [ne_eq, decide_not, List.mem_filter, Bool.not_eq_eq_eq_not, Bool.not_true, decide_eq_false_iff_not] at hq
    have hr := hg p q hp hq.1
    have := hr.conv_lt hp hq.2
    exact ih k' q hr.le (by omega) (by omega)

theorem possessiveStar_more (k k' p : Nat) (hp : p ≤ s.length) (hk : conv fwd s p < k) (hk' : conv fwd s p < k') :
    Spec.possessiveStar g k p = Spec.possessiveStar g k' p := by
  induction k generalizing p k' with
  | zero => omega
  | succ k ih =>
    obtain ⟨k', rfl⟩ : ∃ i, k' = i + 1 := ⟨k' - 1, by omega⟩
    simp only [Spec.possessiveStar]
    split
    · rfl
    · next q l hq =>
      split
      · rfl
      · next hne =>
        have hr := hg p q hp (by rw [hq]; simp)
        have := hr.conv_lt hp hne
        exact ih k' q hr.le (by omega) (by omega)

theorem greedyStar_goes (k p q : Nat) (hp : p ≤ s.length) (hq : q ∈ Spec.greedyStar g k p) : Yonder fwd s p q := by
  induction k generalizing p with
  | zero => cases hq
  | succ k ih =>
    simp only [Spec.greedyStar, List.mem_append, List.mem_flatMap, List.mem_filter, List.mem_singleton] at hq
    rcases hq with ⟨j, hj, hq⟩ | rfl
    · have := hg p j hp hj.1
      exact this.trans (ih j this.le hq)
    · exact .refl hp

theorem lazyStar_goes (k p q : Nat) (hp : p ≤ s.length) (hq : q ∈ Spec.lazyStar g k p) : Yonder fwd s p q := by
  induction k generalizing p with
  | zero => cases hq
  | succ k ih =>
    simp only [Spec.lazyStar, List.mem_append, List.mem_flatMap, List.mem_filter, List.mem_singleton] at hq
    rcases hq with rfl | ⟨j, hj, hq⟩
    · exact .refl hp
    · have := hg p j hp hj.1
      exact this.trans (ih j this.le hq)

theorem possessiveStar_goes (k p q : Nat) (hp : p ≤ s.length) (hq : q ∈ Spec.possessiveStar g k p) : Yonder fwd s p q := by
  induction k generalizing p with
  | zero => cases hq
  | succ k ih =>
    simp only [Spec.possessiveStar] at hq
    split at hq
    · simp only [List.mem_singleton] at hq; subst hq; exact .refl hp
    · next j l hj =>
      split at hq
      · simp only [List.mem_singleton] at hq; subst hq; exact .refl hp
      · have := hg p j hp (by rw [hj]; simp)
        exact this.trans (ih j this.le hq)

/-- Beyond an end that differs from the start, all ends do. -/
theorem ask_beyond {X : Type} {l : List Nat} {p j : Nat} (K : Bool → Nat → Option X) (c : Bool) (hp : p ≤ s.length) (hj : j ∈ g p) (hne : j ≠ p)
    (hl : ∀ q ∈ l, Yonder fwd s j q) : (l.findSome? fun q => K (c || q != p) q) = ask l K true j := by
  refine findSome?_congr fun q hq => ?_
  have h1 := hg p j hp hj
  have : q ≠ p := fun e => hne ((e ▸ hl q hq : Yonder fwd s j p).antisymm h1)
  simp [bne_iff_ne.2 this]

end stars

theorem greedyStar (hG : Machine z fwd G) : Machine (z.loop 0) fwd fun s => Spec.greedyStar (G s) (s.length + 1) := by
  refine hG.loop (fun s p q hp hq => greedyStar_goes (hG.goes s) _ p q hp hq) fun X _ =>
    ⟨X, inferInstance, rfl, fun b z => if b then z else .none, fun m k => m.or k, fun _ _ => rfl, fun s p K c hp => ?_⟩
  have hc := conv_le fwd s hp
  simp only [Spec.greedyStar, ask, List.findSome?_append, findSome?_bind, findSome?_kept, List.findSome?_cons, List.findSome?_nil]
  congr 1
  · refine findSome?_congr fun j hj => ?_
    by_cases hjp : j = p
    · simp [hjp]
    · have h1 := hG.goes s p j hp hj
      have h2 := h1.conv_lt hp hjp
      simp only [ne_eq, hjp, not_false_eq_true, decide_true, if_true, bne_iff_ne.2 hjp, Bool.or_true]
      rw [ask_beyond (hG.goes s) K c hp hj hjp (fun q hq => greedyStar_goes (hG.goes s) _ j q h1.le hq),
        greedyStar_more (hG.goes s) s.length (s.length + 1) j h1.le (by omega) (by omega)]
      simp only [ask, Spec.greedyStar, List.findSome?_append, findSome?_bind, findSome?_kept, List.findSome?_cons, List.findSome?_nil]
  · simp only [bne_self_eq_false, Bool.or_false]
    cases K c p <;> rfl

theorem lazyStar (hG : Machine z fwd G) : Machine (z.loop 0) fwd fun s => Spec.lazyStar (G s) (s.length + 1) := by
  refine hG.loop (fun s p q hp hq => lazyStar_goes (hG.goes s) _ p q hp hq) fun X _ =>
    ⟨X, inferInstance, rfl, fun b z => if b then z else .none, fun m k => k.or m, fun _ _ => rfl, fun s p K c hp => ?_⟩
  have hc := conv_le fwd s hp
  have hunf : Spec.lazyStar (G s) (s.length + 1) p = [p] ++ ((G s p).filter (· ≠ p)).flatMap (Spec.lazyStar (G s) s.length) := rfl
  rw [ask, hunf, List.findSome?_append, findSome?_bind, findSome?_kept]
  congr 1
  · simp only [List.findSome?_cons, List.findSome?_nil, bne_self_eq_false, Bool.or_false]
    cases K c p <;> rfl
  · refine findSome?_congr fun j hj => ?_
    by_cases hjp : j = p
    · simp [hjp]
    · have h1 := hG.goes s p j hp hj
      have h2 := h1.conv_lt hp hjp
      simp only [ne_eq, hjp, not_false_eq_true, decide_true, if_true, bne_iff_ne.2 hjp, Bool.or_true]
      rw [ask_beyond (hG.goes s) K c hp hj hjp (fun q hq => lazyStar_goes (hG.goes s) _ j q h1.le hq),
        lazyStar_more (hG.goes s) s.length (s.length + 1) j h1.le (by omega) (by omega)]

theorem possessiveStar (hG : Machine z fwd G) : Machine (z.loop 2) fwd fun s => Spec.possessiveStar (G s) (s.length + 1) := by
  refine hG.loop (fun s p q hp hq => possessiveStar_goes (hG.goes s) _ p q hp hq) fun X _ =>
    ⟨Option (Option X), inferInstance, by rw [Finite.card_option, Finite.card_option], fun b z => if b then some (some z) else some .none,
      fun m k => match m with | some (some z) => z | _ => k, fun _ _ => rfl, fun s p K c hp => ?_⟩
  have hc := conv_le fwd s hp
  have hone : ask [p] K c p = K c p := by
    simp only [ask, List.findSome?_cons, List.findSome?_nil, bne_self_eq_false, Bool.or_false]
    cases K c p <;> rfl
  have hunf : Spec.possessiveStar (G s) (s.length + 1) p = match G s p with
    | [] => [p] | q :: _ => if q = p then [p] else Spec.possessiveStar (G s) s.length q := rfl
  rw [hunf]
  cases hl : G s p with
  | nil => exact hone
  | cons j l =>
    have hj : j ∈ G s p := by rw [hl]; simp
    by_cases hjp : j = p
    · simp only [hjp, if_true, hone]
      simp [ask]
    · have h1 := hG.goes s p j hp hj
      have h2 := h1.conv_lt hp hjp
      simp only [hjp, if_false]
      rw [show ask (Spec.possessiveStar (G s) s.length j) K c p = _ from
        ask_beyond (hG.goes s) K c hp hj hjp (fun q hq => possessiveStar_goes (hG.goes s) _ j q h1.le hq),
        possessiveStar_more (hG.goes s) s.length (s.length + 1) j h1.le (by omega) (by omega)]
      simp only [ask, List.findSome?_cons, bne_iff_ne.2 hjp, Bool.or_true, if_true]

theorem quantified (hG : Machine z fwd G) (m : Mode) (u : Bool) (lo : Nat) (hi : Bound) :
    Machine (z.quantified m lo hi) fwd fun s => Spec.quantified s.length m u lo hi (G s) := by
  have hextra : ∀ k, Machine (z.extra m k) fwd fun s => Spec.extra s.length m u (G s) k := by
    intro k
    cases k <;> cases m <;> cases u <;> first
      | exact hG.greedyStar | exact hG.lazyStar | exact hG.possessiveStar
      | exact hG.greedyUpTo _ | exact hG.lazyUpTo _ | exact hG.possessiveUpTo _
  cases m
  · exact (hG.exactly lo).seq (hextra _)
  · exact (hG.exactly lo).seq (hextra _)
  · exact (hG.exactly lo).first.seq (hextra _)

end Machine
end combinators

/-! ### Tests of the surroundings -/

theorem recog_before (q : List Byte → Nat → Bool) (P : Option Byte → Bool) (hP : P .none = false) (h : ∀ s p, q s p = P s[p]?) :
    Recog 257 fun s p => before (q s) p :=
  (Recog.prev.map P).congr fun s p _ => by
    cases p with
    | zero => simp [before, hP]
    | succ k => simp [before, h]

theorem recog_break : Recog 257 isBreakAt :=
  (Recog.next.map fun x => match x with | none => false | some x => x == 10#8 || x == 13#8).congr fun _ _ _ => rfl

theorem recog_word : Recog 257 isWordAt :=
  (Recog.next.map fun x => match x with | none => false | some x => inRange 48#8 57#8 x || inRange 65#8 90#8 x || x == 95#8 || inRange 97#8 122#8 x).congr
    fun _ _ _ => rfl

theorem recog_first : Recog 257 fun (_ : List Byte) p => p == 0 :=
  (Recog.prev.map Option.isNone).congr fun s p hp => by
    cases p with
    | zero => rfl
    | succ k => simp [List.getElem?_eq_getElem (show k < s.length by omega)]

theorem recog_last : Recog 257 fun (s : List Byte) p => p == s.length :=
  (Recog.next.map Option.isNone).congr fun s p hp => by
    by_cases h : p = s.length
    · simp [h]
    · simp [List.getElem?_eq_getElem (show p < s.length by omega), h]

theorem recog_start (fwd multi : Bool) : Recog (257 * 257) fun s p => atStart s fwd multi p := by
  cases fwd with
  | true =>
    exact ((recog_first.pair (recog_before isBreakAt (fun x => match x with | none => false | some x => x == 10#8 || x == 13#8) rfl
      fun _ _ => rfl)).map fun x => x.1 || (multi && x.2)).congr fun s p _ => rfl
  | false => exact ((recog_last.pair recog_break).map fun x => x.1 || (multi && x.2)).congr fun s p _ => rfl

theorem recog_boundary : Recog (257 * 257) fun s p => before (isWordAt s) p != isWordAt s p :=
  ((recog_before isWordAt (fun x => match x with | none => false | some x => inRange 48#8 57#8 x || inRange 65#8 90#8 x || x == 95#8 || inRange 97#8 122#8 x)
    rfl fun _ _ => rfl).pair recog_word).map fun x => x.1 != x.2

/-- **The possible ends of a regex are explored with finitely many states.** -/
theorem machine (f : Flags) (a : Ast) : ∀ fwd inv, Machine (sizeFor a) fwd fun s => ends f s a fwd inv := by
  induction a using Ast.ind with
  | empty => intro fwd inv; exact Machine.unit.congr fun s p _ => by simp only [ends]
  | lit c => intro fwd inv; exact (Machine.oneChar _).congr fun s p _ => by simp only [ends]; rfl
  | range a b => intro fwd inv; exact (Machine.oneChar _).congr fun s p _ => by simp only [ends]; rfl
  | wildcard => intro fwd inv; exact (Machine.oneChar _).congr fun s p _ => by simp only [ends]; rfl
  | set l => intro fwd inv; exact (Machine.oneChar _).congr fun s p _ => by simp only [ends]; rfl
  | neg a ih =>
    intro fwd inv
    cases ha : assertion a with
    | true => exact ((Machine.test (ih fwd inv).dead).resize (by rw [sizeFor, ha, if_pos rfl])).congr fun s p _ => by simp only [ends, ha, if_true]
    | false => exact ((Machine.oneChar _).resize (by rw [sizeFor, ha, if_neg Bool.false_ne_true])).congr fun s p _ => by simp only [ends, ha, Bool.false_eq_true, if_false]; rfl
  | seq l ih =>
    intro fwd inv
    have key : Machine (sizeAll l) fwd fun s => endsAll f s l fwd inv := by
      induction l with
      | nil => exact Machine.unit.congr fun s p _ => by simp only [endsAll]
      | cons a l ihl =>
        have h1 := ih a (by simp) fwd inv
        have h2 := ihl fun b hb => ih b (List.mem_cons_of_mem _ hb)
        cases inv with
        | true => exact ((h2.seq h1).resize (Size.both_comm _ _)).congr fun s p _ => by simp only [endsAll, if_true]
        | false => exact (h1.seq h2).congr fun s p _ => by simp only [endsAll, Bool.false_eq_true, if_false]
    exact key.congr fun s p _ => by simp only [ends]
  | alt l ih =>
    intro fwd inv
    have key : Machine (sizeAll l) fwd fun s => endsAny f s l fwd inv := by
      induction l with
      | nil => exact Machine.none.congr fun s p _ => by simp only [endsAny]
      | cons a l ihl =>
        exact ((ih a (by simp) fwd inv).alt (ihl fun b hb => ih b (List.mem_cons_of_mem _ hb))).congr fun s p _ => by simp only [endsAny]
    exact key.congr fun s p _ => by simp only [ends]
  | cap id n a ih => intro fwd inv; exact (ih fwd inv).congr fun s p _ => by simp only [ends]
  | rep m lo hi a ih => intro fwd inv; exact ((ih fwd inv).quantified m f.ungreedy lo hi).congr fun s p _ => by simp only [ends]
  | look d a ih =>
    intro fwd inv
    cases hd : (d == .ahead) == !inv with
    | true => exact (Machine.test ((ih fwd false).dead.map not)).congr fun s p _ => by simp only [ends, hd, if_true]
    | false => exact (Machine.test ((ih (!fwd) true).dead.map not)).congr fun s p _ => by simp only [ends, hd, Bool.false_eq_true, if_false]
  | bol => intro fwd inv; exact (Machine.test (recog_start fwd f.multiline)).congr fun s p _ => by simp only [ends]
  | boi => intro fwd inv; exact (Machine.test (recog_start fwd false)).congr fun s p _ => by simp only [ends]
  | eol => intro fwd inv; exact (Machine.test (recog_start (!fwd) f.multiline)).congr fun s p _ => by simp only [ends, atStop]
  | eoi => intro fwd inv; exact (Machine.test (recog_start (!fwd) false)).congr fun s p _ => by simp only [ends, atStop]
  | wordB => intro fwd inv; exact (Machine.test recog_boundary).congr fun s p _ => by simp only [ends]
  | backref => intro fwd inv; exact Machine.none.congr fun s p _ => by simp only [ends]
  | namedBackref => intro fwd inv; exact Machine.none.congr fun s p _ => by simp only [ends]

end Mregex
