import Verif.Proof.Hoare
import Verif.Proof.CharLemmas

/-!
# The matcher explores `ends` in order

`Den E r I m g`: for continuations whose outcome depends on the position only, the matcher `m` started at `p`
returns the first success among the positions `g p`.
-/

namespace Mregex
open Ast Spec

/-- The outcome `o` is the success at `t` (`v = some t`) or a failure (`v = none`); the captures satisfy `I`. -/
def View (I : Ctx → Prop) (o : Out) (v : Option Nat) : Prop :=
  Post (fun q c => v = some q ∧ I c) (fun _ c => v = none ∧ I c) o

def Den (E : Env) (I : Ctx → Prop) (m : Matcher) (g : Nat → List Nat) : Prop :=
  ∀ p c cont G, p ≤ E.inp.length → I c → (∀ q c', q ∈ g p → I c' → View I (cont q c') (G q)) →
    View I (m p c cont) ((g p).findSome? G)

section
variable {E : Env} {r : Nat} {I : Ctx → Prop}

theorem findSome?_flatMap' {α β γ : Type} (l : List α) (g : α → List β) (G : β → Option γ) :
    (l.flatMap g).findSome? G = l.findSome? (fun q => (g q).findSome? G) := by
  induction l with
  | nil => rfl
  | cons a l ih =>
    simp only [List.flatMap_cons, List.findSome?_append, List.findSome?_cons, ih]
    cases (g a).findSome? G <;> rfl

theorem flatMap_congr' {α β : Type} {l : List α} {g g' : α → List β} (h : ∀ q ∈ l, g q = g' q) :
    l.flatMap g = l.flatMap g' := by
  induction l with
  | nil => rfl
  | cons a l ih =>
    rw [List.flatMap_cons, List.flatMap_cons, h a (by simp), ih (fun q hq => h q (by simp [hq]))]

theorem View.orElse {o : Out} {v w : Option Nat} {f : Ctx → Out} (h : View I o v)
    (hf : ∀ c, I c → View I (f c) w) : View I (o.orElse f) (v.or w) := by
  match o with
  | .ok ⟨q, true⟩ c =>
    simp only [View, Post, Out.orElse] at *
    obtain ⟨rfl, hc⟩ := h
    exact ⟨rfl, hc⟩
  | .ok ⟨q, false⟩ c =>
    simp only [View, Post, Out.orElse] at *
    have h : v = none ∧ I c := by simpa using h
    rw [h.1]
    exact hf c h.2
  | .ub => exact h.elim
  | .diverge => exact h.elim

theorem View.onMatch {o : Out} {v w : Option Nat} {f : Nat → Ctx → Out} {g : Ctx → Out} (h : View I o v)
    (hf : ∀ q c, v = some q → I c → View I (f q c) w) (hg : ∀ c, v = none → I c → View I (g c) w) :
    View I (o.onMatch f g) w := by
  match o with
  | .ok ⟨q, true⟩ c =>
    obtain ⟨h1, h2⟩ : v = some q ∧ I c := by simpa [View, Post] using h
    simpa [Out.onMatch] using hf q c h1 h2
  | .ok ⟨q, false⟩ c =>
    obtain ⟨h1, h2⟩ : v = none ∧ I c := by simpa [View, Post] using h
    simpa [Out.onMatch] using hg c h1 h2
  | .ub => exact h.elim
  | .diverge => exact h.elim

theorem view_nonMatch {p : Nat} {c : Ctx} (hc : I c) : View I (nonMatch p c) none := by
  simpa [View, Post, nonMatch] using hc

theorem view_success {p : Nat} {c : Ctx} (hc : I c) : View I (success p c) (some p) := by
  simpa [View, Post, success] using hc

theorem Den.congr {m : Matcher} {g g' : Nat → List Nat} (h : Den E I m g)
    (hg : ∀ p, p ≤ E.inp.length → g p = g' p) : Den E I m g' := by
  intro p c cont G hp hc hk
  rw [← hg p hp] at hk ⊢
  exact h p c cont G hp hc hk

theorem Den.id : Den E I (fun p c cont => cont p c) (fun p => [p]) := by
  intro p c cont G _ hc hk
  simpa using hk p c (by simp) hc

theorem Den.comp {m m' : Matcher} {g g' : Nat → List Nat} (h : Den E I m g) (h' : Den E I m' g')
    (hle : ∀ p q, p ≤ E.inp.length → q ∈ g p → q ≤ E.inp.length) :
    Den E I (fun p c cont => m p c (fun q c' => m' q c' cont)) (fun p => (g p).flatMap g') := by
  intro p c cont G hp hc hk
  dsimp only
  rw [findSome?_flatMap']
  refine h p c _ _ hp hc (fun q c' hq hc' => h' q c' cont G (hle p q hp hq) hc' ?_)
  exact fun t c'' ht hc'' => hk t c'' (List.mem_flatMap.2 ⟨q, hq, ht⟩) hc''

theorem Den.orElse {m m' : Matcher} {g g' : Nat → List Nat} (h : Den E I m g) (h' : Den E I m' g') :
    Den E I (fun p c cont => (m p c cont).orElse (fun c' => m' p c' cont)) (fun p => g p ++ g' p) := by
  intro p c cont G hp hc hk
  dsimp only
  rw [List.findSome?_append]
  exact (h p c cont G hp hc (fun q c' hq => hk q c' (List.mem_append_left _ hq))).orElse
    (fun c' hc' => h' p c' cont G hp hc' (fun q c'' hq => hk q c'' (List.mem_append_right _ hq)))

theorem Den.success {m : Matcher} {g : Nat → List Nat} (h : Den E I m g) {p : Nat} {c : Ctx}
    (hp : p ≤ E.inp.length) (hc : I c) : View I (m p c Mregex.success) (g p).head? := by
  have := h p c Mregex.success some hp hc (fun q c' _ hc' => view_success hc')
  have e : (g p).findSome? some = (g p).head? := by cases g p <;> simp
  rwa [e] at this

theorem readChar_end {fwd : Bool} (hf : fwd = (r % 2 == 0)) {p : Nat} (hp : p ≤ E.inp.length)
    (h0 : E.remaining r p = 0) : readChar E.inp fwd p = none := by
  subst hf
  unfold readChar Env.remaining at *
  rcases Nat.mod_two_eq_zero_or_one r with h | h
  · simp [h] at h0 ⊢; omega
  · simp [h] at h0 ⊢; subst h0; rfl

theorem readChar_next {fwd : Bool} (hf : fwd = (r % 2 == 0)) {p : Nat} {x : Byte} (hp : p ≤ E.inp.length)
    (h0 : E.remaining r p ≠ 0) (hx : E.deref r p = some x) :
    readChar E.inp fwd p = some (x, Env.next r p) := by
  subst hf
  unfold readChar Env.remaining Env.deref Env.next at *
  rcases Nat.mod_two_eq_zero_or_one r with h | h
  · simp [h] at h0 hx ⊢; exact hx
  · simp [h] at h0 hx ⊢
    cases p with
    | zero => omega
    | succ p => simpa using hx

theorem oneChar_end {fwd : Bool} (hf : fwd = (r % 2 == 0)) {p : Nat} (hp : p ≤ E.inp.length)
    (h0 : E.remaining r p = 0) (P : Byte → Bool) : oneChar E.inp fwd P p = [] := by
  unfold oneChar; rw [readChar_end hf hp h0]

theorem oneChar_next {fwd : Bool} (hf : fwd = (r % 2 == 0)) {p : Nat} {x : Byte} (hp : p ≤ E.inp.length)
    (h0 : E.remaining r p ≠ 0) (hx : E.deref r p = some x) (P : Byte → Bool) :
    oneChar E.inp fwd P p = if P x then [Env.next r p] else [] := by
  unfold oneChar; rw [readChar_next hf hp h0 hx]

theorem Den.triv {fwd : Bool} (hf : fwd = (r % 2 == 0)) (a : Ast) :
    Den E I (trivMatch E r a) (oneChar E.inp fwd (accepts E.flags a)) := by
  intro p c cont G hp hc hk
  unfold trivMatch
  by_cases h0 : E.remaining r p = 0
  · rw [if_pos ((Env.atEnd_iff hp).2 h0), oneChar_end hf hp h0]
    exact view_nonMatch hc
  · rw [if_neg (by rw [Env.atEnd_iff hp]; exact h0)]
    obtain ⟨x, hx⟩ := Env.deref_some hp h0
    rw [oneChar_next hf hp h0 hx] at hk ⊢
    rw [hx]
    dsimp only
    rw [matchOne_eq_accepts]
    split
    · next hm => rw [if_pos hm] at hk; simpa using hk _ c (by simp) hc
    · exact view_nonMatch hc

/-- One character for each node of the list. -/
def charSeq (f : Flags) (s : List Byte) (fwd : Bool) : List Ast → Nat → List Nat
  | [], p => [p]
  | a :: l, p => (oneChar s fwd (accepts f a) p).flatMap (charSeq f s fwd l)

theorem charSeq_short {fwd : Bool} (hf : fwd = (r % 2 == 0)) (l : List Ast) {p : Nat} (hp : p ≤ E.inp.length)
    (hl : E.remaining r p < l.length) : charSeq E.flags E.inp fwd l p = [] := by
  induction l generalizing p with
  | nil => simp at hl
  | cons a l ih =>
    unfold charSeq
    by_cases h0 : E.remaining r p = 0
    · rw [oneChar_end hf hp h0]; rfl
    · obtain ⟨x, hx⟩ := Env.deref_some hp h0
      rw [oneChar_next hf hp h0 hx]
      split
      · simp only [List.flatMap_cons, List.flatMap_nil, List.append_nil]
        have := Env.remaining_next hp h0
        exact ih (Env.reach_next hp h0).right_le (by simp at hl; omega)
      · rfl

theorem runTriv_charSeq {fwd : Bool} (hf : fwd = (r % 2 == 0)) (l : List Ast) {p : Nat} (hp : p ≤ E.inp.length)
    (hl : l.length ≤ E.remaining r p) :
    (∃ q, runTriv E r l p = .done q ∧ charSeq E.flags E.inp fwd l p = [q]) ∨
    (∃ q, runTriv E r l p = .fail q ∧ charSeq E.flags E.inp fwd l p = []) := by
  induction l generalizing p with
  | nil => exact .inl ⟨p, rfl, rfl⟩
  | cons a l ih =>
    have h0 : E.remaining r p ≠ 0 := by simp at hl; omega
    obtain ⟨x, hx⟩ := Env.deref_some hp h0
    have hr := Env.remaining_next hp h0
    unfold charSeq
    rw [oneChar_next hf hp h0 hx]
    simp only [runTriv, hx, matchOne_eq_accepts]
    split
    · simp only [List.flatMap_cons, List.flatMap_nil, List.append_nil]
      exact ih (Env.reach_next hp h0).right_le (by simp at hl; omega)
    · exact .inr ⟨p, rfl, rfl⟩

theorem Den.seqTriv {fwd : Bool} (hf : fwd = (r % 2 == 0)) (l : List Ast) :
    Den E I (seqTriv E r l) (charSeq E.flags E.inp fwd l) := by
  intro p c cont G hp hc hk
  unfold Mregex.seqTriv
  rw [Env.distanceLessThan_eq _ hp]
  split
  · next h => rw [charSeq_short hf l hp (by simpa using h)]; exact view_nonMatch hc
  · next h =>
    rcases runTriv_charSeq hf l hp (by simpa using h) with ⟨q, h1, h2⟩ | ⟨q, h1, h2⟩
    · rw [h2] at hk ⊢
      rw [h1]
      simpa using hk q c (by simp) hc
    · rw [h1, h2]
      dsimp only
      split <;> exact view_nonMatch hc

theorem charSeq_replicate {f : Flags} {s : List Byte} {fwd : Bool} (a : Ast) (N p : Nat) :
    charSeq f s fwd (List.replicate N a) p = exactly (oneChar s fwd (accepts f a)) N p := by
  induction N generalizing p with
  | zero => rfl
  | succ N ih =>
    simp only [List.replicate_succ, charSeq, exactly]
    congr 1
    funext q
    exact ih q

theorem Den.fixedTriv {fwd : Bool} (hf : fwd = (r % 2 == 0)) (a : Ast) (N : Nat) :
    Den E I (fixedTriv E r a N) (exactly (oneChar E.inp fwd (accepts E.flags a)) N) := by
  intro p c cont G hp hc hk
  rw [← charSeq_replicate] at hk ⊢
  unfold Mregex.fixedTriv
  rw [Env.distanceLessThan_eq _ hp]
  split
  · next h => rw [charSeq_short hf _ hp (by simpa using h)]; exact view_nonMatch hc
  · next h =>
    rcases runTriv_charSeq hf (List.replicate N a) hp (by simpa using h) with ⟨q, h1, h2⟩ | ⟨q, h1, h2⟩
    · rw [h2] at hk ⊢
      rw [h1]
      simpa using hk q c (by simp) hc
    · rw [h1, h2]
      dsimp only
      split <;> exact view_nonMatch hc

/-- Positions stay inside the input and move in the reading direction. -/
def Inside (E : Env) (r : Nat) (g : Nat → List Nat) : Prop :=
  ∀ p q, p ≤ E.inp.length → q ∈ g p → E.Reach r p q

theorem Inside.exactly {g : Nat → List Nat} (h : Inside E r g) (N : Nat) : Inside E r (exactly g N) := by
  induction N with
  | zero =>
    intro p q hp hq
    simp only [Spec.exactly, List.mem_singleton] at hq
    subst hq; exact .refl hp
  | succ N ih =>
    intro p q hp hq
    simp only [Spec.exactly, List.mem_flatMap] at hq
    obtain ⟨t, h1, h2⟩ := hq
    have := h p t hp h1
    exact this.trans (ih t q this.right_le h2)

theorem Den.pow_nonUnrolled {m : Matcher} {g : Nat → List Nat} (h : Den E I m g) (hg : Inside E r g) (k : Nat) :
    Den E I (nonUnrolled m (k + 1)) (exactly g (k + 1)) := by
  induction k with
  | zero => exact h.congr (fun p _ => by simp [Spec.exactly])
  | succ k ih => exact h.comp ih (fun p q hp hq => (hg p q hp hq).right_le)

theorem Den.pow_unrolled {m : Matcher} {g : Nat → List Nat} (h : Den E I m g) (hg : Inside E r g) (k : Nat) :
    Den E I (unrolled m k) (exactly g k) := by
  match k with
  | 0 => exact Den.id
  | k + 1 =>
    induction k with
    | zero => exact h.congr (fun p _ => by simp [Spec.exactly])
    | succ k ih => exact h.comp ih (fun p q hp hq => (hg p q hp hq).right_le)

theorem Den.commit {m : Matcher} {g : Nat → List Nat} (h : Den E I m g) :
    Den E I (fun p c cont => (m p c Mregex.success).onMatch cont (fun c' => nonMatch p c'))
      (fun p => (g p).take 1) := by
  intro p c cont G hp hc hk
  dsimp only at hk ⊢
  have hs := h.success hp hc
  cases hgp : g p with
  | nil =>
    rw [hgp] at hs
    exact hs.onMatch (fun q c' hq => by simp at hq) (fun c' _ hc' => view_nonMatch hc')
  | cons q l =>
    rw [hgp] at hs hk
    refine hs.onMatch (fun q' c' hq' hc' => ?_) (fun c' hq => by simp at hq)
    simp only [List.head?_cons, Option.some.injEq] at hq'
    subst hq'
    simpa using hk q c' (by simp) hc'

theorem exactly_short {g : Nat → List Nat} (h : ∀ p, (g p).length ≤ 1) (N p : Nat) :
    (exactly g N p).length ≤ 1 := by
  induction N generalizing p with
  | zero => simp [Spec.exactly]
  | succ N ih =>
    have := h p
    simp only [Spec.exactly]
    match g p, this with
    | [], _ => simp
    | [q], _ => simpa using ih q

theorem oneChar_short (s : List Byte) (fwd : Bool) (P : Byte → Bool) (p : Nat) :
    (oneChar s fwd P p).length ≤ 1 := by
  unfold oneChar
  split
  · simp
  · split <;> simp

theorem take_one_short {l : List Nat} (h : l.length ≤ 1) : l.take 1 = l := List.take_of_length_le h

theorem den_fixedMatch {a : Ast} {m : Matcher} {g : Nat → List Nat} {mode : Mode} {N : Nat} {fwd : Bool}
    (hf : fwd = (r % 2 == 0)) (h : Den E I m g) (hg : Inside E r g)
    (ht : triv a = true → g = oneChar E.inp fwd (accepts E.flags a)) :
    Den E I (fixedMatch E r mode a m N)
      (fun p => match mode with | .possessive => (exactly g N p).take 1 | _ => exactly g N p) := by
  have hb : N ≠ 0 → Den E I (fixedBacktracking E r a m N) (exactly g N) := by
    intro hN
    unfold fixedBacktracking
    split
    · next hta => rw [ht hta]; exact Den.fixedTriv hf a N
    · split
      · exact h.pow_unrolled hg N
      · obtain ⟨k, rfl⟩ := Nat.exists_eq_succ_of_ne_zero hN
        exact h.pow_nonUnrolled hg k
  have h1 : exactly g 1 = g := by funext p; simp [Spec.exactly]
  unfold fixedMatch
  split
  · next hN =>
    subst hN
    exact Den.id.congr (fun p _ => by cases mode <;> simp [Spec.exactly])
  · next hN =>
    split
    · next hN1 =>
      subst hN1
      split
      · next hm => obtain ⟨rfl, _⟩ := hm; rw [h1]; exact h.commit
      · next hm =>
        refine h.congr (fun p _ => ?_)
        rw [h1]
        cases mode with
        | possessive =>
          have hta : triv a = true := by simpa using hm
          rw [ht hta]
          exact (take_one_short (oneChar_short ..)).symm
        | greedy => rfl
        | lazy => rfl
    · split
      · next hm => subst hm; exact (hb hN).commit
      · next hm => cases mode <;> first | exact hb hN | exact absurd rfl hm

/-! ### Loops -/

section loops
variable {m : Matcher} {g : Nat → List Nat}

/-- Bounded or unbounded greedy iteration. -/
def greedyIter (g : Nat → List Nat) (inf : Bool) (k : Nat) : Nat → List Nat :=
  if inf then greedyStar g k else greedyUpTo g k

def lazyIter (g : Nat → List Nat) (inf : Bool) (k : Nat) : Nat → List Nat :=
  if inf then lazyStar g k else lazyUpTo g k

def possIter (g : Nat → List Nat) (inf : Bool) (k : Nat) : Nat → List Nat :=
  if inf then possessiveStar g k else possessiveUpTo g k

theorem filter_guard {guard : Bool} {p : Nat} {l : List Nat}
    (hg : guard = true ∨ ∀ q ∈ l, q ≠ p) (G : Nat → Option Nat) :
    l.findSome? (fun q => if guard && (p == q) then none else G q) = (l.filter (· ≠ p)).findSome? G := by
  induction l with
  | nil => rfl
  | cons q l ih =>
    have ih' := ih (hg.imp_right (fun h x hx => h x (List.mem_cons_of_mem _ hx)))
    by_cases hpq : q = p
    · subst hpq
      rcases hg with hg | hg
      · subst hg
        simp only [List.findSome?_cons, Bool.true_and, beq_self_eq_true, if_true, List.filter_cons]
        simpa using ih'
      · exact absurd rfl (hg q (by simp))
    · have hpq' : (p == q) = false := by simpa using fun h => hpq h.symm
      simp only [List.findSome?_cons, hpq', Bool.and_false, List.filter_cons]
      simp only [hpq, ne_eq, not_false_eq_true, decide_true, if_true, List.findSome?_cons]
      rw [ih']
      rfl

/-- A loop body followed by the rest of the loop. -/
theorem den_guard (h : Den E I m g) {inf guard : Bool} {p : Nat} {c : Ctx}
    {rest : Matcher} {g' : Nat → List Nat} {cont : Cont} {G : Nat → Option Nat}
    (hp : p ≤ E.inp.length) (hc : I c)
    (hguard : inf = true → guard = true ∨ ∀ q ∈ g p, q ≠ p) (hbound : inf = false → guard = false)
    (hrest : ∀ q c', q ∈ g p → (inf = true → q ≠ p) → I c' →
      View I (rest q c' cont) ((g' q).findSome? G)) :
    View I (m p c (guardCont guard p (fun q c' => rest q c' cont)))
      (((if inf then (g p).filter (· ≠ p) else g p).flatMap g').findSome? G) := by
  rw [findSome?_flatMap']
  cases inf with
  | false =>
    have := hbound rfl
    subst this
    exact h p c _ _ hp hc (fun q c' hq hc' => by
      simpa [guardCont] using hrest q c' hq (by simp) hc')
  | true =>
    have hg := hguard rfl
    have := h p c (guardCont guard p (fun q c' => rest q c' cont))
      (fun q => if guard && (p == q) then none else (g' q).findSome? G) hp hc ?_
    · rw [filter_guard hg] at this
      simpa using this
    · intro q c' hq hc'
      unfold guardCont
      split
      · exact view_nonMatch hc'
      · next hne =>
        refine hrest q c' hq (fun _ => ?_) hc'
        rintro rfl
        rcases hg with hg | hg
        · simp [hg] at hne
        · exact hg q hq rfl

theorem den_greedyLoop (h : Den E I m g) (hin : Inside E r g) {inf guard : Bool}
    (hguard : inf = true → guard = true ∨ ∀ p q, p ≤ E.inp.length → q ∈ g p → q ≠ p)
    (hbound : inf = false → guard = false) :
    ∀ k p c cont G, p ≤ E.inp.length → (inf = true → E.remaining r p < k) → I c →
      (∀ q c', q ∈ greedyIter g inf k p → I c' → View I (cont q c') (G q)) →
      View I (greedyLoop m guard inf k p c cont) ((greedyIter g inf k p).findSome? G) := by
  intro k
  induction k with
  | zero =>
    intro p c cont G hp hk hc hcont
    unfold greedyLoop
    cases inf with
    | true => exact absurd (hk rfl) (by omega)
    | false =>
      simp only [greedyIter] at *
      simpa [greedyUpTo] using hcont p c (by simp [greedyUpTo]) hc
  | succ k ih =>
    intro p c cont G hp hk hc hcont
    have e : greedyIter g inf (k + 1) p =
        (if inf then (g p).filter (· ≠ p) else g p).flatMap (greedyIter g inf k) ++ [p] := by
      unfold greedyIter; cases inf <;> simp [greedyStar, greedyUpTo]
    rw [e] at hcont ⊢
    rw [List.findSome?_append]
    unfold greedyLoop
    refine View.orElse (den_guard h (inf := inf) hp hc (fun hi => (hguard hi).imp_right (fun hh q hq => hh p q hp hq)) hbound ?_)
      (fun c' hc' => by simpa using hcont p c' (by simp) hc')
    intro q c' hq hne hc'
    have hr := hin p q hp hq
    refine ih q c' cont G hr.right_le (fun hi => ?_) hc' (fun t c'' ht => hcont t c'' ?_)
    · have := hr.remaining_lt (fun e => hne hi e.symm)
      have := hk hi
      omega
    · refine List.mem_append_left _ (List.mem_flatMap.2 ⟨q, ?_, ht⟩)
      cases inf with
      | false => simpa using hq
      | true => simpa using ⟨hq, hne rfl⟩

theorem den_lazyLoop (h : Den E I m g) (hin : Inside E r g) {inf guard : Bool}
    (hguard : inf = true → guard = true ∨ ∀ p q, p ≤ E.inp.length → q ∈ g p → q ≠ p)
    (hbound : inf = false → guard = false) :
    ∀ k p c cont G, p ≤ E.inp.length → (inf = true → E.remaining r p < k) → I c →
      (∀ q c', q ∈ lazyIter g inf k p → I c' → View I (cont q c') (G q)) →
      View I (lazyLoop m guard inf k p c cont) ((lazyIter g inf k p).findSome? G) := by
  intro k
  induction k with
  | zero =>
    intro p c cont G hp hk hc hcont
    unfold lazyLoop
    cases inf with
    | true => exact absurd (hk rfl) (by omega)
    | false =>
      simp only [lazyIter, lazyUpTo, Bool.false_eq_true, if_false, List.mem_singleton] at *
      have := (hcont p c rfl hc).orElse (f := fun c' => nonMatch p c') (w := none)
        (fun c' hc' => view_nonMatch hc')
      simpa using this
  | succ k ih =>
    intro p c cont G hp hk hc hcont
    have e : lazyIter g inf (k + 1) p =
        [p] ++ (if inf then (g p).filter (· ≠ p) else g p).flatMap (lazyIter g inf k) := by
      unfold lazyIter; cases inf <;> simp [lazyStar, lazyUpTo]
    rw [e] at hcont ⊢
    rw [List.findSome?_append]
    unfold lazyLoop
    refine View.orElse (by simpa using hcont p c (by simp) hc) (fun c' hc' =>
      den_guard h (inf := inf) hp hc' (fun hi => (hguard hi).imp_right (fun hh q hq => hh p q hp hq)) hbound ?_)
    intro q c' hq hne hc'
    have hr := hin p q hp hq
    refine ih q c' cont G hr.right_le (fun hi => ?_) hc' (fun t c'' ht => hcont t c'' ?_)
    · have := hr.remaining_lt (fun e => hne hi e.symm)
      have := hk hi
      omega
    · refine List.mem_append_right _ (List.mem_flatMap.2 ⟨q, ?_, ht⟩)
      cases inf with
      | false => simpa using hq
      | true => simpa using ⟨hq, hne rfl⟩

theorem den_possLoop (h : Den E I m g) (hin : Inside E r g) {inf guard : Bool}
    (hguard : inf = true → guard = true ∨ ∀ p q, p ≤ E.inp.length → q ∈ g p → q ≠ p)
    (hbound : inf = false → guard = false) :
    ∀ k p c cont G, p ≤ E.inp.length → (inf = true → E.remaining r p < k) → I c →
      (∀ q c', q ∈ possIter g inf k p → I c' → View I (cont q c') (G q)) →
      View I (possLoop m guard inf k p c cont) ((possIter g inf k p).findSome? G) := by
  intro k
  induction k with
  | zero =>
    intro p c cont G hp hk hc hcont
    unfold possLoop
    cases inf with
    | true => exact absurd (hk rfl) (by omega)
    | false =>
      simp only [possIter] at *
      simpa [possessiveUpTo] using hcont p c (by simp [possessiveUpTo]) hc
  | succ k ih =>
    intro p c cont G hp hk hc hcont
    have e : possIter g inf (k + 1) p = match g p with
        | [] => [p]
        | q :: _ => if inf && q == p then [p] else possIter g inf k q := by
      unfold possIter
      cases inf with
      | false => simp only [possessiveUpTo, Bool.false_eq_true, if_false, Bool.false_and]; cases g p <;> rfl
      | true =>
        simp only [possessiveStar, if_true, Bool.true_and, beq_iff_eq]; cases g p <;> rfl
    rw [e] at hcont ⊢
    unfold possLoop
    have hs := h.success hp hc
    cases hgp : g p with
    | nil =>
      rw [hgp] at hs hcont
      refine hs.onMatch (fun q c' hq => by simp at hq) ?_
      intro c' _ hc'
      simpa using hcont p c' (by simp) hc'
    | cons q l =>
      rw [hgp] at hs hcont
      dsimp only at hcont ⊢
      refine hs.onMatch ?_ (fun c' hq => by simp at hq)
      intro q' c' hq' hc'
      simp only [List.head?_cons, Option.some.injEq] at hq'
      subst hq'
      have hq : q ∈ g p := by rw [hgp]; simp
      have hr := hin p q hp hq
      by_cases hqp : q = p
      · subst hqp
        cases inf with
        | true =>
          rcases hguard rfl with hg | hg
          · subst hg
            simp only [Bool.true_and, beq_self_eq_true, if_true] at hcont ⊢
            simpa using hcont q c' (by simp) hc'
          · exact absurd rfl (hg q q hp hq)
        | false =>
          have := hbound rfl
          subst this
          simp only [Bool.false_and, Bool.false_eq_true, if_false] at hcont ⊢
          exact ih q c' cont G hp (by simp) hc' hcont
      · have h1 : (q == p) = false := by simpa using hqp
        have h2 : (p == q) = false := by simpa using fun e => hqp e.symm
        simp only [h1, h2, Bool.and_false, Bool.false_eq_true, if_false] at hcont ⊢
        refine ih q c' cont G hr.right_le (fun hi => ?_) hc' hcont
        have := hr.remaining_lt (fun e => hqp e.symm)
        have := hk hi
        omega

end loops

section trivLoops
variable {a : Ast} {fwd : Bool}

theorem oneChar_ne (hf : fwd = (r % 2 == 0)) {P : Byte → Bool} {p q : Nat} (hp : p ≤ E.inp.length)
    (hq : q ∈ oneChar E.inp fwd P p) : q = Env.next r p ∧ E.remaining r p ≠ 0 := by
  by_cases h0 : E.remaining r p = 0
  · rw [oneChar_end hf hp h0] at hq; simp at hq
  · obtain ⟨x, hx⟩ := Env.deref_some hp h0
    rw [oneChar_next hf hp h0 hx] at hq
    split at hq
    · exact ⟨by simpa using hq, h0⟩
    · simp at hq

theorem inside_oneChar (hf : fwd = (r % 2 == 0)) (P : Byte → Bool) : Inside E r (oneChar E.inp fwd P) := by
  intro p q hp hq
  obtain ⟨rfl, h0⟩ := oneChar_ne hf hp hq
  exact Env.reach_next hp h0

/-- The end of the longest run of accepted characters, at most `k`. -/
def runEnd (E : Env) (r : Nat) (P : Byte → Bool) : Nat → Nat → Nat
  | 0, p => p
  | k + 1, p =>
    if E.atEnd r p then p
    else match E.deref r p with
      | none => p
      | some x => if P x then runEnd E r P k (Env.next r p) else p

theorem possTriv_eq {inf : Bool} (k : Nat) {p : Nat} (c : Ctx) (cont : Cont) (hp : p ≤ E.inp.length)
    (hk : inf = true → E.remaining r p < k) :
    possTriv E r a inf k p c cont = cont (runEnd E r (matchOne E.flags a) k p) c := by
  induction k generalizing p with
  | zero =>
    unfold possTriv runEnd
    cases inf with
    | true => exact absurd (hk rfl) (by omega)
    | false => rfl
  | succ k ih =>
    unfold possTriv runEnd
    by_cases h0 : E.remaining r p = 0
    · rw [if_pos ((Env.atEnd_iff hp).2 h0), if_pos ((Env.atEnd_iff hp).2 h0)]
    · rw [if_neg (by rw [Env.atEnd_iff hp]; exact h0), if_neg (by rw [Env.atEnd_iff hp]; exact h0)]
      obtain ⟨x, hx⟩ := Env.deref_some hp h0
      rw [hx]
      dsimp only
      split
      · refine ih (Env.reach_next hp h0).right_le (fun hi => ?_)
        have := Env.remaining_next hp h0
        have := hk hi
        omega
      · rfl

/-- Positions from `q` back to `p`. -/
def backTo (r p : Nat) : Nat → Nat → List Nat
  | 0, q => [q]
  | k + 1, q => if q = p then [q] else q :: backTo r p k (Env.prev r q)

theorem view_backOff {p : Nat} {cont : Cont} {G : Nat → Option Nat} :
    ∀ k q c, E.Reach r p q → Env.dist r p q ≤ k → I c →
      (∀ t c', t ∈ backTo r p k q → I c' → View I (cont t c') (G t)) →
      View I (backOff r p cont k q c) ((backTo r p k q).findSome? G) := by
  intro k
  induction k with
  | zero =>
    intro q c hq hk hc hcont
    unfold backOff
    have := (hcont q c (by simp [backTo]) hc).orElse
      (f := fun c' => if q = p then nonMatch p c' else .diverge) (w := none) (fun c' hc' => by
        rw [if_pos ((Env.dist_eq_zero hq).1 (by omega))]; exact view_nonMatch hc')
    simpa [backTo] using this
  | succ k ih =>
    intro q c hq hk hc hcont
    unfold backOff
    by_cases hqp : q = p
    · subst hqp
      have := (hcont q c (by simp [backTo]) hc).orElse
        (f := fun c' => if q = q then nonMatch q c' else backOff r q cont k (Env.prev r q) c') (w := none)
        (fun c' hc' => by rw [if_pos rfl]; exact view_nonMatch hc')
      simpa [backTo] using this
    · unfold backTo at hcont ⊢
      rw [if_neg hqp] at hcont ⊢
      have := (hcont q c (by simp) hc).orElse
        (f := fun c' => if q = p then nonMatch p c' else backOff r p cont k (Env.prev r q) c')
        (w := (backTo r p k (Env.prev r q)).findSome? G) (fun c' hc' => by
          rw [if_neg hqp]
          have := Env.dist_prev hq hqp
          exact ih _ c' (Env.reach_prev hq hqp) (by omega) hc'
            (fun t c'' ht => hcont t c'' (List.mem_cons_of_mem _ ht)))
      rw [List.findSome?_cons]
      cases hG : G q <;> rw [hG] at this <;> simpa using this

theorem backTo_succ {p q : Nat} (hq : E.Reach r p q) (h0 : E.remaining r p ≠ 0)
    (hnq : E.Reach r (Env.next r p) q) :
    backTo r p (Env.dist r p q) q = backTo r (Env.next r p) (Env.dist r (Env.next r p) q) q ++ [p] := by
  have hp := hq.left_le
  have key : ∀ d q, E.Reach r (Env.next r p) q → Env.dist r (Env.next r p) q = d →
      backTo r p (d + 1) q = backTo r (Env.next r p) d q ++ [p] := by
    intro d
    induction d with
    | zero =>
      intro q hq hd
      have : q = Env.next r p := (Env.dist_eq_zero hq).1 hd
      subst this
      have hne := Env.next_ne hp h0
      simp only [backTo, if_neg hne, Env.prev_next hp h0]
      rfl
    | succ d ih =>
      intro q hq hd
      have hqn : q ≠ Env.next r p := fun e => by
        have := (Env.dist_eq_zero hq).2 e; omega
      have hqp : q ≠ p := fun e => by
        subst e
        exact hqn (hq.antisymm (Env.reach_next hp h0)).symm
      have hd' := Env.dist_prev hq hqn
      unfold backTo
      rw [if_neg hqp, if_neg hqn, ih _ (Env.reach_prev hq hqn) (by omega)]
      rfl
  have hd : Env.dist r p q = Env.dist r (Env.next r p) q + 1 := by
    have := Env.remaining_next hp h0
    unfold Env.dist Env.next Env.remaining Env.Reach at *
    split <;> simp_all <;> omega
  rw [hd]
  exact key _ q hnq rfl

theorem runEnd_reach (P : Byte → Bool) (k : Nat) {p : Nat} (hp : p ≤ E.inp.length) :
    E.Reach r p (runEnd E r P k p) := by
  induction k generalizing p with
  | zero => exact .refl hp
  | succ k ih =>
    unfold runEnd
    by_cases h0 : E.remaining r p = 0
    · rw [if_pos ((Env.atEnd_iff hp).2 h0)]; exact .refl hp
    · rw [if_neg (by rw [Env.atEnd_iff hp]; exact h0)]
      obtain ⟨x, hx⟩ := Env.deref_some hp h0
      rw [hx]
      dsimp only
      split
      · have := Env.reach_next hp h0
        exact this.trans (ih this.right_le)
      · exact .refl hp

/-- For single characters greedy iteration is "take all, then give back one by one". -/
theorem greedyIter_oneChar (hf : fwd = (r % 2 == 0)) {inf : Bool} (P : Byte → Bool) (k : Nat) {p : Nat}
    (hp : p ≤ E.inp.length) (hk : inf = true → E.remaining r p < k) :
    greedyIter (oneChar E.inp fwd P) inf k p =
      backTo r p (Env.dist r p (runEnd E r P k p)) (runEnd E r P k p) := by
  induction k generalizing p with
  | zero =>
    cases inf with
    | true => exact absurd (hk rfl) (by omega)
    | false => simp [greedyIter, greedyUpTo, runEnd, Env.dist_self, backTo]
  | succ k ih =>
    have e : greedyIter (oneChar E.inp fwd P) inf (k + 1) p =
        (oneChar E.inp fwd P p).flatMap (greedyIter (oneChar E.inp fwd P) inf k) ++ [p] := by
      unfold greedyIter
      cases inf with
      | false => simp [greedyUpTo]
      | true =>
        simp only [greedyStar, if_true]
        congr 2
        refine List.filter_eq_self.2 (fun q hq => ?_)
        obtain ⟨rfl, h0⟩ := oneChar_ne hf hp hq
        simpa using Env.next_ne hp h0
    rw [e]
    unfold runEnd
    by_cases h0 : E.remaining r p = 0
    · rw [if_pos ((Env.atEnd_iff hp).2 h0), oneChar_end hf hp h0]
      simp [Env.dist_self, backTo]
    · rw [if_neg (by rw [Env.atEnd_iff hp]; exact h0)]
      obtain ⟨x, hx⟩ := Env.deref_some hp h0
      rw [hx, oneChar_next hf hp h0 hx]
      dsimp only
      split
      · have hr := Env.reach_next hp h0
        have hre := runEnd_reach (r := r) P k hr.right_le
        rw [backTo_succ (hr.trans hre) h0 hre]
        simp only [List.flatMap_cons, List.flatMap_nil, List.append_nil]
        rw [ih hr.right_le (fun hi => ?_)]
        have := Env.remaining_next hp h0
        have := hk hi
        omega
      · simp [Env.dist_self, backTo]

theorem den_greedyTriv (hf : fwd = (r % 2 == 0)) {inf : Bool} (k p : Nat) (c : Ctx) (cont : Cont)
    (G : Nat → Option Nat) (hp : p ≤ E.inp.length) (hk : inf = true → E.remaining r p < k) (hc : I c)
    (hcont : ∀ q c', q ∈ greedyIter (oneChar E.inp fwd (accepts E.flags a)) inf k p → I c' →
      View I (cont q c') (G q)) :
    View I (greedyTriv E r a inf k p c cont)
      ((greedyIter (oneChar E.inp fwd (accepts E.flags a)) inf k p).findSome? G) := by
  have e : accepts E.flags a = matchOne E.flags a := by funext x; exact (matchOne_eq_accepts _ _ _).symm
  rw [e] at hcont ⊢
  unfold greedyTriv
  rw [possTriv_eq k c _ hp hk]
  rw [greedyIter_oneChar hf _ k hp hk] at hcont ⊢
  exact view_backOff _ _ c (runEnd_reach _ k hp) (Nat.le_refl _) hc hcont

theorem den_possTriv (hf : fwd = (r % 2 == 0)) {inf : Bool} :
    ∀ k p c cont G, p ≤ E.inp.length → (inf = true → E.remaining r p < k) → I c →
    (∀ q c', q ∈ possIter (oneChar E.inp fwd (accepts E.flags a)) inf k p → I c' →
      View I (cont q c') (G q)) →
    View I (possTriv E r a inf k p c cont)
      ((possIter (oneChar E.inp fwd (accepts E.flags a)) inf k p).findSome? G) := by
  intro k
  induction k with
  | zero =>
    intro p c cont G hp hk hc hcont
    unfold possTriv
    cases inf with
    | true => exact absurd (hk rfl) (by omega)
    | false =>
      simp only [possIter] at *
      simpa [possessiveUpTo] using hcont p c (by simp [possessiveUpTo]) hc
  | succ k ih =>
    intro p c cont G hp hk hc hcont
    have e : possIter (oneChar E.inp fwd (accepts E.flags a)) inf (k + 1) p =
        match oneChar E.inp fwd (accepts E.flags a) p with
        | [] => [p]
        | q :: _ => possIter (oneChar E.inp fwd (accepts E.flags a)) inf k q := by
      unfold possIter
      cases inf with
      | false =>
        simp only [possessiveUpTo, Bool.false_eq_true, if_false]
        cases oneChar E.inp fwd (accepts E.flags a) p <;> rfl
      | true =>
        simp only [possessiveStar, if_true]
        have hm : ∀ q ∈ oneChar E.inp fwd (accepts E.flags a) p, q ≠ p := by
          intro q hq
          obtain ⟨rfl, h0⟩ := oneChar_ne hf hp hq
          exact Env.next_ne hp h0
        cases hl : oneChar E.inp fwd (accepts E.flags a) p with
        | nil => rfl
        | cons q l => rw [hl] at hm; dsimp only; rw [if_neg (hm q (by simp))]
    rw [e] at hcont ⊢
    unfold possTriv
    by_cases h0 : E.remaining r p = 0
    · rw [if_pos ((Env.atEnd_iff hp).2 h0)]
      rw [oneChar_end hf hp h0] at hcont ⊢
      simpa using hcont p c (by simp) hc
    · rw [if_neg (by rw [Env.atEnd_iff hp]; exact h0)]
      obtain ⟨x, hx⟩ := Env.deref_some hp h0
      rw [oneChar_next hf hp h0 hx] at hcont ⊢
      rw [hx]
      dsimp only
      rw [matchOne_eq_accepts]
      split
      · next hm =>
        rw [if_pos hm] at hcont
        refine ih _ c cont G (Env.reach_next hp h0).right_le (fun hi => ?_) hc hcont
        have := Env.remaining_next hp h0
        have := hk hi
        omega
      · next hm =>
        rw [if_neg hm] at hcont
        simpa using hcont p c (by simp) hc

theorem den_lazyTriv (hf : fwd = (r % 2 == 0)) {inf : Bool} :
    ∀ k p c cont G, p ≤ E.inp.length → (inf = true → E.remaining r p < k) → I c →
    (∀ q c', q ∈ lazyIter (oneChar E.inp fwd (accepts E.flags a)) inf k p → I c' →
      View I (cont q c') (G q)) →
    View I (lazyTriv E r a inf k p c cont)
      ((lazyIter (oneChar E.inp fwd (accepts E.flags a)) inf k p).findSome? G) := by
  intro k
  induction k with
  | zero =>
    intro p c cont G hp hk hc hcont
    unfold lazyTriv
    cases inf with
    | true => exact absurd (hk rfl) (by omega)
    | false =>
      simp only [lazyIter, lazyUpTo, Bool.false_eq_true, if_false, List.mem_singleton] at *
      have := (hcont p c rfl hc).orElse (f := fun c' => nonMatch p c') (w := none)
        (fun c' hc' => view_nonMatch hc')
      simpa using this
  | succ k ih =>
    intro p c cont G hp hk hc hcont
    have e : lazyIter (oneChar E.inp fwd (accepts E.flags a)) inf (k + 1) p =
        [p] ++ (oneChar E.inp fwd (accepts E.flags a) p).flatMap
          (lazyIter (oneChar E.inp fwd (accepts E.flags a)) inf k) := by
      unfold lazyIter
      cases inf with
      | false => simp [lazyUpTo]
      | true =>
        simp only [lazyStar, if_true]
        congr 2
        refine List.filter_eq_self.2 (fun q hq => ?_)
        obtain ⟨rfl, h0⟩ := oneChar_ne hf hp hq
        simpa using Env.next_ne hp h0
    rw [e] at hcont ⊢
    rw [List.findSome?_append]
    unfold lazyTriv
    refine View.orElse (by simpa using hcont p c (by simp) hc) (fun c' hc' => ?_)
    have hcont' := fun q c'' hq => hcont q c'' (List.mem_append_right _ hq)
    by_cases h0 : E.remaining r p = 0
    · rw [if_pos ((Env.atEnd_iff hp).2 h0), oneChar_end hf hp h0]
      exact view_nonMatch hc'
    · rw [if_neg (by rw [Env.atEnd_iff hp]; exact h0)]
      obtain ⟨x, hx⟩ := Env.deref_some hp h0
      rw [oneChar_next hf hp h0 hx] at hcont' ⊢
      rw [hx]
      dsimp only
      rw [matchOne_eq_accepts]
      split
      · next hm =>
        rw [if_pos hm] at hcont'
        simp only [List.flatMap_cons, List.flatMap_nil, List.append_nil] at hcont' ⊢
        refine ih _ c' cont G (Env.reach_next hp h0).right_le (fun hi => ?_) hc' hcont'
        have := Env.remaining_next hp h0
        have := hk hi
        omega
      · exact view_nonMatch hc'

end trivLoops

/-! ### A number of rounds above the length of the input is as good as any other -/

section rounds
variable {g : Nat → List Nat}

theorem greedyStar_rounds (hin : Inside E r g) (k k' : Nat) {p : Nat} (hp : p ≤ E.inp.length)
    (hk : E.remaining r p < k) (hk' : E.remaining r p < k') : greedyStar g k p = greedyStar g k' p := by
  induction k generalizing p k' with
  | zero => omega
  | succ k ih =>
    obtain ⟨k', rfl⟩ : ∃ i, k' = i + 1 := ⟨k' - 1, by omega⟩
    simp only [greedyStar]
    congr 1
    refine flatMap_congr' (fun q hq => ?_)
    simp only [ne_eq, decide_not, List.mem_filter, Bool.not_eq_eq_eq_not, Bool.not_true, decide_eq_false_iff_not] at hq
    have hr := hin p q hp hq.1
    have := hr.remaining_lt (fun e => hq.2 e.symm)
    exact ih k' hr.right_le (by omega) (by omega)

theorem lazyStar_rounds (hin : Inside E r g) (k k' : Nat) {p : Nat} (hp : p ≤ E.inp.length)
    (hk : E.remaining r p < k) (hk' : E.remaining r p < k') : lazyStar g k p = lazyStar g k' p := by
  induction k generalizing p k' with
  | zero => omega
  | succ k ih =>
    obtain ⟨k', rfl⟩ : ∃ i, k' = i + 1 := ⟨k' - 1, by omega⟩
    simp only [lazyStar]
    congr 1
    refine flatMap_congr' (fun q hq => ?_)
    simp only [ne_eq, decide_not, List.mem_filter, Bool.not_eq_eq_eq_not, Bool.not_true, decide_eq_false_iff_not] at hq
    have hr := hin p q hp hq.1
    have := hr.remaining_lt (fun e => hq.2 e.symm)
    exact ih k' hr.right_le (by omega) (by omega)

theorem possStar_rounds (hin : Inside E r g) (k k' : Nat) {p : Nat} (hp : p ≤ E.inp.length)
    (hk : E.remaining r p < k) (hk' : E.remaining r p < k') : possessiveStar g k p = possessiveStar g k' p := by
  induction k generalizing p k' with
  | zero => omega
  | succ k ih =>
    obtain ⟨k', rfl⟩ : ∃ i, k' = i + 1 := ⟨k' - 1, by omega⟩
    simp only [possessiveStar]
    split
    · rfl
    · next q l hq =>
      split
      · rfl
      · next hne =>
        have hr := hin p q hp (by rw [hq]; simp)
        have := hr.remaining_lt (fun e => hne e.symm)
        exact ih k' hr.right_le (by omega) (by omega)

end rounds

theorem den_betweenBounds {a : Ast} {m : Matcher} {g : Nat → List Nat} {mode : Mode} {inf : Bool} {k : Nat}
    {fwd : Bool} (hf : fwd = (r % 2 == 0)) (h : Den E I m g) (hin : Inside E r g)
    (hz : zlm a = false → ∀ p q, p ≤ E.inp.length → q ∈ g p → q ≠ p)
    (ht : triv a = true → g = oneChar E.inp fwd (accepts E.flags a))
    (hk : inf = true → E.inp.length < k) :
    Den E I (betweenBounds E r mode a m inf k)
      (extra E.inp.length mode E.flags.ungreedy g (if inf then none else some k)) := by
  intro p c cont G hp hc hcont
  have hrem := Env.remaining_le (E := E) (r := r) hp
  have hk' : inf = true → E.remaining r p < k := fun hi => by have := hk hi; omega
  have hguard : inf = true → (inf && zlm a) = true ∨ ∀ p q, p ≤ E.inp.length → q ∈ g p → q ≠ p := by
    intro hi
    cases hza : zlm a with
    | true => left; simp [hi]
    | false => exact .inr (hz hza)
  have hbound : inf = false → (inf && zlm a) = false := by intro hi; simp [hi]
  have e : extra E.inp.length mode E.flags.ungreedy g (if inf then none else some k) p =
      if mode = .possessive then possIter g inf k p
      else if Bool.xor (mode == .greedy) E.flags.ungreedy then greedyIter g inf k p else lazyIter g inf k p := by
    cases inf with
    | false => cases mode <;> cases E.flags.ungreedy <;> simp [extra, possIter, greedyIter, lazyIter]
    | true =>
      have h1 := greedyStar_rounds hin (E.inp.length + 1) k hp (by omega) (hk' rfl)
      have h2 := lazyStar_rounds hin (E.inp.length + 1) k hp (by omega) (hk' rfl)
      have h3 := possStar_rounds hin (E.inp.length + 1) k hp (by omega) (hk' rfl)
      cases mode <;> cases E.flags.ungreedy <;> simp [extra, possIter, greedyIter, lazyIter, h1, h2, h3]
  rw [e] at hcont ⊢
  unfold betweenBounds
  split
  · next hm =>
    rw [if_pos hm] at hcont
    split
    · next hta => rw [ht hta] at hcont ⊢; exact den_possTriv hf k p c cont G hp hk' hc hcont
    · exact den_possLoop h hin hguard hbound k p c cont G hp hk' hc hcont
  · next hm =>
    rw [if_neg hm] at hcont
    split
    · next hx =>
      rw [if_pos hx] at hcont
      split
      · next hta =>
        simp only [Bool.and_eq_true] at hta
        rw [ht hta.1] at hcont ⊢
        exact den_greedyTriv hf k p c cont G hp hk' hc hcont
      · exact den_greedyLoop h hin hguard hbound k p c cont G hp hk' hc hcont
    · next hx =>
      rw [if_neg hx] at hcont
      split
      · next hta => rw [ht hta] at hcont ⊢; exact den_lazyTriv hf k p c cont G hp hk' hc hcont
      · exact den_lazyLoop h hin hguard hbound k p c cont G hp hk' hc hcont

theorem extra_zero {n : Nat} {mode : Mode} {u : Bool} {g : Nat → List Nat} (p : Nat) :
    extra n mode u g (some 0) p = [p] := by
  cases mode <;> cases u <;> simp [extra, possessiveUpTo, greedyUpTo, lazyUpTo]

theorem flatMap_singleton' (l : List Nat) : l.flatMap (fun p => [p]) = l := by
  induction l with
  | nil => rfl
  | cons a l ih => simp

theorem den_repMatch {a : Ast} {m : Matcher} {g : Nat → List Nat} {mode : Mode} {lo : Nat} {hi : Bound} {k : Nat}
    {fwd : Bool} (hf : fwd = (r % 2 == 0)) (h : Den E I m g) (hin : Inside E r g)
    (hz : zlm a = false → ∀ p q, p ≤ E.inp.length → q ∈ g p → q ≠ p)
    (ht : triv a = true → g = oneChar E.inp fwd (accepts E.flags a))
    (hk : E.inp.length < k) (hlo : ∀ h, hi = .fin h → lo ≤ h) :
    Den E I (repMatch E r k mode lo hi a m) (quantified E.inp.length mode E.flags.ungreedy lo hi g) := by
  have hinE : ∀ p q, p ≤ E.inp.length →
      q ∈ (match mode with | .possessive => (exactly g lo p).take 1 | _ => exactly g lo p) → q ≤ E.inp.length := by
    intro p q hp hq
    have : q ∈ exactly g lo p := by
      cases mode
      · exact hq
      · exact hq
      · exact List.mem_of_mem_take hq
    exact (hin.exactly lo p q hp this).right_le
  have h0E : lo = 0 → ∀ p, (match mode with | .possessive => (exactly g lo p).take 1 | _ => exactly g lo p) = [p] := by
    rintro rfl p
    cases mode <;> simp [Spec.exactly]
  unfold repMatch
  split
  · next hh =>
    have hlh := hlo hh rfl
    split
    · next heq =>
      subst heq
      refine (den_fixedMatch (mode := mode) (N := hh) hf h hin ht).congr (fun p hp => ?_)
      simp only [quantified, Nat.sub_self]
      rw [flatMap_congr' (fun q _ => extra_zero q), flatMap_singleton']
      cases mode <;> rfl
    · split
      · omega
      · split
        · next h0 =>
          refine (den_betweenBounds (mode := mode) (inf := false) (k := hh) hf h hin hz ht (by simp)).congr
            (fun p hp => ?_)
          simp only [quantified]
          have := h0E h0 p
          cases mode <;> simp [h0, Spec.exactly]
        · refine ((den_fixedMatch (mode := mode) (N := lo) hf h hin ht).comp
            (den_betweenBounds (mode := mode) (inf := false) (k := hh - lo) hf h hin hz ht (by simp)) hinE).congr
            (fun p hp => ?_)
          simp only [quantified]
          cases mode <;> rfl
  · split
    · next h0 =>
      refine (den_betweenBounds (mode := mode) (inf := true) (k := k) hf h hin hz ht (fun _ => hk)).congr
        (fun p hp => ?_)
      simp only [quantified]
      have := h0E h0 p
      cases mode <;> simp only at this <;> simp [this]
    · refine ((den_fixedMatch (mode := mode) (N := lo) hf h hin ht).comp
        (den_betweenBounds (mode := mode) (inf := true) (k := k) hf h hin hz ht (fun _ => hk)) hinE).congr
        (fun p hp => ?_)
      simp only [quantified]
      cases mode <;> rfl

end
end Mregex
