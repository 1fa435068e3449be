import Verif.Spec.Instances
import Verif.Proof.AstLemmas

/-!
# Proofs about instantiations
-/

namespace Mregex
open Ast Spec

/-! ### Measures -/

theorem instWeights_eq (u : Bool) (l : List Ast) : instWeights u l = (l.map fun a => instWeight u a + 1).sum := by
  induction l with
  | nil => rfl
  | cons a l ih => simp [instWeights, ih]

theorem nodeCounts_eq (l : List Ast) : nodeCounts l = (l.map nodeCount).sum := by
  induction l with
  | nil => rfl
  | cons a l ih => simp [nodeCounts, ih]

theorem nodeCount_pos (a : Ast) : 0 < nodeCount a := by cases a <;> simp [nodeCount]

mutual
theorem instWeight_invert (u : Bool) : ∀ a : Ast, instWeight u (invert a) = instWeight u a
  | .seq l => by
    have := instWeight_invertAll u l
    simp only [invert, instWeight, instWeights_eq, List.map_reverse, List.sum_reverse, this]
  | .alt l => by
    have := instWeight_invertAll u l
    simp only [invert, instWeight, instWeights_eq, this]
  | .set _ => by simp only [invert, instWeight]
  | .cap _ _ a => by simp only [invert, instWeight, instWeight_invert u a]
  | .neg a => by simp only [invert, instWeight, instWeight_invert u a]
  | .rep _ _ _ a => by simp only [invert, instWeight, instWeight_invert u a]
  | .look .ahead a | .look .behind a => by simp only [invert, instWeight]
  | .empty | .lit _ | .range _ _ | .wildcard | .bol | .boi | .eol | .eoi | .wordB | .backref _ | .namedBackref _ => by simp only [invert]
theorem instWeight_invertAll (u : Bool) : ∀ l : List Ast, (invertAll l).map (fun a => instWeight u a + 1) = l.map fun a => instWeight u a + 1
  | [] => rfl
  | a :: l => by simp only [invertAll, List.map_cons, instWeight_invert u a, instWeight_invertAll u l]
end

mutual
theorem nodeCount_invert : ∀ a : Ast, nodeCount (invert a) = nodeCount a
  | .seq l => by
    have := nodeCount_invertAll l
    simp only [invert, nodeCount, nodeCounts_eq, List.map_reverse, List.sum_reverse, this]
  | .alt l => by
    have := nodeCount_invertAll l
    simp only [invert, nodeCount, nodeCounts_eq, this]
  | .set l => by
    have := nodeCount_invertAll l
    simp only [invert, nodeCount, nodeCounts_eq, this]
  | .cap _ _ a => by simp only [invert, nodeCount, nodeCount_invert a]
  | .neg a => by simp only [invert, nodeCount, nodeCount_invert a]
  | .rep _ _ _ a => by simp only [invert, nodeCount, nodeCount_invert a]
  | .look .ahead a | .look .behind a => by simp only [invert, nodeCount]
  | .empty | .lit _ | .range _ _ | .wildcard | .bol | .boi | .eol | .eoi | .wordB | .backref _ | .namedBackref _ => by simp only [invert]
theorem nodeCount_invertAll : ∀ l : List Ast, (invertAll l).map nodeCount = l.map nodeCount
  | [] => rfl
  | a :: l => by simp only [invertAll, List.map_cons, nodeCount_invert a, nodeCount_invertAll l]
end

theorem instWeight_pos (u : Bool) (a : Ast) : 1 ≤ instWeight u a := by cases a <;> simp [instWeight]

/-! ### Closed lists -/

/-- What `x` needs is in a list of at most `n`. -/
def NeedsLe (S : InstSettings) (x : Inst) (n : Nat) : Prop := ∃ L : List Inst, L.length ≤ n ∧ x ∈ L ∧ ∀ y ∈ L, ∀ z ∈ y.needs S, z ∈ L

theorem NeedsLe.mono {S : InstSettings} {x : Inst} {n n' : Nat} (h : NeedsLe S x n) (hn : n ≤ n') : NeedsLe S x n' := by
  obtain ⟨L, h1, h2⟩ := h
  exact ⟨L, Nat.le_trans h1 hn, h2⟩

theorem NeedsLe.needed {S : InstSettings} {x : Inst} {n : Nat} (h : NeedsLe S x n) : ∃ L : List Inst, L.length ≤ n ∧ ∀ y, Needed S x y → y ∈ L := by
  obtain ⟨L, h1, h2, h3⟩ := h
  refine ⟨L, h1, fun y hy => ?_⟩
  induction hy with
  | root => exact h2
  | call _ hz ih => exact h3 _ ih _ hz

theorem NeedsLe.none {S : InstSettings} {x : Inst} (h : x.needs S = []) : NeedsLe S x 1 :=
  ⟨[x], Nat.le_refl _, by simp, by simp [h]⟩

theorem NeedsLe.one {S : InstSettings} {x y : Inst} {n : Nat} (h : x.needs S = [y]) (hy : NeedsLe S y n) : NeedsLe S x (n + 1) := by
  obtain ⟨L, h1, h2, h3⟩ := hy
  refine ⟨x :: L, by simp; omega, by simp, ?_⟩
  intro a ha b hb
  rcases List.mem_cons.mp ha with rfl | ha
  · rw [h] at hb; simp at hb; subst hb; exact List.mem_cons_of_mem _ h2
  · exact List.mem_cons_of_mem _ (h3 a ha b hb)

theorem NeedsLe.two {S : InstSettings} {x y z : Inst} {n m : Nat} (h : x.needs S = [y, z]) (hy : NeedsLe S y n) (hz : NeedsLe S z m) : NeedsLe S x (n + m + 1) := by
  obtain ⟨L, h1, h2, h3⟩ := hy
  obtain ⟨M, g1, g2, g3⟩ := hz
  refine ⟨x :: (L ++ M), by simp; omega, by simp, ?_⟩
  intro a ha b hb
  rcases List.mem_cons.mp ha with rfl | ha
  · rw [h] at hb
    simp only [List.mem_cons, List.not_mem_nil, or_false] at hb
    rcases hb with rfl | rfl
    · simp [h2]
    · simp [g2]
  · rcases List.mem_append.mp ha with ha | ha
    · exact List.mem_cons_of_mem _ (List.mem_append_left _ (h3 a ha b hb))
    · exact List.mem_cons_of_mem _ (List.mem_append_right _ (g3 a ha b hb))

/-- A function that calls itself. -/
theorem NeedsLe.loop {S : InstSettings} {x y : Inst} {n : Nat} (h : x.needs S = [y, x]) (hy : NeedsLe S y n) : NeedsLe S x (n + 1) := by
  obtain ⟨L, h1, h2, h3⟩ := hy
  refine ⟨x :: L, by simp; omega, by simp, ?_⟩
  intro a ha b hb
  rcases List.mem_cons.mp ha with rfl | ha
  · rw [h] at hb
    simp only [List.mem_cons, List.not_mem_nil, or_false] at hb
    rcases hb with rfl | rfl
    · simp [h2]
    · simp
  · exact List.mem_cons_of_mem _ (h3 a ha b hb)

/-- A call more. -/
theorem NeedsLe.cons {S : InstSettings} {x y : Inst} {l : List Inst} {n m : Nat} (h : x.needs S = y :: l) (hl : ∃ L : List Inst, L.length ≤ m ∧ (∀ z ∈ l, z ∈ L) ∧ ∀ y ∈ L, ∀ z ∈ y.needs S, z ∈ L)
    (hy : NeedsLe S y n) : NeedsLe S x (n + m + 1) := by
  obtain ⟨L, h1, h2, h3⟩ := hy
  obtain ⟨M, g1, g2, g3⟩ := hl
  refine ⟨x :: (L ++ M), by simp; omega, by simp, ?_⟩
  intro a ha b hb
  rcases List.mem_cons.mp ha with rfl | ha
  · rw [h] at hb
    rcases List.mem_cons.mp hb with rfl | hb
    · simp [h2]
    · simp [g2 b hb]
  · rcases List.mem_append.mp ha with ha | ha
    · exact List.mem_cons_of_mem _ (List.mem_append_left _ (h3 a ha b hb))
    · exact List.mem_cons_of_mem _ (List.mem_append_right _ (g3 a ha b hb))

/-- A list of calls. -/
def AllLe (S : InstSettings) (l : List Inst) (n : Nat) : Prop := ∃ L : List Inst, L.length ≤ n ∧ (∀ z ∈ l, z ∈ L) ∧ ∀ y ∈ L, ∀ z ∈ y.needs S, z ∈ L

theorem AllLe.nil {S : InstSettings} (n : Nat) : AllLe S [] n := ⟨[], by simp, by simp, by simp⟩

theorem AllLe.mono {S : InstSettings} {l : List Inst} {n n' : Nat} (h : AllLe S l n) (hn : n ≤ n') : AllLe S l n' := by
  obtain ⟨L, h1, h2⟩ := h
  exact ⟨L, Nat.le_trans h1 hn, h2⟩

theorem AllLe.cons {S : InstSettings} {x : Inst} {l : List Inst} {n m : Nat} (hx : NeedsLe S x n) (hl : AllLe S l m) : AllLe S (x :: l) (n + m) := by
  obtain ⟨L, h1, h2, h3⟩ := hx
  obtain ⟨M, g1, g2, g3⟩ := hl
  refine ⟨L ++ M, by simp; omega, ?_, ?_⟩
  · intro z hz
    rcases List.mem_cons.mp hz with rfl | hz
    · simp [h2]
    · simp [g2 z hz]
  · intro a ha b hb
    rcases List.mem_append.mp ha with ha | ha
    · exact List.mem_append_left _ (h3 a ha b hb)
    · exact List.mem_append_right _ (g3 a ha b hb)

theorem AllLe.single {S : InstSettings} {x : Inst} {n : Nat} (hx : NeedsLe S x n) : AllLe S [x] n := (AllLe.cons hx (AllLe.nil 0)).mono (by omega)

theorem NeedsLe.of_all {S : InstSettings} {x : Inst} {n : Nat} (h : AllLe S (x.needs S) n) : NeedsLe S x (n + 1) := by
  obtain ⟨L, h1, h2, h3⟩ := h
  refine ⟨x :: L, by simp; omega, by simp, ?_⟩
  intro a ha b hb
  rcases List.mem_cons.mp ha with rfl | ha
  · exact List.mem_cons_of_mem _ (h2 b hb)
  · exact List.mem_cons_of_mem _ (h3 a ha b hb)

/-! ### Quantifiers -/

/-- The body of a quantifier, for every continuation. -/
def BodyLe (S : InstSettings) (x : Ast) (w : Nat) : Prop := ∀ r k, NeedsLe S ⟨.node (home x), r, k⟩ w

section
variable {S : InstSettings} {x : Ast} {w : Nat} (hb : BodyLe S x w)
include hb

theorem greedy_le (m : Mode) (lo : Nat) (hi : Bound) (r : Nat) (k : ContT) : ∀ n, NeedsLe S ⟨.greedy (.rep m lo hi x) (.fin n), r, k⟩ (n * (w + 1) + 1)
  | 0 => (NeedsLe.none rfl).mono (by omega)
  | n + 1 => (NeedsLe.two (y := ⟨.node (home x), r, _⟩) (z := ⟨.greedy (.rep m lo hi x) (.fin n), r, k⟩) rfl (hb r _) (greedy_le m lo hi r k n)).mono (by rw [Nat.add_mul]; omega)

theorem lazy_le (m : Mode) (lo : Nat) (hi : Bound) (r : Nat) (k : ContT) : ∀ n, NeedsLe S ⟨.lazy (.rep m lo hi x) (.fin n), r, k⟩ (n * (w + 1) + 1)
  | 0 => (NeedsLe.none rfl).mono (by omega)
  | n + 1 => (NeedsLe.two (y := ⟨.node (home x), r, _⟩) (z := ⟨.lazy (.rep m lo hi x) (.fin n), r, k⟩) rfl (hb r _) (lazy_le m lo hi r k n)).mono (by rw [Nat.add_mul]; omega)

theorem greedy_inf_le (m : Mode) (lo : Nat) (hi : Bound) (r : Nat) (k : ContT) : NeedsLe S ⟨.greedy (.rep m lo hi x) .inf, r, k⟩ (w + 1) :=
  NeedsLe.loop (y := ⟨.node (home x), r, _⟩) rfl (hb r _)

theorem lazy_inf_le (m : Mode) (lo : Nat) (hi : Bound) (r : Nat) (k : ContT) : NeedsLe S ⟨.lazy (.rep m lo hi x) .inf, r, k⟩ (w + 1) :=
  NeedsLe.loop (y := ⟨.node (home x), r, _⟩) rfl (hb r _)

/-- The copies above the lower bound. -/
theorem between_le (m : Mode) (lo : Nat) (hi : Bound) (r : Nat) (k : ContT) (hne : ∀ h, hi = .fin h → lo < h) :
    AllLe S (betweenNeeds S m lo hi x r k) (spanOf lo hi * (w + 1) + 1) := by
  unfold betweenNeeds
  have h1 : w ≤ spanOf lo hi * (w + 1) + 1 := by
    cases hi with
    | inf => simp only [spanOf]; omega
    | fin h =>
      have := hne h rfl
      obtain ⟨d, hd⟩ : ∃ d, h - lo = d + 1 := ⟨h - lo - 1, by omega⟩
      simp only [spanOf, hd, Nat.add_mul]
      omega
  split
  · split
    · exact AllLe.nil _
    · exact (AllLe.single (hb r _)).mono h1
  · split
    · split
      · exact AllLe.nil _
      · cases hi with
        | inf => exact (AllLe.single (greedy_inf_le hb m lo .inf r k)).mono (by simp only [spanOf]; omega)
        | fin h => exact AllLe.single (greedy_le hb m lo (.fin h) r k (h - lo))
    · split
      · exact AllLe.nil _
      · cases hi with
        | inf => exact (AllLe.single (lazy_inf_le hb m lo .inf r k)).mono (by simp only [spanOf]; omega)
        | fin h => exact AllLe.single (lazy_le hb m lo (.fin h) r k (h - lo))

/-- The copies up to the lower bound. -/
theorem fixed_le : ∀ (n : Nat) (m : Mode) (r : Nat) (k : ContT), NeedsLe S ⟨.node (home (.rep m n (.fin n) x)), r, k⟩ ((if S.unroll then n else min n 2) * (w + 1) + 1)
  | 0, m, r, k => by
    rw [show home (.rep m 0 (.fin 0) x) = .empty from by simp [home]]
    exact (NeedsLe.none rfl).mono (by omega)
  | 1, m, r, k => by
    by_cases h : m ≠ .possessive ∨ triv x = true
    · rw [show home (.rep m 1 (.fin 1) x) = home x from by simp [home, h]]
      exact (hb r k).mono (by split <;> simp <;> omega)
    · rw [show home (.rep m 1 (.fin 1) x) = .rep m 1 (.fin 1) x from by simp [home, h]]
      have hn : Inst.needs S ⟨.node (.rep m 1 (.fin 1) x), r, k⟩ = [⟨.node (home x), r, if m = .possessive then .success r else k⟩] := by
        simp [Inst.needs, fixedNeeds]
      exact (NeedsLe.one hn (hb r _)).mono (by split <;> simp)
  | n + 2, m, r, k => by
    rw [show home (.rep m (n + 2) (.fin (n + 2)) x) = .rep m (n + 2) (.fin (n + 2)) x from by simp [home]]
    refine NeedsLe.of_all ?_
    simp only [Inst.needs, if_true, fixedNeeds, show n + 2 ≠ 1 from by omega, if_false, Nat.add_sub_cancel]
    split
    · exact AllLe.nil _
    · split
      · rename_i hu
        have := fixed_le (n + 1) .greedy r (if m = .possessive then .success r else k)
        simp only [hu, if_true] at this
        refine (AllLe.cons (hb r _) (AllLe.single this)).mono ?_
        rw [show n + 2 = n + 1 + 1 from rfl, Nat.add_mul (n + 1) 1]
        omega
      · refine (AllLe.cons (hb r _) (AllLe.single (hb r _))).mono ?_
        rw [show min (n + 2) 2 = 2 from by omega]
        omega

theorem rep_le (m : Mode) (lo : Nat) (hi : Bound) (r : Nat) (k : ContT) : NeedsLe S ⟨.node (home (.rep m lo hi x)), r, k⟩ (copiesOf S.unroll lo hi * (w + 1) + 3) := by
  by_cases h : hi = .fin lo
  · subst h
    refine (fixed_le hb lo m r k).mono ?_
    simp [copiesOf, spanOf]
  · have hh : home (.rep m lo hi x) = .rep m lo hi x := by
      simp only [home]
      rw [if_neg (fun hc => h (by rw [hc.2, hc.1])), if_neg (fun hc => h (by rw [hc.2.1, hc.1]))]
    rw [hh]
    refine NeedsLe.of_all ?_
    simp only [Inst.needs, if_neg h]
    by_cases hv : hi.below lo = true
    · simp only [hv, if_true]; exact AllLe.nil _
    simp only [hv]
    have hlt : ∀ h, hi = .fin h → lo < h := fun b hb' => by
      subst hb'
      simp [Bound.below] at hv
      exact Nat.lt_of_le_of_ne hv (fun hc => h (by rw [hc]))
    have hbt := between_le hb m lo hi r k hlt
    simp only [Bool.false_eq_true, if_false]
    split
    · refine hbt.mono ?_
      simp only [copiesOf, Nat.add_mul]
      omega
    · refine (AllLe.cons (fixed_le hb lo m r _) hbt).mono ?_
      simp only [copiesOf, Nat.add_mul]
      omega
end

/-! ### Assertions -/

theorem assert_le {S : InstSettings} (N : Nat) (ih : ∀ a, nodeCount a < N → BodyLe S a (instWeight S.unroll a)) :
    ∀ a : Ast, nodeCount a ≤ N → ∀ r, AllLe S (assertNeeds r a) (instWeight S.unroll a)
  | .look .ahead a, h, r => by
    simp only [nodeCount] at h
    simp only [assertNeeds]
    split
    · exact AllLe.nil _
    · exact (AllLe.single (ih a (by omega) r _)).mono (by simp [instWeight])
  | .look .behind a, h, r => by
    simp only [nodeCount] at h
    simp only [assertNeeds]
    split
    · exact AllLe.nil _
    · have := ih (invert a) (by rw [nodeCount_invert]; omega) (r + 1) (.success (r + 1))
      rw [instWeight_invert] at this
      exact (AllLe.single this).mono (by simp [instWeight])
  | .neg a, h, r => by
    simp only [nodeCount] at h
    simp only [assertNeeds]
    exact (assert_le N ih a (by omega) r).mono (by simp [instWeight])
  | .seq [a], h, r | .alt [a], h, r => by
    simp only [nodeCount, nodeCounts] at h
    simp only [assertNeeds]
    exact (assert_le N ih a (by omega) r).mono (by simp [instWeight, instWeights]; omega)
  | .rep m lo hi a, h, r => by
    simp only [nodeCount] at h
    simp only [assertNeeds]
    split
    · rename_i hc
      refine (assert_le N ih a (by omega) r).mono ?_
      rw [hc.2.1, hc.2.2]
      simp only [instWeight, copiesOf, spanOf]
      split <;> simp <;> omega
    · exact AllLe.nil _
  | .seq [], _, r | .seq (_ :: _ :: _), _, r | .alt [], _, r | .alt (_ :: _ :: _), _, r | .set _, _, r | .cap _ _ _, _, r | .empty, _, r | .lit _, _, r | .range _ _, _, r | .wildcard, _, r
  | .bol, _, r | .boi, _, r | .eol, _, r | .eoi, _, r | .wordB, _, r | .backref _, _, r | .namedBackref _, _, r => by
    simp only [assertNeeds]; exact AllLe.nil _

/-! ### All nodes -/

theorem body_le (S : InstSettings) : ∀ (N : Nat) (a : Ast), nodeCount a < N → BodyLe S a (instWeight S.unroll a)
  | 0, a, h => absurd h (Nat.not_lt_zero _)
  | N + 1, a, h => by
    have ih := body_le S N
    intro r k
    have hp := instWeight_pos S.unroll a
    match a, h, hp with
    | .seq [], _, hp => exact (NeedsLe.none rfl).mono hp
    | .seq [x], h, hp =>
      simp only [nodeCount, nodeCounts] at h
      exact (ih x (by omega) r k).mono (by simp [instWeight, instWeights]; omega)
    | .seq (x :: y :: l), h, hp =>
      have h1 := nodeCount_pos x
      simp only [nodeCount, nodeCounts] at h
      have hx := ih x (by omega)
      have hr := ih (.seq (y :: l)) (by simp only [nodeCount, nodeCounts]; omega)
      refine (NeedsLe.of_all (n := instWeight S.unroll x + instWeight S.unroll (.seq (y :: l))) ?_).mono (by simp only [instWeight, instWeights]; omega)
      simp only [home, Inst.needs]
      split
      · exact AllLe.nil _
      · exact AllLe.cons (hx r _) (AllLe.single (hr r k))
    | .alt [], _, hp => exact (NeedsLe.none rfl).mono hp
    | .alt [x], h, hp =>
      simp only [nodeCount, nodeCounts] at h
      exact (ih x (by omega) r k).mono (by simp [instWeight, instWeights]; omega)
    | .alt (x :: y :: l), h, hp =>
      have h1 := nodeCount_pos x
      simp only [nodeCount, nodeCounts] at h
      have hx := ih x (by omega)
      have hr := ih (.alt (y :: l)) (by simp only [nodeCount, nodeCounts]; omega)
      simp only [home]
      split
      · exact (NeedsLe.none rfl).mono hp
      · refine (NeedsLe.of_all (n := instWeight S.unroll x + instWeight S.unroll (.alt (y :: l))) ?_).mono (by simp only [instWeight, instWeights]; omega)
        exact AllLe.cons (hx r _) (AllLe.single (hr r k))
    | .cap id name x, h, hp =>
      simp only [nodeCount] at h
      exact NeedsLe.one rfl (ih x (by omega) r _)
    | .look d x, h, hp =>
      simp only [nodeCount] at h
      have := assert_le N ih (.look d x) (by simp only [nodeCount]; omega) r
      simp only [instWeight]
      refine NeedsLe.of_all ?_
      cases d
      · simp only [home, Inst.needs, assertNeeds]
        split
        · exact AllLe.nil _
        · exact AllLe.single (ih x (by omega) r _)
      · simp only [home, Inst.needs, assertNeeds]
        split
        · exact AllLe.nil _
        · have hi := ih (invert x) (by rw [nodeCount_invert]; omega) (r + 1) (.success (r + 1))
          rw [instWeight_invert] at hi
          exact AllLe.single hi
    | .neg x, h, hp =>
      simp only [nodeCount] at h
      refine NeedsLe.of_all ?_
      simp only [home, Inst.needs]
      split
      · exact assert_le N ih x (by omega) r
      · exact AllLe.nil _
    | .rep m lo hi x, h, hp =>
      simp only [nodeCount] at h
      exact rep_le (ih x (by omega)) m lo hi r k
    | .set _, _, hp | .empty, _, hp | .lit _, _, hp | .range _ _, _, hp | .wildcard, _, hp
    | .bol, _, hp | .boi, _, hp | .eol, _, hp | .eoi, _, hp | .wordB, _, hp | .backref _, _, hp | .namedBackref _, _, hp => exact (NeedsLe.none rfl).mono hp

/-! ### The measure in closed form -/

mutual
theorem weight_le (u : Bool) (B : Nat) (hB : 1 ≤ B) : ∀ a : Ast, CopiesLe u B a → instWeight u a + 1 ≤ 4 * (nodeCount a * B ^ repNest a)
  | .seq l, h | .alt l, h => by
    have := weights_le u B hB l h
    have hp : 1 ≤ B ^ repNests l := Nat.one_le_pow _ _ hB
    simp only [instWeight, nodeCount, repNest, Nat.add_mul]
    omega
  | .cap _ _ a, h | .neg a, h | .look _ a, h => by
    have := weight_le u B hB a h
    have hp : 1 ≤ B ^ repNest a := Nat.one_le_pow _ _ hB
    simp only [instWeight, nodeCount, repNest, Nat.add_mul]
    omega
  | .rep m lo hi a, h => by
    have h1 := weight_le u B hB a h.2
    have hp : 1 ≤ B ^ (repNest a + 1) := Nat.one_le_pow _ _ hB
    have h2 : copiesOf u lo hi * (instWeight u a + 1) ≤ B * (4 * (nodeCount a * B ^ repNest a)) := Nat.mul_le_mul h.1 h1
    have h3 : B * (4 * (nodeCount a * B ^ repNest a)) = 4 * (nodeCount a * B ^ (repNest a + 1)) := by
      rw [Nat.pow_succ]; ac_rfl
    simp only [instWeight, nodeCount, repNest, Nat.add_mul]
    omega
  | .set _, _ | .empty, _ | .lit _, _ | .range _ _, _ | .wildcard, _ | .bol, _ | .boi, _ | .eol, _ | .eoi, _ | .wordB, _ | .backref _, _ | .namedBackref _, _ => by
    simp [instWeight, nodeCount, repNest]; try omega
theorem weights_le (u : Bool) (B : Nat) (hB : 1 ≤ B) : ∀ l : List Ast, CopiesLes u B l → instWeights u l ≤ 4 * (nodeCounts l * B ^ repNests l)
  | [], _ => by simp [instWeights]
  | a :: l, h => by
    have h1 := weight_le u B hB a h.1
    have h2 := weights_le u B hB l h.2
    have h3 : nodeCount a * B ^ repNest a ≤ nodeCount a * B ^ max (repNest a) (repNests l) := Nat.mul_le_mul_left _ (Nat.pow_le_pow_right hB (Nat.le_max_left _ _))
    have h4 : nodeCounts l * B ^ repNests l ≤ nodeCounts l * B ^ max (repNest a) (repNests l) := Nat.mul_le_mul_left _ (Nat.pow_le_pow_right hB (Nat.le_max_right _ _))
    simp only [instWeights, nodeCounts, repNests, Nat.add_mul]
    omega
end

end Mregex
