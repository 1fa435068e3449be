import Verif.Spec.Demands
import Verif.Proof.Instances

/-!
# Proofs about the demands of instantiated functions
-/

namespace Mregex
open Ast Spec

/-! ### Lists -/

theorem onesFine_iff (l : List Ast) : onesFine l = true ↔ ∀ a ∈ l, oneFine a = true := by
  induction l with
  | nil => simp [onesFine]
  | cons a l ih => simp [onesFine, ih]

theorem shortSeqsAll_iff (l : List Ast) : ShortSeqsAll l ↔ ∀ a ∈ l, ShortSeqs a := by
  induction l with
  | nil => simp [ShortSeqsAll]
  | cons a l ih => simp [ShortSeqsAll, ih]

theorem countsFits_iff (l : List Ast) : CountsFits l ↔ ∀ a ∈ l, CountsFit a := by
  induction l with
  | nil => simp [CountsFits]
  | cons a l ih => simp [CountsFits, ih]

theorem noZeros_iff (l : List Ast) : NoZeros l ↔ ∀ a ∈ l, NoZero a := by
  induction l with
  | nil => simp [NoZeros]
  | cons a l ih => simp [NoZeros, ih]

/-! ### Reversal -/

theorem oneFine_invert (a : Ast) : oneFine (invert a) = oneFine a := by
  induction a using ind with
  | seq l ih =>
    rw [Bool.eq_iff_iff]
    simp only [invert, oneFine, onesFine_iff, invertAll_eq, List.mem_reverse, List.mem_map, forall_exists_index, and_imp, forall_apply_eq_imp_iff₂]
    exact forall_congr' fun a => forall_congr' fun ha => by rw [ih a ha]
  | alt l ih =>
    rw [Bool.eq_iff_iff]
    simp only [invert, oneFine, onesFine_iff, invertAll_eq, List.mem_map, forall_exists_index, and_imp, forall_apply_eq_imp_iff₂]
    exact forall_congr' fun a => forall_congr' fun ha => by rw [ih a ha]
  | look d a ih => cases d <;> simp [invert, oneFine]
  | neg a ih => simp [invert, oneFine, triv_invert, ih]
  | rep m lo hi a ih => simp [invert, oneFine, ih]
  | set l ih =>
    rw [Bool.eq_iff_iff]
    simp only [invert, oneFine, onesFine_iff, invertAll_eq, Bool.and_eq_true, List.all_eq_true, List.mem_map, forall_exists_index, and_imp, forall_apply_eq_imp_iff₂]
    refine and_congr (forall_congr' fun a => forall_congr' fun ha => by rw [triv_invert]) (forall_congr' fun a => forall_congr' fun ha => by rw [ih a ha])
  | _ => simp [invert, oneFine]

theorem shortSeqs_invert (a : Ast) : ShortSeqs (invert a) ↔ ShortSeqs a := by
  induction a using ind with
  | seq l ih =>
    simp only [invert, ShortSeqs, shortSeqsAll_iff, invertAll_eq, List.length_reverse, List.length_map, List.mem_reverse, List.mem_map, forall_exists_index, and_imp, forall_apply_eq_imp_iff₂]
    exact and_congr Iff.rfl (forall_congr' fun a => forall_congr' fun ha => ih a ha)
  | alt l ih =>
    simp only [invert, ShortSeqs, shortSeqsAll_iff, invertAll_eq, List.mem_map, forall_exists_index, and_imp, forall_apply_eq_imp_iff₂]
    exact forall_congr' fun a => forall_congr' fun ha => ih a ha
  | look d a ih => cases d <;> simp [invert, ShortSeqs]
  | neg a ih => simpa [invert, ShortSeqs] using ih
  | cap _ _ a ih => simpa [invert, ShortSeqs] using ih
  | rep m lo hi a ih => simpa [invert, ShortSeqs] using ih
  | _ => simp [invert, ShortSeqs]

theorem countsFit_invert (a : Ast) : CountsFit (invert a) ↔ CountsFit a := by
  induction a using ind with
  | seq l ih =>
    simp only [invert, CountsFit, countsFits_iff, invertAll_eq, List.mem_reverse, List.mem_map, forall_exists_index, and_imp, forall_apply_eq_imp_iff₂]
    exact forall_congr' fun a => forall_congr' fun ha => ih a ha
  | alt l ih =>
    simp only [invert, CountsFit, countsFits_iff, invertAll_eq, List.mem_map, forall_exists_index, and_imp, forall_apply_eq_imp_iff₂]
    exact forall_congr' fun a => forall_congr' fun ha => ih a ha
  | look d a ih => cases d <;> simp [invert, CountsFit]
  | neg a ih => simpa [invert, CountsFit] using ih
  | cap _ _ a ih => simpa [invert, CountsFit] using ih
  | rep m lo hi a ih => simp only [invert, CountsFit, triv_invert, ih]
  | _ => simp [invert, CountsFit]

theorem noZero_invert (a : Ast) : NoZero (invert a) ↔ NoZero a := by
  induction a using ind with
  | seq l ih =>
    simp only [invert, NoZero, noZeros_iff, invertAll_eq, List.mem_reverse, List.mem_map, forall_exists_index, and_imp, forall_apply_eq_imp_iff₂]
    exact forall_congr' fun a => forall_congr' fun ha => ih a ha
  | alt l ih =>
    simp only [invert, NoZero, noZeros_iff, invertAll_eq, List.mem_map, forall_exists_index, and_imp, forall_apply_eq_imp_iff₂]
    exact forall_congr' fun a => forall_congr' fun ha => ih a ha
  | look d a ih => cases d <;> simp [invert, NoZero]
  | neg a ih => simpa [invert, NoZero] using ih
  | cap _ _ a ih => simpa [invert, NoZero] using ih
  | rep m lo hi a ih => simp only [invert, NoZero, ih]
  | _ => simp [invert, NoZero]

/-! ### Parts that take one character -/

theorem ok_of_oneFine {E : Env} {r : Nat} (a : Ast) : triv a = true → oneFine a = true → Ok E r a := by
  induction a using ind with
  | seq l ih =>
    intro ht hf
    simp only [oneFine, onesFine_iff] at hf
    simp only [triv, trivSingle_eq, Bool.and_eq_true, List.all_eq_true, beq_iff_eq] at ht
    exact .seq (by rintro rfl; simp at ht) fun a ha => ih a ha (ht.2 a ha) (hf a ha)
  | alt l ih =>
    intro ht hf
    simp only [oneFine, onesFine_iff] at hf
    simp only [triv, trivAlt_eq, Bool.and_eq_true, List.all_eq_true] at ht
    exact .alt (by rintro rfl; simp at ht) fun a ha => ih a ha (ht.2 a ha) (hf a ha)
  | set l ih =>
    intro _ hf
    simp only [oneFine, onesFine_iff, Bool.and_eq_true, List.all_eq_true] at hf
    exact .set hf.1 fun a ha => ih a ha (hf.1 a ha) (hf.2 a ha)
  | neg a ih =>
    intro _ hf
    simp only [oneFine, Bool.and_eq_true] at hf
    exact .neg (.inl hf.1) (ih hf.1 hf.2)
  | rep m lo hi a ih =>
    intro ht hf
    simp only [triv, Bool.and_eq_true, beq_iff_eq] at ht
    obtain ⟨⟨rfl, rfl⟩, ht⟩ := ht
    exact .repFin (Nat.le_refl _) (ih ht hf)
  | lit c => intro _ _; exact .lit
  | range x y => intro _ hf; exact .range (by simpa [oneFine] using hf)
  | wildcard => intro _ _; exact .wildcard
  | _ => intro ht; simp [triv] at ht

theorem oneFine_of_ok {E : Env} {r : Nat} (a : Ast) : triv a = true → Ok E r a → oneFine a = true := by
  induction a using ind with
  | seq l ih =>
    intro ht ho
    cases ho with
    | seq _ ho =>
      simp only [triv, trivSingle_eq, Bool.and_eq_true, List.all_eq_true, beq_iff_eq] at ht
      simp only [oneFine, onesFine_iff]
      exact fun a ha => ih a ha (ht.2 a ha) (ho a ha)
  | alt l ih =>
    intro ht ho
    cases ho with
    | alt _ ho =>
      simp only [triv, trivAlt_eq, Bool.and_eq_true, List.all_eq_true] at ht
      simp only [oneFine, onesFine_iff]
      exact fun a ha => ih a ha (ht.2 a ha) (ho a ha)
  | set l ih =>
    intro _ ho
    cases ho with
    | set h1 h2 =>
      simp only [oneFine, onesFine_iff, Bool.and_eq_true, List.all_eq_true]
      exact ⟨h1, fun a ha => ih a ha (h1 a ha) (h2 a ha)⟩
  | neg a ih =>
    intro ht ho
    simp only [triv, Bool.not_eq_true'] at ht
    cases ho with
    | neg h1 h2 =>
      have h1 : triv a = true := by simpa [ht] using h1
      simp only [oneFine, Bool.and_eq_true]
      exact ⟨h1, ih h1 h2⟩
  | rep m lo hi a ih =>
    intro ht ho
    simp only [triv, Bool.and_eq_true, beq_iff_eq] at ht
    simp only [oneFine]
    cases ho with
    | repFin _ h => exact ih ht.2 h
    | repInf h => exact ih ht.2 h
  | range x y =>
    intro _ ho
    cases ho with
    | range h => simpa [oneFine] using h
  | _ => intro ht; simp_all [triv, oneFine]

theorem countsFit_of_one (a : Ast) : triv a = true → oneFine a = true → CountsFit a := by
  induction a using ind with
  | seq l ih =>
    intro ht hf
    simp only [oneFine, onesFine_iff] at hf
    simp only [triv, trivSingle_eq, Bool.and_eq_true, List.all_eq_true, beq_iff_eq] at ht
    simp only [CountsFit, countsFits_iff]
    exact fun a ha => ih a ha (ht.2 a ha) (hf a ha)
  | alt l ih =>
    intro ht hf
    simp only [oneFine, onesFine_iff] at hf
    simp only [triv, trivAlt_eq, Bool.and_eq_true, List.all_eq_true] at ht
    simp only [CountsFit, countsFits_iff]
    exact fun a ha => ih a ha (ht.2 a ha) (hf a ha)
  | neg a ih =>
    intro _ hf
    simp only [oneFine, Bool.and_eq_true] at hf
    exact ih hf.1 hf.2
  | rep m lo hi a ih =>
    intro ht hf
    simp only [triv, Bool.and_eq_true, beq_iff_eq] at ht
    exact ⟨fun _ => by rw [ht.1.1]; decide, ih ht.2 hf⟩
  | _ => intro ht; simp_all [triv, CountsFit]

/-! ### Everything that is called -/

theorem Spec.FullyFine.of_calls {S : InstSettings} {E : Env} {x : Inst} (h : x.fine E = true) (hn : ∀ y ∈ x.needs S, FullyFine S E y) : FullyFine S E x := by
  have key : ∀ z, Needed S x z → z = x ∨ ∃ y ∈ x.needs S, Needed S y z := by
    intro z hz
    induction hz with
    | root => exact .inl rfl
    | call _ hm ih =>
      rcases ih with rfl | ⟨y, hy, hyz⟩
      · exact .inr ⟨_, hm, .root⟩
      · exact .inr ⟨y, hy, .call hyz hm⟩
  intro z hz
  rcases key z hz with rfl | ⟨y, hy, hyz⟩
  · exact h
  · exact hn y hy z hyz

theorem Spec.FullyFine.here {S : InstSettings} {E : Env} {x : Inst} (h : FullyFine S E x) : x.fine E = true := h x .root

theorem Spec.FullyFine.call {S : InstSettings} {E : Env} {x y : Inst} (h : FullyFine S E x) (hy : y ∈ x.needs S) : FullyFine S E y := by
  have key : ∀ z, Needed S y z → Needed S x z := by
    intro z hz
    induction hz with
    | root => exact .call .root hy
    | call _ hm ih => exact .call ih hm
  exact fun z hz => h z (key z hz)

/-- A function that calls itself. -/
theorem Spec.FullyFine.loop {S : InstSettings} {E : Env} {x y : Inst} (hx : x.fine E = true) (h : x.needs S = [y, x]) (hy : FullyFine S E y) : FullyFine S E x := by
  have key : ∀ z, Needed S x z → z = x ∨ Needed S y z := by
    intro z hz
    induction hz with
    | root => exact .inl rfl
    | call _ hm ih =>
      rcases ih with rfl | hyz
      · rw [h] at hm
        simp only [List.mem_cons, List.not_mem_nil, or_false] at hm
        rcases hm with rfl | rfl
        · exact .inr .root
        · exact .inl rfl
      · exact .inr (.call hyz hm)
  intro z hz
  rcases key z hz with rfl | hyz
  · exact hx
  · exact hy z hyz

/-! ### Quantifiers -/

section
variable {S : InstSettings} {E : Env} {x : Ast} {r : Nat} (hb : ∀ k, FullyFine S E ⟨.node (home x), r, k⟩)
include hb

theorem greedy_fine (m : Mode) (lo : Nat) (hi : Bound) (k : ContT) : ∀ b, FullyFine S E ⟨.greedy (.rep m lo hi x) b, r, k⟩
  | .inf => FullyFine.loop rfl (y := ⟨.node (home x), r, _⟩) rfl (hb _)
  | .fin 0 => FullyFine.of_calls rfl (by intro y hy; simp [Inst.needs] at hy)
  | .fin (n + 1) => FullyFine.of_calls rfl (by
      intro y hy
      have h : y ∈ [⟨.node (home x), r, .lam .guard (.rep m lo hi x) r (.lam (.greedy (.fin (n + 1))) (.rep m lo hi x) r k)⟩, (⟨.greedy (.rep m lo hi x) (.fin n), r, k⟩ : Inst)] := hy
      simp only [List.mem_cons, List.not_mem_nil, or_false] at h
      rcases h with rfl | rfl
      · exact hb _
      · exact greedy_fine m lo hi k (.fin n))

theorem lazy_fine (m : Mode) (lo : Nat) (hi : Bound) (k : ContT) : ∀ b, FullyFine S E ⟨.lazy (.rep m lo hi x) b, r, k⟩
  | .inf => FullyFine.loop rfl (y := ⟨.node (home x), r, _⟩) rfl (hb _)
  | .fin 0 => FullyFine.of_calls rfl (by intro y hy; simp [Inst.needs] at hy)
  | .fin (n + 1) => FullyFine.of_calls rfl (by
      intro y hy
      have h : y ∈ [⟨.node (home x), r, .lam .guard (.rep m lo hi x) r (.lam (.lazy (.fin (n + 1))) (.rep m lo hi x) r k)⟩, (⟨.lazy (.rep m lo hi x) (.fin n), r, k⟩ : Inst)] := hy
      simp only [List.mem_cons, List.not_mem_nil, or_false] at h
      rcases h with rfl | rfl
      · exact hb _
      · exact lazy_fine m lo hi k (.fin n))

theorem between_fine (m : Mode) (lo : Nat) (hi : Bound) (k : ContT) : ∀ y ∈ betweenNeeds S m lo hi x r k, FullyFine S E y := by
  intro y hy
  unfold betweenNeeds at hy
  split at hy
  · split at hy
    · cases hy
    · simp only [List.mem_cons, List.not_mem_nil, or_false] at hy; subst hy; exact hb _
  · split at hy
    · split at hy
      · cases hy
      · simp only [List.mem_cons, List.not_mem_nil, or_false] at hy; subst hy; exact greedy_fine hb _ _ _ _ _
    · split at hy
      · cases hy
      · simp only [List.mem_cons, List.not_mem_nil, or_false] at hy; subst hy; exact lazy_fine hb _ _ _ _ _

theorem fixed_fine (ho : triv x = true → oneFine x = true) : ∀ (n : Nat), (triv x = true → n < 2 ^ 63) → ∀ (m : Mode) (k : ContT), FullyFine S E ⟨.node (home (.rep m n (.fin n) x)), r, k⟩
  | 0, _, m, k => by
    rw [show home (.rep m 0 (.fin 0) x) = .empty from by simp [home]]
    exact FullyFine.of_calls rfl (by intro y hy; simp [Inst.needs] at hy)
  | 1, _, m, k => by
    by_cases h : m ≠ .possessive ∨ triv x = true
    · rw [show home (.rep m 1 (.fin 1) x) = home x from by simp [home, h]]
      exact hb k
    · rw [show home (.rep m 1 (.fin 1) x) = .rep m 1 (.fin 1) x from by simp [home, h]]
      have hn : Inst.needs S ⟨.node (.rep m 1 (.fin 1) x), r, k⟩ = [⟨.node (home x), r, if m = .possessive then .success r else k⟩] := by
        simp [Inst.needs, fixedNeeds]
      have ht : triv x = false := by simpa using (not_or.mp h).2
      refine FullyFine.of_calls (by simp [Inst.fine, Bound.below, ht]) ?_
      rw [hn]
      intro y hy
      simp only [List.mem_cons, List.not_mem_nil, or_false] at hy
      subst hy
      exact hb _
  | n + 2, hc, m, k => by
    rw [show home (.rep m (n + 2) (.fin (n + 2)) x) = .rep m (n + 2) (.fin (n + 2)) x from by simp [home]]
    refine FullyFine.of_calls ?_ ?_
    · simp only [Inst.fine, Bound.below, Nat.lt_irrefl, decide_false, Bool.not_false, Bool.true_and]
      cases ht : triv x with
      | false => rfl
      | true =>
        have h1 := hc ht
        simp only [ho ht, distanceFits, h1]
        simp
    · simp only [Inst.needs, if_true, fixedNeeds, show n + 2 ≠ 1 from by omega, if_false, Nat.add_sub_cancel]
      intro y hy
      split at hy
      · cases hy
      · split at hy
        · simp only [List.mem_cons, List.not_mem_nil, or_false] at hy
          rcases hy with rfl | rfl
          · exact hb _
          · exact fixed_fine ho (n + 1) (fun ht => by have := hc ht; omega) _ _
        · simp only [List.mem_cons, List.not_mem_nil, or_false] at hy
          rcases hy with rfl | rfl <;> exact hb _

theorem rep_fine (ho : triv x = true → oneFine x = true) (m : Mode) (lo : Nat) (hi : Bound) (hv : hi.below lo = false) (hc : triv x = true → lo < 2 ^ 63) (k : ContT) :
    FullyFine S E ⟨.node (home (.rep m lo hi x)), r, k⟩ := by
  by_cases h : hi = .fin lo
  · subst h
    exact fixed_fine hb ho lo hc m k
  · have hh : home (.rep m lo hi x) = .rep m lo hi x := by
      simp only [home]
      rw [if_neg (fun hc => h (by rw [hc.2, hc.1])), if_neg (fun hc => h (by rw [hc.2.1, hc.1]))]
    rw [hh]
    refine FullyFine.of_calls ?_ ?_
    · simp only [Inst.fine, hv, Bool.not_false, Bool.true_and]
      cases ht : triv x with
      | false => rfl
      | true => simp [ho ht, h]
    · simp only [Inst.needs, if_neg h, hv, Bool.false_eq_true, if_false]
      intro y hy
      split at hy
      · exact between_fine hb _ _ _ _ y hy
      · rcases List.mem_cons.mp hy with rfl | hy
        · exact fixed_fine hb ho lo hc _ _
        · exact between_fine hb _ _ _ _ y hy
end

/-! ### Programs that are in order -/

theorem ok_below {E : Env} {r : Nat} {m : Mode} {lo : Nat} {hi : Bound} {x : Ast} (h : Ok E r (.rep m lo hi x)) : hi.below lo = false ∧ Ok E r x := by
  cases h with
  | repFin h1 h2 => exact ⟨by simp [Bound.below]; omega, h2⟩
  | repInf h => exact ⟨rfl, h⟩

theorem assertFine_of_ok {E : Env} : ∀ (a : Ast) (r : Nat), Ok E r a → assertFine E a = true
  | .bol, _, h => by cases h with | bol h => cases hm : E.flags.multiline <;> simp_all [assertFine]
  | .wordB, _, h => by cases h with | wordB h => simpa [assertFine] using h
  | .look .ahead a, r, h => by
    cases h with
    | ahead h =>
      cases ht : triv a with
      | false => simp [assertFine, ht]
      | true => simp [assertFine, oneFine_of_ok a ht h]
  | .look .behind a, r, h => by
    cases h with
    | behindTriv h1 h2 h => simp [assertFine, h1, oneFine_of_ok a h2 h]
    | behind h1 h =>
      cases ht : triv a with
      | false => simp [assertFine, ht, h1]
      | true =>
        have := oneFine_of_ok (invert a) (by rw [triv_invert, ht]) h
        rw [oneFine_invert] at this
        simp [assertFine, h1, this]
  | .neg a, r, h => by cases h with | neg _ h => exact assertFine_of_ok a r h
  | .seq [a], r, h => by cases h with | seq _ h => exact assertFine_of_ok a r (h a (by simp))
  | .alt [a], r, h => by cases h with | alt _ h => exact assertFine_of_ok a r (h a (by simp))
  | .rep m lo hi a, r, h => by
    have := assertFine_of_ok a r (ok_below h).2
    simpa [assertFine] using this
  | .seq [], _, _ | .seq (_ :: _ :: _), _, _ | .alt [], _, _ | .alt (_ :: _ :: _), _, _ | .set _, _, _ | .cap _ _ _, _, _ | .empty, _, _ | .lit _, _, _ | .range _ _, _, _ | .wildcard, _, _
  | .boi, _, _ | .eol, _, _ | .eoi, _, _ | .backref _, _, _ | .namedBackref _, _, _ => by simp [assertFine]

/-- In order, for a smaller tree. -/
def FineBelow (S : InstSettings) (E : Env) (N : Nat) : Prop :=
  ∀ a, nodeCount a < N → ∀ r, Ok E r a → ShortSeqs a → CountsFit a → ∀ k, FullyFine S E ⟨.node (home a), r, k⟩

theorem assertNeeds_fine {S : InstSettings} {E : Env} (N : Nat) (ih : FineBelow S E N) :
    ∀ a : Ast, nodeCount a ≤ N → ∀ r, Ok E r a → ShortSeqs a → CountsFit a → ∀ y ∈ assertNeeds r a, FullyFine S E y
  | .look .ahead a, h, r, ho, hs, hc => by
    simp only [nodeCount] at h
    simp only [assertNeeds]
    intro y hy
    split at hy
    · cases hy
    · simp only [List.mem_cons, List.not_mem_nil, or_false] at hy
      subst hy
      cases ho with | ahead ho => exact ih a (by omega) r ho hs hc _
  | .look .behind a, h, r, ho, hs, hc => by
    simp only [nodeCount] at h
    simp only [assertNeeds]
    intro y hy
    split at hy
    · cases hy
    · rename_i ht
      simp only [List.mem_cons, List.not_mem_nil, or_false] at hy
      subst hy
      cases ho with
      | behindTriv _ h2 _ => exact absurd h2 ht
      | behind _ ho => exact ih (invert a) (by rw [nodeCount_invert]; omega) (r + 1) ho ((shortSeqs_invert a).2 hs) ((countsFit_invert a).2 hc) _
  | .neg a, h, r, ho, hs, hc => by
    simp only [nodeCount] at h
    simp only [assertNeeds]
    cases ho with | neg _ ho => exact assertNeeds_fine N ih a (by omega) r ho hs hc
  | .seq [a], h, r, ho, hs, hc => by
    simp only [nodeCount, nodeCounts] at h
    simp only [assertNeeds]
    cases ho with | seq _ ho => exact assertNeeds_fine N ih a (by omega) r (ho a (by simp)) hs.2.1 hc.1
  | .alt [a], h, r, ho, hs, hc => by
    simp only [nodeCount, nodeCounts] at h
    simp only [assertNeeds]
    cases ho with | alt _ ho => exact assertNeeds_fine N ih a (by omega) r (ho a (by simp)) hs.1 hc.1
  | .rep m lo hi a, h, r, ho, hs, hc => by
    simp only [nodeCount] at h
    simp only [assertNeeds]
    intro y hy
    split at hy
    · exact assertNeeds_fine N ih a (by omega) r (ok_below ho).2 hs hc.2 y hy
    · cases hy
  | .seq [], _, _, _, _, _ | .seq (_ :: _ :: _), _, _, _, _, _ | .alt [], _, _, _, _, _ | .alt (_ :: _ :: _), _, _, _, _, _ | .set _, _, _, _, _, _ | .cap _ _ _, _, _, _, _, _ | .empty, _, _, _, _, _ | .lit _, _, _, _, _, _
  | .range _ _, _, _, _, _, _ | .wildcard, _, _, _, _, _ | .bol, _, _, _, _, _ | .boi, _, _, _, _, _ | .eol, _, _, _, _, _ | .eoi, _, _, _, _, _ | .wordB, _, _, _, _, _ | .backref _, _, _, _, _, _
  | .namedBackref _, _, _, _, _, _ => by
    simp [assertNeeds]

theorem Spec.FullyFine.none {S : InstSettings} {E : Env} {x : Inst} (hn : x.needs S = []) (h : x.fine E = true) : FullyFine S E x :=
  FullyFine.of_calls h (by rw [hn]; intro y hy; cases hy)

theorem fine_of_ok (S : InstSettings) (E : Env) : ∀ N, FineBelow S E N
  | 0 => fun a h => absurd h (Nat.not_lt_zero _)
  | N + 1 => by
    have ih := fine_of_ok S E N
    intro a h r ho hs hc k
    match a, h, ho, hs, hc with
    | .seq [], _, ho, hs, hc => cases ho with | seq h _ => exact absurd rfl h
    | .seq [x], h, ho, hs, hc =>
      simp only [nodeCount, nodeCounts] at h
      cases ho with | seq _ ho => exact ih x (by omega) r (ho x (by simp)) hs.2.1 hc.1 k
    | .seq (x :: y :: l), h, ho, hs, hc =>
      have h1 := nodeCount_pos x
      simp only [nodeCount, nodeCounts] at h
      cases ho with
      | seq _ ho =>
      have hx := ih x (by omega) r (ho x (by simp)) hs.2.1 hc.1
      have hr := ih (.seq (y :: l)) (by simp only [nodeCount, nodeCounts]; omega) r (.seq (by simp) fun a ha => ho a (List.mem_cons_of_mem _ ha)) ⟨by have := hs.1; simp at this ⊢; omega, hs.2.2⟩ hc.2
      refine FullyFine.of_calls ?_ ?_
      · simp only [home, Inst.fine, List.isEmpty_cons, Bool.not_false, Bool.true_and]
        cases ht : areTriv (x :: y :: l) with
        | false => rfl
        | true =>
          simp only [areTriv, List.all_eq_true] at ht
          simp only [Bool.not_true, Bool.false_or, Bool.and_eq_true, onesFine_iff, distanceFits, decide_eq_true_eq]
          exact ⟨fun a ha => oneFine_of_ok a (ht a ha) (ho a ha), hs.1⟩
      · simp only [home, Inst.needs]
        intro z hz
        split at hz
        · cases hz
        · simp only [List.mem_cons, List.not_mem_nil, or_false] at hz
          rcases hz with rfl | rfl
          · exact hx _
          · exact hr _
    | .alt [], _, ho, hs, hc => cases ho with | alt h _ => exact absurd rfl h
    | .alt [x], h, ho, hs, hc =>
      simp only [nodeCount, nodeCounts] at h
      cases ho with | alt _ ho => exact ih x (by omega) r (ho x (by simp)) hs.1 hc.1 k
    | .alt (x :: y :: l), h, ho, hs, hc =>
      have h1 := nodeCount_pos x
      simp only [nodeCount, nodeCounts] at h
      cases ho with
      | alt _ ho =>
      have hx := ih x (by omega) r (ho x (by simp)) hs.1 hc.1
      have hr := ih (.alt (y :: l)) (by simp only [nodeCount, nodeCounts]; omega) r (.alt (by simp) fun a ha => ho a (List.mem_cons_of_mem _ ha)) hs.2 hc.2
      simp only [home]
      split
      · rename_i ht
        refine FullyFine.none rfl ?_
        simp only [areTriv, List.all_eq_true] at ht
        simp only [Inst.fine, oneFine, onesFine_iff, Bool.and_eq_true, List.all_eq_true]
        exact ⟨ht, fun a ha => oneFine_of_ok a (ht a ha) (ho a ha)⟩
      · refine FullyFine.of_calls rfl ?_
        intro z hz
        have hz : z ∈ [⟨.node (home x), r, k⟩, (⟨.node (home (.alt (y :: l))), r, k⟩ : Inst)] := hz
        simp only [List.mem_cons, List.not_mem_nil, or_false] at hz
        rcases hz with rfl | rfl
        · exact hx _
        · exact hr _
    | .cap id name x, h, ho, hs, hc =>
      simp only [nodeCount] at h
      cases ho with
      | cap h1 h2 ho =>
      refine FullyFine.of_calls (by simp [home, Inst.fine, h1, h2]) ?_
      intro z hz
      have hz : z ∈ [(⟨.node (home x), r, .lam .cap (.cap id name x) r k⟩ : Inst)] := hz
      simp only [List.mem_cons, List.not_mem_nil, or_false] at hz
      subst hz
      exact ih x (by omega) r ho hs hc _
    | .look d x, h, ho, hs, hc =>
      simp only [nodeCount] at h
      exact FullyFine.of_calls (assertFine_of_ok _ r ho) (fun z hz => assertNeeds_fine N ih (.look d x) (by simp only [nodeCount]; omega) r ho hs hc z hz)
    | .neg x, h, ho, hs, hc =>
      simp only [nodeCount] at h
      cases ho with
      | neg h1 ho =>
      cases ha : isAssertion x with
      | true =>
        refine FullyFine.of_calls (by simp [home, Inst.fine, ha, assertFine_of_ok _ r ho]) ?_
        simp only [home, Inst.needs, ha, if_true]
        exact fun z hz => assertNeeds_fine N ih x (by omega) r ho hs hc z hz
      | false =>
        have ht : triv x = true := by simpa [ha] using h1
        exact FullyFine.none (by simp [home, Inst.needs, ha]) (by simp [home, Inst.fine, ha, ht, oneFine_of_ok x ht ho])
    | .rep m lo hi x, h, ho, hs, hc =>
      simp only [nodeCount] at h
      obtain ⟨h1, ho⟩ := ok_below ho
      exact rep_fine (ih x (by omega) r ho hs hc.2) (fun ht => oneFine_of_ok x ht ho) m lo hi h1 hc.1 k
    | .set l, _, ho, hs, hc => exact FullyFine.none rfl (oneFine_of_ok (.set l) rfl ho)
    | .range x y, _, ho, hs, hc => exact FullyFine.none rfl (oneFine_of_ok (.range x y) rfl ho)
    | .bol, _, ho, hs, hc => exact FullyFine.none rfl (assertFine_of_ok _ r ho)
    | .wordB, _, ho, hs, hc => exact FullyFine.none rfl (assertFine_of_ok _ r ho)
    | .backref _, _, ho, hs, hc => cases ho with | backref h1 h2 => exact FullyFine.none rfl (by simp [home, Inst.fine, h1, h2])
    | .namedBackref _, _, ho, hs, hc => cases ho with | namedBackref h1 h2 => exact FullyFine.none rfl (by simp [home, Inst.fine, h1, h2])
    | .empty, _, _, hs, hc | .lit _, _, _, hs, hc | .wildcard, _, _, hs, hc | .boi, _, _, hs, hc | .eol, _, _, hs, hc | .eoi, _, _, hs, hc => exact FullyFine.none rfl rfl

/-! ### Nothing less -/

/-- What a part brings: it takes one character and is in order, or its `match` is called. -/
def Brings (S : InstSettings) (E : Env) (x : Ast) (r : Nat) : Prop := (triv x = true ∧ oneFine x = true) ∨ ∃ k, FullyFine S E ⟨.node (home x), r, k⟩

theorem fixed_brings {S : InstSettings} {E : Env} {x : Ast} {r : Nat} (m : Mode) (k : ContT) :
    ∀ n, n ≠ 0 → FullyFine S E ⟨.node (home (.rep m n (.fin n) x)), r, k⟩ → (triv x = true → n < 2 ^ 63) ∧ Brings S E x r
  | 0, h, _ => absurd rfl h
  | 1, _, hf => by
    refine ⟨fun _ => by decide, .inr ?_⟩
    by_cases h : m ≠ .possessive ∨ triv x = true
    · rw [show home (.rep m 1 (.fin 1) x) = home x from by simp [home, h]] at hf
      exact ⟨k, hf⟩
    · rw [show home (.rep m 1 (.fin 1) x) = .rep m 1 (.fin 1) x from by simp [home, h]] at hf
      have hn : Inst.needs S ⟨.node (.rep m 1 (.fin 1) x), r, k⟩ = [⟨.node (home x), r, if m = .possessive then .success r else k⟩] := by
        simp [Inst.needs, fixedNeeds]
      exact ⟨_, hf.call (by rw [hn]; exact List.mem_cons_self ..)⟩
  | n + 2, _, hf => by
    rw [show home (.rep m (n + 2) (.fin (n + 2)) x) = .rep m (n + 2) (.fin (n + 2)) x from by simp [home]] at hf
    have h1 := hf.here
    cases ht : triv x with
    | true =>
      simp only [Inst.fine, ht, Bool.and_eq_true, Bool.not_true, Bool.false_or, distanceFits, decide_eq_true_eq, bne_self_eq_false] at h1
      exact ⟨fun _ => h1.2.2, .inl ⟨ht, h1.2.1⟩⟩
    | false =>
      refine ⟨fun h => absurd h (by simp), Or.inr ?_⟩
      by_cases hu : S.unroll = true
      · exact ⟨_, hf.call (y := ⟨.node (home x), r, _⟩) (by
          simp only [Inst.needs, if_true, fixedNeeds, show n + 2 ≠ 1 from by omega, if_false, ht, Bool.false_eq_true, hu]
          exact List.mem_cons_self ..)⟩
      · exact ⟨_, hf.call (y := ⟨.node (home x), r, _⟩) (by
          simp only [Inst.needs, if_true, fixedNeeds, show n + 2 ≠ 1 from by omega, if_false, ht, Bool.false_eq_true, hu]
          exact List.mem_cons_self ..)⟩

theorem between_brings {S : InstSettings} {E : Env} {x : Ast} {r : Nat} (m : Mode) (lo : Nat) (hi : Bound) (k : ContT) (ht : triv x = false) (hne : hi.minus lo ≠ .fin 0)
    (h : ∀ y ∈ betweenNeeds S m lo hi x r k, FullyFine S E y) : Brings S E x r := by
  refine .inr ?_
  unfold betweenNeeds at h
  simp only [ht, Bool.false_and, Bool.false_eq_true, if_false] at h
  generalize hi.minus lo = b at h hne
  split at h
  · exact ⟨_, h _ (List.mem_cons_self ..)⟩
  · split at h
    · have h1 := h _ (List.mem_cons_self ..)
      match b, hne with
      | .fin 0, hne => exact absurd rfl hne
      | .fin (n + 1), _ => exact ⟨_, h1.call (y := ⟨.node (home x), r, _⟩) (List.mem_cons_self ..)⟩
      | .inf, _ => exact ⟨_, h1.call (y := ⟨.node (home x), r, _⟩) (List.mem_cons_self ..)⟩
    · have h1 := h _ (List.mem_cons_self ..)
      match b, hne with
      | .fin 0, hne => exact absurd rfl hne
      | .fin (n + 1), _ => exact ⟨_, h1.call (y := ⟨.node (home x), r, _⟩) (List.mem_cons_self ..)⟩
      | .inf, _ => exact ⟨_, h1.call (y := ⟨.node (home x), r, _⟩) (List.mem_cons_self ..)⟩

theorem rep_brings {S : InstSettings} {E : Env} {x : Ast} {r : Nat} (m : Mode) (lo : Nat) (hi : Bound) (k : ContT) (hz : ¬(lo = 0 ∧ hi = .fin 0))
    (hf : FullyFine S E ⟨.node (home (.rep m lo hi x)), r, k⟩) : hi.below lo = false ∧ (triv x = true → lo < 2 ^ 63) ∧ Brings S E x r := by
  by_cases h : hi = .fin lo
  · subst h
    exact ⟨by simp [Bound.below], fixed_brings m k lo (fun h => hz ⟨h, by rw [h]⟩) hf⟩
  · have hh : home (.rep m lo hi x) = .rep m lo hi x := by
      simp only [home]
      rw [if_neg (fun hc => h (by rw [hc.2, hc.1])), if_neg (fun hc => h (by rw [hc.2.1, hc.1]))]
    rw [hh] at hf
    have h1 := hf.here
    simp only [Inst.fine, Bool.and_eq_true, Bool.not_eq_true'] at h1
    refine ⟨h1.1, ?_⟩
    have hc : ∀ y ∈ Inst.needs S ⟨.node (.rep m lo hi x), r, k⟩, FullyFine S E y := fun y hy => hf.call hy
    simp only [Inst.needs, if_neg h, h1.1, Bool.false_eq_true, if_false] at hc
    refine ⟨fun ht => ?_, ?_⟩
    · by_cases h0 : lo = 0
      · omega
      · simp only [if_neg h0] at hc
        exact (fixed_brings m _ lo h0 (hc _ (List.mem_cons_self ..))).1 ht
    · cases ht : triv x with
      | true =>
        have h2 := h1.2
        simp only [ht, Bool.not_true, Bool.false_or, Bool.and_eq_true] at h2
        exact .inl ⟨ht, h2.1⟩
      | false =>
        refine between_brings m lo hi k ht ?_ ?_
        · cases hi with
          | inf => simp [Bound.minus]
          | fin b =>
            have h3 := h1.1
            simp only [Bound.below, decide_eq_false_iff_not, Nat.not_lt] at h3
            simp only [Bound.fin.injEq] at h
            simp only [Bound.minus, ne_eq, Bound.fin.injEq]
            omega
        · intro y hy
          refine hc y ?_
          split
          · exact hy
          · exact List.mem_cons_of_mem _ hy

/-- Nothing less, for a smaller tree. -/
def OkBelow (S : InstSettings) (E : Env) (N : Nat) : Prop :=
  ∀ a, nodeCount a < N → NoZero a → ∀ r k, FullyFine S E ⟨.node (home a), r, k⟩ → Ok E r a ∧ CountsFit a

theorem OkBelow.of_brings {S : InstSettings} {E : Env} {N : Nat} (ih : OkBelow S E N) {x : Ast} (h : nodeCount x < N) (hz : NoZero x) {r : Nat} (hb : Brings S E x r) : Ok E r x ∧ CountsFit x := by
  rcases hb with ⟨h1, h2⟩ | ⟨k, hf⟩
  · exact ⟨ok_of_oneFine x h1 h2, countsFit_of_one x h1 h2⟩
  · exact ih x h hz r k hf

theorem ok_of_assert {S : InstSettings} {E : Env} (N : Nat) (ih : OkBelow S E N) :
    ∀ a : Ast, nodeCount a ≤ N → NoZero a → isAssertion a = true → ∀ r, assertFine E a = true → (∀ y ∈ assertNeeds r a, FullyFine S E y) → Ok E r a ∧ CountsFit a
  | .look .ahead a, h, hz, _, r, hf, hn => by
    simp only [nodeCount] at h
    simp only [assertNeeds] at hn
    have hb : Brings S E a r := by
      cases ht : triv a with
      | true => exact .inl ⟨ht, by simpa [assertFine, ht] using hf⟩
      | false =>
        simp only [ht, Bool.false_eq_true, if_false] at hn
        exact .inr ⟨_, hn _ (List.mem_cons_self ..)⟩
    have := ih.of_brings (x := a) (by omega) hz hb
    exact ⟨.ahead this.1, this.2⟩
  | .look .behind a, h, hz, _, r, hf, hn => by
    simp only [nodeCount] at h
    simp only [assertNeeds] at hn
    simp only [assertFine, Bool.and_eq_true] at hf
    have hc : E.cat ≠ .forward := by simpa using hf.1
    cases ht : triv a with
    | true =>
      have ho : oneFine a = true := by simpa [ht] using hf.2
      exact ⟨.behindTriv hc ht (ok_of_oneFine a ht ho), countsFit_of_one a ht ho⟩
    | false =>
      simp only [ht, Bool.false_eq_true, if_false] at hn
      have := ih (invert a) (by rw [nodeCount_invert]; omega) ((noZero_invert a).2 hz) (r + 1) _ (hn _ (List.mem_cons_self ..))
      exact ⟨.behind hc this.1, (countsFit_invert a).1 this.2⟩
  | .neg a, h, hz, ha, r, hf, hn => by
    simp only [nodeCount] at h
    have ha : isAssertion a = true := by simpa [isAssertion] using ha
    have := ok_of_assert N ih a (by omega) hz ha r (by simpa [assertFine] using hf) (by simpa [assertNeeds] using hn)
    exact ⟨.neg (.inr ha) this.1, this.2⟩
  | .seq [a], h, hz, ha, r, hf, hn => by
    simp only [nodeCount, nodeCounts] at h
    have := ok_of_assert N ih a (by omega) hz.1 (by simpa [isAssertion] using ha) r (by simpa [assertFine] using hf) (by simpa [assertNeeds] using hn)
    exact ⟨.seq (by simp) (by simpa using this.1), this.2, trivial⟩
  | .alt [a], h, hz, ha, r, hf, hn => by
    simp only [nodeCount, nodeCounts] at h
    have := ok_of_assert N ih a (by omega) hz.1 (by simpa [isAssertion] using ha) r (by simpa [assertFine] using hf) (by simpa [assertNeeds] using hn)
    exact ⟨.alt (by simp) (by simpa using this.1), this.2, trivial⟩
  | .rep m lo hi a, h, hz, ha, r, hf, hn => by
    simp only [nodeCount] at h
    simp only [isAssertion, Bool.and_eq_true, beq_iff_eq, bne_iff_ne] at ha
    obtain ⟨⟨⟨h1, rfl⟩, rfl⟩, ha⟩ := ha
    have := ok_of_assert N ih a (by omega) hz.2 ha r (by simpa [assertFine] using hf) (by simpa [assertNeeds, h1] using hn)
    exact ⟨.repFin (Nat.le_refl _) this.1, fun _ => by decide, this.2⟩
  | .bol, _, _, _, r, hf, _ => ⟨.bol (fun hm => by simpa [assertFine, hm] using hf), trivial⟩
  | .wordB, _, _, _, r, hf, _ => ⟨.wordB (by simpa [assertFine] using hf), trivial⟩
  | .boi, _, _, _, r, hf, _ => ⟨.boi, trivial⟩
  | .eol, _, _, _, r, hf, _ => ⟨.eol, trivial⟩
  | .eoi, _, _, _, r, hf, _ => ⟨.eoi, trivial⟩
  | .seq [], _, _, ha, _, _, _ | .seq (_ :: _ :: _), _, _, ha, _, _, _ | .alt [], _, _, ha, _, _, _ | .alt (_ :: _ :: _), _, _, ha, _, _, _ | .set _, _, _, ha, _, _, _ | .cap _ _ _, _, _, ha, _, _, _
  | .empty, _, _, ha, _, _, _ | .lit _, _, _, ha, _, _, _ | .range _ _, _, _, ha, _, _, _ | .wildcard, _, _, ha, _, _, _ | .backref _, _, _, ha, _, _, _ | .namedBackref _, _, _, ha, _, _, _ => by
    simp [isAssertion] at ha

theorem ok_of_fine (S : InstSettings) (E : Env) : ∀ N, OkBelow S E N
  | 0 => fun a h => absurd h (Nat.not_lt_zero _)
  | N + 1 => by
    have ih := ok_of_fine S E N
    intro a h hz r k hf
    match a, h, hz, hf with
    | .seq [], _, _, hf => exact absurd hf.here (by simp [home, Inst.fine])
    | .seq [x], h, hz, hf =>
      simp only [nodeCount, nodeCounts] at h
      have := ih x (by omega) hz.1 r k hf
      exact ⟨.seq (by simp) (by simpa using this.1), this.2, trivial⟩
    | .seq (x :: y :: l), h, hz, hf =>
      have h1 := nodeCount_pos x
      simp only [nodeCount, nodeCounts] at h
      have h2 := hf.here
      simp only [home, Inst.fine, List.isEmpty_cons, Bool.not_false, Bool.true_and] at h2
      cases ht : areTriv (x :: y :: l) with
      | true =>
        simp only [ht, Bool.not_true, Bool.false_or, Bool.and_eq_true, onesFine_iff] at h2
        simp only [areTriv, List.all_eq_true] at ht
        exact ⟨.seq (by simp) fun a ha => ok_of_oneFine a (ht a ha) (h2.1 a ha), (countsFits_iff _).2 fun a ha => countsFit_of_one a (ht a ha) (h2.1 a ha)⟩
      | false =>
        have hc : ∀ z ∈ Inst.needs S ⟨.node (.seq (x :: y :: l)), r, k⟩, FullyFine S E z := fun z hz => hf.call hz
        simp only [Inst.needs, ht, Bool.false_eq_true, if_false] at hc
        have hx := ih x (by omega) hz.1 r _ (hc _ (List.mem_cons_self ..))
        have hr := ih (.seq (y :: l)) (by simp only [nodeCount, nodeCounts]; omega) hz.2 r k (hc _ (by simp))
        refine ⟨.seq (by simp) ?_, hx.2, hr.2⟩
        intro a ha
        rcases List.mem_cons.mp ha with rfl | ha
        · exact hx.1
        · cases hr.1 with | seq _ ho => exact ho a ha
    | .alt [], _, _, hf => exact absurd hf.here (by simp [home, Inst.fine])
    | .alt [x], h, hz, hf =>
      simp only [nodeCount, nodeCounts] at h
      have := ih x (by omega) hz.1 r k hf
      exact ⟨.alt (by simp) (by simpa using this.1), this.2, trivial⟩
    | .alt (x :: y :: l), h, hz, hf =>
      have h1 := nodeCount_pos x
      simp only [nodeCount, nodeCounts] at h
      simp only [home] at hf
      split at hf
      · have h2 := hf.here
        simp only [Inst.fine, oneFine, Bool.and_eq_true, onesFine_iff, List.all_eq_true] at h2
        exact ⟨.alt (by simp) fun a ha => ok_of_oneFine a (h2.1 a ha) (h2.2 a ha), (countsFits_iff _).2 fun a ha => countsFit_of_one a (h2.1 a ha) (h2.2 a ha)⟩
      · have hx := ih x (by omega) hz.1 r _ (hf.call (y := ⟨.node (home x), r, k⟩) (List.mem_cons_self ..))
        have hr := ih (.alt (y :: l)) (by simp only [nodeCount, nodeCounts]; omega) hz.2 r k (hf.call (y := ⟨.node (home (.alt (y :: l))), r, k⟩) (List.mem_cons_of_mem _ (List.mem_cons_self ..)))
        refine ⟨.alt (by simp) ?_, hx.2, hr.2⟩
        intro a ha
        rcases List.mem_cons.mp ha with rfl | ha
        · exact hx.1
        · cases hr.1 with | alt _ ho => exact ho a ha
    | .cap id name x, h, hz, hf =>
      simp only [nodeCount] at h
      have h1 := hf.here
      simp only [home, Inst.fine, Bool.and_eq_true, decide_eq_true_eq] at h1
      have := ih x (by omega) hz r _ (hf.call (y := ⟨.node (home x), r, _⟩) (List.mem_cons_self ..))
      exact ⟨.cap h1.1 h1.2 this.1, this.2⟩
    | .look d x, h, hz, hf =>
      simp only [nodeCount] at h
      exact ok_of_assert N ih (.look d x) (by simp only [nodeCount]; omega) hz rfl r hf.here fun y hy => hf.call hy
    | .neg x, h, hz, hf =>
      simp only [nodeCount] at h
      have h1 := hf.here
      simp only [home, Inst.fine] at h1
      cases ha : isAssertion x with
      | true =>
        simp only [ha, if_true] at h1
        have := ok_of_assert N ih x (by omega) hz ha r h1 fun y hy => hf.call (by simpa [home, Inst.needs, ha] using hy)
        exact ⟨.neg (.inr ha) this.1, this.2⟩
      | false =>
        simp only [ha, Bool.false_eq_true, if_false, Bool.and_eq_true] at h1
        exact ⟨.neg (.inl h1.1) (ok_of_oneFine x h1.1 h1.2), countsFit_of_one x h1.1 h1.2⟩
    | .rep m lo hi x, h, hz, hf =>
      simp only [nodeCount] at h
      obtain ⟨h1, h2, h3⟩ := rep_brings m lo hi k hz.1 hf
      have := ih.of_brings (by omega) hz.2 h3
      refine ⟨?_, h2, this.2⟩
      cases hi with
      | inf => exact .repInf this.1
      | fin b => exact .repFin (by simpa [Bound.below] using h1) this.1
    | .set l, _, _, hf => exact ⟨ok_of_oneFine (.set l) rfl hf.here, trivial⟩
    | .range x y, _, _, hf => exact ⟨ok_of_oneFine (.range x y) rfl hf.here, trivial⟩
    | .bol, _, _, hf => exact ok_of_assert N ih .bol (by simp only [nodeCount] at *; omega) trivial rfl r hf.here fun y hy => hf.call hy
    | .wordB, _, _, hf => exact ok_of_assert N ih .wordB (by simp only [nodeCount] at *; omega) trivial rfl r hf.here fun y hy => hf.call hy
    | .backref _, _, _, hf =>
      have h1 := hf.here
      simp only [home, Inst.fine, Bool.and_eq_true, decide_eq_true_eq, bne_iff_ne] at h1
      exact ⟨.backref h1.1 h1.2, trivial⟩
    | .namedBackref _, _, _, hf =>
      have h1 := hf.here
      simp only [home, Inst.fine, Bool.and_eq_true, decide_eq_true_eq, bne_iff_ne] at h1
      exact ⟨.namedBackref h1.1 h1.2, trivial⟩
    | .empty, _, _, _ => exact ⟨.empty, trivial⟩
    | .lit _, _, _, _ => exact ⟨.lit, trivial⟩
    | .wildcard, _, _, _ => exact ⟨.wildcard, trivial⟩
    | .boi, _, _, _ => exact ⟨.boi, trivial⟩
    | .eol, _, _, _ => exact ⟨.eol, trivial⟩
    | .eoi, _, _, _ => exact ⟨.eoi, trivial⟩

end Mregex
