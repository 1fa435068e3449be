import Verif.Proof.Paths

/-!
# The matcher follows the paths in order: all constructs
-/

namespace Mregex
open Ast Spec

theorem closed_of_triv {a : Ast} (hw : wf a = true) (ht : triv a = true) : groupIds a = [] ∧ noBackref a = true := by
  have hall : ∀ l : List Ast, (∀ a ∈ l, groupIds a = [] ∧ noBackref a = true) → groupIdsAll l = [] ∧ noBackrefAll l = true := by
    intro l h
    rw [groupIdsAll_eq, noBackrefAll_eq, List.all_eq_true]
    exact ⟨List.flatMap_eq_nil_iff.2 (fun a ha => (h a ha).1), fun a ha => (h a ha).2⟩
  induction a using ind with
  | neg a ih =>
    simp only [triv, Bool.not_eq_true'] at ht
    simp only [wf, Bool.and_eq_true, Bool.or_eq_true, ht, Bool.false_eq_true, or_false] at hw
    exact ih hw.2 hw.1
  | set l ih =>
    simp only [wf, Bool.and_eq_true, wfAll_eq, List.all_eq_true] at hw
    exact hall l (fun a ha => ih a ha (hw.2 a ha) (hw.1 a ha))
  | seq l ih =>
    simp only [triv, trivSingle_eq, Bool.and_eq_true, List.all_eq_true] at ht
    simp only [wf, Bool.and_eq_true, wfAll_eq, List.all_eq_true] at hw
    exact hall l (fun a ha => ih a ha (hw.2 a ha) (ht.2 a ha))
  | alt l ih =>
    simp only [triv, trivAlt_eq, Bool.and_eq_true, List.all_eq_true] at ht
    simp only [wf, Bool.and_eq_true, wfAll_eq, List.all_eq_true] at hw
    exact hall l (fun a ha => ih a ha (hw.2 a ha) (ht.2 a ha))
  | rep m lo hi a ih =>
    simp only [triv, Bool.and_eq_true] at ht
    refine ih ?_ ht.2
    cases hi <;> simp_all [wf]
  | _ => simp_all [triv, groupIds, noBackref]

section
variable {E : Env} {N : Nat → Prop} {X : List Nat}

/-- The places from which `a` may be matched. -/
abbrev Start (E : Env) (N : Nat → Prop) (ids : List Nat) (x : Place) : Prop := x.1 ≤ E.inp.length ∧ Fresh N ids x.2

theorem denC_repMatch {k lo : Nat} {hi : Bound} {mode : Mode} (hm : mode ≠ .possessive) {a : Ast} (ht : triv a = false)
    {m : Matcher} (h : DenC E N X (Start E N (groupIds a)) m (paths E.flags E.inp a)) (hk : E.inp.length < k)
    (hlo : ∀ h, hi = .fin h → lo ≤ h)
    (hmany : hi ≠ .fin 0 → hi ≠ .fin 1 → ∀ x : Place, x.1 ≤ E.inp.length → Start E N (groupIds a) x) :
    DenC E N X (Start E N (groupIds a)) (repMatch E 0 k mode lo hi a m) (paths E.flags E.inp (.rep mode lo hi a)) := by
  refine DenC.congr ?_ (fun x _ => (paths_rep hm lo hi a x).symm)
  have hfix : (2 ≤ lo → hi ≠ .fin 0 ∧ hi ≠ .fin 1) →
      DenC E N X (Start E N (groupIds a)) (fixedMatch E 0 mode a m lo) (timesP (paths E.flags E.inp a) lo) := by
    intro h2
    refine (denC_fixed hm ht h lo (fun h2' x y hx hy => ?_)).pre (fun x hx _ => hx)
    exact hmany (h2 h2').1 (h2 h2').2 y (paths_bounds hx.1 hy).2
  cases hi with
  | fin hi =>
    have hlo := hlo hi rfl
    have hfix := hfix (fun h2 => ⟨by simp; omega, by simp; omega⟩)
    have hbetween : DenC E N X (fun x => x.1 ≤ E.inp.length ∧ (1 ≤ hi - lo → Start E N (groupIds a) x))
        (betweenBounds E 0 mode a m false (hi - lo)) (extraP E.inp.length ((mode == .greedy) != E.flags.ungreedy) (paths E.flags E.inp a) (some (hi - lo))) := by
      have hstep : 2 ≤ hi - lo → ∀ x y : Place, Start E N (groupIds a) x → y ∈ paths E.flags E.inp a x → Start E N (groupIds a) y :=
        fun h2 x y hx hy => hmany (by simp; omega) (by simp; omega) y (paths_bounds hx.1 hy).2
      unfold betweenBounds extraP
      simp only [hm, if_false, ht, Bool.false_and, Bool.false_eq_true]
      rw [show Bool.xor (mode == .greedy) E.flags.ungreedy = ((mode == .greedy) != E.flags.ungreedy) from rfl]
      split
      · exact (denC_greedy h _ hstep).pre (fun x hx => hx.2)
      · exact (denC_lazy h _ hstep).pre (fun x hx => hx.2)
    unfold repMatch
    dsimp only
    split
    · next e =>
      subst e
      refine hfix.congr (fun x _ => ?_)
      rw [Nat.sub_self]
      have : ∀ more y, extraP E.inp.length more (paths E.flags E.inp a) (some 0) y = [y] := by
        intro more y; cases more <;> rfl
      rw [show (extraP E.inp.length ((mode == .greedy) != E.flags.ungreedy) (paths E.flags E.inp a) (some 0)) = fun y => [y] from
        funext (this _)]
      exact (List.flatMap_singleton' _).symm
    · rw [if_neg (by omega)]
      split
      · next e =>
        subst e
        refine (hbetween.pre (Pre' := Start E N (groupIds a)) (fun x hx => ⟨hx.1, fun _ => hx⟩)).congr (fun x _ => by simp [timesP])
      · refine hfix.comp hbetween (fun x y hx hy => ?_)
        have hy := (timesP_bounds hx.1 hy).2
        exact ⟨hy, fun _ => hmany (by simp; omega) (by simp; omega) y hy⟩
  | inf =>
    have hfix := hfix (fun h2 => ⟨by simp, by simp⟩)
    have hmany := hmany (by simp) (by simp)
    have hbetween : DenC E N X (Start E N (groupIds a))
        (betweenBounds E 0 mode a m true k) (extraP E.inp.length ((mode == .greedy) != E.flags.ungreedy) (paths E.flags E.inp a) none) := by
      have hstep : ∀ x y : Place, Start E N (groupIds a) x → y ∈ paths E.flags E.inp a x → Start E N (groupIds a) y :=
        fun x y hx hy => hmany y (paths_bounds hx.1 hy).2
      have hguard : zlm a = true ∨ ∀ x y : Place, Start E N (groupIds a) x → y ∈ paths E.flags E.inp a x → y.1 ≠ x.1 := by
        cases hz : zlm a with
        | true => exact .inl rfl
        | false => exact .inr (fun x y hx hy => paths_ne hz hx.1 hy)
      unfold betweenBounds extraP
      simp only [hm, if_false, ht, Bool.false_and, Bool.false_eq_true, Bool.true_and]
      rw [show Bool.xor (mode == .greedy) E.flags.ungreedy = ((mode == .greedy) != E.flags.ungreedy) from rfl]
      split
      · exact (denC_greedyStar (fun x hx => hx.1) hguard (fun x y hx hy => (paths_bounds hx.1 hy).1) hstep h k _).pre
          (fun x hx => ⟨hx, by omega, by omega⟩)
      · exact (denC_lazyStar (fun x hx => hx.1) hguard (fun x y hx hy => (paths_bounds hx.1 hy).1) hstep h k _).pre
          (fun x hx => ⟨hx, by omega, by omega⟩)
    unfold repMatch
    dsimp only
    split
    · next e =>
      subst e
      exact hbetween.congr (fun x _ => by simp [timesP])
    · exact hfix.comp hbetween (fun x y hx hy => hmany y (timesP_bounds hx.1 hy).2)

theorem closedAll_iff {l : List Ast} : (groupIdsAll l = [] ∧ noBackrefAll l = true) ↔ ∀ a ∈ l, groupIds a = [] ∧ noBackref a = true := by
  rw [groupIdsAll_eq, noBackrefAll_eq, List.all_eq_true, List.flatMap_eq_nil_iff]
  exact ⟨fun h a ha => ⟨h.1 a ha, h.2 a ha⟩, fun h => ⟨fun a ha => (h a ha).1, fun a ha => (h a ha).2⟩⟩

theorem denC_seqMatch {k : Nat} (l : List Ast) (hne : l ≠ []) (hok : ∀ a ∈ l, Ok E 0 a) (hf : depthAll l + E.inp.length + 1 ≤ k)
    (hv : ∀ i, ¬N i → visitedOnceAll i l = true)
    (h : ∀ a ∈ l, DenC E N X (Start E N (groupIds a)) (mtch E k a 0) (paths E.flags E.inp a)) :
    DenC E N X (Start E N (groupIdsAll l)) (seqMatch E 0 (fun a => mtch E k a 0) l) (pathsAll E.flags E.inp l) := by
  induction l with
  | nil => exact absurd rfl hne
  | cons a l ih =>
    match l, ih with
    | [], _ =>
      refine ((h a (by simp)).pre (fun x hx => ?_)).congr (fun x _ => by simp [pathsAll])
      simpa [groupIdsAll] using hx
    | b :: l, ih =>
      by_cases ht : areTriv (a :: b :: l) = true
      · have hcl := closedAll_iff.2 (fun c hc => closed_of_triv (wf_of_ok (hok c hc)) (List.all_eq_true.1 ht c hc))
        exact (denC_closed (fuel := k + 1) (a := .seq (a :: b :: l)) (.seq hne hok) hcl.1 hcl.2 (by simp only [depth]; omega)
          (fun x hx => hx.1)).congr (fun x _ => by simp only [paths])
      · unfold seqMatch
        rw [if_neg ht]
        have hl := ih (by simp) (fun c hc => hok c (by simp [hc])) (by simp only [depthAll] at hf ⊢; omega)
          (fun i hi => by have := hv i hi; simp only [visitedOnceAll, Bool.and_eq_true] at this ⊢; exact this.2)
          (fun c hc => h c (by simp [hc]))
        refine DenC.congr (((h a (by simp)).pre (fun x hx => ?_)).comp hl (fun x y hx hy => ?_)) (fun x _ => rfl)
        · exact ⟨hx.1, fun i hi => hx.2 i (by simp [groupIdsAll, hi])⟩
        · refine ⟨(paths_bounds hx.1 hy).2, fun i hi hN => ?_⟩
          have := hv i hN
          rw [visitedOnceAll] at this
          simp only [Bool.and_eq_true, Bool.or_eq_true, Bool.not_eq_true', List.contains_eq_mem, decide_eq_false_iff_not] at this
          rw [held_paths hy (this.1.2.resolve_right (fun h => h hi))]
          exact hx.2 i (by rw [groupIdsAll]; exact List.mem_append_right _ hi) hN

theorem denC_altMatch {k : Nat} (l : List Ast) (hne : l ≠ []) (hok : ∀ a ∈ l, Ok E 0 a) (hf : depthAll l + E.inp.length + 1 ≤ k)
    (h : ∀ a ∈ l, DenC E N X (Start E N (groupIds a)) (mtch E k a 0) (paths E.flags E.inp a)) :
    DenC E N X (Start E N (groupIdsAll l)) (altMatch E 0 (fun a => mtch E k a 0) l) (pathsAny E.flags E.inp l) := by
  induction l with
  | nil => exact absurd rfl hne
  | cons a l ih =>
    match l, ih with
    | [], _ =>
      refine ((h a (by simp)).pre (fun x hx => ?_)).congr (fun x _ => by simp [pathsAny])
      simpa [groupIdsAll] using hx
    | b :: l, ih =>
      by_cases ht : areTriv (a :: b :: l) = true
      · have hcl := closedAll_iff.2 (fun c hc => closed_of_triv (wf_of_ok (hok c hc)) (List.all_eq_true.1 ht c hc))
        exact (denC_closed (fuel := k + 1) (a := .alt (a :: b :: l)) (.alt hne hok) hcl.1 hcl.2 (by simp only [depth]; omega)
          (fun x hx => hx.1)).congr (fun x _ => by simp only [paths])
      · unfold altMatch
        rw [if_neg ht]
        have hl := ih (by simp) (fun c hc => hok c (by simp [hc])) (by simp only [depthAll] at hf ⊢; omega)
          (fun c hc => h c (by simp [hc]))
        refine DenC.congr (((h a (by simp)).pre (fun x hx => ?_)).orElse (hl.pre (fun x hx => ?_))) (fun x _ => rfl)
        · exact ⟨hx.1, fun i hi => hx.2 i (by simp [groupIdsAll, hi])⟩
        · exact ⟨hx.1, fun i hi => hx.2 i (by rw [groupIdsAll]; exact List.mem_append_right _ hi)⟩

theorem visitedOnceAll_mem {i : Nat} {l : List Ast} (h : visitedOnceAll i l = true) : ∀ a ∈ l, visitedOnce i a = true := by
  induction l with
  | nil => simp
  | cons a l ih =>
    simp only [visitedOnceAll, Bool.and_eq_true] at h
    simp only [List.mem_cons, forall_eq_or_imp]
    exact ⟨h.1.1, ih h.2⟩

theorem visitedOnceAny_mem {i : Nat} {l : List Ast} (h : visitedOnceAny i l = true) : ∀ a ∈ l, visitedOnce i a = true := by
  induction l with
  | nil => simp
  | cons a l ih =>
    simp only [visitedOnceAny, Bool.and_eq_true] at h
    simp only [List.mem_cons, forall_eq_or_imp]
    exact ⟨h.1, ih h.2⟩

theorem commitsClosedAll_mem {l : List Ast} (h : commitsClosedAll l = true) : ∀ a ∈ l, commitsClosed a = true := by
  induction l with
  | nil => simp
  | cons a l ih =>
    simp only [commitsClosedAll, Bool.and_eq_true] at h
    simp only [List.mem_cons, forall_eq_or_imp]
    exact ⟨h.1, ih h.2⟩

theorem refsToAll_mem {P : Nat → Bool} {l : List Ast} (h : refsToAll P X l = true) : ∀ a ∈ l, refsTo P X a = true := by
  induction l with
  | nil => simp
  | cons a l ih =>
    simp only [refsToAll, Bool.and_eq_true] at h
    simp only [List.mem_cons, forall_eq_or_imp]
    exact ⟨h.1, ih h.2⟩

theorem mtch_paths {P : Nat → Bool} (hP : ∀ k, P k = true → ¬N k) : ∀ fuel a X, Ok E 0 a → commitsClosed a = true →
    refsTo P X a = true → (∀ i, ¬N i → visitedOnce i a = true) → a.depth + E.inp.length + 1 ≤ fuel →
    DenC E N X (Start E N (groupIds a)) (mtch E fuel a 0) (paths E.flags E.inp a) := by
  intro fuel
  induction fuel with
  | zero => intro a X _ _ _ _ h; omega
  | succ k ih =>
    intro a X hok hc hr hv hf
    have hclosed : closed a = true → DenC E N X (Start E N (groupIds a)) (mtch E (k + 1) a 0) (paths E.flags E.inp a) := by
      intro h
      simp only [closed, Bool.and_eq_true, List.isEmpty_iff] at h
      exact denC_closed hok h.1 h.2 hf (fun x hx => hx.1)
    match a with
    | .seq l =>
      cases hok with | seq hne hl => ?_
      simp only [depth] at hf
      simp only [commitsClosed] at hc
      simp only [refsTo] at hr
      simp only [visitedOnce] at hv
      refine DenC.congr (denC_seqMatch l hne hl (by omega) hv (fun b hb => ?_)) (fun x _ => by simp only [paths])
      have := depth_le_all hb
      exact ih b X (hl b hb) (commitsClosedAll_mem hc b hb) (refsToAll_mem hr b hb)
        (fun i hi => visitedOnceAll_mem (hv i hi) b hb) (by omega)
    | .alt l =>
      cases hok with | alt hne hl => ?_
      simp only [depth] at hf
      simp only [commitsClosed] at hc
      simp only [refsTo] at hr
      simp only [visitedOnce] at hv
      refine DenC.congr (denC_altMatch l hne hl (by omega) (fun b hb => ?_)) (fun x _ => by simp only [paths])
      have := depth_le_all hb
      exact ih b X (hl b hb) (commitsClosedAll_mem hc b hb) (refsToAll_mem hr b hb)
        (fun i hi => visitedOnceAny_mem (hv i hi) b hb) (by omega)
    | .cap id name b =>
      cases hok with | cap hn _ hok => ?_
      simp only [depth] at hf
      simp only [commitsClosed] at hc
      simp only [refsTo] at hr
      simp only [visitedOnce, Bool.and_eq_true] at hv
      have := ih b (id :: X) hok hc hr (fun i hi => (hv i hi).2) (by omega)
      refine DenC.congr (denC_cap this hn (fun x hx => ?_)) (fun x _ => by simp only [paths])
      exact ⟨⟨hx.1, fun i hi => hx.2 i (by simp [groupIds, hi])⟩, fun hN => hx.2 id (by simp [groupIds]) hN⟩
    | .rep m lo hi b =>
      by_cases hm : m = .possessive
      · subst hm
        exact hclosed (by simpa only [commitsClosed, closed, groupIds, noBackref] using hc)
      have hlo : ∀ h, hi = .fin h → lo ≤ h := by
        intro h e
        subst e
        cases hok
        assumption
      have hb : Ok E 0 b := by cases hok <;> assumption
      have hc' : commitsClosed b = true := by
        cases m with
        | possessive => exact absurd rfl hm
        | _ => simpa only [commitsClosed] using hc
      simp only [depth] at hf
      simp only [refsTo] at hr
      simp only [visitedOnce, Bool.and_eq_true, Bool.or_eq_true, Bool.not_eq_true', List.contains_eq_mem,
        decide_eq_false_iff_not, beq_iff_eq] at hv
      cases ht : triv b with
      | true =>
        have := closed_of_triv (wf_of_ok hb) ht
        exact hclosed (by simp [closed, groupIds, noBackref, this])
      | false =>
        refine denC_repMatch hm ht (ih b X hb hc' hr (fun i hi => (hv i hi).2) (by omega)) (by omega) hlo (fun h0 h1 x hx => ?_)
        refine ⟨hx, fun i hi hN => absurd hi ?_⟩
        rcases (hv i hN).1 with (h | h) | h
        · exact h
        · exact absurd h h0
        · exact absurd h h1
    | .backref i =>
      cases hok with | backref hcat hi => ?_
      simp only [refsTo, Bool.and_eq_true, Bool.not_eq_true', List.contains_eq_mem, decide_eq_false_iff_not] at hr
      exact denC_backref hcat hi (hP i hr.1) hr.2 (fun x hx => hx.1)
    | .namedBackref n => simp [refsTo] at hr
    | .empty | .lit _ | .range _ _ | .wildcard | .set _ | .neg _ | .look _ _ | .bol | .boi | .eol | .eoi | .wordB =>
      exact hclosed (by simpa only [commitsClosed] using hc)

end
end Mregex
