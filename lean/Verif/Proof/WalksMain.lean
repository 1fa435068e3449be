import Verif.Proof.Walks
import Verif.Proof.Layout

/-!
# The matcher follows the walks in order: all constructs
-/

namespace Mregex.Walk
open Ast Spec

section
variable {E : Env} {N L : Nat → Prop} {X : List Nat} {r : Nat}

/-- The places from which `a` may be matched, after groups that surely have taken part. -/
abbrev Begin (E : Env) (N : Nat → Prop) (D : List Nat) (ids : List Nat) (x : Place) : Prop :=
  x.1 ≤ E.inp.length ∧ Fresh N ids x.2 ∧ ∀ k ∈ D, held k x.2 ≠ none

theorem begin_stays {D : List Nat} {a : Ast} {x y : Place} (h : y ∈ walks E.flags E.inp a r false x) (hx : ∀ k ∈ D, held k x.2 ≠ none) : ∀ k ∈ D, held k y.2 ≠ none :=
  fun k hk => held_stays h (hx k hk)

theorem times_stays {D : List Nat} {a : Ast} {n : Nat} {x y : Place} (h : y ∈ timesP (walks E.flags E.inp a r false) n x) (hx : ∀ k ∈ D, held k x.2 ≠ none) :
    ∀ k ∈ D, held k y.2 ≠ none := fun k hk =>
  timesP_rel (Q := fun x y => held k x.2 ≠ none → held k y.2 ≠ none) (fun _ h => h) (fun _ _ _ h h' h'' => h' (h h'')) (fun _ _ h => held_stays h) n x y h (hx k hk)

variable {D : List Nat}

theorem denC_repMatch {k lo : Nat} {hi : Bound} {mode : Mode} (hm : mode ≠ .possessive) {a : Ast} (ht : triv a = false)
    {m : Matcher} (h : DenC E N L X (Begin E N D (groupIds a)) m (walks E.flags E.inp a r false)) (hk : E.inp.length < k)
    (hlo : ∀ h, hi = .fin h → lo ≤ h)
    (hmany : hi ≠ .fin 0 → hi ≠ .fin 1 → ∀ ev, Fresh N (groupIds a) ev) :
    DenC E N L X (Begin E N D (groupIds a)) (repMatch E r k mode lo hi a m) (walks E.flags E.inp (.rep mode lo hi a) r false) := by
  refine DenC.congr ?_ (fun x _ => (walks_rep hm lo hi a r false x).symm)
  have hfix : (2 ≤ lo → hi ≠ .fin 0 ∧ hi ≠ .fin 1) →
      DenC E N L X (Begin E N D (groupIds a)) (fixedMatch E r mode a m lo) (timesP (walks E.flags E.inp a r false) lo) := by
    intro h2
    refine (denC_fixed hm ht h lo (fun h2' x y hx hy => ?_)).pre (fun x hx _ => hx)
    exact ⟨(walks_bounds hx.1 hy).right_le, hmany (h2 h2').1 (h2 h2').2 _, begin_stays hy hx.2.2⟩
  cases hi with
  | fin hi =>
    have hlo := hlo hi rfl
    have hfix := hfix (fun h2 => ⟨by simp; omega, by simp; omega⟩)
    have hbetween : DenC E N L X (fun x => x.1 ≤ E.inp.length ∧ (1 ≤ hi - lo → Begin E N D (groupIds a) x))
        (betweenBounds E r mode a m false (hi - lo)) (extraP E.inp.length ((mode == .greedy) != E.flags.ungreedy) (walks E.flags E.inp a r false) (some (hi - lo))) := by
      have hstep : 2 ≤ hi - lo → ∀ x y : Place, Begin E N D (groupIds a) x → y ∈ walks E.flags E.inp a r false x → Begin E N D (groupIds a) y :=
        fun h2 x y hx hy => ⟨(walks_bounds hx.1 hy).right_le, hmany (by simp; omega) (by simp; omega) _, begin_stays hy hx.2.2⟩
      unfold betweenBounds extraP
      simp only [hm, if_false, ht, Bool.false_and, Bool.false_eq_true]
      rw [show Bool.xor (mode == .greedy) E.flags.ungreedy = ((mode == .greedy) != E.flags.ungreedy) from rfl]
      split
      · exact (denC_greedy h _ hstep).pre (fun x hx => hx.2)
      · exact (denC_lazy h _ hstep).pre (fun x hx => hx.2)
    unfold repMatch
    dsimp only
    split
    · next e =>
      subst e
      refine hfix.congr (fun x _ => ?_)
      rw [Nat.sub_self]
      have : ∀ more y, extraP E.inp.length more (walks E.flags E.inp a r false) (some 0) y = [y] := by
        intro more y; cases more <;> rfl
      rw [show (extraP E.inp.length ((mode == .greedy) != E.flags.ungreedy) (walks E.flags E.inp a r false) (some 0)) = fun y => [y] from
        funext (this _)]
      exact (List.flatMap_singleton' _).symm
    · rw [if_neg (by omega)]
      split
      · next e =>
        subst e
        refine (hbetween.pre (Pre' := Begin E N D (groupIds a)) (fun x hx => ⟨hx.1, fun _ => hx⟩)).congr (fun x _ => by simp [timesP])
      · refine hfix.comp hbetween (fun x y hx hy => ?_)
        have hy' := (timesP_bounds hx.1 hy).right_le
        exact ⟨hy', fun _ => ⟨hy', hmany (by simp; omega) (by simp; omega) _, times_stays hy hx.2.2⟩⟩
  | inf =>
    have hfix := hfix (fun h2 => ⟨by simp, by simp⟩)
    have hmany := hmany (by simp) (by simp)
    have hbetween : DenC E N L X (Begin E N D (groupIds a))
        (betweenBounds E r mode a m true k) (extraP E.inp.length ((mode == .greedy) != E.flags.ungreedy) (walks E.flags E.inp a r false) none) := by
      have hstep : ∀ x y : Place, Begin E N D (groupIds a) x → y ∈ walks E.flags E.inp a r false x → Begin E N D (groupIds a) y :=
        fun x y hx hy => ⟨(walks_bounds hx.1 hy).right_le, hmany _, begin_stays hy hx.2.2⟩
      have hguard : zlm a = true ∨ ∀ x y : Place, Begin E N D (groupIds a) x → y ∈ walks E.flags E.inp a r false x → y.1 ≠ x.1 := by
        cases hz : zlm a with
        | true => exact .inl rfl
        | false => exact .inr (fun x y hx hy => walks_ne hz hx.1 hy)
      unfold betweenBounds extraP
      simp only [hm, if_false, ht, Bool.false_and, Bool.false_eq_true, Bool.true_and]
      rw [show Bool.xor (mode == .greedy) E.flags.ungreedy = ((mode == .greedy) != E.flags.ungreedy) from rfl]
      split
      · exact (denC_greedyStar hguard (fun x y hx hy => walks_bounds hx.1 hy) hstep h k _).pre
          (fun x hx => ⟨hx, by have := Env.remaining_le (r := r) hx.1; omega, by have := Env.remaining_le (r := r) hx.1; omega⟩)
      · exact (denC_lazyStar hguard (fun x y hx hy => walks_bounds hx.1 hy) hstep h k _).pre
          (fun x hx => ⟨hx, by have := Env.remaining_le (r := r) hx.1; omega, by have := Env.remaining_le (r := r) hx.1; omega⟩)
    unfold repMatch
    dsimp only
    split
    · next e =>
      subst e
      exact hbetween.congr (fun x _ => by simp [timesP])
    · exact hfix.comp hbetween (fun x y hx hy => ⟨(timesP_bounds hx.1 hy).right_le, hmany _, times_stays hy hx.2.2⟩)

/-- The parts of a sequence follow their walks, after the groups that surely have taken part before. -/
def SeqDen (E : Env) (N L : Nat → Prop) (X : List Nat) (r : Nat) (m : Ast → Matcher) : List Nat → List Ast → Prop
  | _, [] => True
  | D, a :: l => DenC E N L X (Begin E N D (groupIds a)) (m a) (walks E.flags E.inp a r false) ∧ SeqDen E N L X r m (surely a ++ D) l

theorem denC_seqMatch {k : Nat} (l : List Ast) (hne : l ≠ []) (hok : ∀ a ∈ l, Ok E r a) (hf : depthAll l + E.inp.length + 1 ≤ k)
    (hv : ∀ i, ¬N i → visitedOnceAll i l = true)
    (h : SeqDen E N L X r (fun a => mtch E k a r) D l) :
    DenC E N L X (Begin E N D (groupIdsAll l)) (seqMatch E r (fun a => mtch E k a r) l) (walksAll E.flags E.inp l r false) := by
  revert D
  induction l with
  | nil => exact absurd rfl hne
  | cons a l ih =>
    intro D h
    match l, ih, h with
    | [], _, h =>
      refine (h.1.pre (fun x hx => ?_)).congr (fun x _ => by simp [walksAll])
      simpa [groupIdsAll] using hx
    | b :: l, ih, h =>
      by_cases ht : areTriv (a :: b :: l) = true
      · have hcl := closedAll_iff.2 (fun c hc => closed_of_triv (wf_of_ok (hok c hc)) (List.all_eq_true.1 ht c hc))
        exact (denC_closed (fuel := k + 1) (a := .seq (a :: b :: l)) (.seq hne hok) hcl.1 hcl.2 (by simp only [depth]; omega)
          (fun x hx => hx.1)).congr (fun x _ => by simp only [walks])
      · unfold seqMatch
        rw [if_neg ht]
        have hl := ih (by simp) (fun c hc => hok c (by simp [hc])) (by simp only [depthAll] at hf ⊢; omega)
          (fun i hi => by have := hv i hi; simp only [visitedOnceAll, Bool.and_eq_true] at this ⊢; exact this.2)
          h.2
        refine DenC.congr ((h.1.pre (fun x hx => ?_)).comp hl (fun x y hx hy => ?_)) (fun x _ => by rw [walksAll, if_neg (by simp)])
        · exact ⟨hx.1, fun i hi => hx.2.1 i (by simp [groupIdsAll, hi]), hx.2.2⟩
        · refine ⟨(walks_bounds hx.1 hy).right_le, fun i hi hN => ?_, fun i hi => (List.mem_append.1 hi).elim (fun h => surely_walks a h r false x y hy) (begin_stays hy hx.2.2 i)⟩
          have := hv i hN
          rw [visitedOnceAll] at this
          simp only [Bool.and_eq_true, Bool.or_eq_true, Bool.not_eq_true', List.contains_eq_mem, decide_eq_false_iff_not] at this
          rw [held_walks hy (this.1.2.resolve_right (fun h => h hi))]
          exact hx.2.1 i (by rw [groupIdsAll]; exact List.mem_append_right _ hi) hN

theorem denC_altMatch {k : Nat} (l : List Ast) (hne : l ≠ []) (hok : ∀ a ∈ l, Ok E r a) (hf : depthAll l + E.inp.length + 1 ≤ k)
    (h : ∀ a ∈ l, DenC E N L X (Begin E N D (groupIds a)) (mtch E k a r) (walks E.flags E.inp a r false)) :
    DenC E N L X (Begin E N D (groupIdsAll l)) (altMatch E r (fun a => mtch E k a r) l) (walksAny E.flags E.inp l r false) := by
  induction l with
  | nil => exact absurd rfl hne
  | cons a l ih =>
    match l, ih with
    | [], _ =>
      refine ((h a (by simp)).pre (fun x hx => ?_)).congr (fun x _ => by simp [walksAny])
      simpa [groupIdsAll] using hx
    | b :: l, ih =>
      by_cases ht : areTriv (a :: b :: l) = true
      · have hcl := closedAll_iff.2 (fun c hc => closed_of_triv (wf_of_ok (hok c hc)) (List.all_eq_true.1 ht c hc))
        exact (denC_closed (fuel := k + 1) (a := .alt (a :: b :: l)) (.alt hne hok) hcl.1 hcl.2 (by simp only [depth]; omega)
          (fun x hx => hx.1)).congr (fun x _ => by simp only [walks])
      · unfold altMatch
        rw [if_neg ht]
        have hl := ih (by simp) (fun c hc => hok c (by simp [hc])) (by simp only [depthAll] at hf ⊢; omega)
          (fun c hc => h c (by simp [hc]))
        refine DenC.congr (((h a (by simp)).pre (fun x hx => ?_)).orElse (hl.pre (fun x hx => ?_))) (fun x _ => rfl)
        · exact ⟨hx.1, fun i hi => hx.2.1 i (by simp [groupIdsAll, hi]), hx.2.2⟩
        · exact ⟨hx.1, fun i hi => hx.2.1 i (by rw [groupIdsAll]; exact List.mem_append_right _ hi), hx.2.2⟩


/-- Possessive iterations. -/
theorem denC_possMatch {k lo : Nat} {hi : Bound} {a : Ast} (ht : triv a = false)
    {m : Matcher} (h : DenC E N L X (Begin E N D (groupIds a)) m (walks E.flags E.inp a r false)) (hk : E.inp.length < k)
    (hlo : ∀ h, hi = .fin h → lo ≤ h) (hL : ∀ i ∈ groupIds a, L i)
    (hmany : hi ≠ .fin 0 → hi ≠ .fin 1 → ∀ ev, Fresh N (groupIds a) ev) :
    DenC E N L X (Begin E N D (groupIds a)) (repMatch E r k .possessive lo hi a m) (walks E.flags E.inp (.rep .possessive lo hi a) r false) := by
  have hback : ∀ x y c, Begin E N D (groupIds a) x → y ∈ walks E.flags E.inp a r false x → Agrees E N L X y.2 c → Agrees E N L X x.2 c :=
    fun x y c hx hy hc => hc.back (fun i hi => held_walks hy hi) hL hx.2.1
  have hbackT : ∀ n x y c, Begin E N D (groupIds a) x → y ∈ timesP (walks E.flags E.inp a r false) n x → Agrees E N L X y.2 c → Agrees E N L X x.2 c :=
    fun n x y c hx hy hc => hc.back (fun i hi => timesP_rel (Q := fun x y => held i y.2 = held i x.2) (fun _ => rfl) (fun _ _ _ h h' => h'.trans h)
      (fun x y h => held_walks h hi) n x y hy) hL hx.2.1
  have hfix : (2 ≤ lo → hi ≠ .fin 0 ∧ hi ≠ .fin 1) →
      DenC E N L X (Begin E N D (groupIds a)) (fixedMatch E r .possessive a m lo) (fun x => (timesP (walks E.flags E.inp a r false) lo x).take 1) := by
    intro h2
    unfold fixedMatch
    match lo, h2 with
    | 0, _ => exact DenC.id
    | 1, _ =>
      rw [timesP_one]
      simp only [ht, and_self, if_true]
      exact denC_commit h hback
    | n + 2, h2 =>
      have hne : (n + 2 = 0) = False := by simp
      have hne' : (n + 2 = 1) = False := by simp
      simp only [hne, hne', if_false, if_true]
      unfold fixedBacktracking
      simp only [ht, Bool.false_eq_true, if_false]
      have hstep : ∀ x y : Place, Begin E N D (groupIds a) x → y ∈ walks E.flags E.inp a r false x → Begin E N D (groupIds a) y :=
        fun x y hx hy => ⟨(walks_bounds hx.1 hy).right_le, hmany (h2 (by omega)).1 (h2 (by omega)).2 _, begin_stays hy hx.2.2⟩
      split
      · exact denC_commit (denC_unrolled h (n + 1) (fun _ => hstep)) (hbackT _)
      · exact denC_commit (denC_nonUnrolled h (n + 1) (fun _ => hstep)) (hbackT _)
  cases hi with
  | fin hi =>
    have hlo := hlo hi rfl
    have hfix := hfix (fun h2 => ⟨by simp; omega, by simp; omega⟩)
    have hbetween : DenC E N L X (fun x => x.1 ≤ E.inp.length ∧ (1 ≤ hi - lo → Begin E N D (groupIds a) x))
        (betweenBounds E r .possessive a m false (hi - lo)) (possessiveP (walks E.flags E.inp a r false) (hi - lo)) := by
      have hstep : 2 ≤ hi - lo → ∀ x y : Place, Begin E N D (groupIds a) x → y ∈ walks E.flags E.inp a r false x → Begin E N D (groupIds a) y :=
        fun h2 x y hx hy => ⟨(walks_bounds hx.1 hy).right_le, hmany (by simp; omega) (by simp; omega) _, begin_stays hy hx.2.2⟩
      unfold betweenBounds
      simp only [if_true, ht, Bool.false_and, Bool.false_eq_true, if_false]
      exact (denC_poss h hback _ hstep).pre (fun x hx => hx.2)
    refine DenC.congr ?_ (fun x _ => by rw [walks])
    unfold repMatch
    dsimp only
    split
    · next e =>
      subst e
      refine hfix.congr (fun x _ => ?_)
      rw [Nat.sub_self, show possessiveP (walks E.flags E.inp a r false) 0 = fun y => [y] from rfl]
      exact (List.flatMap_singleton' _).symm
    · rw [if_neg (by omega)]
      split
      · next e =>
        subst e
        refine (hbetween.pre (Pre' := Begin E N D (groupIds a)) (fun x hx => ⟨hx.1, fun _ => hx⟩)).congr (fun x _ => by simp [timesP])
      · refine hfix.comp hbetween (fun x y hx hy => ?_)
        have hy' := (timesP_bounds hx.1 (List.mem_of_mem_take hy)).right_le
        exact ⟨hy', fun _ => ⟨hy', hmany (by simp; omega) (by simp; omega) _, times_stays (List.mem_of_mem_take hy) hx.2.2⟩⟩
  | inf =>
    have hfix := hfix (fun h2 => ⟨by simp, by simp⟩)
    have hmany := hmany (by simp) (by simp)
    have hbetween : DenC E N L X (Begin E N D (groupIds a))
        (betweenBounds E r .possessive a m true k) (possessiveStarP (walks E.flags E.inp a r false) (E.inp.length + 1)) := by
      have hstep : ∀ x y : Place, Begin E N D (groupIds a) x → y ∈ walks E.flags E.inp a r false x → Begin E N D (groupIds a) y :=
        fun x y hx hy => ⟨(walks_bounds hx.1 hy).right_le, hmany _, begin_stays hy hx.2.2⟩
      have hguard : zlm a = true ∨ ∀ x y : Place, Begin E N D (groupIds a) x → y ∈ walks E.flags E.inp a r false x → y.1 ≠ x.1 := by
        cases hz : zlm a with
        | true => exact .inl rfl
        | false => exact .inr (fun x y hx hy => walks_ne hz hx.1 hy)
      unfold betweenBounds
      simp only [if_true, ht, Bool.true_and, Bool.false_eq_true, if_false]
      exact (denC_possStar hguard (fun x y hx hy => walks_bounds hx.1 hy) hstep h hback k _).pre
        (fun x hx => ⟨hx, by have := Env.remaining_le (r := r) hx.1; omega, by have := Env.remaining_le (r := r) hx.1; omega⟩)
    refine DenC.congr ?_ (fun x _ => by rw [walks])
    unfold repMatch
    dsimp only
    split
    · next e =>
      subst e
      exact hbetween.congr (fun x _ => by simp [timesP])
    · exact hfix.comp hbetween (fun x y hx hy => ⟨(timesP_bounds hx.1 (List.mem_of_mem_take hy)).right_le, hmany _, times_stays (List.mem_of_mem_take hy) hx.2.2⟩)

theorem outside_of_not_mem {i : Nat} (a : Ast) (h : i ∉ groupIds a) : outside i a = true := by
  induction a using ind with
  | seq l ih =>
    simp only [groupIds, groupIdsAll_eq, List.mem_flatMap, not_exists, not_and] at h
    rw [outside, outsideAll_iff]
    exact fun a ha => ih a ha (h a ha)
  | alt l ih =>
    simp only [groupIds, groupIdsAll_eq, List.mem_flatMap, not_exists, not_and] at h
    rw [outside, outsideAll_iff]
    exact fun a ha => ih a ha (h a ha)
  | cap id n a ih =>
    simp only [groupIds, List.mem_cons, not_or] at h
    rw [outside]
    exact ih h.2
  | rep m lo hi a ih =>
    simp only [groupIds] at h
    cases m with
    | possessive => simpa [outside] using h
    | _ => rw [outside]; exact ih h; simp
  | _ => simp_all [outside, groupIds]

/-! ### Mirroring -/

theorem mem_surelyAny {k : Nat} {l : List Ast} (hne : l ≠ []) : k ∈ surelyAny l ↔ ∀ a ∈ l, k ∈ surely a := by
  induction l with
  | nil => exact absurd rfl hne
  | cons a l ih =>
    match l, ih with
    | [], _ => simp [surelyAny]
    | b :: l, ih =>
      rw [surelyAny, List.mem_filter, List.contains_eq_mem, decide_eq_true_eq, ih (by simp)]
      · simp
      · simp

theorem mem_surelyAll {k : Nat} {l : List Ast} : k ∈ surelyAll l ↔ ∃ a ∈ l, k ∈ surely a := by
  induction l with
  | nil => simp [surelyAll]
  | cons a l ih => simp [surelyAll, ih]

theorem mem_surely_invert (a : Ast) (k : Nat) : k ∈ surely (invert a) ↔ k ∈ surely a := by
  induction a using ind with
  | seq l ih =>
    simp only [invert, surely, mem_surelyAll, invertAll_eq, List.mem_reverse, List.mem_map]
    exact ⟨fun ⟨b, ⟨c, h1, h2⟩, h3⟩ => ⟨c, h1, (ih c h1).1 (h2 ▸ h3)⟩, fun ⟨c, h1, h3⟩ => ⟨_, ⟨c, h1, rfl⟩, (ih c h1).2 h3⟩⟩
  | alt l ih =>
    simp only [invert, surely, invertAll_eq]
    by_cases hl : l = []
    · subst hl; simp
    · rw [mem_surelyAny hl, mem_surelyAny (by simpa using hl)]
      simp only [List.mem_map]
      exact ⟨fun h c hc => (ih c hc).1 (h _ ⟨c, hc, rfl⟩), fun h b ⟨c, h1, h2⟩ => h2 ▸ (ih c h1).2 (h c h1)⟩
  | cap id n a ih => simp only [invert, surely, List.mem_cons, ih]
  | rep m lo hi a ih => simp only [invert, surely]; split <;> simp [ih]
  | look d a ih => cases d <;> simp only [invert, surely]
  | _ => simp [invert, surely]

theorem mem_surelyAll_invert (l : List Ast) (k : Nat) : k ∈ surelyAll (l.map invert).reverse ↔ k ∈ surelyAll l := by
  have := mem_surely_invert (.seq l) k
  simpa only [invert, surely, invertAll_eq] using this

section
variable {P Q : Nat → Bool}

/-- What surely took part before matters as a set. -/
theorem refsAfter_before (a : Ast) : ∀ (X : List Nat) {D D' : List Nat} (inv : Bool), (∀ k, k ∈ D ↔ k ∈ D') → refsAfter P Q X D inv a = refsAfter P Q X D' inv a := by
  induction a using ind with
  | seq l ih =>
    intro X D D' inv h
    simp only [refsAfter]
    induction l generalizing D D' with
    | nil => rfl
    | cons a l ihl =>
      simp only [refsAfterAll]
      rw [ih a (by simp) X (D := if inv then surelyAll l ++ D else D) (D' := if inv then surelyAll l ++ D' else D') inv (fun k => by split <;> simp [h k]),
        ihl (fun b hb => ih b (by simp [hb])) (D := if inv then D else surely a ++ D) (D' := if inv then D' else surely a ++ D') (fun k => by split <;> simp [h k])]
  | alt l ih | set l ih =>
    intro X D D' inv h
    simp only [refsAfter]
    induction l with
    | nil => rfl
    | cons a l ihl =>
      simp only [refsAfterAny]
      rw [ih a (by simp) X inv h, ihl (fun b hb => ih b (by simp [hb]))]
  | backref k =>
    intro X D D' inv h
    simp only [refsAfter, List.contains_eq_mem, h k]
  | cap id n a ih => intro X D D' inv h; simp only [refsAfter]; exact ih _ _ h
  | neg a ih | rep m lo hi a ih | look d a ih => intro X D D' inv h; simp only [refsAfter]; exact ih _ _ h
  | _ => intro X D D' inv h; rfl

theorem refsAfterAll_append (l l' : List Ast) (X D : List Nat) (inv : Bool) : refsAfterAll P Q X D inv (l ++ l') =
    (refsAfterAll P Q X (if inv then surelyAll l' ++ D else D) inv l && refsAfterAll P Q X (if inv then D else surelyAll l ++ D) inv l') := by
  have hb : ∀ {l : List Ast} {D D' : List Nat}, (∀ k, k ∈ D ↔ k ∈ D') → refsAfterAll P Q X D inv l = refsAfterAll P Q X D' inv l := by
    intro l D D' h
    have := refsAfter_before (P := P) (Q := Q) (.seq l) X inv h
    simpa only [refsAfter] using this
  induction l generalizing D with
  | nil => cases inv <;> simp [refsAfterAll, surelyAll]
  | cons a l ih =>
    simp only [List.cons_append, refsAfterAll, ih, Bool.and_assoc]
    cases inv with
    | false =>
      simp only [Bool.false_eq_true, if_false, surelyAll]
      rw [hb (l := l') (D := surelyAll l ++ (surely a ++ D)) (D' := surely a ++ surelyAll l ++ D) (fun k => by simp only [List.mem_append]; exact ⟨fun h => h.elim (fun h => .inl (.inr h)) (fun h => h.elim (fun h => .inl (.inl h)) .inr), fun h => h.elim (fun h => h.elim (fun h => .inr (.inl h)) .inl) (fun h => .inr (.inr h))⟩)]
    | true =>
      simp only [if_true]
      rw [refsAfter_before (P := P) (Q := Q) a X (D := surelyAll (l ++ l') ++ D) (D' := surelyAll l ++ (surelyAll l' ++ D)) true
        (fun k => by simp only [List.mem_append, mem_surelyAll]; simp only [or_and_right, exists_or, or_assoc])]

theorem refsAfter_invert (a : Ast) : ∀ (X D : List Nat) (inv : Bool), refsAfter P Q X D inv (invert a) = refsAfter P Q X D (!inv) a := by
  induction a using ind with
  | seq l ih =>
    intro X D inv
    simp only [invert, refsAfter, invertAll_eq]
    induction l generalizing D with
    | nil => simp [refsAfterAll]
    | cons a l ihl =>
      have ihl := ihl (fun b hb => ih b (List.mem_cons_of_mem _ hb))
      simp only [List.map_cons, List.reverse_cons]
      rw [refsAfterAll_append, ihl]
      simp only [refsAfterAll, Bool.and_true, ih a (by simp)]
      rw [Bool.and_comm]
      have hb : ∀ {l : List Ast} {D D' : List Nat} (inv : Bool), (∀ k, k ∈ D ↔ k ∈ D') → refsAfterAll P Q X D inv l = refsAfterAll P Q X D' inv l := by
        intro l D D' inv h
        have := refsAfter_before (P := P) (Q := Q) (.seq l) X inv h
        simpa only [refsAfter] using this
      congr 1
      · refine refsAfter_before a X _ (fun k => ?_)
        cases inv <;> simp [surelyAll, mem_surelyAll_invert]
      · refine hb _ (fun k => ?_)
        cases inv <;> simp [surelyAll, mem_surely_invert]
  | alt l ih | set l ih =>
    intro X D inv
    simp only [invert, refsAfter, invertAll_eq]
    induction l with
    | nil => rfl
    | cons a l ihl =>
      simp only [List.map_cons, refsAfterAny]
      rw [ih a (by simp), ihl (fun b hb => ih b (by simp [hb]))]
  | look d a ih => intro X D inv; cases d <;> cases inv <;> rfl
  | cap id n a ih => intro X D inv; simp only [invert, refsAfter, ih]
  | neg a ih | rep m lo hi a ih => intro X D inv; simp only [invert, refsAfter, ih]
  | _ => intro X D inv; simp only [invert, refsAfter]

end

theorem visitedOnceAll_append {i : Nat} {l l' : List Ast} : visitedOnceAll i (l ++ l') = true ↔
    visitedOnceAll i l = true ∧ visitedOnceAll i l' = true ∧ (i ∉ groupIdsAll l ∨ i ∉ groupIdsAll l') := by
  induction l with
  | nil => simp [visitedOnceAll, groupIdsAll]
  | cons a l ih =>
    simp only [List.cons_append, visitedOnceAll, Bool.and_eq_true, ih, Bool.or_eq_true, Bool.not_eq_true', List.contains_eq_mem, decide_eq_false_iff_not,
      show groupIdsAll (l ++ l') = groupIdsAll l ++ groupIdsAll l' by simp [groupIdsAll_eq], groupIdsAll, List.mem_append, not_or]
    grind

theorem mem_groupIdsAll_invert (l : List Ast) (k : Nat) : k ∈ groupIdsAll (l.map invert).reverse ↔ k ∈ groupIdsAll l := by
  have := mem_groupIds_invert (.seq l) k
  simpa only [invert, groupIds, invertAll_eq] using this

theorem visitedOnce_invert (i : Nat) (a : Ast) : visitedOnce i (invert a) = visitedOnce i a := by
  induction a using ind with
  | seq l ih =>
    simp only [invert, visitedOnce, invertAll_eq]
    induction l with
    | nil => rfl
    | cons a l ihl =>
      have ihl := ihl (fun b hb => ih b (List.mem_cons_of_mem _ hb))
      rw [Bool.eq_iff_iff]
      simp only [List.map_cons, List.reverse_cons]
      rw [visitedOnceAll_append, ihl, mem_groupIdsAll_invert]
      simp only [visitedOnceAll, ih a (by simp), groupIdsAll, List.append_nil, mem_groupIds_invert, Bool.and_eq_true, Bool.or_eq_true, Bool.not_eq_true', List.contains_eq_mem,
        decide_eq_false_iff_not]
      grind
  | alt l ih | set l ih =>
    simp only [invert, visitedOnce, invertAll_eq]
    induction l with
    | nil => rfl
    | cons a l ihl =>
      simp only [List.map_cons, visitedOnceAny]
      rw [ih a (by simp), ihl (fun b hb => ih b (by simp [hb]))]
  | look d a ih => cases d <;> simp only [invert, visitedOnce]
  | cap id n a ih | rep m lo hi a ih =>
    simp only [invert, visitedOnce, ih, List.contains_eq_mem, mem_groupIds_invert]
  | neg a ih => simp only [invert, visitedOnce, ih]
  | _ => rfl

theorem refsAfterAny_mem {P Q : Nat → Bool} {l : List Ast} (h : refsAfterAny P Q X D false l = true) : ∀ a ∈ l, refsAfter P Q X D false a = true := by
  induction l with
  | nil => simp
  | cons a l ih =>
    simp only [refsAfterAny, Bool.and_eq_true] at h
    simp only [List.mem_cons, forall_eq_or_imp]
    exact ⟨h.1, ih h.2⟩

theorem seqDen {P Q : Nat → Bool} {m : Ast → Matcher} {l : List Ast} (hr : refsAfterAll P Q X D false l = true)
    (h : ∀ D, ∀ a ∈ l, refsAfter P Q X D false a = true → DenC E N L X (Begin E N D (groupIds a)) (m a) (walks E.flags E.inp a r false)) :
    SeqDen E N L X r m D l := by
  induction l generalizing D with
  | nil => trivial
  | cons a l ih =>
    simp only [refsAfterAll, Bool.and_eq_true, Bool.false_eq_true, if_false] at hr
    exact ⟨h D a (by simp) hr.1, ih hr.2 (fun D b hb => h D b (by simp [hb]))⟩

theorem mtch_walks {P Q : Nat → Bool} (hP : ∀ k, P k = true → ¬N k ∧ ¬L k) (hQ : ∀ k, Q k = true → ¬N k) : ∀ fuel a X D r, Ok E r a → refsAfter P Q X D false a = true →
    (∀ i, ¬N i → visitedOnce i a = true) → (∀ i, ¬L i → outside i a = true) → a.depth + E.inp.length + 1 ≤ fuel →
    DenC E N L X (Begin E N D (groupIds a)) (mtch E fuel a r) (walks E.flags E.inp a r false) := by
  intro fuel
  induction fuel with
  | zero => intro a X D r _ _ _ _ h; omega
  | succ k ih =>
    intro a X D r hok hr hv ho hf
    have hclosed : groupIds a = [] → noBackref a = true → DenC E N L X (Begin E N D (groupIds a)) (mtch E (k + 1) a r) (walks E.flags E.inp a r false) :=
      fun h1 h2 => denC_closed hok h1 h2 hf (fun x hx => hx.1)
    have hin : ∀ {ids : List Nat}, (∀ i, ¬L i → (!ids.contains i) = true) → ∀ i ∈ ids, L i := by
      intro ids h i hi
      apply Classical.byContradiction
      intro hL
      have := h i hL
      simp [hi] at this
    match a with
    | .seq l =>
      cases hok with | seq hne hl => ?_
      simp only [depth] at hf
      simp only [refsAfter] at hr
      simp only [visitedOnce] at hv
      simp only [outside, outsideAll_iff] at ho
      refine DenC.congr (denC_seqMatch l hne hl (by omega) hv (seqDen hr (fun D b hb hr => ?_))) (fun x _ => by simp only [walks])
      have := depth_le_all hb
      exact ih b X D r (hl b hb) hr
        (fun i hi => visitedOnceAll_mem (hv i hi) b hb) (fun i hi => ho i hi b hb) (by omega)
    | .alt l =>
      cases hok with | alt hne hl => ?_
      simp only [depth] at hf
      simp only [refsAfter] at hr
      simp only [visitedOnce] at hv
      simp only [outside, outsideAll_iff] at ho
      refine DenC.congr (denC_altMatch l hne hl (by omega) (fun b hb => ?_)) (fun x _ => by simp only [walks])
      have := depth_le_all hb
      exact ih b X D r (hl b hb) (refsAfterAny_mem hr b hb)
        (fun i hi => visitedOnceAny_mem (hv i hi) b hb) (fun i hi => ho i hi b hb) (by omega)
    | .cap id name b =>
      cases hok with | cap hn hr1 hok => ?_
      simp only [depth] at hf
      simp only [refsAfter] at hr
      simp only [visitedOnce, Bool.and_eq_true] at hv
      simp only [outside] at ho
      have := ih b (id :: X) D r hok hr (fun i hi => (hv i hi).2) ho (by omega)
      refine DenC.congr (denC_cap this hn hr1 (fun x hx => ?_)) (fun x _ => by simp only [walks])
      exact ⟨⟨hx.1, fun i hi => hx.2.1 i (by simp [groupIds, hi]), hx.2.2⟩, fun hN => hx.2.1 id (by simp [groupIds]) hN⟩
    | .rep m lo hi b =>
      have hlo : ∀ h, hi = .fin h → lo ≤ h := by
        intro h e
        subst e
        cases hok
        assumption
      have hb : Ok E r b := by cases hok <;> assumption
      simp only [depth] at hf
      simp only [refsAfter] at hr
      simp only [visitedOnce, Bool.and_eq_true, Bool.or_eq_true, Bool.not_eq_true', List.contains_eq_mem,
        decide_eq_false_iff_not, beq_iff_eq] at hv
      have hmany : hi ≠ .fin 0 → hi ≠ .fin 1 → ∀ ev, Fresh N (groupIds b) ev := fun h0 h1 ev => by
        refine fun i hi hN => absurd hi ?_
        rcases (hv i hN).1 with (h | h) | h
        · exact h
        · exact absurd h h0
        · exact absurd h h1
      cases ht : triv b with
      | true =>
        have := closed_of_triv (wf_of_ok hb) ht
        exact hclosed (by simp [groupIds, this]) (by simp [noBackref, this])
      | false =>
        by_cases hm : m = .possessive
        · subst hm
          simp only [outside] at ho
          have hL := hin ho
          exact denC_possMatch ht (ih b X D r hb hr (fun i hi => (hv i hi).2)
            (fun i hi => outside_of_not_mem b (fun h => hi (hL i h))) (by omega)) (by omega) hlo hL hmany
        · have ho' : ∀ i, ¬L i → outside i b = true := fun i hi => outside_opt hm (ho i hi)
          exact denC_repMatch hm ht (ih b X D r hb hr (fun i hi => (hv i hi).2) ho' (by omega)) (by omega) hlo hmany
    | .backref i =>
      cases hok with | backref hcat hi => ?_
      simp only [refsAfter, Bool.and_eq_true, Bool.not_eq_true', List.contains_eq_mem, decide_eq_false_iff_not] at hr
      have hN : ¬N i := by
        have := hr.2
        simp only [Bool.or_eq_true, Bool.and_eq_true] at this
        exact this.elim (fun h => (hP i h).1) (fun h => hQ i h.1)
      refine denC_backref hcat hi hN hr.1 (fun x hx => ?_) (fun x hx => hx.1)
      have := hr.2
      simp only [Bool.or_eq_true, Bool.and_eq_true, decide_eq_true_eq] at this
      exact this.imp (fun h => (hP i h).2) (fun h => hx.2.2 i h.2)
    | .namedBackref n => simp [refsAfter] at hr
    | .look .ahead b =>
      cases hok with | ahead hb => ?_
      simp only [depth] at hf
      simp only [refsAfter, show ((LookDir.ahead == .ahead) == false) = false from rfl] at hr
      simp only [visitedOnce] at hv
      simp only [outside] at ho
      have hL := hin ho
      cases ht : triv b with
      | true =>
        have := closed_of_triv (wf_of_ok hb) ht
        exact hclosed (by simp [groupIds, this]) (by simp [noBackref, this])
      | false =>
        have := ih b X D r hb hr hv (fun i hi => outside_of_not_mem b (fun h => hi (hL i (by simpa only [groupIds] using h)))) (by omega)
        rw [mtch]
        simp only [ht, Bool.false_eq_true, if_false]
        exact DenC.congr (denC_look this (fun x y c hx hy hc => hc.back (fun i hi => held_walks hy hi) hL hx.2.1)) (fun x _ => by rw [walks, if_pos (by rfl)])
    | .neg b =>
      cases hok with | neg hb' hb => ?_
      simp only [refsAfter] at hr
      simp only [visitedOnce] at hv
      simp only [outside] at ho
      have hL := hin ho
      cases ha : isAssertion b with
      | false =>
        have := closed_of_triv (wf_of_ok hb) (hb'.resolve_right (by simp [ha]))
        exact hclosed (by simp [groupIds, this]) (by simp [noBackref, this])
      | true =>
        simp only [depth] at hf
        have := ih b X D r hb hr hv (fun i hi => outside_of_not_mem b (fun h => hi (hL i (by simpa only [groupIds] using h)))) (by omega)
        rw [mtch]
        simp only [ha, if_true]
        exact DenC.congr (denC_neg this (fun x y c hx hy hc => hc.back (fun i hi => held_walks hy hi) hL hx.2.1)) (fun x _ => by
          rw [walks, assertion_eq, ha, if_pos rfl])
    | .look .behind b =>
      simp only [depth] at hf
      simp only [refsAfter, show ((LookDir.behind == .ahead) == false) = true from rfl] at hr
      simp only [visitedOnce] at hv
      simp only [outside] at ho
      have hL := hin ho
      simp only [groupIds] at hL
      cases ht : triv b with
      | true =>
        have hw := wf_of_ok hok
        simp only [wf] at hw
        have := closed_of_triv hw ht
        exact hclosed (by simp [groupIds, this]) (by simp [noBackref, this])
      | false =>
        obtain ⟨hcat, hb⟩ : E.cat ≠ .forward ∧ Ok E (r + 1) (invert b) := by
          cases hok with
          | behindTriv _ h _ => rw [ht] at h; cases h
          | behind hcat h => exact ⟨hcat, h⟩
        have hi : ∀ i, i ∈ groupIds (invert b) ↔ i ∈ groupIds b := fun i => mem_groupIds_invert b i
        have := ih (invert b) X D (r + 1) hb (by rw [refsAfter_invert]; exact hr) (fun i hN => by rw [visitedOnce_invert]; exact hv i hN)
          (fun i hi' => outside_of_not_mem _ (fun h => hi' (hL i ((hi i).1 h)))) (by rw [depth_invert]; omega)
        rw [walks_invert] at this
        have this := this.pre (Pre' := Begin E N D (groupIds b)) (fun x hx => ⟨hx.1, fun i h => hx.2.1 i ((hi i).1 h), hx.2.2⟩)
        rw [mtch]
        simp only [ht, hcat, Bool.false_eq_true, if_false]
        exact DenC.congr (denC_look this (fun x y c hx hy hc => hc.back (fun i hi => held_walks hy hi) hL hx.2.1)) (fun x _ => by
          rw [walks, if_neg (by decide), Bool.not_false])
    | .empty | .lit _ | .range _ _ | .wildcard | .bol | .boi | .eol | .eoi | .wordB => exact hclosed rfl rfl
    | .set l =>
      have := closed_of_triv (wf_of_ok hok) rfl
      exact hclosed this.1 this.2

end
end Mregex.Walk
