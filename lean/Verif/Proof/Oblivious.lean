import Verif.Proof.AstLemmas
import Verif.Spec.Lang

/-!
# Runs that do not look at the captures

Without backreferences what a matcher does is independent of the captures: it performs a fixed list of writes and returns
a fixed verdict.  Such a plan has the same effect when it is carried out a second time.
-/

namespace Mregex
open Ast Spec

/-- What a run does to one capture. -/
inductive Wr
  | keep
  | clear
  | put (v : Cap)

namespace Wr

def app : Wr → Cap → Cap
  | keep, x => x
  | clear, x => x.clear
  | put v, _ => v

/-- First `w`, then `w'`. -/
def after : Wr → Wr → Wr
  | keep, w => w
  | clear, keep => clear
  | clear, clear => clear
  | clear, put v => put v.clear
  | put v, _ => put v

theorem clear_clear (x : Cap) : x.clear.clear = x.clear := by cases x <;> rfl

theorem app_after (w' w : Wr) (x : Cap) : (after w' w).app x = w'.app (w.app x) := by
  cases w' <;> cases w <;> simp [after, app, clear_clear]

theorem app_app (w : Wr) (x : Cap) : w.app (w.app x) = w.app x := by
  cases w <;> simp [app, clear_clear]

end Wr

abbrev Writes := Nat → Wr

def Writes.app (w : Writes) (c : Ctx) : Ctx := c.mapIdx (fun i x => (w i).app x)

def Writes.after (w' w : Writes) : Writes := fun i => (w' i).after (w i)

theorem Writes.length_app (w : Writes) (c : Ctx) : (w.app c).length = c.length := by simp [Writes.app]

theorem Writes.app_after (w' w : Writes) (c : Ctx) : (w'.after w).app c = w'.app (w.app c) := by
  simp only [Writes.app, Writes.after, List.mapIdx_mapIdx]
  congr 1
  funext i x
  exact Wr.app_after _ _ _

theorem Writes.app_app (w : Writes) (c : Ctx) : w.app (w.app c) = w.app c := by
  simp only [Writes.app, List.mapIdx_mapIdx]
  congr 1
  funext i x
  exact Wr.app_app _ _

theorem Writes.app_keep (c : Ctx) : Writes.app (fun _ => .keep) c = c := by
  refine List.ext_getElem (by simp [Writes.app]) (fun i h h' => by simp [Writes.app, Wr.app])

theorem Writes.app_set (id : Nat) (v : Cap) (c : Ctx) : Writes.app (fun i => if i = id then .put v else .keep) c = c.set id v := by
  refine List.ext_getElem (by simp [Writes.app]) (fun i h h' => ?_)
  simp only [Writes.app, List.getElem_mapIdx, List.getElem_set]
  by_cases hi : i = id
  · subst hi; simp [Wr.app]
  · rw [if_neg hi, if_neg (fun h => hi h.symm)]; rfl

theorem Writes.app_clear (id : Nat) (c : Ctx) : Writes.app (fun i => if i = id then .clear else .keep) c = clearCapture id c := by
  refine List.ext_getElem (by simp [Writes.app, clearCapture]) (fun i h h' => ?_)
  simp only [Writes.app, clearCapture, List.getElem_mapIdx, List.getElem_modify]
  by_cases hi : i = id
  · subst hi; simp [Wr.app]
  · rw [if_neg hi, if_neg (fun h => hi h.symm)]; rfl

/-- What happens, whatever the captures are. -/
inductive Plan
  | hit (q : Nat) (w : Writes)
  | miss (w : Writes)
  | ub
  | diverge

/-- The outcome is the planned one for the captures `c`. -/
def Follows (c : Ctx) (o : Out) : Plan → Prop
  | .hit q w => o = .ok ⟨q, true⟩ (w.app c)
  | .miss w => ∃ q, o = .ok ⟨q, false⟩ (w.app c)
  | .ub => o = .ub
  | .diverge => o = .diverge

/-- First the writes `w`. -/
def Plan.after (w : Writes) : Plan → Plan
  | .hit q w' => .hit q (w'.after w)
  | .miss w' => .miss (w'.after w)
  | .ub => .ub
  | .diverge => .diverge

theorem Follows.after {w : Writes} {c : Ctx} {o : Out} {pl : Plan} (h : Follows (w.app c) o pl) : Follows c o (pl.after w) := by
  cases pl with
  | hit q w' => simpa only [Follows, Plan.after, Writes.app_after] using h
  | miss w' => simpa only [Follows, Plan.after, Writes.app_after] using h
  | ub => exact h
  | diverge => exact h

section
variable (N : Nat)

/-- Both functions follow the same plan for `N` captures. -/
def FRel (f f' : Ctx → Out) : Prop := ∃ pl, ∀ c, c.length = N → Follows c (f c) pl ∧ Follows c (f' c) pl

def CRel (k k' : Cont) : Prop := ∀ q, FRel N (k q) (k' q)

def MRel (m m' : Matcher) : Prop := ∀ k k', CRel N k k' → ∀ p, FRel N (fun c => m p c k) (fun c => m' p c k')

end

section
variable {N : Nat}

theorem FRel.symm {f f' : Ctx → Out} (h : FRel N f f') : FRel N f' f := by
  obtain ⟨pl, h⟩ := h; exact ⟨pl, fun c hc => (h c hc).symm⟩

theorem Follows.same {c : Ctx} {o o' : Out} {pl pl' : Plan} (h : Follows c o pl) (h' : Follows c o pl') (h2 : Follows c o' pl') :
    Follows c o' pl := by
  cases pl <;> cases pl' <;> simp only [Follows] at h h' h2 ⊢
  case hit.hit => rw [← h, h2, h']
  case miss.miss =>
    obtain ⟨q, h⟩ := h; obtain ⟨q', h'⟩ := h'; obtain ⟨q2, h2⟩ := h2
    rw [h] at h'
    simp only [Out.ok.injEq, MR.mk.injEq] at h'
    exact ⟨q2, by rw [h2, h'.2]⟩
  case ub.ub => exact h2
  case diverge.diverge => exact h2
  all_goals
    first
      | (obtain ⟨q, h⟩ := h; rw [h] at h'; simp at h')
      | (obtain ⟨q, h'⟩ := h'; rw [h] at h'; simp at h')
      | (rw [h] at h'; simp at h')

theorem FRel.trans {f g h : Ctx → Out} (h1 : FRel N f g) (h2 : FRel N g h) : FRel N f h := by
  obtain ⟨pl, h1⟩ := h1
  obtain ⟨pl', h2⟩ := h2
  exact ⟨pl, fun c hc => ⟨(h1 c hc).1, (h1 c hc).2.same (h2 c hc).1 (h2 c hc).2⟩⟩

theorem FRel.left {f f' : Ctx → Out} (h : FRel N f f') : FRel N f f := h.trans h.symm
theorem FRel.right {f f' : Ctx → Out} (h : FRel N f f') : FRel N f' f' := h.symm.trans h
theorem CRel.symm {k k' : Cont} (h : CRel N k k') : CRel N k' k := fun q => (h q).symm
theorem CRel.left {k k' : Cont} (h : CRel N k k') : CRel N k k := fun q => (h q).left
theorem CRel.right {k k' : Cont} (h : CRel N k k') : CRel N k' k' := fun q => (h q).right

theorem MRel.trans {m m' m'' : Matcher} (h : MRel N m m') (h' : MRel N m' m'') : MRel N m m'' :=
  fun k k' hk p => (h k k hk.left p).trans (h' k k' hk p)
theorem MRel.symm {m m' : Matcher} (h : MRel N m m') : MRel N m' m := fun k k' hk p => (h k' k hk.symm p).symm

theorem FRel.ub : FRel N (fun _ => .ub) (fun _ => .ub) := ⟨.ub, fun _ _ => ⟨rfl, rfl⟩⟩
theorem FRel.diverge : FRel N (fun _ => .diverge) (fun _ => .diverge) := ⟨.diverge, fun _ _ => ⟨rfl, rfl⟩⟩
theorem FRel.nonMatch (p p' : Nat) : FRel N (Mregex.nonMatch p) (Mregex.nonMatch p') :=
  ⟨.miss (fun _ => .keep), fun c _ => ⟨⟨p, by rw [Writes.app_keep]; rfl⟩, p', by rw [Writes.app_keep]; rfl⟩⟩
theorem CRel.success : CRel N success success := fun q => ⟨.hit q (fun _ => .keep), fun c _ => by
  simp only [Follows, Writes.app_keep]; exact ⟨rfl, rfl⟩⟩
theorem CRel.equals (t : Nat) : CRel N (equals t) (equals t) := fun q => by
  by_cases h : q = t
  · subst h
    exact ⟨.hit q (fun _ => .keep), fun c _ => by simp [Follows, Writes.app_keep, Mregex.equals]⟩
  · exact ⟨.miss (fun _ => .keep), fun c _ => by simp [Follows, Writes.app_keep, Mregex.equals, beq_eq_false_iff_ne.2 h]⟩

theorem FRel.pre (w : Writes) {g g' : Ctx → Out} (h : FRel N g g') : FRel N (fun c => g (w.app c)) (fun c => g' (w.app c)) := by
  obtain ⟨pl, h⟩ := h
  refine ⟨pl.after w, fun c hc => ?_⟩
  have := h (w.app c) (by rw [Writes.length_app, hc])
  exact ⟨this.1.after, this.2.after⟩

theorem FRel.orElse {f f' g g' : Ctx → Out} (h : FRel N f f') (hg : FRel N g g') :
    FRel N (fun c => (f c).orElse g) (fun c => (f' c).orElse g') := by
  obtain ⟨pl, h⟩ := h
  match pl, h with
  | .hit q w, h => exact ⟨.hit q w, fun c hc => by simp only [Follows] at h ⊢; simp [(h c hc).1, (h c hc).2, Out.orElse]⟩
  | .miss w, h =>
    obtain ⟨pl, h2⟩ := hg.pre w
    refine ⟨pl, fun c hc => ?_⟩
    obtain ⟨⟨q, e⟩, ⟨q', e'⟩⟩ := h c hc
    simp only [e, e', Out.orElse, Bool.false_eq_true, if_false]
    exact h2 c hc
  | .ub, h => exact ⟨.ub, fun c hc => by simp only [Follows] at h ⊢; simp [(h c hc).1, (h c hc).2, Out.orElse]⟩
  | .diverge, h => exact ⟨.diverge, fun c hc => by simp only [Follows] at h ⊢; simp [(h c hc).1, (h c hc).2, Out.orElse]⟩

theorem FRel.onMatch {f f' h h' : Ctx → Out} {g g' : Nat → Ctx → Out} (hf : FRel N f f') (hg : ∀ q, FRel N (g q) (g' q))
    (hh : FRel N h h') : FRel N (fun c => (f c).onMatch g h) (fun c => (f' c).onMatch g' h') := by
  obtain ⟨pl, hf⟩ := hf
  match pl, hf with
  | .hit q w, hf =>
    obtain ⟨pl, h2⟩ := (hg q).pre w
    refine ⟨pl, fun c hc => ?_⟩
    obtain ⟨e, e'⟩ := hf c hc
    simp only [Follows] at e e'
    simp only [e, e', Out.onMatch, if_true]
    exact h2 c hc
  | .miss w, hf =>
    obtain ⟨pl, h2⟩ := hh.pre w
    refine ⟨pl, fun c hc => ?_⟩
    obtain ⟨⟨q, e⟩, ⟨q', e'⟩⟩ := hf c hc
    simp only [e, e', Out.onMatch, Bool.false_eq_true, if_false]
    exact h2 c hc
  | .ub, h => exact ⟨.ub, fun c hc => by simp only [Follows] at h ⊢; simp [(h c hc).1, (h c hc).2, Out.onMatch]⟩
  | .diverge, h => exact ⟨.diverge, fun c hc => by simp only [Follows] at h ⊢; simp [(h c hc).1, (h c hc).2, Out.onMatch]⟩

/-- Trying the same thing twice is trying it once. -/
theorem FRel.twice {f f' f'' : Ctx → Out} (h : FRel N f f') (h' : FRel N f f'') : FRel N f (fun c => (f' c).orElse f'') := by
  refine FRel.trans ?_ (h.orElse h')
  obtain ⟨pl, h⟩ := h.left
  refine ⟨pl, fun c hc => ⟨(h c hc).1, ?_⟩⟩
  match pl, h with
  | .hit q w, h => simp only [Follows] at h ⊢; simp [(h c hc).1, Out.orElse]
  | .miss w, h =>
    obtain ⟨q, e⟩ := (h c hc).1
    obtain ⟨q', e'⟩ := (h (w.app c) (by rw [Writes.length_app, hc])).1
    refine ⟨q', ?_⟩
    simp only [e, Out.orElse, Bool.false_eq_true, if_false, e', Writes.app_app]
  | .ub, h => simp only [Follows] at h ⊢; simp [(h c hc).1, Out.orElse]
  | .diverge, h => simp only [Follows] at h ⊢; simp [(h c hc).1, Out.orElse]

theorem MRel.id : MRel N (fun p c k => k p c) (fun p c k => k p c) := fun _ _ hk p => hk p

theorem MRel.comp {m m' m2 m2' : Matcher} (h : MRel N m m') (h2 : MRel N m2 m2') :
    MRel N (fun p c k => m p c (fun q c' => m2 q c' k)) (fun p c k => m' p c (fun q c' => m2' q c' k)) :=
  fun _ _ hk p => h _ _ (fun q => h2 _ _ hk q) p

theorem MRel.commit {m m' : Matcher} (h : MRel N m m') :
    MRel N (fun p c k => (m p c success).onMatch k (fun c' => nonMatch p c'))
      (fun p c k => (m' p c success).onMatch k (fun c' => nonMatch p c')) :=
  fun _ _ hk p => (h _ _ .success p).onMatch hk (.nonMatch p p)

/-! ### Nodes -/

section
variable {E : Env}

/-- What the nodes around an expression ask about it. -/
structure SameTraits (f : Flags) (a b : Ast) : Prop where
  zlm : zlm a = zlm b
  triv : triv a = triv b
  asrt : isAssertion a = isAssertion b
  one : Ast.triv a = true → ∀ x, matchOne f a x = matchOne f b x

theorem SameTraits.refl (f : Flags) (a : Ast) : SameTraits f a a := ⟨rfl, rfl, rfl, fun _ _ => rfl⟩

theorem rel_triv (r : Nat) {a b : Ast} (h : ∀ x, matchOne E.flags a x = matchOne E.flags b x) : MRel N (trivMatch E r a) (trivMatch E r b) := by
  intro k k' hk p
  unfold trivMatch
  simp only [← h]
  cases E.atEnd r p with
  | true => exact .nonMatch p p
  | false =>
    simp only [Bool.false_eq_true, if_false]
    cases E.deref r p with
    | none => exact .ub
    | some x =>
      cases hx : matchOne E.flags a x with
      | false => simp only [hx]; exact .nonMatch p p
      | true => simp only [hx]; exact hk _

theorem rel_run {k k' : Cont} (hk : CRel N k k') (run : Run) (f f' : Nat → Ctx → Out) (hf : ∀ q, FRel N (f q) (f' q)) :
    FRel N (fun c => match run with | .ub => .ub | .done q => k q c | .fail q => f q c)
      (fun c => match run with | .ub => .ub | .done q => k' q c | .fail q => f' q c) := by
  cases run with
  | ub => exact .ub
  | done q => exact hk q
  | fail q => exact hf q

theorem rel_fail (b : Prop) [Decidable b] (p q : Nat) :
    FRel N (fun c => if b then nonMatch p c else nonMatch q c) (fun c => if b then nonMatch p c else nonMatch q c) := by
  by_cases h : b
  · simp only [h, if_true]; exact .nonMatch p p
  · simp only [h, if_false]; exact .nonMatch q q

theorem runTriv_one {r : Nat} (xs : List (Ast × Ast)) (h : ∀ x ∈ xs, ∀ y, matchOne E.flags x.1 y = matchOne E.flags x.2 y) (p : Nat) :
    runTriv E r (xs.map Prod.fst) p = runTriv E r (xs.map Prod.snd) p := by
  induction xs generalizing p with
  | nil => rfl
  | cons x xs ih =>
    simp only [List.map_cons, runTriv, h x (by simp), ih (fun y hy => h y (by simp [hy]))]

theorem rel_seqTriv (r : Nat) (xs : List (Ast × Ast)) (h : ∀ x ∈ xs, ∀ y, matchOne E.flags x.1 y = matchOne E.flags x.2 y) :
    MRel N (seqTriv E r (xs.map Prod.fst)) (seqTriv E r (xs.map Prod.snd)) := by
  intro k k' hk p
  unfold seqTriv
  rw [runTriv_one xs h, List.length_map, List.length_map]
  cases E.distanceLessThan r xs.length p with
  | true => exact .nonMatch p p
  | false => simp only [Bool.false_eq_true, if_false]; exact rel_run hk _ _ _ (fun q => rel_fail _ _ _)

theorem rel_fixedTriv (r : Nat) {a b : Ast} (h : ∀ y, matchOne E.flags a y = matchOne E.flags b y) (n : Nat) :
    MRel N (fixedTriv E r a n) (fixedTriv E r b n) := by
  intro k k' hk p
  unfold fixedTriv
  have := runTriv_one (E := E) (r := r) (List.replicate n (a, b)) (fun x hx y => by rw [(List.mem_replicate.1 hx).2]; exact h y) p
  rw [List.map_replicate, List.map_replicate] at this
  rw [this]
  cases E.distanceLessThan r n p with
  | true => exact .nonMatch p p
  | false => simp only [Bool.false_eq_true, if_false]; exact rel_run hk _ _ _ (fun q => rel_fail _ _ _)

theorem areTriv_pairs {f : Flags} (xs : List (Ast × Ast)) (h : ∀ x ∈ xs, SameTraits f x.1 x.2) :
    areTriv (xs.map Prod.fst) = areTriv (xs.map Prod.snd) := by
  unfold areTriv
  rw [List.all_map, List.all_map]
  exact all_congr' (fun x hx => (h x hx).triv)

theorem one_pairs {f : Flags} {xs : List (Ast × Ast)} (h : ∀ x ∈ xs, SameTraits f x.1 x.2) (ht : areTriv (xs.map Prod.fst) = true) :
    ∀ x ∈ xs, ∀ y, matchOne f x.1 y = matchOne f x.2 y := by
  intro x hx
  refine (h x hx).one ?_
  rw [areTriv, List.all_map, List.all_eq_true] at ht
  exact ht x hx

theorem rel_seqMatch (r : Nat) {m m' : Ast → Matcher} (xs : List (Ast × Ast)) (ht : ∀ x ∈ xs, SameTraits E.flags x.1 x.2)
    (hm : ∀ x ∈ xs, MRel N (m x.1) (m' x.2)) : MRel N (seqMatch E r m (xs.map Prod.fst)) (seqMatch E r m' (xs.map Prod.snd)) := by
  induction xs with
  | nil => exact fun _ _ _ _ => .ub
  | cons x xs ih =>
    match xs with
    | [] => exact hm x (by simp)
    | y :: xs =>
      have ih := ih (fun z hz => ht z (List.mem_cons_of_mem _ hz)) (fun z hz => hm z (List.mem_cons_of_mem _ hz))
      have e := areTriv_pairs (x :: y :: xs) ht
      have e2 := rel_seqTriv (E := E) (N := N) r (x :: y :: xs)
      have e3 := one_pairs ht
      simp only [List.map_cons] at e e2 e3 ih ⊢
      unfold seqMatch
      rw [← e]
      split
      · next h => exact e2 (e3 h)
      · exact (hm x (by simp)).comp ih

theorem matchOne_set (f : Flags) (xs : List (Ast × Ast)) (h : ∀ x ∈ xs, ∀ y, matchOne f x.1 y = matchOne f x.2 y) (y : Byte) :
    matchOne f (.set (xs.map Prod.fst)) y = matchOne f (.set (xs.map Prod.snd)) y := by
  simp only [matchOne, matchAny_eq, List.any_map]
  exact any_congr' (fun x hx => h x hx y)

/-- Branches one after the other. -/
def orAll : List Matcher → Matcher
  | [] => fun p c _ => nonMatch p c
  | m :: l => fun p c k => (m p c k).orElse (fun c' => orAll l p c' k)

theorem rel_orElse {m m' m2 m2' : Matcher} (h : MRel N m m') (h2 : MRel N m2 m2') :
    MRel N (fun p c k => (m p c k).orElse (fun c' => m2 p c' k)) (fun p c k => (m' p c k).orElse (fun c' => m2' p c' k)) :=
  fun k k' hk p => (h k k' hk p).orElse (h2 k k' hk p)

theorem orElse_assoc' {o : Out} {f g : Ctx → Out} :
    (o.orElse f).orElse g = o.orElse (fun c => (f c).orElse g) := by
  match o with
  | .ok ⟨_, true⟩ _ | .ok ⟨_, false⟩ _ | .ub | .diverge => rfl

theorem FRel.orElse_fail {f f' : Ctx → Out} (h : FRel N f f') (p : Nat) : FRel N (fun c => (f c).orElse (fun c' => Mregex.nonMatch p c')) f' := by
  refine FRel.trans ?_ h
  obtain ⟨pl, h⟩ := h.left
  refine ⟨pl, fun c hc => ⟨?_, (h c hc).1⟩⟩
  have := (h c hc).1
  match pl, this with
  | .hit q w, e => simp only [Follows] at e ⊢; simp [e, Out.orElse]
  | .miss w, ⟨q, e⟩ => exact ⟨p, by simp [e, Out.orElse, Mregex.nonMatch]⟩
  | .ub, e => simp only [Follows] at e ⊢; simp [e, Out.orElse]
  | .diverge, e => simp only [Follows] at e ⊢; simp [e, Out.orElse]

theorem rel_fail_right {m m' : Matcher} (h : MRel N m m') :
    MRel N (fun p c k => (m p c k).orElse (fun c' => nonMatch p c')) m' :=
  fun k k' hk p => (h k k' hk p).orElse_fail p

theorem orAll_append (l l' : List Matcher) (p : Nat) (c : Ctx) (k : Cont) :
    orAll (l ++ l') p c k = (orAll l p c k).orElse (fun c' => orAll l' p c' k) := by
  induction l generalizing c with
  | nil => rfl
  | cons m l ih =>
    simp only [List.cons_append, orAll, orElse_assoc', ih]

theorem rel_orAll (xs : List (Matcher × Matcher)) (h : ∀ x ∈ xs, MRel N x.1 x.2) :
    MRel N (orAll (xs.map Prod.fst)) (orAll (xs.map Prod.snd)) := by
  induction xs with
  | nil => exact fun _ _ _ p => .nonMatch p p
  | cons x xs ih => exact rel_orElse (h x (by simp)) (ih (fun y hy => h y (by simp [hy])))

/-- A set is its elements tried one after the other: the second attempt with the same character changes nothing. -/
theorem rel_set (r : Nat) (l : List Ast) (hl : l ≠ []) : MRel N (trivMatch E r (.set l)) (orAll (l.map (trivMatch E r))) := by
  intro k k' hk p
  cases he : E.atEnd r p with
  | true =>
    have : ∀ l : List Ast, ∀ c, orAll (l.map (trivMatch E r)) p c k' = nonMatch p c := by
      intro l
      induction l with
      | nil => exact fun _ => rfl
      | cons a l ih => intro c; simp only [List.map_cons, orAll, ih]; simp [trivMatch, he, nonMatch, Out.orElse]
    simp only [this, trivMatch, he, if_true]
    exact .nonMatch p p
  | false =>
    cases hx : E.deref r p with
    | none =>
      match l with
      | a :: l =>
        simp only [List.map_cons, orAll, trivMatch, he, hx, Bool.false_eq_true, if_false, Out.orElse]
        exact .ub
    | some x =>
      have key : ∀ l : List Ast, FRel N (fun c => if l.any (matchOne E.flags · x) then k (Env.next r p) c else nonMatch p c)
          (fun c => orAll (l.map (trivMatch E r)) p c k') := by
        intro l
        induction l with
        | nil => exact .nonMatch p p
        | cons a l ih =>
          simp only [List.map_cons, List.any_cons, orAll]
          have e : ∀ c, trivMatch E r a p c k' = if matchOne E.flags a x then k' (Env.next r p) c else nonMatch p c := by
            intro c; simp only [trivMatch, he, hx, Bool.false_eq_true, if_false]
          simp only [e]
          rcases Bool.eq_false_or_eq_true (matchOne E.flags a x) with ha | ha
          case inr =>
            simp only [ha, Bool.false_or, Bool.false_eq_true, if_false]
            exact ih
          case inl =>
            simp only [ha, Bool.true_or, if_true]
            cases hl : l.any (matchOne E.flags · x) with
            | true =>
              simp only [hl, if_true] at ih
              exact (hk _).twice ih
            | false =>
              simp only [hl, Bool.false_eq_true, if_false] at ih
              exact ((hk _).left.orElse_fail p).symm.trans ((hk _).orElse ih)
      have e : ∀ c, trivMatch E r (.set l) p c k = if l.any (matchOne E.flags · x) then k (Env.next r p) c else nonMatch p c := by
        intro c; simp only [trivMatch, he, hx, Bool.false_eq_true, if_false, matchOne, matchAny_eq]
      simp only [e]
      exact key l

/-- An alternation is its branches tried one after the other. -/
theorem rel_altMatch (r : Nat) {m m' : Ast → Matcher} (l : List Ast) (hl : l ≠ []) (hm : ∀ a ∈ l, MRel N (m a) (m' a))
    (ht : ∀ a ∈ l, triv a = true → MRel N (trivMatch E r a) (m' a)) : MRel N (altMatch E r m l) (orAll (l.map m')) := by
  induction l with
  | nil => exact absurd rfl hl
  | cons a l ih =>
    match l with
    | [] =>
      exact (rel_fail_right (hm a (by simp)).symm).symm
    | b :: l =>
      unfold altMatch
      split
      · next h =>
        refine (rel_set r _ (by simp)).trans ?_
        have := rel_orAll (N := N) ((a :: b :: l).map (fun x => (trivMatch E r x, m' x))) (by
          intro x hx
          obtain ⟨y, hy, rfl⟩ := List.mem_map.1 hx
          exact ht y hy (List.all_eq_true.1 h y hy))
        simpa only [List.map_map, Function.comp_def] using this
      · exact rel_orElse (hm a (by simp)) (ih (by simp) (fun x hx => hm x (List.mem_cons_of_mem _ hx))
          (fun x hx => ht x (List.mem_cons_of_mem _ hx)))

theorem rel_capMatch (r id : Nat) (name : GroupName) {m m' : Matcher} (h : MRel N m m') :
    MRel N (capMatch E r id name m) (capMatch E r id name m') := by
  intro k k' hk p
  refine (h _ _ (fun q => ?_) p).orElse ?_
  · by_cases hs : E.names[id]? = some name ∧ r ≤ 1 ∧ id < N
    · obtain ⟨pl, hp⟩ := (hk q).pre (fun i => if i = id then .put (some (if r = 0 then (p, q) else (q, p))) else .keep)
      refine ⟨pl, fun c hc => ?_⟩
      have := hp c hc
      simp only [Writes.app_set] at this
      have e : setCapture E r id name p q c = some (c.set id (some (if r = 0 then (p, q) else (q, p)))) := by
        unfold setCapture; rw [if_pos (by rw [hc]; exact hs)]
      simp only [e]
      exact this
    · refine ⟨.ub, fun c hc => ?_⟩
      have e : setCapture E r id name p q c = none := by
        unfold setCapture; rw [if_neg (by rw [hc]; exact hs)]
      simp only [e]
      exact ⟨rfl, rfl⟩
  · have := (FRel.nonMatch (N := N) p p).pre (fun i => if i = id then .clear else .keep)
    simpa only [Writes.app_clear] using this

theorem rel_nonUnrolled {m m' : Matcher} (h : MRel N m m') : ∀ n, MRel N (nonUnrolled m n) (nonUnrolled m' n)
  | 0 => fun _ _ _ _ => .ub
  | 1 => h
  | n + 2 => h.comp (rel_nonUnrolled h (n + 1))

theorem rel_unrolled {m m' : Matcher} (h : MRel N m m') : ∀ n, MRel N (unrolled m n) (unrolled m' n)
  | 0 => .id
  | 1 => h
  | n + 2 => h.comp (rel_unrolled h (n + 1))

theorem rel_fixedBacktracking (r : Nat) {a b : Ast} (f : SameTraits E.flags a b) {m m' : Matcher} (h : MRel N m m') (n : Nat) :
    MRel N (fixedBacktracking E r a m n) (fixedBacktracking E r b m' n) := by
  unfold fixedBacktracking
  rw [← f.triv]
  split
  · next ht => exact rel_fixedTriv r (f.one ht) n
  · split
    · exact rel_unrolled h n
    · exact rel_nonUnrolled h n

theorem rel_fixedMatch (r : Nat) (mode : Mode) {a b : Ast} (f : SameTraits E.flags a b) {m m' : Matcher} (h : MRel N m m') (n : Nat) :
    MRel N (fixedMatch E r mode a m n) (fixedMatch E r mode b m' n) := by
  unfold fixedMatch
  rw [← f.triv]
  split
  · exact .id
  · split
    · split
      · exact h.commit
      · exact h
    · split
      · exact (rel_fixedBacktracking r f h n).commit
      · exact rel_fixedBacktracking r f h n

theorem rel_guard (guard : Bool) (p : Nat) {k k' : Cont} (hk : CRel N k k') : CRel N (guardCont guard p k) (guardCont guard p k') := by
  intro q
  unfold guardCont
  cases guard && (p == q) with
  | true => exact .nonMatch p p
  | false => exact hk q

theorem rel_possLoop {m m' : Matcher} (h : MRel N m m') (guard inf : Bool) : ∀ n, MRel N (possLoop m guard inf n) (possLoop m' guard inf n) := by
  intro n
  induction n with
  | zero =>
    intro k k' hk p
    unfold possLoop
    cases inf with
    | true => exact .diverge
    | false => exact hk p
  | succ n ih =>
    intro k k' hk p
    unfold possLoop
    refine (h _ _ .success p).onMatch (fun q => ?_) (hk p)
    cases guard && (p == q) with
    | true => exact hk p
    | false => exact ih k k' hk q

theorem rel_possTriv (r : Nat) {a b : Ast} (h : ∀ y, matchOne E.flags a y = matchOne E.flags b y) (inf : Bool) :
    ∀ n, MRel N (possTriv E r a inf n) (possTriv E r b inf n) := by
  intro n
  induction n with
  | zero =>
    intro k k' hk p
    unfold possTriv
    cases inf with
    | true => exact .diverge
    | false => exact hk p
  | succ n ih =>
    intro k k' hk p
    unfold possTriv
    simp only [← h]
    cases E.atEnd r p with
    | true => exact hk p
    | false =>
      simp only [Bool.false_eq_true, if_false]
      cases E.deref r p with
      | none => exact .ub
      | some x =>
        cases hx : matchOne E.flags a x with
        | false => simp only [hx]; exact hk p
        | true => simp only [hx]; exact ih k k' hk _

theorem rel_greedyLoop {m m' : Matcher} (h : MRel N m m') (guard inf : Bool) :
    ∀ n, MRel N (greedyLoop m guard inf n) (greedyLoop m' guard inf n) := by
  intro n
  induction n with
  | zero =>
    intro k k' hk p
    unfold greedyLoop
    cases inf with
    | true => exact .diverge
    | false => exact hk p
  | succ n ih =>
    intro k k' hk p
    unfold greedyLoop
    exact (h _ _ (rel_guard guard p (fun q => ih k k' hk q)) p).orElse (hk p)

theorem rel_backOff (r initial : Nat) {k k' : Cont} (hk : CRel N k k') : ∀ n, CRel N (backOff r initial k n) (backOff r initial k' n) := by
  intro n
  induction n with
  | zero =>
    intro q
    show FRel N (fun c => backOff r initial k 0 q c) (fun c => backOff r initial k' 0 q c)
    unfold backOff
    refine (hk q).orElse ?_
    by_cases h : q = initial
    · simp only [h, if_true]; exact .nonMatch _ _
    · simp only [h, if_false]; exact .diverge
  | succ n ih =>
    intro q
    show FRel N (fun c => backOff r initial k (n + 1) q c) (fun c => backOff r initial k' (n + 1) q c)
    unfold backOff
    refine (hk q).orElse ?_
    by_cases h : q = initial
    · simp only [h, if_true]; exact .nonMatch _ _
    · simp only [h, if_false]; exact ih _

theorem rel_greedyTriv (r : Nat) {a b : Ast} (h : ∀ y, matchOne E.flags a y = matchOne E.flags b y) (inf : Bool) (n : Nat) :
    MRel N (greedyTriv E r a inf n) (greedyTriv E r b inf n) :=
  fun _ _ hk p => rel_possTriv r h inf n _ _ (fun q => rel_backOff r p hk _ q) p

theorem rel_lazyLoop {m m' : Matcher} (h : MRel N m m') (guard inf : Bool) :
    ∀ n, MRel N (lazyLoop m guard inf n) (lazyLoop m' guard inf n) := by
  intro n
  induction n with
  | zero =>
    intro k k' hk p
    unfold lazyLoop
    cases inf with
    | true => exact .diverge
    | false => exact (hk p).orElse (.nonMatch p p)
  | succ n ih =>
    intro k k' hk p
    unfold lazyLoop
    exact (hk p).orElse (h _ _ (rel_guard guard p (fun q => ih k k' hk q)) p)

theorem rel_lazyTriv (r : Nat) {a b : Ast} (h : ∀ y, matchOne E.flags a y = matchOne E.flags b y) (inf : Bool) :
    ∀ n, MRel N (lazyTriv E r a inf n) (lazyTriv E r b inf n) := by
  intro n
  induction n with
  | zero =>
    intro k k' hk p
    unfold lazyTriv
    cases inf with
    | true => exact .diverge
    | false => exact (hk p).orElse (.nonMatch p p)
  | succ n ih =>
    intro k k' hk p
    unfold lazyTriv
    refine (hk p).orElse ?_
    simp only [← h]
    cases E.atEnd r p with
    | true => exact .nonMatch p p
    | false =>
      simp only [Bool.false_eq_true, if_false]
      cases E.deref r p with
      | none => exact .ub
      | some x =>
        cases hx : matchOne E.flags a x with
        | false => simp only [hx]; exact .nonMatch p p
        | true => simp only [hx]; exact ih k k' hk _

theorem rel_betweenBounds (r : Nat) (mode : Mode) {a b : Ast} (f : SameTraits E.flags a b) {m m' : Matcher} (h : MRel N m m')
    (inf : Bool) (n : Nat) : MRel N (betweenBounds E r mode a m inf n) (betweenBounds E r mode b m' inf n) := by
  unfold betweenBounds
  rw [← f.triv, ← f.zlm]
  cases ht : triv a with
  | true =>
    have h1 := f.one ht
    simp only [Bool.true_and, if_true]
    split
    · exact rel_possTriv r h1 inf n
    · split
      · split
        · exact rel_greedyTriv r h1 inf n
        · exact rel_greedyLoop h _ inf n
      · exact rel_lazyTriv r h1 inf n
  | false =>
    simp only [Bool.false_and, Bool.false_eq_true, if_false]
    split
    · exact rel_possLoop h _ inf n
    · split
      · exact rel_greedyLoop h _ inf n
      · exact rel_lazyLoop h _ inf n

theorem rel_repMatch (r F : Nat) (mode : Mode) (lo : Nat) (hi : Bound) {a b : Ast} (f : SameTraits E.flags a b) {m m' : Matcher}
    (h : MRel N m m') : MRel N (repMatch E r F mode lo hi a m) (repMatch E r F mode lo hi b m') := by
  unfold repMatch
  cases hi with
  | fin n =>
    dsimp only
    split
    · exact rel_fixedMatch r mode f h lo
    · split
      · exact fun _ _ _ _ => .ub
      · split
        · exact rel_betweenBounds r mode f h false n
        · exact (rel_fixedMatch r mode f h lo).comp (rel_betweenBounds r mode f h false (n - lo))
  | inf =>
    dsimp only
    split
    · exact rel_betweenBounds r mode f h true F
    · exact (rel_fixedMatch r mode f h lo).comp (rel_betweenBounds r mode f h true F)

theorem rel_assert {pred pred' : Nat → Option Bool} (h : ∀ p, pred p = pred' p) : MRel N (assertMatch pred) (assertMatch pred') := by
  intro k k' hk p
  unfold assertMatch
  rw [← h]
  cases pred p with
  | none => exact .ub
  | some b =>
    cases b with
    | true => exact hk p
    | false => exact .nonMatch p p

theorem rel_look {m m' : Matcher} (h : MRel N m m') : MRel N (lookMatch m) (lookMatch m') :=
  fun _ _ hk p => (h _ _ .success p).onMatch (fun _ => hk p) (.nonMatch p p)

theorem rel_negAssert {m m' : Matcher} (h : MRel N m m') : MRel N (negAssertMatch m) (negAssertMatch m') :=
  fun _ _ hk p => (h _ _ .success p).onMatch (fun _ => .nonMatch p p) (hk p)

end
end
end Mregex
