import Verif.Spec.Kept
import Verif.Proof.PathMethods

/-!
# Groups that keep their text

The refinement `mtch_paths` lets groups that are tried again lose their text.  Here one of them, `k`, is watched: `N` are the groups that may be cleared,
`But N k` are the same without `k`.
-/

namespace Mregex
open Ast Spec

/-- All of `N` but `k`. -/
def But (N : Nat → Prop) (k : Nat) (i : Nat) : Prop := N i ∧ i ≠ k

/-- `DenC` with different strengths of the agreement at the start, in the continuation when it fails, in the continuation when it begins and at the end. -/
def DenQ (E : Env) (X : List Nat) (Ni Nf No Nfo : Nat → Prop) (Pre : Place → Prop) (m : Matcher) (g : Place → List Place) : Prop :=
  ∀ (β : Type) (S : β → Nat → Ctx → Prop) (x : Place) (c : Ctx) (cont : Cont) (G : Place → Option β), Pre x → Agrees E Ni X x.2 c →
    (∀ y c', y ∈ g x → Agrees E No X y.2 c' → ViewS S (Agrees E Nf X y.2) (cont y.1 c') (G y)) →
    ViewS S (Agrees E Nfo X x.2) (m x.1 c cont) ((g x).findSome? G)

section
variable {E : Env} {X : List Nat} {N N1 N2 N3 N4 Nf No : Nat → Prop} {Pre Pre' : Place → Prop} {k : Nat} {m m' : Matcher} {g g' : Place → List Place}

theorem Agrees.but {ev : List Event} {c : Ctx} (h : Agrees E (But N k) X ev c) : Agrees E N X ev c := by
  refine ⟨h.1, fun i g hi hg => ?_⟩
  have := h.2 i g hi hg
  split at this
  · exact this
  · exact this.imp id (fun h => ⟨h.1.1, h.2⟩)

theorem Agrees.fresh {ev : List Event} {c : Ctx} (h : Agrees E N X ev c) (hk : held k ev = none) : Agrees E (But N k) X ev c := by
  refine ⟨h.1, fun i g hi hg => ?_⟩
  have := h.2 i g hi hg
  split at this
  · exact this
  · next v e =>
    refine this.imp id (fun h => ⟨⟨h.1, ?_⟩, h.2⟩)
    rintro rfl
    rw [hk] at e
    cases e

theorem Agrees.setBut {ev : List Event} {c : Ctx} {v : Nat × Nat} (h : Agrees E N (k :: X) ev c) :
    Agrees E (But N k) X (ev ++ [(k, v)]) (c.set k (some v)) := by
  have h' := h.set (v := v)
  refine ⟨h'.1, fun i g hi hg => ?_⟩
  by_cases e : k = i
  · subst e
    rw [held_snoc, if_pos rfl]
    rw [List.getElem?_set_self'] at hg
    cases hc : c[k]? with
    | none => simp [hc] at hg
    | some g' => simp [hc] at hg; exact .inl hg.symm
  · have := h'.2 i g hi hg
    split at this
    · exact this
    · exact this.imp id (fun h => ⟨⟨h.1, Ne.symm e⟩, h.2⟩)

theorem DenC.denQ (h : DenC E N X Pre m g) : DenQ E X N N N N Pre m g := h

theorem DenQ.mono (h : DenQ E X N1 N2 N3 N4 Pre m g) {M1 M2 M3 M4 : Nat → Prop}
    (h1 : ∀ ev c, Agrees E M1 X ev c → Agrees E N1 X ev c) (h2 : ∀ ev c, Agrees E M2 X ev c → Agrees E N2 X ev c)
    (h3 : ∀ ev c, Agrees E N3 X ev c → Agrees E M3 X ev c) (h4 : ∀ x c, Pre' x → Agrees E N4 X x.2 c → Agrees E M4 X x.2 c)
    (hpre : ∀ x, Pre' x → Pre x) : DenQ E X M1 M2 M3 M4 Pre' m g := by
  intro β S x c cont G hx hc hk
  exact (h β S x c cont G (hpre x hx) (h1 _ _ hc) (fun y c' hy hc' => (hk y c' hy (h3 _ _ hc')).mono (h2 _))).mono (fun c => h4 x c hx)

theorem DenQ.pre (h : DenQ E X N1 N2 N3 N4 Pre m g) (hp : ∀ x, Pre' x → Pre x) : DenQ E X N1 N2 N3 N4 Pre' m g :=
  fun β S x c cont G hx => h β S x c cont G (hp x hx)

theorem DenQ.congr (h : DenQ E X N1 N2 N3 N4 Pre m g) (hg : ∀ x, Pre x → g x = g' x) : DenQ E X N1 N2 N3 N4 Pre m g' := by
  intro β S x c cont G hx hc hk
  rw [← hg x hx] at hk ⊢
  exact h β S x c cont G hx hc hk

theorem DenQ.comp (h : DenQ E X N1 N2 N3 N4 Pre m g) (h' : DenQ E X N3 Nf No N2 Pre' m' g') (hpre : ∀ x y, Pre x → y ∈ g x → Pre' y) :
    DenQ E X N1 Nf No N4 Pre (fun p c cont => m p c (fun q c' => m' q c' cont)) (fun x => (g x).flatMap g') := by
  intro β S x c cont G hx hc hk
  dsimp only at hk ⊢
  rw [findSome?_flatMapP]
  refine h β S x c _ _ hx hc (fun y c' hy hc' => ?_)
  exact h' β S y c' cont G (hpre x y hx hy) hc' (fun z c'' hz hc'' => hk z c'' (List.mem_flatMap.2 ⟨y, hy, hz⟩) hc'')

theorem DenQ.orElse (h : DenQ E X N1 Nf No N2 Pre m g) (h' : DenQ E X N2 Nf No N4 Pre m' g') :
    DenQ E X N1 Nf No N4 Pre (fun p c cont => (m p c cont).orElse (fun c' => m' p c' cont)) (fun x => g x ++ g' x) := by
  intro β S x c cont G hx hc hk
  dsimp only at hk ⊢
  rw [List.findSome?_append]
  refine (h β S x c cont G hx hc (fun y c' hy => hk y c' (List.mem_append.2 (.inl hy)))).orElse (fun c' hc' => ?_)
  exact h' β S x c' cont G hx hc' (fun y c'' hy => hk y c'' (List.mem_append.2 (.inr hy)))

/-- The identity may be left with less than it was entered with. -/
theorem DenQ.id : DenQ E X N1 N2 N1 N2 Pre (fun p c cont => cont p c) (fun x => [x]) := by
  intro β S x c cont G _ hc hk
  have := hk x c (by simp) hc
  simpa using this

/-- A matcher that keeps the captures and offers at most one way. -/
theorem denQ_oneWay {g : Nat → List Nat} (hm : Committing m) (hd : ∀ c, c.length = E.names.length → Den E (· = c) m g) (h1 : ∀ p, (g p).length ≤ 1)
    (hpre : ∀ x, Pre x → x.1 ≤ E.inp.length) (h : ∀ ev c, Agrees E N1 X ev c → Agrees E N2 X ev c) :
    DenQ E X N1 N2 N1 N2 Pre m (fun x => (g x.1).map (·, x.2)) := by
  intro β S x c cont G hx hc hk
  dsimp only at hk ⊢
  rw [hm]
  have hv := hd c hc.1 x.1 c success some (hpre x hx) rfl (fun q c' _ e => by simp [View, Post, success, e])
  have hlen := h1 x.1
  match hg : g x.1, hlen with
  | [], _ =>
    rw [hg] at hv
    match hr : m x.1 c success with
    | .ok ⟨q, true⟩ c' => rw [hr] at hv; simp [View, Post] at hv
    | .ok ⟨q, false⟩ c' =>
      rw [hr] at hv
      simp only [View, Post, Bool.false_eq_true, if_false] at hv
      simp only [Out.andThen, Bool.false_eq_true, if_false, List.map_nil, List.findSome?_nil]
      obtain ⟨_, rfl⟩ := hv
      exact viewS_nonMatch (h _ _ hc)
    | .ub => rw [hr] at hv; exact False.elim hv
    | .diverge => rw [hr] at hv; exact False.elim hv
  | [q0], _ =>
    rw [hg] at hv hk
    match hr : m x.1 c success with
    | .ok ⟨q, true⟩ c' =>
      rw [hr] at hv
      simp only [View, Post, if_true, List.findSome?_cons, Option.some.injEq] at hv
      obtain ⟨rfl, rfl⟩ := hv
      simp only [Out.andThen, if_true, List.map_cons, List.map_nil]
      have := hk (q0, x.2) c' (by simp) hc
      simpa using this
    | .ok ⟨q, false⟩ c' => rw [hr] at hv; simp [View, Post] at hv
    | .ub => rw [hr] at hv; exact False.elim hv
    | .diverge => rw [hr] at hv; exact False.elim hv
  | _ :: _ :: _, h => simp at h

/-! ### One way -/

theorem Committing.comp (h : Committing m) (h' : Committing m') : Committing (fun p c cont => m p c (fun q c' => m' q c' cont)) := by
  intro p c k
  dsimp only
  rw [h p c (fun q c' => m' q c' k), h p c (fun q c' => m' q c' success)]
  match m p c success with
  | .ok ⟨q, true⟩ c' => simp only [Out.andThen, if_true]; exact h' q c' k
  | .ok ⟨q, false⟩ c' => rfl
  | .ub => rfl
  | .diverge => rfl

theorem assertMatch_committing (pred : Nat → Option Bool) : Committing (assertMatch pred) := by
  intro p c k
  unfold assertMatch
  split
  · rfl
  · split <;> rfl

theorem seqTriv_committing {r : Nat} (l : List Ast) : Committing (seqTriv E r l) := by
  intro p c k
  unfold seqTriv
  split
  · rfl
  · split
    · rfl
    · rfl
    · split <;> rfl

theorem lookMatch_committing : Committing (lookMatch m) := by
  intro p c k
  unfold lookMatch
  match m p c success with
  | .ok ⟨q, true⟩ c' => rfl
  | .ok ⟨q, false⟩ c' => rfl
  | .ub => rfl
  | .diverge => rfl

theorem negAssertMatch_committing : Committing (negAssertMatch m) := by
  intro p c k
  unfold negAssertMatch
  match m p c success with
  | .ok ⟨q, true⟩ c' => rfl
  | .ok ⟨q, false⟩ c' => rfl
  | .ub => rfl
  | .diverge => rfl

theorem mtch_committing {fuel r : Nat} {a : Ast} (h : oneWay a = true) : Committing (mtch E fuel a r) := by
  cases fuel with
  | zero => intro p c k; rfl
  | succ n =>
    match a with
    | .empty => intro p c k; rfl
    | .lit _ | .range _ _ | .wildcard | .set _ => exact trivMatch_committing _
    | .neg a =>
      unfold mtch
      dsimp only
      split
      · exact negAssertMatch_committing
      · exact trivMatch_committing _
    | .look .ahead a =>
      unfold mtch
      dsimp only
      split
      · exact assertMatch_committing _
      · exact lookMatch_committing
    | .look .behind a =>
      unfold mtch
      dsimp only
      split
      · exact assertMatch_committing _
      · split
        · intro p c k; rfl
        · exact lookMatch_committing
    | .bol | .boi | .eol | .eoi | .wordB => exact assertMatch_committing _
    | .seq _ | .alt _ | .cap _ _ _ | .rep _ _ _ _ | .backref _ | .namedBackref _ => simp [oneWay] at h

theorem length_oneChar (s : List Byte) (fwd : Bool) (P : Byte → Bool) (p : Nat) : (oneChar s fwd P p).length ≤ 1 := by
  unfold oneChar
  split
  · simp
  · split <;> simp

theorem length_test (b : Bool) (p : Nat) : (test b p).length ≤ 1 := by
  unfold test
  split <;> simp

theorem length_ends {f : Flags} {s : List Byte} {a : Ast} (h : oneWay a = true) (fwd inv : Bool) (p : Nat) : (ends f s a fwd inv p).length ≤ 1 := by
  cases a <;> simp only [oneWay, Bool.false_eq_true] at h
  all_goals unfold ends
  all_goals first | exact length_oneChar _ _ _ _ | exact length_test _ _ | exact Nat.le_refl _ | (split; exact length_test _ _; first | exact length_oneChar _ _ _ _ | exact length_test _ _)

theorem length_endsAll {f : Flags} {s : List Byte} {l : List Ast} (h : l.all oneWay = true) (p : Nat) : (endsAll f s l true false p).length ≤ 1 := by
  induction l generalizing p with
  | nil => simp [endsAll]
  | cons a l ih =>
    simp only [List.all_cons, Bool.and_eq_true] at h
    simp only [endsAll, Bool.false_eq_true, if_false]
    have := length_ends (f := f) (s := s) h.1 true false p
    match h' : ends f s a true false p, this with
    | [], _ => simp
    | [q], _ => simpa using ih h.2 q
    | _ :: _ :: _, h => simp at h

theorem seqMatch_committing {r n : Nat} (l : List Ast) (h : l.all oneWay = true) : Committing (seqMatch E r (fun a => mtch E n a r) l) := by
  induction l with
  | nil => intro p c k; rfl
  | cons a l ih =>
    simp only [List.all_cons, Bool.and_eq_true] at h
    match l, ih with
    | [], _ => exact mtch_committing h.1
    | b :: l, ih =>
      unfold seqMatch
      split
      · exact seqTriv_committing _
      · exact (mtch_committing h.1).comp (ih h.2)

theorem closed_of_oneWay {a : Ast} (h : oneWay a = true) (hc : commitsClosed a = true) : closed a = true := by
  cases a <;> simp only [oneWay, Bool.false_eq_true] at h
  all_goals simpa only [commitsClosed] using hc

/-- The parts of a concatenation after the last group. -/
theorem denQ_tail {n : Nat} {l : List Ast} (hne : l ≠ []) (hok : ∀ a ∈ l, Ok E 0 a) (hl : l.all oneWay = true) (hc : commitsClosedAll l = true)
    (hf : depthAll l + E.inp.length + 1 ≤ n) (hpre : ∀ x, Pre x → x.1 ≤ E.inp.length) (h : ∀ ev c, Agrees E N1 X ev c → Agrees E N2 X ev c) :
    DenQ E X N1 N2 N1 N2 Pre (seqMatch E 0 (fun a => mtch E n a 0) l) (pathsAll E.flags E.inp l) := by
  have hcl := closedAll_iff.2 (fun a ha => by
    have := closed_of_oneWay (List.all_eq_true.1 hl a ha) (commitsClosedAll_mem hc a ha)
    simpa only [closed, Bool.and_eq_true, List.isEmpty_iff] using this)
  refine (denQ_oneWay (g := endsAll E.flags E.inp l true false) (seqMatch_committing l hl) (fun c hlen => ?_) (length_endsAll hl) hpre h).congr
    (fun x _ => ?_)
  · have := mtch_den (E := E) (I := (· = c)) (fun _ h => by rw [h]; exact hlen) (n + 1) (.seq l) 0 (.seq hne hok) (by simpa only [noBackref] using hcl.2)
      (by simp only [depth]; omega) (fun r' id b h => by
        have := capAt_groupIds h
        rw [groupIds, hcl.1] at this
        cases this)
    have e : endsAll E.flags E.inp l true false = ends E.flags E.inp (.seq l) true false := by funext p; simp only [ends]
    rw [e]
    exact this
  · have := paths_closed (f := E.flags) (s := E.inp) (a := .seq l) (by simpa only [groupIds] using hcl.1) (by simpa only [noBackref] using hcl.2) x.1 x.2
    simpa only [paths, ends] using this.symm

/-! ### Groups -/

theorem denQ_set {name : GroupName} (h : DenC E N (k :: X) Pre m g) (hn : E.names[k]? = some name) (hk : N k) (hpre : ∀ x, Pre' x → Pre x) :
    DenQ E X N N (But N k) N Pre' (capMatch E 0 k name m) (fun x => (g x).map (fun y => (y.1, y.2 ++ [(k, x.1, y.1)]))) := by
  intro β S x c cont G hx hc hcont
  dsimp only at hcont ⊢
  rw [List.findSome?_map]
  unfold capMatch
  rw [show ((g x).findSome? (G ∘ fun y => (y.1, y.2 ++ [(k, x.1, y.1)]))) =
    ((g x).findSome? (G ∘ fun y => (y.1, y.2 ++ [(k, x.1, y.1)]))).or none by simp]
  have hid : k < E.names.length := (List.getElem?_eq_some_iff.1 hn).1
  refine ViewS.orElse (F := Agrees E N (k :: X) x.2) (h β S x c _ _ (hpre x hx) hc.weaken (fun y c' hy hc' => ?_))
    (fun c' hc' => viewS_nonMatch (hc'.clear (fun h => absurd hk h)))
  unfold setCapture
  rw [if_pos ⟨hn, Nat.zero_le _, by rw [hc'.1]; exact hid⟩]
  exact (hcont (y.1, y.2 ++ [(k, x.1, y.1)]) _ (List.mem_map.2 ⟨y, hy, rfl⟩) hc'.setBut).mono (fun c h => h.drop)

theorem denQ_cap {id : Nat} {name : GroupName} (h : DenQ E (id :: X) N1 N2 N3 N4 Pre m g) (hn : E.names[id]? = some name)
    (hpre : ∀ x, Pre' x → Pre x ∧ (¬N4 id → held id x.2 = none)) :
    DenQ E X N1 N2 N3 N4 Pre' (capMatch E 0 id name m) (fun x => (g x).map (fun y => (y.1, y.2 ++ [(id, x.1, y.1)]))) := by
  intro β S x c cont G hx hc hcont
  dsimp only at hcont ⊢
  rw [List.findSome?_map]
  unfold capMatch
  rw [show ((g x).findSome? (G ∘ fun y => (y.1, y.2 ++ [(id, x.1, y.1)]))) =
    ((g x).findSome? (G ∘ fun y => (y.1, y.2 ++ [(id, x.1, y.1)]))).or none by simp]
  have hid : id < E.names.length := (List.getElem?_eq_some_iff.1 hn).1
  refine ViewS.orElse (F := Agrees E N4 (id :: X) x.2) (h β S x c _ _ (hpre x hx).1 hc.weaken (fun y c' hy hc' => ?_))
    (fun c' hc' => viewS_nonMatch (hc'.clear (hpre x hx).2))
  unfold setCapture
  rw [if_pos ⟨hn, Nat.zero_le _, by rw [hc'.1]; exact hid⟩]
  exact (hcont (y.1, y.2 ++ [(id, x.1, y.1)]) _ (List.mem_map.2 ⟨y, hy, rfl⟩) hc'.set).mono (fun c h => h.drop)

/-! ### Iterations -/

theorem denQ_nonUnrolled (hw : DenC E N X Pre m g) (h : DenQ E X N Nf No N Pre m g) (j : Nat) (hstep : 1 ≤ j → ∀ x y, Pre x → y ∈ g x → Pre y) :
    DenQ E X N Nf No N Pre (nonUnrolled m (j + 1)) (timesP g (j + 1)) := by
  induction j with
  | zero => rw [timesP_one]; exact h
  | succ j ih => exact hw.denQ.comp (ih (fun _ => hstep (by omega))) (hstep (by omega))

theorem denQ_unrolled (hw : DenC E N X Pre m g) (h : DenQ E X N Nf No N Pre m g) (j : Nat) (hstep : 1 ≤ j → ∀ x y, Pre x → y ∈ g x → Pre y) :
    DenQ E X N Nf No N Pre (unrolled m (j + 1)) (timesP g (j + 1)) := by
  induction j with
  | zero => rw [timesP_one]; exact h
  | succ j ih => exact hw.denQ.comp (ih (fun _ => hstep (by omega))) (hstep (by omega))

/-- The last of the rounds decides. -/
theorem denQ_fixed {mode : Mode} (hm : mode ≠ .possessive) {a : Ast} (ht : triv a = false) (hw : DenC E N X Pre m g) (h : DenQ E X N Nf No N Pre m g)
    {lo : Nat} (hlo : 1 ≤ lo) (hstep : 2 ≤ lo → ∀ x y, Pre x → y ∈ g x → Pre y) :
    DenQ E X N Nf No N Pre (fixedMatch E 0 mode a m lo) (timesP g lo) := by
  unfold fixedMatch
  match lo, hlo with
  | 1, _ =>
    rw [timesP_one]
    simp only [hm, false_and, if_false, if_true]
    exact h
  | j + 2, _ =>
    have hne : (j + 2 = 0) = False := by simp
    have hne' : (j + 2 = 1) = False := by simp
    simp only [hne, hne', hm, if_false]
    unfold fixedBacktracking
    simp only [ht, Bool.false_eq_true, if_false]
    split
    · exact denQ_unrolled hw h (j + 1) (fun _ => hstep (by omega))
    · exact denQ_nonUnrolled hw h (j + 1) (fun _ => hstep (by omega))

theorem denQ_lazy (h : DenQ E X N N No N Pre m g) (j : Nat)
    (hstep : 2 ≤ j → ∀ x y, Pre x → y ∈ g x → Pre y) :
    DenQ E X No N No N (fun x => 1 ≤ j → Pre x) (lazyLoop m false false j) (lazyP g j) := by
  induction j with
  | zero =>
    intro β S x c cont G hx hc hk
    have := hk x c (by simp [lazyP]) hc
    rw [show (lazyP g 0 x).findSome? G = (G x).or none by simp [lazyP]]
    simp only [lazyLoop, Bool.false_eq_true, if_false]
    exact this.orElse (fun c' hc' => viewS_nonMatch hc')
  | succ j ih =>
    have ih' := ih (fun h => hstep (by omega))
    refine DenQ.orElse DenQ.id ?_
    refine (DenQ.comp (h.pre (fun x (hx : 1 ≤ j + 1 → Pre x) => hx (by omega))) ih' (fun x y hx hy h1 => hstep (by omega) x y (hx (by omega)) hy))

theorem denQ_lazyStar {guard : Bool} (hpre : ∀ x, Pre x → x.1 ≤ E.inp.length)
    (hguard : guard = true ∨ ∀ x y, Pre x → y ∈ g x → y.1 ≠ x.1) (hle : ∀ x y, Pre x → y ∈ g x → x.1 ≤ y.1)
    (hstep : ∀ x y, Pre x → y ∈ g x → Pre y) (h : DenQ E X N N No N Pre m g) (hno : ∀ ev c, Agrees E No X ev c → Agrees E N X ev c) (k : Nat) : ∀ j,
    DenQ E X No N No N (fun x => Pre x ∧ E.inp.length - x.1 < k ∧ E.inp.length - x.1 < j) (lazyLoop m guard true k) (lazyStarP g j) := by
  induction k with
  | zero => intro j β S x c cont G hx; omega
  | succ k ih =>
    intro j β S x c cont G hx hc hk
    obtain ⟨hx, hxk, hxj⟩ := hx
    obtain ⟨j, rfl⟩ : ∃ i, j = i + 1 := ⟨j - 1, by omega⟩
    simp only [lazyStarP, List.mem_append, List.mem_flatMap, List.mem_filter, List.mem_singleton] at hk
    simp only [lazyStarP, lazyLoop]
    rw [List.findSome?_append, findSome?_advance]
    have hx' := hk x c (.inl rfl) hc
    rw [show [x].findSome? G = G x by simp]
    refine ViewS.orElse hx' (fun c' hc' => ?_)
    refine h β S x c' _ _ hx hc' (fun y c' hy hc' => ?_)
    unfold guardCont
    by_cases hyx : y.1 = x.1
    · have hg : guard = true := hguard.resolve_right (fun h => h x y hx hy hyx)
      simp only [hg, hyx, BEq.rfl, Bool.and_self, if_true]
      exact viewS_nonMatch (hno _ _ hc')
    · have : (guard && x.1 == y.1) = false := by simp [Ne.symm hyx]
      rw [this]
      simp only [hyx, Bool.false_eq_true, if_false]
      have h1 := hle x y hx hy
      have h2 := hpre x hx
      have h3 := hpre y (hstep x y hx hy)
      exact ih j β S y c' cont G ⟨hstep x y hx hy, by omega, by omega⟩ hc'
        (fun z c'' hz => hk z c'' (.inr ⟨y, ⟨hy, by simpa using hyx⟩, hz⟩))

theorem prefersFewer_iff {u : Bool} {mode : Mode} : prefersFewer u mode = true ↔ mode ≠ .possessive ∧ ((mode == .greedy) != u) = false := by
  cases mode <;> cases u <;> simp [prefersFewer]

/-- The iterations beyond the lower bound, fewer of them preferred. -/
theorem denQ_between {mode : Mode} {a : Ast} (hl : prefersFewer E.flags.ungreedy mode = true) (ht : triv a = false) {hi : Bound} {n lo : Nat}
    (hn : E.inp.length < n) (h : DenQ E X N N (But N k) N (Start E N (groupIds a)) m (paths E.flags E.inp a))
    (hmany : hi ≠ .fin 0 → hi ≠ .fin 1 → ∀ x : Place, x.1 ≤ E.inp.length → Start E N (groupIds a) x) :
    DenQ E X (But N k) N (But N k) N (fun x => x.1 ≤ E.inp.length ∧ (hi ≠ .fin lo → Start E N (groupIds a) x))
      (betweenBounds E 0 mode a m (match hi with | .fin _ => false | .inf => true) (match hi with | .fin h => h - lo | .inf => n))
      (extraP E.inp.length ((mode == .greedy) != E.flags.ungreedy) (paths E.flags E.inp a) (match hi with | .fin h => some (h - lo) | .inf => none)) := by
  obtain ⟨hm, hl⟩ := prefersFewer_iff.1 hl
  cases hi with
  | fin hi =>
    have hstep : 2 ≤ hi - lo → ∀ x y : Place, Start E N (groupIds a) x → y ∈ paths E.flags E.inp a x → Start E N (groupIds a) y :=
      fun h2 x y hx hy => hmany (by simp; omega) (by simp; omega) y (paths_bounds hx.1 hy).2
    unfold betweenBounds extraP
    simp only [hm, if_false, ht, Bool.false_and, Bool.false_eq_true]
    rw [show Bool.xor (mode == .greedy) E.flags.ungreedy = ((mode == .greedy) != E.flags.ungreedy) from rfl, hl]
    simp only [Bool.false_eq_true, if_false]
    exact (denQ_lazy h _ hstep).pre (fun x hx h1 => hx.2 (by simp; omega))
  | inf =>
    have hmany := hmany (by simp) (by simp)
    have hstep : ∀ x y : Place, Start E N (groupIds a) x → y ∈ paths E.flags E.inp a x → Start E N (groupIds a) y :=
      fun x y hx hy => hmany y (paths_bounds hx.1 hy).2
    have hguard : zlm a = true ∨ ∀ x y : Place, Start E N (groupIds a) x → y ∈ paths E.flags E.inp a x → y.1 ≠ x.1 := by
      cases hz : zlm a with
      | true => exact .inl rfl
      | false => exact .inr (fun x y hx hy => paths_ne hz hx.1 hy)
    unfold betweenBounds extraP
    simp only [hm, if_false, ht, Bool.false_and, Bool.false_eq_true, Bool.true_and]
    rw [show Bool.xor (mode == .greedy) E.flags.ungreedy = ((mode == .greedy) != E.flags.ungreedy) from rfl, hl]
    simp only [Bool.false_eq_true, if_false]
    exact (denQ_lazyStar (fun x hx => hx.1) hguard (fun x y hx hy => (paths_bounds hx.1 hy).1) hstep h (fun _ _ h => h.but) n _).pre
      (fun x hx => ⟨hx.2 (by simp), by have := hx.1; omega, by have := hx.1; omega⟩)

/-- A fixed number of rounds. -/
theorem denQ_repFixed {mode : Mode} {a : Ast} {lo n : Nat} (hm : mode ≠ .possessive) (ht : triv a = false) (hlo : 1 ≤ lo)
    (hw : DenC E N X (Start E N (groupIds a)) m (paths E.flags E.inp a)) (h : DenQ E X N Nf No N (Start E N (groupIds a)) m (paths E.flags E.inp a))
    (hmany : Bound.fin lo ≠ .fin 0 → Bound.fin lo ≠ .fin 1 → ∀ x : Place, x.1 ≤ E.inp.length → Start E N (groupIds a) x) :
    DenQ E X N Nf No N (Start E N (groupIds a)) (repMatch E 0 n mode lo (.fin lo) a m) (paths E.flags E.inp (.rep mode lo (.fin lo) a)) := by
  refine DenQ.congr ?_ (fun x _ => (paths_rep hm lo (.fin lo) a x).symm)
  unfold repMatch
  simp only [if_true]
  refine (denQ_fixed hm ht hw h hlo (fun h2 x y hx hy => ?_)).congr (fun x _ => ?_)
  · exact hmany (by simp; omega) (by simp; omega) y (paths_bounds hx.1 hy).2
  · rw [Nat.sub_self]
    have : ∀ more y, extraP E.inp.length more (paths E.flags E.inp a) (some 0) y = [y] := by
      intro more y; cases more <;> rfl
    rw [show (extraP E.inp.length ((mode == .greedy) != E.flags.ungreedy) (paths E.flags E.inp a) (some 0)) = fun y => [y] from
      funext (this _)]
    exact (List.flatMap_singleton' _).symm

/-- At least one round, fewer of them preferred. -/
theorem denQ_repLazy {mode : Mode} {a : Ast} {lo n : Nat} {hi : Bound} (hl : prefersFewer E.flags.ungreedy mode = true) (ht : triv a = false) (hlo : 1 ≤ lo)
    (hhi : ∀ h, hi = .fin h → lo ≤ h) (hn : E.inp.length < n)
    (hw : DenC E N X (Start E N (groupIds a)) m (paths E.flags E.inp a))
    (h : DenQ E X N N (But N k) N (Start E N (groupIds a)) m (paths E.flags E.inp a))
    (hmany : hi ≠ .fin 0 → hi ≠ .fin 1 → ∀ x : Place, x.1 ≤ E.inp.length → Start E N (groupIds a) x) :
    DenQ E X N N (But N k) N (Start E N (groupIds a)) (repMatch E 0 n mode lo hi a m) (paths E.flags E.inp (.rep mode lo hi a)) := by
  have hm := (prefersFewer_iff.1 hl).1
  by_cases e : hi = .fin lo
  · subst e
    exact denQ_repFixed hm ht hlo hw h hmany
  have hbig : hi ≠ .fin 0 ∧ hi ≠ .fin 1 := by
    cases hi with
    | inf => simp
    | fin hi =>
      have := hhi hi rfl
      simp only [ne_eq, Bound.fin.injEq] at e ⊢
      omega
  have hmany := hmany hbig.1 hbig.2
  have hfix := denQ_fixed hm ht hw h hlo (fun h2 x y hx hy => hmany y (paths_bounds hx.1 hy).2)
  have hbetween := denQ_between (k := k) (lo := lo) (n := n) (hi := hi) hl ht hn h (fun _ _ => hmany)
  refine DenQ.congr ?_ (fun x _ => (paths_rep hm lo hi a x).symm)
  have hcomp := hfix.comp hbetween (fun x y hx hy => by
    have := (timesP_bounds hx.1 hy).2
    exact ⟨this, fun _ => hmany y this⟩)
  unfold repMatch
  cases hi with
  | inf =>
    simp only [show ¬(lo = 0) by omega, if_false]
    exact hcomp
  | fin hi =>
    have := hhi hi rfl
    simp only [ne_eq, Bound.fin.injEq] at e
    simp only [e, show ¬(hi < lo) by omega, show ¬(lo = 0) by omega, if_false]
    exact hcomp

/-- Any number of rounds from none on, fewer of them preferred. -/
theorem denQ_repLazy0 {mode : Mode} {a : Ast} {n : Nat} {hi : Bound} (hl : prefersFewer E.flags.ungreedy mode = true) (ht : triv a = false)
    (hn : E.inp.length < n) (h : DenQ E X N N (But N k) N (Start E N (groupIds a)) m (paths E.flags E.inp a))
    (hmany : hi ≠ .fin 0 → hi ≠ .fin 1 → ∀ x : Place, x.1 ≤ E.inp.length → Start E N (groupIds a) x) :
    DenQ E X (But N k) N (But N k) N (Start E N (groupIds a)) (repMatch E 0 n mode 0 hi a m) (paths E.flags E.inp (.rep mode 0 hi a)) := by
  have hm := (prefersFewer_iff.1 hl).1
  refine DenQ.congr ?_ (fun x _ => (paths_rep hm 0 hi a x).symm)
  have hbetween := (denQ_between (k := k) (lo := 0) (n := n) (hi := hi) hl ht hn h hmany).pre (Pre' := Start E N (groupIds a)) (fun x hx => ⟨hx.1, fun _ => hx⟩)
  unfold repMatch
  cases hi with
  | inf =>
    simp only [if_true]
    exact hbetween.congr (fun x _ => by simp [timesP])
  | fin hi =>
    by_cases e : hi = 0
    · subst e
      simp only [if_true]
      refine DenQ.congr (g := fun x => [x]) DenQ.id (fun x _ => ?_)
      simp only [timesP, Nat.sub_self, List.flatMap_cons, List.flatMap_nil, List.append_nil]
      cases ((mode == .greedy) != E.flags.ungreedy) <;> rfl
    · simp only [e, if_false, Nat.not_lt_zero, if_true]
      exact hbetween.congr (fun x _ => by simp [timesP])

/-! ### All constructs -/

/-- The regexes for which `mtch_paths` holds. -/
structure Cond (E : Env) (N : Nat → Prop) (P : Nat → Bool) (X : List Nat) (a : Ast) : Prop where
  ok : Ok E 0 a
  closed : commitsClosed a = true
  refs : refsTo P X a = true
  once : ∀ i, ¬N i → visitedOnce i a = true

theorem visitedOnce_of_not_mem {i : Nat} {a : Ast} (h : i ∉ groupIds a) : visitedOnce i a = true := by
  have hall : ∀ l : List Ast, (∀ a ∈ l, i ∉ groupIds a → visitedOnce i a = true) → i ∉ groupIdsAll l → visitedOnceAll i l = true ∧ visitedOnceAny i l = true := by
    intro l
    induction l with
    | nil => intro _ _; simp [visitedOnceAll, visitedOnceAny]
    | cons a l ih =>
      intro h hi
      simp only [groupIdsAll, List.mem_append, not_or] at hi
      have h1 := h a (by simp) hi.1
      have h2 := ih (fun a ha => h a (by simp [ha])) hi.2
      simp [visitedOnceAll, visitedOnceAny, h1, h2, hi.1]
  induction a using ind with
  | seq l ih => simp only [visitedOnce]; exact (hall l ih (by simpa only [groupIds] using h)).1
  | alt l ih => simp only [visitedOnce]; exact (hall l ih (by simpa only [groupIds] using h)).2
  | set l ih => simp only [visitedOnce]; exact (hall l ih (by simpa only [groupIds] using h)).2
  | cap id n a ih =>
    simp only [groupIds, List.mem_cons, not_or] at h
    simp [visitedOnce, ih h.2, Ne.symm h.1]
  | rep m lo hi a ih =>
    simp only [groupIds] at h
    simp [visitedOnce, ih h, h]
  | neg a ih => simp only [groupIds] at h; simpa only [visitedOnce] using ih h
  | look d a ih => simp only [groupIds] at h; simpa only [visitedOnce] using ih h
  | _ => simp [visitedOnce]

variable {P : Nat → Bool}

theorem Cond.weak (hP : ∀ k, P k = true → ¬N k) {a : Ast} (h : Cond E N P X a) {n : Nat} (hf : a.depth + E.inp.length + 1 ≤ n) :
    DenC E N X (Start E N (groupIds a)) (mtch E n a 0) (paths E.flags E.inp a) :=
  mtch_paths hP n a X h.ok h.closed h.refs h.once hf

theorem Cond.without (hP : ∀ k, P k = true → ¬N k) {a : Ast} (h : Cond E N P X a) {n : Nat} (hf : a.depth + E.inp.length + 1 ≤ n)
    (hk : k ∉ groupIds a) : DenC E (But N k) X (Start E N (groupIds a)) (mtch E n a 0) (paths E.flags E.inp a) := by
  refine (mtch_paths (fun i hi h => hP i hi h.1) n a X h.ok h.closed h.refs (fun i hi => ?_) hf).pre (fun x hx => ⟨hx.1, fun i hi hN => ?_⟩)
  · by_cases e : i = k
    · subst e; exact visitedOnce_of_not_mem hk
    · exact h.once i (fun h => hi ⟨h, e⟩)
  · by_cases e : i = k
    · subst e; exact absurd hi hk
    · exact hx.2 i hi (fun h => hN ⟨h, e⟩)

theorem Cond.seq {l : List Ast} (h : Cond E N P X (.seq l)) : l ≠ [] ∧ (∀ a ∈ l, Cond E N P X a) ∧ (∀ i, ¬N i → visitedOnceAll i l = true) := by
  obtain ⟨hok, hc, hr, ho⟩ := h
  cases hok with | seq hne hl => ?_
  simp only [commitsClosed] at hc
  simp only [refsTo] at hr
  simp only [visitedOnce] at ho
  exact ⟨hne, fun a ha => ⟨hl a ha, commitsClosedAll_mem hc a ha, refsToAll_mem hr a ha, fun i hi => visitedOnceAll_mem (ho i hi) a ha⟩, ho⟩

theorem Cond.alt {l : List Ast} (h : Cond E N P X (.alt l)) : l ≠ [] ∧ ∀ a ∈ l, Cond E N P X a := by
  obtain ⟨hok, hc, hr, ho⟩ := h
  cases hok with | alt hne hl => ?_
  simp only [commitsClosed] at hc
  simp only [refsTo] at hr
  simp only [visitedOnce] at ho
  exact ⟨hne, fun a ha => ⟨hl a ha, commitsClosedAll_mem hc a ha, refsToAll_mem hr a ha, fun i hi => visitedOnceAny_mem (ho i hi) a ha⟩⟩

theorem Cond.cap {id : Nat} {name : GroupName} {a : Ast} (h : Cond E N P X (.cap id name a)) : E.names[id]? = some name ∧ Cond E N P (id :: X) a := by
  obtain ⟨hok, hc, hr, ho⟩ := h
  cases hok with | cap hn _ hok => ?_
  simp only [commitsClosed] at hc
  simp only [refsTo] at hr
  simp only [visitedOnce, Bool.and_eq_true] at ho
  exact ⟨hn, hok, hc, hr, fun i hi => (ho i hi).2⟩

theorem Cond.rep {mode : Mode} {lo : Nat} {hi : Bound} {a : Ast} (h : Cond E N P X (.rep mode lo hi a)) (hm : mode ≠ .possessive) :
    Cond E N P X a ∧ (∀ h, hi = .fin h → lo ≤ h) ∧
      (hi ≠ .fin 0 → hi ≠ .fin 1 → ∀ x : Place, x.1 ≤ E.inp.length → Start E N (groupIds a) x) := by
  obtain ⟨hok, hc, hr, ho⟩ := h
  have hlo : ∀ h, hi = .fin h → lo ≤ h := by
    intro h e
    subst e
    cases hok
    assumption
  have hb : Ok E 0 a := by cases hok <;> assumption
  have hc' : commitsClosed a = true := by
    cases mode with
    | possessive => exact absurd rfl hm
    | _ => simpa only [commitsClosed] using hc
  simp only [refsTo] at hr
  simp only [visitedOnce, Bool.and_eq_true, Bool.or_eq_true, Bool.not_eq_true', List.contains_eq_mem,
    decide_eq_false_iff_not, beq_iff_eq] at ho
  refine ⟨⟨hb, hc', hr, fun i hi => (ho i hi).2⟩, hlo, fun h0 h1 x hx => ⟨hx, fun i hi hN => absurd hi ?_⟩⟩
  rcases (ho i hN).1 with (h | h) | h
  · exact h
  · exact absurd h h0
  · exact absurd h h1

mutual
theorem mem_of_sets {u : Bool} : ∀ {a : Ast}, sets u k a = true → k ∈ groupIds a
  | .cap id _ a, h => by
    simp only [sets, Bool.or_eq_true, beq_iff_eq] at h
    rcases h with h | h
    · simp [groupIds, h]
    · simp [groupIds, mem_of_sets h]
  | .seq l, h => by simp only [sets] at h; simpa only [groupIds] using mem_of_setsLast h
  | .alt (a :: l), h => by
    simp only [sets, setsEach, Bool.and_eq_true] at h
    simp [groupIds, groupIdsAll, mem_of_sets h.2.1]
  | .rep m lo hi a, h => by
    simp only [sets, Bool.and_eq_true] at h
    simp only [groupIds]
    exact mem_of_sets h.1.2
theorem mem_of_setsLast {u : Bool} : ∀ {l : List Ast}, setsLast u k l = true → k ∈ groupIdsAll l
  | a :: l, h => by
    simp only [setsLast, Bool.or_eq_true, Bool.and_eq_true] at h
    simp only [groupIdsAll, List.mem_append]
    exact h.imp (fun h => mem_of_sets h.1) mem_of_setsLast
end

mutual
theorem mem_of_ensures {u : Bool} : ∀ {a : Ast}, ensures u k a = true → k ∈ groupIds a
  | .cap id _ a, h => by
    simp only [ensures, Bool.or_eq_true, beq_iff_eq] at h
    rcases h with h | h
    · simp [groupIds, h]
    · simp [groupIds, mem_of_ensures h]
  | .seq l, h => by
    simp only [ensures, Bool.or_eq_true] at h
    simpa only [groupIds] using h.elim mem_of_setsLast mem_of_ensuresLast
  | .alt (a :: l), h => by
    simp only [ensures, ensuresEach, Bool.and_eq_true] at h
    simp [groupIds, groupIdsAll, mem_of_ensures h.2.1]
  | .rep m lo hi a, h => by
    simp only [ensures, Bool.and_eq_true, Bool.or_eq_true] at h
    simp only [groupIds]
    exact h.2.elim (fun h => mem_of_ensures h.2) (fun h => mem_of_sets h.2)
theorem mem_of_ensuresLast {u : Bool} : ∀ {l : List Ast}, ensuresLast u k l = true → k ∈ groupIdsAll l
  | a :: l, h => by
    simp only [ensuresLast, Bool.or_eq_true, Bool.and_eq_true] at h
    simp only [groupIdsAll, List.mem_append]
    exact h.imp (fun h => mem_of_ensures h.1) mem_of_ensuresLast
end

theorem setsEach_mem {u : Bool} {l : List Ast} (h : setsEach u k l = true) : ∀ a ∈ l, sets u k a = true := by
  induction l with
  | nil => simp
  | cons a l ih =>
    simp only [setsEach, Bool.and_eq_true] at h
    simp only [List.mem_cons, forall_eq_or_imp]
    exact ⟨h.1, ih h.2⟩

theorem ensuresEach_mem {u : Bool} {l : List Ast} (h : ensuresEach u k l = true) : ∀ a ∈ l, ensures u k a = true := by
  induction l with
  | nil => simp
  | cons a l ih =>
    simp only [ensuresEach, Bool.and_eq_true] at h
    simp only [List.mem_cons, forall_eq_or_imp]
    exact ⟨h.1, ih h.2⟩

theorem keepsEach_mem {u : Bool} {l : List Ast} (h : keepsEach u k l = true) : ∀ a ∈ l, keeps u k a = true := by
  induction l with
  | nil => simp
  | cons a l ih =>
    simp only [keepsEach, Bool.and_eq_true] at h
    simp only [List.mem_cons, forall_eq_or_imp]
    exact ⟨h.1, ih h.2⟩

theorem not_triv_of_mem {l : List Ast} (hc : ∀ a ∈ l, Cond E N P X a) (h : k ∈ groupIdsAll l) : ¬areTriv l = true := by
  intro ht
  have hcl := closedAll_iff.2 (fun c hc' => closed_of_triv (wf_of_ok (hc c hc').ok) (List.all_eq_true.1 ht c hc'))
  rw [hcl.1] at h
  cases h

theorem Cond.not_triv {a : Ast} (hc : Cond E N P X a) (h : k ∈ groupIds a) : triv a = false := by
  cases ht : triv a with
  | false => rfl
  | true =>
    rw [(closed_of_triv (wf_of_ok hc.ok) ht).1] at h
    cases h

theorem start_head {a : Ast} {l : List Ast} {x : Place} (hx : Start E N (groupIdsAll (a :: l)) x) : Start E N (groupIds a) x :=
  ⟨hx.1, fun i hi => hx.2 i (by rw [groupIdsAll]; exact List.mem_append_left _ hi)⟩

theorem start_skip {a : Ast} {l : List Ast} {x : Place} (hx : Start E N (groupIdsAll (a :: l)) x) : Start E N (groupIdsAll l) x :=
  ⟨hx.1, fun i hi => hx.2 i (by rw [groupIdsAll]; exact List.mem_append_right _ hi)⟩

theorem start_tail {a : Ast} {l : List Ast} {x y : Place} (hv : ∀ i, ¬N i → visitedOnceAll i (a :: l) = true)
    (hx : Start E N (groupIdsAll (a :: l)) x) (hy : y ∈ paths E.flags E.inp a x) : Start E N (groupIdsAll l) y := by
  refine ⟨(paths_bounds hx.1 hy).2, fun i hi hN => ?_⟩
  have := hv i hN
  rw [visitedOnceAll] at this
  simp only [Bool.and_eq_true, Bool.or_eq_true, Bool.not_eq_true', List.contains_eq_mem, decide_eq_false_iff_not] at this
  rw [held_paths hy (this.1.2.resolve_right (fun h => h hi))]
  exact hx.2 i (by rw [groupIdsAll]; exact List.mem_append_right _ hi) hN

theorem once_tail {a : Ast} {l : List Ast} (hv : ∀ i, ¬N i → visitedOnceAll i (a :: l) = true) : ∀ i, ¬N i → visitedOnceAll i l = true :=
  fun i hi => by have := hv i hi; simp only [visitedOnceAll, Bool.and_eq_true] at this ⊢; exact this.2

theorem commitsClosedAll_of {l : List Ast} (h : ∀ a ∈ l, commitsClosed a = true) : commitsClosedAll l = true := by
  induction l with
  | nil => rfl
  | cons a l ih => simp [commitsClosedAll, h a (by simp), ih (fun b hb => h b (by simp [hb]))]

theorem refsToAll_of {l : List Ast} (h : ∀ a ∈ l, refsTo P X a = true) : refsToAll P X l = true := by
  induction l with
  | nil => rfl
  | cons a l ih => simp [refsToAll, h a (by simp), ih (fun b hb => h b (by simp [hb]))]

theorem Cond.mkSeq {l : List Ast} (hne : l ≠ []) (hc : ∀ a ∈ l, Cond E N P X a) (hv : ∀ i, ¬N i → visitedOnceAll i l = true) : Cond E N P X (.seq l) where
  ok := .seq hne (fun a ha => (hc a ha).ok)
  closed := by simpa only [commitsClosed] using commitsClosedAll_of (fun a ha => (hc a ha).closed)
  refs := by simpa only [refsTo] using refsToAll_of (fun a ha => (hc a ha).refs)
  once := by simpa only [visitedOnce] using hv

section
variable (hP : ∀ k, P k = true → ¬N k)
include hP

/-- A concatenation without the group. -/
theorem denC_seqWithout {n : Nat} (l : List Ast) (hne : l ≠ []) (hc : ∀ a ∈ l, Cond E N P X a) (hf : depthAll l + E.inp.length + 1 ≤ n)
    (hv : ∀ i, ¬N i → visitedOnceAll i l = true) (hk : k ∉ groupIdsAll l) :
    DenC E (But N k) X (Start E N (groupIdsAll l)) (seqMatch E 0 (fun a => mtch E n a 0) l) (pathsAll E.flags E.inp l) := by
  have h := (Cond.mkSeq hne hc hv).without (k := k) (n := n + 1) hP (by simp only [depth]; omega) (by simpa only [groupIds] using hk)
  simp only [groupIds] at h
  exact h.congr (fun x _ => by simp only [paths])

theorem denQ_setsLast {n : Nat} {u : Bool} (l : List Ast) (hne : l ≠ []) (hc : ∀ a ∈ l, Cond E N P X a) (hf : depthAll l + E.inp.length + 1 ≤ n)
    (hv : ∀ i, ¬N i → visitedOnceAll i l = true)
    (h : ∀ a ∈ l, sets u k a = true → DenQ E X N N (But N k) N (Start E N (groupIds a)) (mtch E n a 0) (paths E.flags E.inp a))
    (hs : setsLast u k l = true) :
    DenQ E X N N (But N k) N (Start E N (groupIdsAll l)) (seqMatch E 0 (fun a => mtch E n a 0) l) (pathsAll E.flags E.inp l) := by
  induction l with
  | nil => exact absurd rfl hne
  | cons a l ih =>
    match l, ih with
    | [], _ =>
      simp only [setsLast, Bool.or_false, List.all_nil, Bool.and_true] at hs
      exact ((h a (by simp) hs).pre (fun x hx => start_head hx)).congr (fun x _ => by simp [pathsAll])
    | b :: l, ih =>
      have ht := not_triv_of_mem hc (mem_of_setsLast hs)
      have hda : a.depth ≤ depthAll (a :: b :: l) := depth_le_all (by simp)
      have hdl : depthAll (b :: l) ≤ depthAll (a :: b :: l) := by simp only [depthAll]; omega
      rw [setsLast] at hs
      simp only [Bool.or_eq_true, Bool.and_eq_true] at hs
      unfold seqMatch
      rw [if_neg ht]
      rcases hs with ⟨ha, hl⟩ | hs
      · have hl := denQ_tail (N1 := But N k) (N2 := N) (Pre := Start E N (groupIdsAll (b :: l))) (X := X) (n := n) (by simp) (fun c hc' => (hc c (by simp_all)).ok) hl
          (commitsClosedAll_of (fun c hc' => (hc c (by simp_all)).closed)) (by omega) (fun x hx => hx.1) (fun _ _ h => h.but)
        exact DenQ.congr (((h a (by simp) ha).pre (fun x hx => start_head hx)).comp hl (fun x y hx hy => start_tail hv hx hy)) (fun x _ => rfl)
      · have hl := ih (by simp) (fun c hc' => hc c (by simp_all)) (by omega) (once_tail hv) (fun c hc' => h c (by simp_all)) hs
        exact DenQ.congr ((((hc a (by simp)).weak hP (by omega)).denQ.pre (fun x hx => start_head hx)).comp hl (fun x y hx hy => start_tail hv hx hy))
          (fun x _ => rfl)

theorem denQ_ensuresLast {n : Nat} {u : Bool} (l : List Ast) (hne : l ≠ []) (hc : ∀ a ∈ l, Cond E N P X a) (hf : depthAll l + E.inp.length + 1 ≤ n)
    (hv : ∀ i, ¬N i → visitedOnceAll i l = true)
    (h : ∀ a ∈ l, ensures u k a = true → DenQ E X N (But N k) (But N k) N (Start E N (groupIds a)) (mtch E n a 0) (paths E.flags E.inp a))
    (hs : ensuresLast u k l = true) :
    DenQ E X N (But N k) (But N k) N (Start E N (groupIdsAll l)) (seqMatch E 0 (fun a => mtch E n a 0) l) (pathsAll E.flags E.inp l) := by
  induction l with
  | nil => exact absurd rfl hne
  | cons a l ih =>
    match l, ih with
    | [], _ =>
      simp only [ensuresLast, Bool.or_false, Bool.and_eq_true] at hs
      exact ((h a (by simp) hs.1).pre (fun x hx => start_head hx)).congr (fun x _ => by simp [pathsAll])
    | b :: l, ih =>
      have ht := not_triv_of_mem hc (mem_of_ensuresLast hs)
      have hda : a.depth ≤ depthAll (a :: b :: l) := depth_le_all (by simp)
      have hdl : depthAll (b :: l) ≤ depthAll (a :: b :: l) := by simp only [depthAll]; omega
      rw [ensuresLast] at hs
      simp only [Bool.or_eq_true, Bool.and_eq_true, Bool.not_eq_true', List.contains_eq_mem, decide_eq_false_iff_not] at hs
      unfold seqMatch
      rw [if_neg ht]
      rcases hs with ⟨ha, hl⟩ | hs
      · have hl := denC_seqWithout (n := n) hP (b :: l) (by simp) (fun c hc' => hc c (by simp_all)) (by omega) (once_tail hv) hl
        exact DenQ.congr (((h a (by simp) ha).pre (fun x hx => start_head hx)).comp hl.denQ (fun x y hx hy => start_tail hv hx hy)) (fun x _ => rfl)
      · have hl := ih (by simp) (fun c hc' => hc c (by simp_all)) (by omega) (once_tail hv) (fun c hc' => h c (by simp_all)) hs
        exact DenQ.congr ((((hc a (by simp)).weak hP (by omega)).denQ.pre (fun x hx => start_head hx)).comp hl (fun x y hx hy => start_tail hv hx hy))
          (fun x _ => rfl)

omit hP in
theorem denQ_each {n : Nat} (l : List Ast) (hne : l ≠ []) (hc : ∀ a ∈ l, Cond E N P X a) (hk : ∀ a ∈ l, k ∈ groupIds a)
    (h : ∀ a ∈ l, DenQ E X N Nf No N (Start E N (groupIds a)) (mtch E n a 0) (paths E.flags E.inp a)) :
    DenQ E X N Nf No N (Start E N (groupIdsAll l)) (altMatch E 0 (fun a => mtch E n a 0) l) (pathsAny E.flags E.inp l) := by
  induction l with
  | nil => exact absurd rfl hne
  | cons a l ih =>
    match l, ih with
    | [], _ => exact ((h a (by simp)).pre (fun x hx => start_head hx)).congr (fun x _ => by simp [pathsAny])
    | b :: l, ih =>
      have ht := not_triv_of_mem hc (k := k) (by rw [groupIdsAll]; exact List.mem_append_left _ (hk a (by simp)))
      unfold altMatch
      rw [if_neg ht]
      have hl := ih (by simp) (fun c hc' => hc c (by simp_all)) (fun c hc' => hk c (by simp_all)) (fun c hc' => h c (by simp_all))
      exact DenQ.congr (((h a (by simp)).pre (fun x hx => start_head hx)).orElse (hl.pre (fun x hx => start_skip hx))) (fun x _ => rfl)

variable (hk : N k)
include hk

theorem mtch_sets : ∀ n a X, Cond E N P X a → sets E.flags.ungreedy k a = true → a.depth + E.inp.length + 1 ≤ n →
    DenQ E X N N (But N k) N (Start E N (groupIds a)) (mtch E n a 0) (paths E.flags E.inp a) := by
  intro n
  induction n with
  | zero => intro a X _ _ h; omega
  | succ n ih =>
    intro a X hc hs hf
    match a with
    | .cap id name b =>
      obtain ⟨hn, hb⟩ := hc.cap
      simp only [depth] at hf
      simp only [sets, Bool.or_eq_true, beq_iff_eq] at hs
      by_cases e : id = k
      · subst e
        refine DenQ.congr (denQ_set (hb.weak hP (n := n) (by omega)) hn hk (fun x hx => ?_)) (fun x _ => by simp only [paths])
        exact ⟨hx.1, fun i hi => hx.2 i (by simp [groupIds, hi])⟩
      · refine DenQ.congr (denQ_cap (ih b (id :: X) hb (hs.resolve_left e) (by omega)) hn (fun x hx => ?_)) (fun x _ => by simp only [paths])
        exact ⟨⟨hx.1, fun i hi => hx.2 i (by simp [groupIds, hi])⟩, fun hN => hx.2 id (by simp [groupIds]) hN⟩
    | .seq l =>
      obtain ⟨hne, hl, hv⟩ := hc.seq
      simp only [depth] at hf
      simp only [sets] at hs
      refine DenQ.congr (denQ_setsLast hP l hne hl (by omega) hv (fun b hb hs => ?_) hs) (fun x _ => by simp only [paths])
      have := depth_le_all hb
      exact ih b X (hl b hb) hs (by omega)
    | .alt l =>
      obtain ⟨hne, hl⟩ := hc.alt
      simp only [depth] at hf
      simp only [sets, Bool.and_eq_true] at hs
      have hs := setsEach_mem hs.2
      refine DenQ.congr (denQ_each (k := k) l hne hl (fun b hb => mem_of_sets (hs b hb)) (fun b hb => ?_)) (fun x _ => by simp only [paths])
      have := depth_le_all hb
      exact ih b X (hl b hb) (hs b hb) (by omega)
    | .rep mode lo hi b =>
      simp only [sets, Bool.and_eq_true, Bool.or_eq_true, bne_iff_ne, decide_eq_true_eq, beq_iff_eq] at hs
      obtain ⟨⟨⟨hm, hlo⟩, hs⟩, hor⟩ := hs
      obtain ⟨hb, hhi, hmany⟩ := hc.rep hm
      simp only [depth] at hf
      have hw := hb.weak hP (n := n) (by omega)
      have hd := ih b X hb hs (by omega)
      have ht := hb.not_triv (mem_of_sets hs)
      rcases hor with e | e
      · subst e
        exact denQ_repFixed (n := n) hm ht hlo hw hd hmany
      · exact denQ_repLazy e ht hlo hhi (by omega) hw hd hmany
    | .empty | .lit _ | .range _ _ | .wildcard | .set _ | .neg _ | .look _ _ | .bol | .boi | .eol | .eoi | .wordB | .backref _ | .namedBackref _ =>
      simp [sets] at hs

theorem mtch_ensures : ∀ n a X, Cond E N P X a → ensures E.flags.ungreedy k a = true → a.depth + E.inp.length + 1 ≤ n →
    DenQ E X N (But N k) (But N k) N (Start E N (groupIds a)) (mtch E n a 0) (paths E.flags E.inp a) := by
  intro n
  induction n with
  | zero => intro a X _ _ h; omega
  | succ n ih =>
    intro a X hc hs hf
    have hweaken : ∀ {m : Matcher} {g : Place → List Place} {Pre : Place → Prop}, DenQ E X N N (But N k) N Pre m g → DenQ E X N (But N k) (But N k) N Pre m g :=
      fun h => h.mono (fun _ _ h => h) (fun _ _ h => h.but) (fun _ _ h => h) (fun _ _ _ h => h) (fun _ h => h)
    match a with
    | .cap id name b =>
      simp only [ensures, Bool.or_eq_true, beq_iff_eq] at hs
      by_cases e : id = k
      · exact hweaken (mtch_sets hP hk _ _ X hc (by simp [sets, e]) hf)
      · obtain ⟨hn, hb⟩ := hc.cap
        simp only [depth] at hf
        refine DenQ.congr (denQ_cap (ih b (id :: X) hb (hs.resolve_left e) (by omega)) hn (fun x hx => ?_)) (fun x _ => by simp only [paths])
        exact ⟨⟨hx.1, fun i hi => hx.2 i (by simp [groupIds, hi])⟩, fun hN => hx.2 id (by simp [groupIds]) hN⟩
    | .seq l =>
      simp only [ensures, Bool.or_eq_true] at hs
      rcases hs with hs | hs
      · exact hweaken (mtch_sets hP hk _ _ X hc (by simpa only [sets] using hs) hf)
      · obtain ⟨hne, hl, hv⟩ := hc.seq
        simp only [depth] at hf
        refine DenQ.congr (denQ_ensuresLast hP l hne hl (by omega) hv (fun b hb hs => ?_) hs) (fun x _ => by simp only [paths])
        have := depth_le_all hb
        exact ih b X (hl b hb) hs (by omega)
    | .alt l =>
      obtain ⟨hne, hl⟩ := hc.alt
      simp only [depth] at hf
      simp only [ensures, Bool.and_eq_true] at hs
      have hs := ensuresEach_mem hs.2
      refine DenQ.congr (denQ_each (k := k) l hne hl (fun b hb => mem_of_ensures (hs b hb)) (fun b hb => ?_)) (fun x _ => by simp only [paths])
      have := depth_le_all hb
      exact ih b X (hl b hb) (hs b hb) (by omega)
    | .rep mode lo hi b =>
      simp only [ensures, Bool.and_eq_true, Bool.or_eq_true, bne_iff_ne, decide_eq_true_eq, beq_iff_eq] at hs
      obtain ⟨⟨hm, hlo⟩, ⟨e, hs⟩ | ⟨e, hs⟩⟩ := hs
      · subst e
        obtain ⟨hb, hhi, hmany⟩ := hc.rep hm
        simp only [depth] at hf
        exact denQ_repFixed (n := n) hm (hb.not_triv (mem_of_ensures hs)) hlo (hb.weak hP (n := n) (by omega)) (ih b X hb hs (by omega)) hmany
      · exact hweaken (mtch_sets hP hk _ _ X hc (by simp [sets, hm, hlo, hs, e]) hf)
    | .empty | .lit _ | .range _ _ | .wildcard | .set _ | .neg _ | .look _ _ | .bol | .boi | .eol | .eoi | .wordB | .backref _ | .namedBackref _ =>
      simp [ensures] at hs

omit hP hk in
theorem start_but {ids : List Nat} {x : Place} (hx : Start E (But N k) ids x) : Start E N ids x :=
  ⟨hx.1, fun i hi hN => hx.2 i hi (fun h => hN h.1)⟩

omit hP hk in
/-- From a place at which the group has not taken part, nothing is lost. -/
theorem DenQ.ofFresh {ids : List Nat} (hk : k ∈ ids) (h : DenQ E X N (But N k) (But N k) N (Start E N ids) m g) :
    DenC E (But N k) X (Start E (But N k) ids) m g :=
  h.mono (fun _ _ h => h.but) (fun _ _ h => h) (fun _ _ h => h) (fun x _ hx h => h.fresh (hx.2 k hk (fun h => h.2 rfl))) (fun _ h => start_but h)

theorem denC_keepsAll {n : Nat} (l : List Ast) (hne : l ≠ []) (hc : ∀ a ∈ l, Cond E N P X a) (hf : depthAll l + E.inp.length + 1 ≤ n)
    (hv : ∀ i, ¬N i → visitedOnceAll i l = true)
    (h : ∀ a ∈ l, keeps E.flags.ungreedy k a = true → DenC E (But N k) X (Start E (But N k) (groupIds a)) (mtch E n a 0) (paths E.flags E.inp a))
    (hs : keepsAll E.flags.ungreedy k l = true) :
    DenC E (But N k) X (Start E (But N k) (groupIdsAll l)) (seqMatch E 0 (fun a => mtch E n a 0) l) (pathsAll E.flags E.inp l) := by
  induction l with
  | nil => exact absurd rfl hne
  | cons a l ih =>
    by_cases hmem : k ∉ groupIdsAll (a :: l)
    · exact (denC_seqWithout hP (a :: l) hne hc hf hv hmem).pre (fun x hx => start_but hx)
    have hmem := Classical.not_not.1 hmem
    match l, ih with
    | [], _ =>
      have hs' : keeps E.flags.ungreedy k a = true := by
        simp only [groupIdsAll, List.append_nil] at hmem
        simpa [keepsAll, ensuresLast, setsLast, hmem, groupIdsAll] using hs
      exact ((h a (by simp) hs').pre (fun x hx => start_head hx)).congr (fun x _ => by simp [pathsAll])
    | b :: l, ih =>
      have ht := not_triv_of_mem hc hmem
      have hda : a.depth ≤ depthAll (a :: b :: l) := depth_le_all (by simp)
      have hdl : depthAll (b :: l) ≤ depthAll (a :: b :: l) := by simp only [depthAll]; omega
      rw [keepsAll] at hs
      simp only [Bool.or_eq_true, Bool.and_eq_true, Bool.not_eq_true', List.contains_eq_mem, decide_eq_false_iff_not] at hs
      have hcl : ∀ c ∈ b :: l, Cond E N P X c := fun c hc' => hc c (by simp_all)
      have hens : DenQ E X N (But N k) (But N k) N (Start E N (groupIdsAll (b :: l))) (seqMatch E 0 (fun a => mtch E n a 0) (b :: l))
          (pathsAll E.flags E.inp (b :: l)) → DenC E (But N k) X (Start E (But N k) (groupIdsAll (a :: b :: l)))
          (fun p c cont => mtch E n a 0 p c (fun q c' => seqMatch E 0 (fun a => mtch E n a 0) (b :: l) q c' cont))
          (pathsAll E.flags E.inp (a :: b :: l)) := by
        intro hl
        exact DenQ.ofFresh hmem (DenQ.congr ((((hc a (by simp)).weak hP (by omega)).denQ.pre (fun x hx => start_head hx)).comp hl
          (fun x y hx hy => start_tail hv hx hy)) (fun x _ => rfl))
      unfold seqMatch
      rw [if_neg ht]
      rcases hs with ((⟨ha, hl⟩ | ⟨ha, hl⟩) | hl) | hl
      · have hl := denC_seqWithout (n := n) hP (b :: l) (by simp) hcl (by omega) (once_tail hv) hl
        exact DenC.congr (((h a (by simp) ha).pre (fun x hx => start_head hx)).comp hl (fun x y hx hy => start_tail hv (start_but hx) hy)) (fun x _ => rfl)
      · have hl := ih (by simp) hcl (by omega) (once_tail hv) (fun c hc' => h c (by simp_all)) hl
        refine DenC.congr ((((hc a (by simp)).without (k := k) hP (n := n) (by omega) ha).pre (fun x hx => start_head (start_but hx))).comp hl (fun x y hx hy => ?_))
          (fun x _ => rfl)
        have := start_tail hv (start_but hx) hy
        refine ⟨this.1, fun i hi hN => ?_⟩
        by_cases e : i = k
        · subst e
          rw [held_paths hy ha]
          exact hx.2 i (by rw [groupIdsAll]; exact List.mem_append_right _ hi) hN
        · exact this.2 i hi (fun h => hN ⟨h, e⟩)
      · refine hens (denQ_ensuresLast hP (b :: l) (by simp) hcl (by omega) (once_tail hv) (fun c hc' hs => ?_) hl)
        have := depth_le_all hc'
        exact mtch_ensures hP hk n c X (hcl c hc') hs (by omega)
      · have := mtch_ensures hP hk (n + 1) (.seq (b :: l)) X (Cond.mkSeq (by simp) hcl (once_tail hv)) (by simp [ensures, hl]) (by simp only [depth]; omega)
        simp only [groupIds] at this
        exact hens (this.congr (fun x _ => by simp only [paths]))

theorem mtch_keeps : ∀ n a X, Cond E N P X a → keeps E.flags.ungreedy k a = true → a.depth + E.inp.length + 1 ≤ n →
    DenC E (But N k) X (Start E (But N k) (groupIds a)) (mtch E n a 0) (paths E.flags E.inp a) := by
  intro n
  induction n with
  | zero => intro a X _ _ h; omega
  | succ n ih =>
    intro a X hc hs hf
    by_cases hmem : k ∉ groupIds a
    · exact (hc.without hP hf hmem).pre (fun x hx => start_but hx)
    have hmem := Classical.not_not.1 hmem
    match a with
    | .cap id name b =>
      simp only [keeps, Bool.or_eq_true, beq_iff_eq] at hs
      by_cases e : id = k
      · exact DenQ.ofFresh hmem (mtch_ensures hP hk _ _ X hc (by simp [ensures, e]) hf)
      · obtain ⟨hn, hb⟩ := hc.cap
        simp only [depth] at hf
        refine DenC.congr (denC_cap (ih b (id :: X) hb (hs.resolve_left e) (by omega)) hn (fun x hx => ?_)) (fun x _ => by simp only [paths])
        exact ⟨⟨hx.1, fun i hi => hx.2 i (by simp [groupIds, hi])⟩, fun hN => hx.2 id (by simp [groupIds]) hN⟩
    | .seq l =>
      obtain ⟨hne, hl, hv⟩ := hc.seq
      simp only [depth] at hf
      simp only [keeps] at hs
      refine DenC.congr (denC_keepsAll hP hk l hne hl (by omega) hv (fun b hb hs => ?_) hs) (fun x _ => by simp only [paths])
      have := depth_le_all hb
      exact ih b X (hl b hb) hs (by omega)
    | .alt l =>
      obtain ⟨hne, hl⟩ := hc.alt
      simp only [depth] at hf
      simp only [keeps] at hs
      have hs := keepsEach_mem hs
      refine DenC.congr (denC_altMatch l hne (fun b hb => (hl b hb).ok) (by omega) (fun b hb => ?_)) (fun x _ => by simp only [paths])
      have := depth_le_all hb
      exact ih b X (hl b hb) (hs b hb) (by omega)
    | .rep mode lo hi b =>
      simp only [groupIds] at hmem
      have hf' := hf
      simp only [depth] at hf'
      simp only [keeps, Bool.or_eq_true, Bool.and_eq_true, Bool.not_eq_true', List.contains_eq_mem, decide_eq_false_iff_not, hmem, not_true, false_or,
        bne_iff_ne, beq_iff_eq] at hs
      obtain ⟨hm, hs⟩ := hs
      obtain ⟨hb, hhi, hmany⟩ := hc.rep hm
      have ht := hb.not_triv hmem
      have hlazy0 : prefersFewer E.flags.ungreedy mode = true → sets E.flags.ungreedy k b = true →
          DenC E (But N k) X (Start E (But N k) (groupIds b)) (repMatch E 0 n mode 0 hi b (mtch E n b 0)) (paths E.flags E.inp (.rep mode 0 hi b)) := by
        intro e hs
        exact DenQ.mono (denQ_repLazy0 e ht (by omega) (mtch_sets hP hk n b X hb hs (by omega)) hmany) (fun _ _ h => h)
          (fun _ _ h => h.but) (fun _ _ h => h) (fun x _ hx h => h.fresh (hx.2 k hmem (fun h => h.2 rfl))) (fun _ h => start_but h)
      rcases hs with (⟨h01, hs⟩ | ⟨e, hs⟩) | ⟨e, hs⟩
      · exact denC_repMatch hm ht (ih b X hb hs (by omega)) (by omega) hhi (fun h0 h1 => absurd h01 (by simp [h0, h1]))
      · by_cases hlo : 1 ≤ lo
        · exact DenQ.ofFresh (by simpa only [groupIds] using hmem) (mtch_ensures hP hk (n + 1) (.rep mode lo hi b) X hc (by simp [ensures, hm, hlo, e, hs]) hf)
        · have : lo = 0 := by omega
          subst this
          subst e
          refine DenC.congr (g := fun x => [x]) ?_ (fun x _ => ?_)
          · show DenC E (But N k) X _ (repMatch E 0 n mode 0 (.fin 0) b (mtch E n b 0)) _
            unfold repMatch fixedMatch
            simp only [if_true]
            exact DenC.id
          · rw [paths_rep hm]
            simp only [timesP, Nat.sub_self, List.flatMap_cons, List.flatMap_nil, List.append_nil]
            cases ((mode == .greedy) != E.flags.ungreedy) <;> rfl
      · by_cases hlo : 1 ≤ lo
        · exact DenQ.ofFresh (by simpa only [groupIds] using hmem) (mtch_ensures hP hk (n + 1) (.rep mode lo hi b) X hc (by simp [ensures, hm, hlo, e, hs]) hf)
        · have : lo = 0 := by omega
          subst this
          exact hlazy0 e hs
    | .empty | .lit _ | .range _ _ | .wildcard | .set _ | .neg _ | .look _ _ | .bol | .boi | .eol | .eoi | .wordB | .backref _ | .namedBackref _ =>
      simp only [keeps, Bool.not_eq_true', List.contains_eq_mem, decide_eq_false_iff_not] at hs
      exact absurd hmem hs

end

end
/-- The groups of a result, when the group `k` keeps its text. -/
theorem method_keeps {R : Regex} {cat : Cat} {s : List Byte} (hR : R.Ok cat) (ht : traceable R.ast = true) {k : Nat}
    (hk : keeps (Flags.ofList R.flags).ungreedy k R.ast = true) (M : Method) : ∃ res, R.invoke M cat s = some res ∧
    ((∃ i y, methodPath (Flags.ofList R.flags) s R.ast M = some (i, y) ∧ res.matched = true ∧
        ∃ c, Agrees (R.env cat s) (But (Again R.ast) k) [] y.2 c ∧ res.groups = c.set 0 (some (i, y.1))) ∨
      (methodPath (Flags.ofList R.flags) s R.ast M = none ∧ res.matched = false)) := by
  simp only [traceable, Bool.and_eq_true] at ht
  have hP : ∀ i, visitedOnce i R.ast = true → ¬Again R.ast i := fun i h => by simp [h]
  have hc : Cond (R.env cat s) (Again R.ast) (fun i => visitedOnce i R.ast) [] R.ast := ⟨hR s, ht.1, ht.2, fun i h => by simpa using h⟩
  have hd : DenC (R.env cat s) (But (Again R.ast) k) [] (Start (R.env cat s) (But (Again R.ast) k) (groupIds R.ast))
      (mtch (R.env cat s) (fuelFor R.ast s) R.ast 0) (paths (Flags.ofList R.flags) s R.ast) := by
    by_cases ha : Again R.ast k
    · exact mtch_keeps hP ha _ R.ast [] hc hk (Nat.le_refl _)
    · exact mtch_paths (fun i hi h => hP i hi h.1) _ R.ast [] hc.ok hc.closed hc.refs (fun i hi => by
        by_cases e : i = k
        · subst e; simpa using ha
        · exact hc.once i (fun h => hi ⟨h, e⟩)) (Nat.le_refl _)
  obtain ⟨res, h1, h⟩ := method_agrees (s := s) hd M
  exact ⟨res, h1, h.imp (fun ⟨i, y, h2, h3, _, h4⟩ => ⟨i, y, h2, h3, h4⟩) (fun h => ⟨h.1, h.2.1⟩)⟩

end Mregex
