import Verif.Proof.WalkLemmas
import Verif.Proof.PathsMain

/-!
# The matcher follows the walks in order
-/

namespace Mregex.Walk
open Ast Spec

/-! ### What the store of captures says about a path -/

/-- The captures agree with the events of a path.  The groups in `X` are being matched.  Groups that satisfy `N` may have been cleared, groups
that satisfy `L` may hold the text of an attempt that was given up. -/
def Agrees (E : Env) (N L : Nat → Prop) (X : List Nat) (ev : List Event) (c : Ctx) : Prop :=
  c.length = E.names.length ∧ ∀ k g, k ∉ X → c[k]? = some g →
    match held k ev with
    | none => NoText g ∨ L k
    | some v => g = some v ∨ (N k ∧ (NoText g ∨ L k))

/-- The matcher `m` tries the walks `g` in order. -/
def DenC (E : Env) (N L : Nat → Prop) (X : List Nat) (Pre : Place → Prop) (m : Matcher) (g : Place → List Place) : Prop :=
  ∀ (β : Type) (S : β → Nat → Ctx → Prop) (x : Place) (c : Ctx) (cont : Cont) (G : Place → Option β), Pre x → Agrees E N L X x.2 c →
    (∀ y c', y ∈ g x → Agrees E N L X y.2 c' → ViewS S (Agrees E N L X y.2) (cont y.1 c') (G y)) →
    ViewS S (Agrees E N L X x.2) (m x.1 c cont) ((g x).findSome? G)

section
variable {E : Env} {N L : Nat → Prop} {X : List Nat} {Pre Pre' : Place → Prop}

theorem Agrees.weaken {ev : List Event} {c : Ctx} {id : Nat} (h : Agrees E N L X ev c) : Agrees E N L (id :: X) ev c :=
  ⟨h.1, fun k g hk hg => h.2 k g (fun h => hk (List.mem_cons_of_mem _ h)) hg⟩

theorem Agrees.drop {ev : List Event} {c : Ctx} {id : Nat} {v : Nat × Nat} (h : Agrees E N L X (ev ++ [(id, v)]) c) :
    Agrees E N L (id :: X) ev c := by
  refine ⟨h.1, fun k g hk hg => ?_⟩
  simp only [List.mem_cons, not_or] at hk
  have := h.2 k g hk.2 hg
  rwa [held_snoc, if_neg (Ne.symm hk.1)] at this

theorem Agrees.set {ev : List Event} {c : Ctx} {id : Nat} {v : Nat × Nat} (h : Agrees E N L (id :: X) ev c) :
    Agrees E N L X (ev ++ [(id, v)]) (c.set id (some v)) := by
  refine ⟨by simpa using h.1, fun k g hk hg => ?_⟩
  rw [held_snoc]
  by_cases hid : id = k
  · subst hid
    rw [if_pos rfl]
    rw [List.getElem?_set_self'] at hg
    cases hc : c[id]? with
    | none => simp [hc] at hg
    | some g' => simp [hc] at hg; exact .inl hg.symm
  · rw [if_neg hid]
    rw [List.getElem?_set, if_neg hid] at hg
    exact h.2 k g (by simp [Ne.symm hid, hk]) hg

theorem Agrees.clear {ev : List Event} {c : Ctx} {id : Nat} (h : Agrees E N L (id :: X) ev c) (hid : ¬N id → held id ev = none) :
    Agrees E N L X ev (clearCapture id c) := by
  refine ⟨by simpa [length_clear] using h.1, fun k g hk hg => ?_⟩
  rw [clearCapture, List.getElem?_modify] at hg
  by_cases hki : id = k
  · subst hki
    cases hc : c[id]? with
    | none => simp [hc] at hg
    | some g' =>
      simp only [hc, if_true, Option.map_eq_map, Option.map_some, Option.some.injEq] at hg
      subst hg
      have : NoText g'.clear ∨ L id := .inl (noText_clear g')
      split
      · exact this
      · next v hv =>
        refine .inr ⟨?_, this⟩
        apply Classical.byContradiction
        intro hN
        rw [hid hN] at hv
        cases hv
  · cases hc : c[k]? with
    | none => simp [hc] at hg
    | some g' =>
      simp only [hc, hki, if_false, Option.map_eq_map, Option.map_some, Option.some.injEq] at hg
      subst hg
      exact h.2 k _ (by simp [Ne.symm hki, hk]) hc

theorem DenC.id : DenC E N L X Pre (fun p c cont => cont p c) (fun x => [x]) := by
  intro β S x c cont G _ hc hk
  have := hk x c (by simp) hc
  simpa using this

theorem DenC.comp {m m' : Matcher} {g g' : Place → List Place} (h : DenC E N L X Pre m g) (h' : DenC E N L X Pre' m' g')
    (hpre : ∀ x y, Pre x → y ∈ g x → Pre' y) :
    DenC E N L X Pre (fun p c cont => m p c (fun q c' => m' q c' cont)) (fun x => (g x).flatMap g') := by
  intro β S x c cont G hx hc hk
  dsimp only at hk ⊢
  rw [findSome?_flatMapP]
  refine h β S x c _ _ hx hc (fun y c' hy hc' => ?_)
  exact h' β S y c' cont G (hpre x y hx hy) hc' (fun z c'' hz hc'' => hk z c'' (List.mem_flatMap.2 ⟨y, hy, hz⟩) hc'')

theorem DenC.orElse {m m' : Matcher} {g g' : Place → List Place} (h : DenC E N L X Pre m g) (h' : DenC E N L X Pre m' g') :
    DenC E N L X Pre (fun p c cont => (m p c cont).orElse (fun c' => m' p c' cont)) (fun x => g x ++ g' x) := by
  intro β S x c cont G hx hc hk
  dsimp only at hk ⊢
  rw [List.findSome?_append]
  refine (h β S x c cont G hx hc (fun y c' hy => hk y c' (List.mem_append.2 (.inl hy)))).orElse (fun c' hc' => ?_)
  exact h' β S x c' cont G hx hc' (fun y c'' hy => hk y c'' (List.mem_append.2 (.inr hy)))

theorem DenC.congr {m : Matcher} {g g' : Place → List Place} (h : DenC E N L X Pre m g) (hg : ∀ x, Pre x → g x = g' x) :
    DenC E N L X Pre m g' := by
  intro β S x c cont G hx hc hk
  rw [← hg x hx] at hk ⊢
  exact h β S x c cont G hx hc hk

theorem DenC.pre {m : Matcher} {g : Place → List Place} (h : DenC E N L X Pre m g) (hp : ∀ x, Pre' x → Pre x) :
    DenC E N L X Pre' m g := fun β S x c cont G hx => h β S x c cont G (hp x hx)

/-- After a part has been given up its groups may hold anything. -/
theorem Agrees.back {ids : List Nat} {x y : Place} {c : Ctx} (h : Agrees E N L X y.2 c) (hh : ∀ k, k ∉ ids → held k y.2 = held k x.2) (hL : ∀ k ∈ ids, L k)
    (hF : Fresh N ids x.2) : Agrees E N L X x.2 c := by
  refine ⟨h.1, fun k g hk hg => ?_⟩
  by_cases e : k ∈ ids
  · split
    · exact .inr (hL k e)
    · next v hv =>
      refine .inr ⟨?_, .inr (hL k e)⟩
      apply Classical.byContradiction
      intro hN
      rw [hF k e hN] at hv
      cases hv
  · rw [← hh k e]
    exact h.2 k g hk hg

/-- Parts without groups and references. -/
theorem denC_closed {fuel r : Nat} {a : Ast} (hok : Ok E r a) (hi : groupIds a = []) (hb : noBackref a = true)
    (hf : a.depth + E.inp.length + 1 ≤ fuel) (hpre : ∀ x, Pre x → x.1 ≤ E.inp.length) :
    DenC E N L X Pre (mtch E fuel a r) (walks E.flags E.inp a r false) := by
  intro β S x c cont G hx hc hk
  obtain ⟨p, ev⟩ := x
  rw [walks_closed hi hb] at hk ⊢
  have hcl : CapStable E (Agrees E N L X ev) r a := by
    intro r' id b h
    have := capAt_groupIds h
    rw [hi] at this
    cases this
  have hd := mtch_den (I := Agrees E N L X ev) (fun _ h => h.1) fuel a r hok hb hf hcl
  rw [List.findSome?_map]
  exact hd.general (mtch_natural E fuel a r) (hpre _ hx) hc (fun q c' hq hc' => hk (q, ev) c' (List.mem_map.2 ⟨q, hq, rfl⟩) hc')

theorem denC_cap {id r : Nat} {name : GroupName} {m : Matcher} {g : Place → List Place} (h : DenC E N L (id :: X) Pre m g)
    (hn : E.names[id]? = some name) (hr : r ≤ 1) (hpre : ∀ x, Pre' x → Pre x ∧ (¬N id → held id x.2 = none)) :
    DenC E N L X Pre' (capMatch E r id name m) (fun x => (g x).map (fun y => (y.1, y.2 ++ [(id, if r % 2 = 0 then (x.1, y.1) else (y.1, x.1))]))) := by
  intro β S x c cont G hx hc hk
  dsimp only at hk ⊢
  rw [List.findSome?_map]
  unfold capMatch
  rw [show ((g x).findSome? (G ∘ fun y => (y.1, y.2 ++ [(id, if r % 2 = 0 then (x.1, y.1) else (y.1, x.1))]))) =
    ((g x).findSome? (G ∘ fun y => (y.1, y.2 ++ [(id, if r % 2 = 0 then (x.1, y.1) else (y.1, x.1))]))).or none by simp]
  have hid : id < E.names.length := (List.getElem?_eq_some_iff.1 hn).1
  refine ViewS.orElse (F := Agrees E N L (id :: X) x.2) (h β S x c _ _ (hpre x hx).1 hc.weaken (fun y c' hy hc' => ?_))
    (fun c' hc' => viewS_nonMatch (hc'.clear (hpre x hx).2))
  unfold setCapture
  rw [if_pos ⟨hn, hr, by rw [hc'.1]; exact hid⟩]
  have e : (if r = 0 then (x.1, y.1) else (y.1, x.1)) = if r % 2 = 0 then (x.1, y.1) else (y.1, x.1) := by
    rcases Nat.le_one_iff_eq_zero_or_eq_one.1 hr with rfl | rfl <;> rfl
  rw [e]
  exact (hk (y.1, y.2 ++ [(id, if r % 2 = 0 then (x.1, y.1) else (y.1, x.1))]) _ (List.mem_map.2 ⟨y, hy, rfl⟩) hc'.set).mono (fun c h => h.drop)

/-! ### References -/

theorem denC_backref {fuel r : Nat} {k : Nat} (hcat : E.cat ≠ .forward) (hk : k < E.names.length) (hN : ¬N k) (hX : k ∉ X)
    (hL : ∀ x, Pre x → ¬L k ∨ held k x.2 ≠ none) (hpre : ∀ x, Pre x → x.1 ≤ E.inp.length) :
    DenC E N L X Pre (mtch E (fuel + 1) (.backref k) r) (walks E.flags E.inp (.backref k) r false) := by
  intro β S x c cont G hx hc hcont
  obtain ⟨g, hg⟩ : ∃ g, c[k]? = some g := ⟨c[k]'(by rw [hc.1]; exact hk), by simp⟩
  have htext : capText E.inp g = heldText E.inp (held k x.2) := by
    have := hc.2 k g hX hg
    split at this
    · next h =>
      rw [h]
      match g, this.resolve_right ((hL x hx).resolve_right (fun h' => h' h)) with
      | none, _ => rfl
      | some (b, e), h => simp only [NoText] at h; simp [capText, heldText, h]
    · next v h =>
      rw [h]
      rcases this with rfl | ⟨h, _⟩
      · rfl
      · exact absurd h hN
  unfold mtch
  simp only [hg]
  unfold backrefMatch
  simp only [htext, walks] at hcont ⊢
  rw [if_neg hcat, Env.distanceLessThan_eq _ (hpre x hx)]
  generalize hw : heldText E.inp (held k x.2) = w at hcont ⊢
  by_cases h : E.remaining r x.1 < w.length
  · simp only [h, decide_true, if_true]
    rw [copies_short rfl _ _ (hpre x hx) (by split <;> simpa using h)]
    exact viewS_nonMatch hc
  · simp only [h, decide_false, Bool.false_eq_true, if_false]
    rcases backrefLoop_copies (E := E) (r := r) rfl (if r = 0 then w else w.reverse) (hpre x hx) (by split <;> simpa using h) with ⟨q, h1, h2, _⟩ | ⟨q, h1, h2⟩
    · rw [h2] at hcont ⊢
      rw [h1]
      have := hcont (q, x.2) c (by simp) hc
      simpa using this
    · rw [h1, h2]
      exact viewS_nonMatch hc

/-! ### Parts that are matched once and not tried again -/

/-- The preferred match. -/
theorem DenC.once {m : Matcher} {g : Place → List Place} (h : DenC E N L X Pre m g) {x : Place} {c : Ctx} (hx : Pre x) (hc : Agrees E N L X x.2 c) :
    (∃ y l c', g x = y :: l ∧ m x.1 c success = .ok ⟨y.1, true⟩ c' ∧ Agrees E N L X y.2 c') ∨
      (∃ q c', g x = [] ∧ m x.1 c success = .ok ⟨q, false⟩ c' ∧ Agrees E N L X x.2 c') := by
  have h := h Place (fun y q c => q = y.1 ∧ Agrees E N L X y.2 c) x c success (fun y => some y) hx hc
    (fun y c' _ hc' => by simpa [ViewS, Post, success] using hc')
  rcases Post.elim h with ⟨q, c', h1, y, h2, rfl, h3⟩ | ⟨q, c', h1, h2, h3⟩
  · cases hg : g x with
    | nil => rw [hg] at h2; cases h2
    | cons z l =>
      rw [hg] at h2
      cases h2
      exact .inl ⟨_, _, c', rfl, h1, h3⟩
  · cases hg : g x with
    | nil => exact .inr ⟨q, c', rfl, h1, h3⟩
    | cons z l => rw [hg] at h2; cases h2

theorem denC_commit {m : Matcher} {g : Place → List Place} (h : DenC E N L X Pre m g)
    (hback : ∀ x y c, Pre x → y ∈ g x → Agrees E N L X y.2 c → Agrees E N L X x.2 c) :
    DenC E N L X Pre (fun p c cont => (m p c success).onMatch cont (fun c' => nonMatch p c')) (fun x => (g x).take 1) := by
  intro β S x c cont G hx hc hk
  dsimp only at hk ⊢
  rcases h.once hx hc with ⟨y, l, c', h1, h2, h3⟩ | ⟨q, c', h1, h2, h3⟩
  · rw [h2]
    rw [h1] at hk ⊢
    simpa [Out.onMatch] using (hk y c' (by simp) h3).mono (fun c hc => hback x y c hx (by rw [h1]; simp) hc)
  · rw [h1, h2]
    exact viewS_nonMatch h3

theorem denC_look {m : Matcher} {g : Place → List Place} (h : DenC E N L X Pre m g)
    (hback : ∀ x y c, Pre x → y ∈ g x → Agrees E N L X y.2 c → Agrees E N L X x.2 c) :
    DenC E N L X Pre (lookMatch m) (fun x => ((g x).take 1).map (fun y => (x.1, y.2))) := by
  intro β S x c cont G hx hc hk
  dsimp only [lookMatch] at hk ⊢
  rcases h.once hx hc with ⟨y, l, c', h1, h2, h3⟩ | ⟨q, c', h1, h2, h3⟩
  · rw [h2]
    rw [h1] at hk ⊢
    simpa [Out.onMatch] using (hk (x.1, y.2) c' (by simp) h3).mono (fun c hc => hback x y c hx (by rw [h1]; simp) hc)
  · rw [h1, h2]
    exact viewS_nonMatch h3

theorem denC_neg {m : Matcher} {g : Place → List Place} (h : DenC E N L X Pre m g)
    (hback : ∀ x y c, Pre x → y ∈ g x → Agrees E N L X y.2 c → Agrees E N L X x.2 c) :
    DenC E N L X Pre (negAssertMatch m) (fun x => if (g x).isEmpty then [x] else []) := by
  intro β S x c cont G hx hc hk
  dsimp only [negAssertMatch] at hk ⊢
  rcases h.once hx hc with ⟨y, l, c', h1, h2, h3⟩ | ⟨q, c', h1, h2, h3⟩
  · rw [h1, h2]
    exact viewS_nonMatch (hback x y c' hx (by rw [h1]; simp) h3)
  · rw [h2]
    rw [h1] at hk ⊢
    have := hk x c' (by simp) h3
    simpa [Out.onMatch] using this

/-! ### Loops -/

section
variable {m : Matcher} {g : Place → List Place}

theorem denC_nonUnrolled (h : DenC E N L X Pre m g) (k : Nat) (hstep : 1 ≤ k → ∀ x y, Pre x → y ∈ g x → Pre y) :
    DenC E N L X Pre (nonUnrolled m (k + 1)) (timesP g (k + 1)) := by
  induction k with
  | zero => rw [timesP_one]; exact h
  | succ k ih => exact h.comp (ih (fun _ => hstep (by omega))) (hstep (by omega))

theorem denC_unrolled (h : DenC E N L X Pre m g) (k : Nat) (hstep : 1 ≤ k → ∀ x y, Pre x → y ∈ g x → Pre y) :
    DenC E N L X Pre (unrolled m (k + 1)) (timesP g (k + 1)) := by
  induction k with
  | zero => rw [timesP_one]; exact h
  | succ k ih => exact h.comp (ih (fun _ => hstep (by omega))) (hstep (by omega))

theorem denC_fixed {r : Nat} {mode : Mode} (hm : mode ≠ .possessive) {a : Ast} (ht : triv a = false) (h : DenC E N L X Pre m g) (lo : Nat)
    (hstep : 2 ≤ lo → ∀ x y, Pre x → y ∈ g x → Pre y) :
    DenC E N L X (fun x => 1 ≤ lo → Pre x) (fixedMatch E r mode a m lo) (timesP g lo) := by
  unfold fixedMatch
  match lo with
  | 0 => exact DenC.id
  | 1 =>
    rw [timesP_one]
    simp only [hm, false_and, if_false, if_true]
    exact h.pre (fun x hx => hx (by omega))
  | k + 2 =>
    have hne : (k + 2 = 0) = False := by simp
    have hne' : (k + 2 = 1) = False := by simp
    simp only [hne, hne', hm, if_false]
    unfold fixedBacktracking
    simp only [ht, Bool.false_eq_true, if_false]
    split
    · exact (denC_unrolled h (k + 1) (fun _ => hstep (by omega))).pre (fun x hx => hx (by omega))
    · exact (denC_nonUnrolled h (k + 1) (fun _ => hstep (by omega))).pre (fun x hx => hx (by omega))

theorem denC_greedy (h : DenC E N L X Pre m g) (k : Nat) (hstep : 2 ≤ k → ∀ x y, Pre x → y ∈ g x → Pre y) :
    DenC E N L X (fun x => 1 ≤ k → Pre x) (greedyLoop m false false k) (greedyP g k) := by
  induction k with
  | zero => exact DenC.id
  | succ k ih =>
    have ih' := ih (fun h => hstep (by omega))
    refine DenC.orElse ?_ DenC.id
    refine (DenC.comp (h.pre (fun x (hx : 1 ≤ k + 1 → Pre x) => hx (by omega))) ih' (fun x y hx hy h1 => hstep (by omega) x y (hx (by omega)) hy))

theorem denC_lazy (h : DenC E N L X Pre m g) (k : Nat) (hstep : 2 ≤ k → ∀ x y, Pre x → y ∈ g x → Pre y) :
    DenC E N L X (fun x => 1 ≤ k → Pre x) (lazyLoop m false false k) (lazyP g k) := by
  induction k with
  | zero =>
    intro β S x c cont G hx hc hk
    have := hk x c (by simp [lazyP]) hc
    rw [show (lazyP g 0 x).findSome? G = (G x).or none by simp [lazyP]]
    simp only [lazyLoop, Bool.false_eq_true, if_false]
    exact this.orElse (fun c' hc' => viewS_nonMatch hc')
  | succ k ih =>
    have ih' := ih (fun h => hstep (by omega))
    refine DenC.orElse DenC.id ?_
    refine (DenC.comp (h.pre (fun x (hx : 1 ≤ k + 1 → Pre x) => hx (by omega))) ih' (fun x y hx hy h1 => hstep (by omega) x y (hx (by omega)) hy))

theorem denC_poss (h : DenC E N L X Pre m g) (hback : ∀ x y c, Pre x → y ∈ g x → Agrees E N L X y.2 c → Agrees E N L X x.2 c) (k : Nat)
    (hstep : 2 ≤ k → ∀ x y, Pre x → y ∈ g x → Pre y) :
    DenC E N L X (fun x => 1 ≤ k → Pre x) (possLoop m false false k) (possessiveP g k) := by
  induction k with
  | zero =>
    intro β S x c cont G hx hc hk
    have := hk x c (by simp [possessiveP]) hc
    simpa [possLoop, possessiveP] using this
  | succ k ih =>
    intro β S x c cont G hx hc hk
    have hx := hx (by omega)
    rw [possLoop]; dsimp only
    rw [possessiveP] at hk ⊢
    rcases h.once hx hc with ⟨y, l, c', h1, h2, h3⟩ | ⟨q, c', h1, h2, h3⟩
    · rw [h2]
      rw [h1] at hk ⊢
      refine ViewS.mono (F := Agrees E N L X y.2) ?_ (fun c hc => hback x y c hx (by rw [h1]; simp) hc)
      simpa [Out.onMatch] using ih (fun h => hstep (by omega)) β S y c' cont G (fun h' => hstep (by omega) x y hx (by rw [h1]; simp)) h3 hk
    · rw [h2]
      rw [h1] at hk ⊢
      have := hk x c' (by simp) h3
      simpa [Out.onMatch] using this

variable {r : Nat} {guard : Bool} (hguard : guard = true ∨ ∀ x y, Pre x → y ∈ g x → y.1 ≠ x.1)
  (hle : ∀ x y, Pre x → y ∈ g x → E.Reach r x.1 y.1) (hstep : ∀ x y, Pre x → y ∈ g x → Pre y)
include hguard hle hstep

theorem denC_greedyStar (h : DenC E N L X Pre m g) (k : Nat) : ∀ j,
    DenC E N L X (fun x => Pre x ∧ E.remaining r x.1 < k ∧ E.remaining r x.1 < j) (greedyLoop m guard true k) (greedyStarP g j) := by
  induction k with
  | zero => intro j β S x c cont G hx; omega
  | succ k ih =>
    intro j β S x c cont G hx hc hk
    obtain ⟨hx, hxk, hxj⟩ := hx
    obtain ⟨j, rfl⟩ : ∃ i, j = i + 1 := ⟨j - 1, by omega⟩
    simp only [greedyStarP, List.mem_append, List.mem_flatMap, List.mem_filter, List.mem_singleton] at hk
    simp only [greedyStarP, greedyLoop]
    rw [List.findSome?_append, findSome?_advance]
    refine ViewS.orElse (F := Agrees E N L X x.2) (h β S x c _ _ hx hc (fun y c' hy hc' => ?_)) (fun c' hc' => ?_)
    · unfold guardCont
      by_cases hyx : y.1 = x.1
      · have hg : guard = true := hguard.resolve_right (fun h => h x y hx hy hyx)
        simp only [hg, hyx, BEq.rfl, Bool.and_self, if_true]
        exact viewS_nonMatch hc'
      · have : (guard && x.1 == y.1) = false := by simp [Ne.symm hyx]
        rw [this]
        simp only [hyx, Bool.false_eq_true, if_false]
        have h1 := (hle x y hx hy).remaining_lt (Ne.symm hyx)
        exact ih j β S y c' cont G ⟨hstep x y hx hy, by omega, by omega⟩ hc'
          (fun z c'' hz => hk z c'' (.inl ⟨y, ⟨hy, by simpa using hyx⟩, hz⟩))
    · have := hk x c' (.inr rfl) hc'
      simpa using this

theorem denC_lazyStar (h : DenC E N L X Pre m g) (k : Nat) : ∀ j,
    DenC E N L X (fun x => Pre x ∧ E.remaining r x.1 < k ∧ E.remaining r x.1 < j) (lazyLoop m guard true k) (lazyStarP g j) := by
  induction k with
  | zero => intro j β S x c cont G hx; omega
  | succ k ih =>
    intro j β S x c cont G hx hc hk
    obtain ⟨hx, hxk, hxj⟩ := hx
    obtain ⟨j, rfl⟩ : ∃ i, j = i + 1 := ⟨j - 1, by omega⟩
    simp only [lazyStarP, List.mem_append, List.mem_flatMap, List.mem_filter, List.mem_singleton] at hk
    simp only [lazyStarP, lazyLoop]
    rw [List.findSome?_append, findSome?_advance]
    have hx' := hk x c (.inl rfl) hc
    rw [show [x].findSome? G = G x by simp]
    refine ViewS.orElse hx' (fun c' hc' => ?_)
    refine h β S x c' _ _ hx hc' (fun y c' hy hc' => ?_)
    unfold guardCont
    by_cases hyx : y.1 = x.1
    · have hg : guard = true := hguard.resolve_right (fun h => h x y hx hy hyx)
      simp only [hg, hyx, BEq.rfl, Bool.and_self, if_true]
      exact viewS_nonMatch hc'
    · have : (guard && x.1 == y.1) = false := by simp [Ne.symm hyx]
      rw [this]
      simp only [hyx, Bool.false_eq_true, if_false]
      have h1 := (hle x y hx hy).remaining_lt (Ne.symm hyx)
      exact ih j β S y c' cont G ⟨hstep x y hx hy, by omega, by omega⟩ hc'
        (fun z c'' hz => hk z c'' (.inr ⟨y, ⟨hy, by simpa using hyx⟩, hz⟩))

theorem denC_possStar (h : DenC E N L X Pre m g) (hback : ∀ x y c, Pre x → y ∈ g x → Agrees E N L X y.2 c → Agrees E N L X x.2 c) (k : Nat) : ∀ j,
    DenC E N L X (fun x => Pre x ∧ E.remaining r x.1 < k ∧ E.remaining r x.1 < j) (possLoop m guard true k) (possessiveStarP g j) := by
  induction k with
  | zero => intro j β S x c cont G hx; omega
  | succ k ih =>
    intro j β S x c cont G hx hc hk
    obtain ⟨hx, hxk, hxj⟩ := hx
    obtain ⟨j, rfl⟩ : ∃ i, j = i + 1 := ⟨j - 1, by omega⟩
    rw [possLoop]; dsimp only
    rw [possessiveStarP] at hk ⊢
    rcases h.once hx hc with ⟨y, l, c', h1, h2, h3⟩ | ⟨q, c', h1, h2, h3⟩
    · rw [h2]
      rw [h1] at hk ⊢
      have hy : y ∈ g x := by rw [h1]; simp
      refine ViewS.mono (F := Agrees E N L X y.2) ?_ (fun c hc => hback x y c hx hy hc)
      dsimp only [Out.onMatch] at hk ⊢
      by_cases hyx : y.1 = x.1
      · have hg : guard = true := hguard.resolve_right (fun h => h x y hx hy hyx)
        rw [if_pos hyx] at hk ⊢
        have := hk y c' (by simp) h3
        rw [hyx] at this
        simpa [hg, hyx] using this
      · rw [if_neg hyx] at hk ⊢
        have : (guard && x.1 == y.1) = false := by simp [Ne.symm hyx]
        rw [this]
        simp only [if_true, Bool.false_eq_true, if_false]
        have h4 := (hle x y hx hy).remaining_lt (Ne.symm hyx)
        exact ih j β S y c' cont G ⟨hstep x y hx hy, by omega, by omega⟩ h3 hk
    · rw [h2]
      rw [h1] at hk ⊢
      have := hk x c' (by simp) h3
      simpa [Out.onMatch] using this

end

end
end Mregex.Walk
