import Verif.Proof.PathLemmas
import Verif.Proof.Natural

/-!
# The matcher follows the paths in order
-/

namespace Mregex
open Ast Spec

/-- The outcome of a run with a known result. -/
def ViewS {β : Type} (S : β → Nat → Ctx → Prop) (F : Ctx → Prop) (o : Out) (v : Option β) : Prop :=
  Post (fun q c => ∃ b, v = some b ∧ S b q c) (fun _ c => v = none ∧ F c) o

theorem ViewS.orElse {β : Type} {S : β → Nat → Ctx → Prop} {F F' : Ctx → Prop} {o : Out} {f : Ctx → Out} {v w : Option β}
    (h : ViewS S F o v) (hf : ∀ c, F c → ViewS S F' (f c) w) : ViewS S F' (o.orElse f) (v.or w) := by
  match o with
  | .ok ⟨q, true⟩ c =>
    obtain ⟨b, rfl, hb⟩ := h
    exact ⟨b, rfl, hb⟩
  | .ok ⟨q, false⟩ c =>
    simp only [ViewS, Post] at h
    obtain ⟨rfl, hc⟩ := h
    rw [Option.none_or]
    exact hf c hc
  | .ub => exact False.elim h
  | .diverge => exact False.elim h

theorem ViewS.mono {β : Type} {S : β → Nat → Ctx → Prop} {F F' : Ctx → Prop} {o : Out} {v : Option β} (h : ViewS S F o v)
    (hf : ∀ c, F c → F' c) : ViewS S F' o v :=
  Post.mono h (fun _ _ h => h) (fun _ _ h => ⟨h.1, hf _ h.2⟩)

theorem viewS_nonMatch {β : Type} {S : β → Nat → Ctx → Prop} {F : Ctx → Prop} {p : Nat} {c : Ctx} (h : F c) :
    ViewS S F (nonMatch p c) none := by
  simpa [ViewS, Post, nonMatch] using h

/-! ### Parts without groups -/

theorem findSome?_tag {β : Type} (l : List Nat) (G : Nat → Option β) :
    (∃ q b, l.findSome? (fun q => (G q).map (fun _ => q)) = some q ∧ q ∈ l ∧ G q = some b ∧ l.findSome? G = some b) ∨
      (l.findSome? (fun q => (G q).map (fun _ => q)) = none ∧ l.findSome? G = none) := by
  induction l with
  | nil => exact .inr ⟨rfl, rfl⟩
  | cons a l ih =>
    cases hG : G a with
    | some b => exact .inl ⟨a, b, by simp [hG], by simp, hG, by simp [hG]⟩
    | none =>
      simp only [List.findSome?_cons, hG, Option.map_none]
      rcases ih with ⟨q, b, h1, h2, h3, h4⟩ | h
      · exact .inl ⟨q, b, h1, List.mem_cons_of_mem _ h2, h3, h4⟩
      · exact .inr h

/-- `Den` allows any statement about the result of the continuation. -/
theorem Den.general {E : Env} {I : Ctx → Prop} {m : Matcher} {g : Nat → List Nat} (h : Den E I m g) (hn : Natural m)
    {β : Type} {S : β → Nat → Ctx → Prop} {p : Nat} {c : Ctx} {cont : Cont} {G : Nat → Option β} (hp : p ≤ E.inp.length)
    (hc : I c) (hk : ∀ q c', q ∈ g p → I c' → ViewS S I (cont q c') (G q)) :
    ViewS S I (m p c cont) ((g p).findSome? G) := by
  let k0 : Cont := fun q c => match cont q c with | .ok ⟨_, true⟩ _ => .ok ⟨q, true⟩ c | o => o
  let k : Cont := fun q c => match cont q c with | .ok ⟨_, false⟩ _ => .ub | o => o
  have hnf : NeverFails k := by
    intro q c q' c' h
    dsimp only [k] at h
    split at h
    · cases h
    · next hne => exact hne _ _ h
  have hcont : k0.andThen k = cont := by
    funext q c
    simp only [Cont.andThen, k0, k]
    match hq : cont q c with
    | .ok ⟨q', true⟩ c' => simp [Out.andThen, hq]
    | .ok ⟨q', false⟩ c' => rfl
    | .ub => rfl
    | .diverge => rfl
  rw [← hcont, hn p c k0 k hnf]
  have hv := h p c k0 (fun q => (G q).map (fun _ => q)) hp hc (fun q c' hq hc' => by
    have := hk q c' hq hc'
    simp only [k0]
    match hqc : cont q c' with
    | .ok ⟨q', true⟩ c'' =>
      rw [hqc] at this
      obtain ⟨b, hb, _⟩ := this
      simp [View, Post, hb, hc']
    | .ok ⟨q', false⟩ c'' =>
      rw [hqc] at this
      simp only [ViewS, Post] at this
      simp only [Bool.false_eq_true, if_false] at this
      simp [View, Post, this.1, this.2]
    | .ub => rw [hqc] at this; exact False.elim this
    | .diverge => rw [hqc] at this; exact False.elim this)
  rcases findSome?_tag (g p) G with ⟨q, b, h1, h2, h3, h4⟩ | ⟨h1, h2⟩
  · rw [h1] at hv
    rw [h4]
    match hm : m p c k0 with
    | .ok ⟨q', true⟩ c' =>
      rw [hm] at hv
      simp only [View, Post, if_true, Option.some.injEq] at hv
      obtain ⟨rfl, hc'⟩ := hv
      have := hk q c' h2 hc'
      rw [h3] at this
      simp only [Out.andThen, if_true, k]
      match hqc : cont q c' with
      | .ok ⟨q', true⟩ c'' => rw [hqc] at this; exact this
      | .ok ⟨q', false⟩ c'' =>
        rw [hqc] at this
        simp [ViewS, Post] at this
      | .ub => rw [hqc] at this; exact False.elim this
      | .diverge => rw [hqc] at this; exact False.elim this
    | .ok ⟨q', false⟩ c' => rw [hm] at hv; simp [View, Post] at hv
    | .ub => rw [hm] at hv; exact False.elim hv
    | .diverge => rw [hm] at hv; exact False.elim hv
  · rw [h1] at hv
    rw [h2]
    match hm : m p c k0 with
    | .ok ⟨q', true⟩ c' => rw [hm] at hv; simp [View, Post] at hv
    | .ok ⟨q', false⟩ c' =>
      rw [hm] at hv
      simp only [View, Post] at hv
      simp only [Bool.false_eq_true, if_false] at hv
      simpa [ViewS, Post, Out.andThen] using hv.2
    | .ub => rw [hm] at hv; exact False.elim hv
    | .diverge => rw [hm] at hv; exact False.elim hv

/-! ### What the store of captures says about a path -/

/-- The captures agree with the events of a path.  The groups in `X` are being matched.  Groups that satisfy `N` may have been cleared. -/
def Agrees (E : Env) (N : Nat → Prop) (X : List Nat) (ev : List Event) (c : Ctx) : Prop :=
  c.length = E.names.length ∧ ∀ k g, k ∉ X → c[k]? = some g →
    match held k ev with
    | none => NoText g
    | some v => g = some v ∨ (N k ∧ NoText g)

/-- None of these groups has taken part, except for those that satisfy `N`. -/
def Fresh (N : Nat → Prop) (ids : List Nat) (ev : List Event) : Prop := ∀ k ∈ ids, ¬N k → held k ev = none

/-- The matcher `m` tries the paths `g` in order. -/
def DenC (E : Env) (N : Nat → Prop) (X : List Nat) (Pre : Place → Prop) (m : Matcher) (g : Place → List Place) : Prop :=
  ∀ (β : Type) (S : β → Nat → Ctx → Prop) (x : Place) (c : Ctx) (cont : Cont) (G : Place → Option β), Pre x → Agrees E N X x.2 c →
    (∀ y c', y ∈ g x → Agrees E N X y.2 c' → ViewS S (Agrees E N X y.2) (cont y.1 c') (G y)) →
    ViewS S (Agrees E N X x.2) (m x.1 c cont) ((g x).findSome? G)

section
variable {E : Env} {N : Nat → Prop} {X : List Nat} {Pre Pre' : Place → Prop}

theorem noText_clear (g : Cap) : NoText g.clear := by
  cases g <;> simp [Cap.clear, NoText]

theorem Agrees.weaken {ev : List Event} {c : Ctx} {id : Nat} (h : Agrees E N X ev c) : Agrees E N (id :: X) ev c :=
  ⟨h.1, fun k g hk hg => h.2 k g (fun h => hk (List.mem_cons_of_mem _ h)) hg⟩

theorem Agrees.drop {ev : List Event} {c : Ctx} {id : Nat} {v : Nat × Nat} (h : Agrees E N X (ev ++ [(id, v)]) c) :
    Agrees E N (id :: X) ev c := by
  refine ⟨h.1, fun k g hk hg => ?_⟩
  simp only [List.mem_cons, not_or] at hk
  have := h.2 k g hk.2 hg
  rwa [held_snoc, if_neg (Ne.symm hk.1)] at this

theorem Agrees.set {ev : List Event} {c : Ctx} {id : Nat} {v : Nat × Nat} (h : Agrees E N (id :: X) ev c) :
    Agrees E N X (ev ++ [(id, v)]) (c.set id (some v)) := by
  refine ⟨by simpa using h.1, fun k g hk hg => ?_⟩
  rw [held_snoc]
  by_cases hid : id = k
  · subst hid
    rw [if_pos rfl]
    rw [List.getElem?_set_self'] at hg
    cases hc : c[id]? with
    | none => simp [hc] at hg
    | some g' => simp [hc] at hg; exact .inl hg.symm
  · rw [if_neg hid]
    rw [List.getElem?_set, if_neg hid] at hg
    exact h.2 k g (by simp [Ne.symm hid, hk]) hg

theorem Agrees.clear {ev : List Event} {c : Ctx} {id : Nat} (h : Agrees E N (id :: X) ev c) (hid : ¬N id → held id ev = none) :
    Agrees E N X ev (clearCapture id c) := by
  refine ⟨by simpa [length_clear] using h.1, fun k g hk hg => ?_⟩
  rw [clearCapture, List.getElem?_modify] at hg
  by_cases hki : id = k
  · subst hki
    cases hc : c[id]? with
    | none => simp [hc] at hg
    | some g' =>
      simp only [hc, if_true, Option.map_eq_map, Option.map_some, Option.some.injEq] at hg
      subst hg
      have := noText_clear g'
      split
      · exact this
      · next v hv =>
        refine .inr ⟨?_, this⟩
        apply Classical.byContradiction
        intro hN
        rw [hid hN] at hv
        cases hv
  · cases hc : c[k]? with
    | none => simp [hc] at hg
    | some g' =>
      simp only [hc, hki, if_false, Option.map_eq_map, Option.map_some, Option.some.injEq] at hg
      subst hg
      exact h.2 k _ (by simp [Ne.symm hki, hk]) hc

theorem findSome?_flatMapP {β : Type} (l : List Place) (g : Place → List Place) (G : Place → Option β) :
    (l.flatMap g).findSome? G = l.findSome? (fun y => (g y).findSome? G) := by
  induction l with
  | nil => rfl
  | cons a l ih =>
    simp only [List.flatMap_cons, List.findSome?_append, List.findSome?_cons, ih]
    cases (g a).findSome? G <;> rfl

theorem DenC.id : DenC E N X Pre (fun p c cont => cont p c) (fun x => [x]) := by
  intro β S x c cont G _ hc hk
  have := hk x c (by simp) hc
  simpa using this

theorem DenC.comp {m m' : Matcher} {g g' : Place → List Place} (h : DenC E N X Pre m g) (h' : DenC E N X Pre' m' g')
    (hpre : ∀ x y, Pre x → y ∈ g x → Pre' y) :
    DenC E N X Pre (fun p c cont => m p c (fun q c' => m' q c' cont)) (fun x => (g x).flatMap g') := by
  intro β S x c cont G hx hc hk
  dsimp only at hk ⊢
  rw [findSome?_flatMapP]
  refine h β S x c _ _ hx hc (fun y c' hy hc' => ?_)
  exact h' β S y c' cont G (hpre x y hx hy) hc' (fun z c'' hz hc'' => hk z c'' (List.mem_flatMap.2 ⟨y, hy, hz⟩) hc'')

theorem DenC.orElse {m m' : Matcher} {g g' : Place → List Place} (h : DenC E N X Pre m g) (h' : DenC E N X Pre m' g') :
    DenC E N X Pre (fun p c cont => (m p c cont).orElse (fun c' => m' p c' cont)) (fun x => g x ++ g' x) := by
  intro β S x c cont G hx hc hk
  dsimp only at hk ⊢
  rw [List.findSome?_append]
  refine (h β S x c cont G hx hc (fun y c' hy => hk y c' (List.mem_append.2 (.inl hy)))).orElse (fun c' hc' => ?_)
  exact h' β S x c' cont G hx hc' (fun y c'' hy => hk y c'' (List.mem_append.2 (.inr hy)))

theorem DenC.congr {m : Matcher} {g g' : Place → List Place} (h : DenC E N X Pre m g) (hg : ∀ x, Pre x → g x = g' x) :
    DenC E N X Pre m g' := by
  intro β S x c cont G hx hc hk
  rw [← hg x hx] at hk ⊢
  exact h β S x c cont G hx hc hk

theorem DenC.pre {m : Matcher} {g : Place → List Place} (h : DenC E N X Pre m g) (hp : ∀ x, Pre' x → Pre x) :
    DenC E N X Pre' m g := fun β S x c cont G hx => h β S x c cont G (hp x hx)

/-- Parts without groups and references. -/
theorem denC_closed {fuel : Nat} {a : Ast} (hok : Ok E 0 a) (hi : groupIds a = []) (hb : noBackref a = true)
    (hf : a.depth + E.inp.length + 1 ≤ fuel) (hpre : ∀ x, Pre x → x.1 ≤ E.inp.length) :
    DenC E N X Pre (mtch E fuel a 0) (paths E.flags E.inp a) := by
  intro β S x c cont G hx hc hk
  obtain ⟨p, ev⟩ := x
  have hcl : CapStable E (Agrees E N X ev) 0 a := by
    intro r' id b h
    have := capAt_groupIds h
    rw [hi] at this
    cases this
  have hd := mtch_den (I := Agrees E N X ev) (fun _ h => h.1) fuel a 0 hok hb hf hcl
  rw [paths_closed hi hb] at hk ⊢
  rw [List.findSome?_map]
  exact hd.general (mtch_natural E fuel a 0) (hpre _ hx) hc (fun q c' hq hc' => hk (q, ev) c' (List.mem_map.2 ⟨q, hq, rfl⟩) hc')

theorem denC_cap {id : Nat} {name : GroupName} {m : Matcher} {g : Place → List Place} (h : DenC E N (id :: X) Pre m g)
    (hn : E.names[id]? = some name) (hpre : ∀ x, Pre' x → Pre x ∧ (¬N id → held id x.2 = none)) :
    DenC E N X Pre' (capMatch E 0 id name m) (fun x => (g x).map (fun y => (y.1, y.2 ++ [(id, x.1, y.1)]))) := by
  intro β S x c cont G hx hc hk
  dsimp only at hk ⊢
  rw [List.findSome?_map]
  unfold capMatch
  rw [show ((g x).findSome? (G ∘ fun y => (y.1, y.2 ++ [(id, x.1, y.1)]))) =
    ((g x).findSome? (G ∘ fun y => (y.1, y.2 ++ [(id, x.1, y.1)]))).or none by simp]
  have hid : id < E.names.length := (List.getElem?_eq_some_iff.1 hn).1
  refine ViewS.orElse (F := Agrees E N (id :: X) x.2) (h β S x c _ _ (hpre x hx).1 hc.weaken (fun y c' hy hc' => ?_))
    (fun c' hc' => viewS_nonMatch (hc'.clear (hpre x hx).2))
  unfold setCapture
  rw [if_pos ⟨hn, Nat.zero_le _, by rw [hc'.1]; exact hid⟩]
  exact (hk (y.1, y.2 ++ [(id, x.1, y.1)]) _ (List.mem_map.2 ⟨y, hy, rfl⟩) hc'.set).mono (fun c h => h.drop)

/-! ### References -/

theorem backrefEquals_spec (icase : Bool) (x y : Byte) :
    backrefEquals icase x y = (x == y || (icase && asciiLower x == asciiLower y)) := by
  revert icase x y
  decide +kernel

theorem backrefLoop_forward (w : List Byte) : ∀ p, w.length ≤ E.inp.length - p →
    (beginsWith E.flags.icase w (E.inp.drop p) = true → backrefLoop E 0 w p = .done (p + w.length)) ∧
    (beginsWith E.flags.icase w (E.inp.drop p) = false → ∃ q, backrefLoop E 0 w p = .fail q) := by
  induction w with
  | nil => intro p _; exact ⟨fun _ => rfl, fun h => by simp [beginsWith] at h⟩
  | cons t w ih =>
    intro p hp
    simp only [List.length_cons] at hp
    have hlt : p < E.inp.length := by omega
    have hd : E.deref 0 p = some E.inp[p] := by
      simp [Env.deref, hlt]
    rw [List.drop_eq_getElem_cons hlt]
    simp only [beginsWith, backrefLoop, hd, Env.next, backrefEquals_spec]
    have := ih (p + 1) (by omega)
    cases hq : (t == E.inp[p] || E.flags.icase && asciiLower t == asciiLower E.inp[p]) with
    | false => simp
    | true =>
      simp only [Bool.true_and, if_true, List.length_cons]
      rw [show p + (w.length + 1) = p + 1 + w.length by omega]
      exact this

theorem denC_backref {fuel : Nat} {k : Nat} (hcat : E.cat ≠ .forward) (hk : k < E.names.length) (hN : ¬N k) (hX : k ∉ X)
    (hpre : ∀ x, Pre x → x.1 ≤ E.inp.length) :
    DenC E N X Pre (mtch E (fuel + 1) (.backref k) 0) (paths E.flags E.inp (.backref k)) := by
  intro β S x c cont G hx hc hcont
  obtain ⟨g, hg⟩ : ∃ g, c[k]? = some g := ⟨c[k]'(by rw [hc.1]; exact hk), by simp⟩
  have htext : capText E.inp g = heldText E.inp (held k x.2) := by
    have := hc.2 k g hX hg
    split at this
    · next h =>
      rw [h]
      match g, this with
      | none, _ => rfl
      | some (b, e), h => simp only [NoText] at h; simp [capText, heldText, h]
    · next v h =>
      rw [h]
      rcases this with rfl | ⟨h, _⟩
      · rfl
      · exact absurd h hN
  unfold mtch
  simp only [hg]
  unfold backrefMatch
  simp only [htext, paths] at hcont ⊢
  rw [if_neg hcat, Env.distanceLessThan_eq _ (hpre x hx)]
  have hr : E.remaining 0 x.1 = E.inp.length - x.1 := by simp [Env.remaining]
  rw [hr]
  split
  · next hlt =>
    simp only [decide_eq_true_eq] at hlt
    have hb : beginsWith E.flags.icase (heldText E.inp (held k x.2)) (E.inp.drop x.1) = false := by
      cases hb : beginsWith E.flags.icase (heldText E.inp (held k x.2)) (E.inp.drop x.1) with
      | false => rfl
      | true =>
        have := beginsWith_length hb
        simp only [List.length_drop] at this
        omega
    rw [hb]
    exact viewS_nonMatch hc
  · next hlt =>
    simp only [decide_eq_true_eq, Nat.not_lt] at hlt
    have := backrefLoop_forward (heldText E.inp (held k x.2)) x.1 hlt
    cases hb : beginsWith E.flags.icase (heldText E.inp (held k x.2)) (E.inp.drop x.1) with
    | true =>
      simp only [if_true, hb] at hcont ⊢
      rw [this.1 hb]
      have := hcont (x.1 + (heldText E.inp (held k x.2)).length, x.2) c (by simp) hc
      simpa using this
    | false =>
      obtain ⟨q, hq⟩ := this.2 hb
      simp only [if_true, hb] at hcont ⊢
      rw [hq]
      exact viewS_nonMatch hc

/-! ### Loops -/

section
variable {m : Matcher} {g : Place → List Place}

theorem timesP_one : timesP g 1 = g := by
  funext x
  simp [timesP]

theorem denC_nonUnrolled (h : DenC E N X Pre m g) (k : Nat) (hstep : 1 ≤ k → ∀ x y, Pre x → y ∈ g x → Pre y) :
    DenC E N X Pre (nonUnrolled m (k + 1)) (timesP g (k + 1)) := by
  induction k with
  | zero => rw [timesP_one]; exact h
  | succ k ih => exact h.comp (ih (fun _ => hstep (by omega))) (hstep (by omega))

theorem denC_unrolled (h : DenC E N X Pre m g) (k : Nat) (hstep : 1 ≤ k → ∀ x y, Pre x → y ∈ g x → Pre y) :
    DenC E N X Pre (unrolled m (k + 1)) (timesP g (k + 1)) := by
  induction k with
  | zero => rw [timesP_one]; exact h
  | succ k ih => exact h.comp (ih (fun _ => hstep (by omega))) (hstep (by omega))

theorem denC_fixed {mode : Mode} (hm : mode ≠ .possessive) {a : Ast} (ht : triv a = false) (h : DenC E N X Pre m g) (lo : Nat)
    (hstep : 2 ≤ lo → ∀ x y, Pre x → y ∈ g x → Pre y) :
    DenC E N X (fun x => 1 ≤ lo → Pre x) (fixedMatch E 0 mode a m lo) (timesP g lo) := by
  unfold fixedMatch
  match lo with
  | 0 => exact DenC.id
  | 1 =>
    rw [timesP_one]
    simp only [hm, false_and, if_false, if_true]
    exact h.pre (fun x hx => hx (by omega))
  | k + 2 =>
    have hne : (k + 2 = 0) = False := by simp
    have hne' : (k + 2 = 1) = False := by simp
    simp only [hne, hne', hm, if_false]
    unfold fixedBacktracking
    simp only [ht, Bool.false_eq_true, if_false]
    split
    · exact (denC_unrolled h (k + 1) (fun _ => hstep (by omega))).pre (fun x hx => hx (by omega))
    · exact (denC_nonUnrolled h (k + 1) (fun _ => hstep (by omega))).pre (fun x hx => hx (by omega))

theorem denC_greedy (h : DenC E N X Pre m g) (k : Nat) (hstep : 2 ≤ k → ∀ x y, Pre x → y ∈ g x → Pre y) :
    DenC E N X (fun x => 1 ≤ k → Pre x) (greedyLoop m false false k) (greedyP g k) := by
  induction k with
  | zero => exact DenC.id
  | succ k ih =>
    have ih' := ih (fun h => hstep (by omega))
    refine DenC.orElse ?_ DenC.id
    refine (DenC.comp (h.pre (fun x (hx : 1 ≤ k + 1 → Pre x) => hx (by omega))) ih' (fun x y hx hy h1 => hstep (by omega) x y (hx (by omega)) hy))

theorem denC_lazy (h : DenC E N X Pre m g) (k : Nat) (hstep : 2 ≤ k → ∀ x y, Pre x → y ∈ g x → Pre y) :
    DenC E N X (fun x => 1 ≤ k → Pre x) (lazyLoop m false false k) (lazyP g k) := by
  induction k with
  | zero =>
    intro β S x c cont G hx hc hk
    have := hk x c (by simp [lazyP]) hc
    rw [show (lazyP g 0 x).findSome? G = (G x).or none by simp [lazyP]]
    simp only [lazyLoop, Bool.false_eq_true, if_false]
    exact this.orElse (fun c' hc' => viewS_nonMatch hc')
  | succ k ih =>
    have ih' := ih (fun h => hstep (by omega))
    refine DenC.orElse DenC.id ?_
    refine (DenC.comp (h.pre (fun x (hx : 1 ≤ k + 1 → Pre x) => hx (by omega))) ih' (fun x y hx hy h1 => hstep (by omega) x y (hx (by omega)) hy))

theorem findSome?_advance {β : Type} (l : List Place) (p : Nat) (h : Place → List Place) (G : Place → Option β) :
    ((l.filter (fun y => y.1 ≠ p)).flatMap h).findSome? G = l.findSome? (fun y => if y.1 = p then none else (h y).findSome? G) := by
  induction l with
  | nil => rfl
  | cons a l ih =>
    by_cases ha : a.1 = p
    · rw [List.filter_cons_of_neg (by simp [ha]), ih]
      simp [ha]
    · rw [List.filter_cons_of_pos (by simp [ha]), List.flatMap_cons, List.findSome?_append, ih]
      simp only [List.findSome?_cons, ha, if_false]
      cases (h a).findSome? G <;> rfl

variable {guard : Bool} (hpre : ∀ x, Pre x → x.1 ≤ E.inp.length)
  (hguard : guard = true ∨ ∀ x y, Pre x → y ∈ g x → y.1 ≠ x.1) (hle : ∀ x y, Pre x → y ∈ g x → x.1 ≤ y.1)
  (hstep : ∀ x y, Pre x → y ∈ g x → Pre y)
include hpre hguard hle hstep

theorem denC_greedyStar (h : DenC E N X Pre m g) (k : Nat) : ∀ j,
    DenC E N X (fun x => Pre x ∧ E.inp.length - x.1 < k ∧ E.inp.length - x.1 < j) (greedyLoop m guard true k) (greedyStarP g j) := by
  induction k with
  | zero => intro j β S x c cont G hx; omega
  | succ k ih =>
    intro j β S x c cont G hx hc hk
    obtain ⟨hx, hxk, hxj⟩ := hx
    obtain ⟨j, rfl⟩ : ∃ i, j = i + 1 := ⟨j - 1, by omega⟩
    simp only [greedyStarP, List.mem_append, List.mem_flatMap, List.mem_filter, List.mem_singleton] at hk
    simp only [greedyStarP, greedyLoop]
    rw [List.findSome?_append, findSome?_advance]
    refine ViewS.orElse (F := Agrees E N X x.2) (h β S x c _ _ hx hc (fun y c' hy hc' => ?_)) (fun c' hc' => ?_)
    · unfold guardCont
      by_cases hyx : y.1 = x.1
      · have hg : guard = true := hguard.resolve_right (fun h => h x y hx hy hyx)
        simp only [hg, hyx, BEq.rfl, Bool.and_self, if_true]
        exact viewS_nonMatch hc'
      · have : (guard && x.1 == y.1) = false := by simp [Ne.symm hyx]
        rw [this]
        simp only [hyx, Bool.false_eq_true, if_false]
        have h1 := hle x y hx hy
        have h2 := hpre x hx
        have h3 := hpre y (hstep x y hx hy)
        exact ih j β S y c' cont G ⟨hstep x y hx hy, by omega, by omega⟩ hc'
          (fun z c'' hz => hk z c'' (.inl ⟨y, ⟨hy, by simpa using hyx⟩, hz⟩))
    · have := hk x c' (.inr rfl) hc'
      simpa using this

theorem denC_lazyStar (h : DenC E N X Pre m g) (k : Nat) : ∀ j,
    DenC E N X (fun x => Pre x ∧ E.inp.length - x.1 < k ∧ E.inp.length - x.1 < j) (lazyLoop m guard true k) (lazyStarP g j) := by
  induction k with
  | zero => intro j β S x c cont G hx; omega
  | succ k ih =>
    intro j β S x c cont G hx hc hk
    obtain ⟨hx, hxk, hxj⟩ := hx
    obtain ⟨j, rfl⟩ : ∃ i, j = i + 1 := ⟨j - 1, by omega⟩
    simp only [lazyStarP, List.mem_append, List.mem_flatMap, List.mem_filter, List.mem_singleton] at hk
    simp only [lazyStarP, lazyLoop]
    rw [List.findSome?_append, findSome?_advance]
    have hx' := hk x c (.inl rfl) hc
    rw [show [x].findSome? G = G x by simp]
    refine ViewS.orElse hx' (fun c' hc' => ?_)
    refine h β S x c' _ _ hx hc' (fun y c' hy hc' => ?_)
    unfold guardCont
    by_cases hyx : y.1 = x.1
    · have hg : guard = true := hguard.resolve_right (fun h => h x y hx hy hyx)
      simp only [hg, hyx, BEq.rfl, Bool.and_self, if_true]
      exact viewS_nonMatch hc'
    · have : (guard && x.1 == y.1) = false := by simp [Ne.symm hyx]
      rw [this]
      simp only [hyx, Bool.false_eq_true, if_false]
      have h1 := hle x y hx hy
      have h2 := hpre x hx
      have h3 := hpre y (hstep x y hx hy)
      exact ih j β S y c' cont G ⟨hstep x y hx hy, by omega, by omega⟩ hc'
        (fun z c'' hz => hk z c'' (.inr ⟨y, ⟨hy, by simpa using hyx⟩, hz⟩))

end

end
end Mregex
