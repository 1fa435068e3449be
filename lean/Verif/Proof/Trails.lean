import Verif.Spec.Trails
import Verif.Proof.ScriptMethods
import Verif.Proof.PathLemmas

/-!
# Trails and scripts
-/

namespace Mregex
open Ast Spec

/-! ### Positions -/

theorem fst_thenT (T : List Place) (g : Nat → List Place) : (thenT T g).map Prod.fst = (T.map Prod.fst).flatMap (fun q => (g q).map Prod.fst) := by
  simp only [thenT, List.map_flatMap, List.flatMap_map, List.map_map]
  rfl

theorem fst_filter (p : Nat) (T : List Place) : (T.filter (·.1 ≠ p)).map Prod.fst = (T.map Prod.fst).filter (· ≠ p) := by
  rw [List.filter_map]
  rfl

section
variable (g : Nat → List Place)

theorem fst_timesT (k p : Nat) : (timesT g k p).map Prod.fst = exactly (fun q => (g q).map Prod.fst) k p := by
  induction k generalizing p with
  | zero => rfl
  | succ k ih => simp only [timesT, exactly, fst_thenT, ih]

theorem fst_greedyT (k p : Nat) : (greedyT g k p).map Prod.fst = greedyUpTo (fun q => (g q).map Prod.fst) k p := by
  induction k generalizing p with
  | zero => rfl
  | succ k ih => simp only [greedyT, greedyUpTo, List.map_append, fst_thenT, ih]; rfl

theorem fst_lazyT (k p : Nat) : (lazyT g k p).map Prod.fst = lazyUpTo (fun q => (g q).map Prod.fst) k p := by
  induction k generalizing p with
  | zero => rfl
  | succ k ih => simp only [lazyT, lazyUpTo, List.map_cons, fst_thenT, ih]; rfl

theorem fst_possessiveT (k p : Nat) : (possessiveT g k p).map Prod.fst = possessiveUpTo (fun q => (g q).map Prod.fst) k p := by
  induction k generalizing p with
  | zero => rfl
  | succ k ih =>
    simp only [possessiveT, possessiveUpTo]
    cases g p with
    | nil => rfl
    | cons x l => simp [fst_thenT, ih]

theorem fst_greedyStarT (k p : Nat) : (greedyStarT g k p).map Prod.fst = greedyStar (fun q => (g q).map Prod.fst) k p := by
  induction k generalizing p with
  | zero => rfl
  | succ k ih => simp only [greedyStarT, greedyStar, List.map_append, fst_thenT, fst_filter, ih]; rfl

theorem fst_lazyStarT (k p : Nat) : (lazyStarT g k p).map Prod.fst = lazyStar (fun q => (g q).map Prod.fst) k p := by
  induction k generalizing p with
  | zero => rfl
  | succ k ih => simp only [lazyStarT, lazyStar, List.map_cons, fst_thenT, fst_filter, ih]; rfl

theorem fst_possessiveStarT (k p : Nat) : (possessiveStarT g k p).map Prod.fst = possessiveStar (fun q => (g q).map Prod.fst) k p := by
  induction k generalizing p with
  | zero => rfl
  | succ k ih =>
    simp only [possessiveStarT, possessiveStar]
    cases g p with
    | nil => rfl
    | cons x l =>
      simp only [List.map_cons]
      split
      · next h => simp [h]
      · simp [fst_thenT, ih]

theorem fst_extraT (n : Nat) (m : Mode) (u : Bool) (k : Option Nat) (p : Nat) :
    (extraT n m u g k p).map Prod.fst = extra n m u (fun q => (g q).map Prod.fst) k p := by
  cases k <;> cases m <;> cases u <;>
    simp [extraT, extra, fst_greedyT, fst_lazyT, fst_possessiveT, fst_greedyStarT, fst_lazyStarT, fst_possessiveStarT]

theorem fst_quantifiedT (n : Nat) (m : Mode) (u : Bool) (lo : Nat) (hi : Bound) (p : Nat) :
    (quantifiedT n m u lo hi g p).map Prod.fst = quantified n m u lo hi (fun q => (g q).map Prod.fst) p := by
  simp only [quantifiedT, quantified, fst_thenT, fst_extraT]
  cases m with
  | possessive => simp only [List.map_take, fst_timesT]; rfl
  | greedy => simp only [fst_timesT]; rfl
  | lazy => simp only [fst_timesT]; rfl

end

/-- Trails end where matches end. -/
theorem fst_trails (f : Flags) (s : List Byte) (a : Ast) (fwd inv : Bool) :
    (fun p => (trails f s a fwd inv p).map Prod.fst) = ends f s a fwd inv := by
  have plain : ∀ l : List Nat, (l.map (fun q => ((q, []) : Place))).map Prod.fst = l := by
    intro l
    rw [List.map_map]
    exact List.map_id' _
  induction a using ind generalizing fwd inv with
  | neg a ih =>
    funext p
    have ih := congrFun (ih fwd inv) p
    simp only [trails, ends]
    split
    · rw [← ih]
      cases trails f s a fwd inv p <;> simp [test]
    · exact plain _
  | seq l ih =>
    funext p
    simp only [trails, ends]
    induction l generalizing p with
    | nil => rfl
    | cons a l ihl =>
      have ihl := funext (ihl (fun b hb => ih b (List.mem_cons_of_mem _ hb)))
      simp only [trailsAll, endsAll]
      split
      · rw [fst_thenT, ih a (by simp), congrFun ihl p]
      · rw [fst_thenT, ihl, congrFun (ih a (by simp) fwd inv) p]
  | alt l ih =>
    funext p
    simp only [trails, ends]
    induction l with
    | nil => rfl
    | cons a l ihl =>
      have ihl := ihl (fun b hb => ih b (List.mem_cons_of_mem _ hb))
      simp only [trailsAny, endsAny, List.map_append, ihl, congrFun (ih a (by simp) fwd inv) p]
  | cap id n a ih =>
    funext p
    simp only [trails, ends, List.map_map]
    exact congrFun (ih fwd inv) p
  | rep m lo hi a ih =>
    funext p
    simp only [trails, ends, fst_quantifiedT, ih]
  | look d a ih =>
    funext p
    simp only [trails, ends]
    split
    · rw [← congrFun (ih fwd false) p]
      cases trails f s a fwd false p <;> simp [test]
    · rw [← congrFun (ih (!fwd) true) p]
      cases trails f s a (!fwd) true p <;> simp [test]
  | _ => funext p; simp only [trails]; exact plain _

theorem fst_trails_eq (f : Flags) (s : List Byte) (a : Ast) (fwd inv : Bool) (p : Nat) :
    (trails f s a fwd inv p).map Prod.fst = offs (script f s a fwd inv p) :=
  (congrFun (fst_trails f s a fwd inv) p).trans (congrFun (offs_script f s a fwd inv) p).symm

/-! ### Parts without the group -/

section
variable {k : Nat}

theorem held_append (k : Nat) (l l' : List Event) : held k (l ++ l') = (held k l').or (held k l) := by
  induction l with
  | nil => simp [held]
  | cons e l ih => simp only [List.cons_append, held, ih, Option.or_assoc]

/-- No trail mentions the group `k`. -/
def NoEv (k : Nat) (T : List Place) : Prop := ∀ x ∈ T, held k x.2 = none

/-- No step is about the group `k`. -/
def QuietStep (k : Nat) : Step → Prop
  | .note i _ _ => i ≠ k
  | .cross i => i ≠ k
  | .offer _ => True
def Quiet (k : Nat) (S : Script) : Prop := ∀ t ∈ S, QuietStep k t

theorem noEv_thenT {T : List Place} {g : Nat → List Place} (h : NoEv k T) (hg : ∀ q, NoEv k (g q)) : NoEv k (thenT T g) := by
  intro x hx
  simp only [thenT, List.mem_flatMap, List.mem_map] at hx
  obtain ⟨y, hy, z, hz, rfl⟩ := hx
  simp only [held_append, h y hy, hg _ z hz, Option.none_or]

theorem noEv_append {T T' : List Place} (h : NoEv k T) (h' : NoEv k T') : NoEv k (T ++ T') := by
  intro x hx
  rcases List.mem_append.1 hx with hx | hx
  · exact h x hx
  · exact h' x hx

theorem noEv_here (p : Nat) : NoEv k [(p, [])] := by
  intro x hx
  rw [List.mem_singleton.1 hx]
  rfl

theorem noEv_plain (l : List Nat) : NoEv k (l.map (·, [])) := by
  intro x hx
  obtain ⟨q, _, rfl⟩ := List.mem_map.1 hx
  rfl

theorem noEv_sub {T T' : List Place} (h : NoEv k T) (hs : ∀ x ∈ T', x ∈ T) : NoEv k T' := fun x hx => h x (hs x hx)

section
variable {g : Nat → List Place} (hg : ∀ q, NoEv k (g q))
include hg

theorem noEv_timesT (n : Nat) : ∀ p, NoEv k (timesT g n p) := by
  induction n with
  | zero => exact noEv_here
  | succ n ih => exact fun p => noEv_thenT (hg p) ih

theorem noEv_greedyT (n : Nat) : ∀ p, NoEv k (greedyT g n p) := by
  induction n with
  | zero => exact noEv_here
  | succ n ih => exact fun p => noEv_append (noEv_thenT (hg p) ih) (noEv_here p)

theorem noEv_lazyT (n : Nat) : ∀ p, NoEv k (lazyT g n p) := by
  induction n with
  | zero => exact noEv_here
  | succ n ih => exact fun p => noEv_append (noEv_here p) (noEv_thenT (hg p) ih)

theorem noEv_possessiveT (n : Nat) : ∀ p, NoEv k (possessiveT g n p) := by
  induction n with
  | zero => exact noEv_here
  | succ n ih =>
    intro p
    simp only [possessiveT]
    split
    · exact noEv_here p
    · next h => exact noEv_thenT (noEv_sub (hg p) (by rw [h]; intro y hy; rw [List.mem_singleton.1 hy]; simp)) ih

theorem noEv_greedyStarT (n : Nat) : ∀ p, NoEv k (greedyStarT g n p) := by
  induction n with
  | zero => intro p x hx; cases hx
  | succ n ih => exact fun p => noEv_append (noEv_thenT (noEv_sub (hg p) (fun x hx => (List.mem_filter.1 hx).1)) ih) (noEv_here p)

theorem noEv_lazyStarT (n : Nat) : ∀ p, NoEv k (lazyStarT g n p) := by
  induction n with
  | zero => intro p x hx; cases hx
  | succ n ih => exact fun p => noEv_append (noEv_here p) (noEv_thenT (noEv_sub (hg p) (fun x hx => (List.mem_filter.1 hx).1)) ih)

theorem noEv_possessiveStarT (n : Nat) : ∀ p, NoEv k (possessiveStarT g n p) := by
  induction n with
  | zero => intro p x hx; cases hx
  | succ n ih =>
    intro p
    simp only [possessiveStarT]
    split
    · exact noEv_here p
    · next x l h =>
      have h1 := noEv_sub (hg p) (T' := [x]) (by rw [h]; intro y hy; rw [List.mem_singleton.1 hy]; simp)
      split
      · exact h1
      · exact noEv_thenT h1 ih

theorem noEv_quantifiedT (n : Nat) (m : Mode) (u : Bool) (lo : Nat) (hi : Bound) (p : Nat) : NoEv k (quantifiedT n m u lo hi g p) := by
  have hx : ∀ o q, NoEv k (extraT n m u g o q) := by
    intro o
    cases o with
    | some j =>
      cases m <;> simp only [extraT]
      · split
        · exact noEv_greedyT hg j
        · exact noEv_lazyT hg j
      · split
        · exact noEv_greedyT hg j
        · exact noEv_lazyT hg j
      · exact noEv_possessiveT hg j
    | none =>
      cases m <;> simp only [extraT]
      · split
        · exact noEv_greedyStarT hg _
        · exact noEv_lazyStarT hg _
      · split
        · exact noEv_greedyStarT hg _
        · exact noEv_lazyStarT hg _
      · exact noEv_possessiveStarT hg _
  refine noEv_thenT ?_ (hx _)
  cases m with
  | possessive => exact noEv_sub (noEv_timesT hg lo p) (fun x hx => List.mem_of_mem_take hx)
  | greedy => exact noEv_timesT hg lo p
  | lazy => exact noEv_timesT hg lo p
end

theorem noEv_trails {a : Ast} (hk : k ∉ groupIds a) (f : Flags) (s : List Byte) (fwd inv : Bool) (p : Nat) : NoEv k (trails f s a fwd inv p) := by
  induction a using ind generalizing fwd inv p with
  | neg a ih =>
    simp only [trails]
    split
    · split
      · exact noEv_here p
      · intro x hx; cases hx
    · exact noEv_plain _
  | seq l ih =>
    simp only [trails]
    simp only [groupIds] at hk
    induction l generalizing p with
    | nil => exact noEv_here p
    | cons a l ihl =>
      simp only [groupIdsAll, List.mem_append, not_or] at hk
      have ihl := ihl (fun b hb => ih b (List.mem_cons_of_mem _ hb)) hk.2
      simp only [trailsAll]
      split
      · exact noEv_thenT (ihl p) (fun q => ih a (by simp) hk.1 fwd inv q)
      · exact noEv_thenT (ih a (by simp) hk.1 fwd inv p) ihl
  | alt l ih =>
    simp only [trails]
    simp only [groupIds] at hk
    induction l with
    | nil => intro x hx; cases hx
    | cons a l ihl =>
      simp only [groupIdsAll, List.mem_append, not_or] at hk
      exact noEv_append (ih a (by simp) hk.1 fwd inv p) (ihl (fun b hb => ih b (List.mem_cons_of_mem _ hb)) hk.2)
  | cap id n a ih =>
    simp only [groupIds, List.mem_cons, not_or] at hk
    simp only [trails]
    intro x hx
    obtain ⟨y, hy, rfl⟩ := List.mem_map.1 hx
    simp only [held_append, ih hk.2 fwd inv p y hy, Option.or_none]
    cases fwd <;> simp [held, Ne.symm hk.1]
  | rep m lo hi a ih => exact noEv_quantifiedT (fun q => ih hk fwd inv q) _ _ _ _ _ _
  | look d a ih =>
    simp only [trails]
    intro x hx
    obtain ⟨y, hy, rfl⟩ := List.mem_map.1 hx
    have hy := List.mem_of_mem_take hy
    split at hy
    · exact ih hk _ _ _ y hy
    · exact ih hk _ _ _ y hy
  | _ => exact noEv_plain _

theorem quiet_append {S T : Script} (h : Quiet k S) (h' : Quiet k T) : Quiet k (S ++ T) := by
  intro x hx
  rcases List.mem_append.1 hx with hx | hx
  · exact h x hx
  · exact h' x hx

theorem quiet_offer (p : Nat) : Quiet k [.offer p] := by
  intro x hx
  rw [List.mem_singleton.1 hx]
  trivial

theorem quiet_nil : Quiet k [] := fun _ hx => (by cases hx)

theorem quiet_offers (l : List Nat) : Quiet k (offers l) := by
  intro x hx
  obtain ⟨q, _, rfl⟩ := List.mem_map.1 hx
  trivial

theorem quiet_proceed {S : Script} {g : Nat → Script} (h : Quiet k S) (hg : ∀ q, Quiet k (g q)) : Quiet k (proceed S g) := by
  intro x hx
  simp only [proceed, List.mem_flatMap] at hx
  obtain ⟨t, ht, hx⟩ := hx
  cases t with
  | offer q => exact hg q x hx
  | note i b e => rw [List.mem_singleton.1 hx]; exact h _ ht
  | cross i => rw [List.mem_singleton.1 hx]; exact h _ ht

theorem quiet_commit {S T : Script} {g : Nat → Script} (h : Quiet k S) (hg : ∀ q, Quiet k (g q)) (hT : Quiet k T) : Quiet k (commit g T S) := by
  induction S with
  | nil => exact hT
  | cons t S ih =>
    have ih := ih (fun x hx => h x (List.mem_cons_of_mem _ hx))
    cases t with
    | offer q => exact hg q
    | note i b e => exact quiet_append (S := [_]) (fun x hx => h x (by rw [List.mem_singleton.1 hx]; simp)) ih
    | cross i => exact quiet_append (S := [_]) (fun x hx => h x (by rw [List.mem_singleton.1 hx]; simp)) ih

theorem quiet_except {S : Script} (h : Quiet k S) (p : Nat) : Quiet k (except p S) := fun x hx => h x ((List.mem_filter.1 hx).1)

section
variable {g : Nat → Script} (hg : ∀ q, Quiet k (g q))
include hg

theorem quiet_timesS (n : Nat) : ∀ p, Quiet k (timesS g n p) := by
  induction n with
  | zero => exact quiet_offer
  | succ n ih => exact fun p => quiet_proceed (hg p) ih

theorem quiet_greedyS (n : Nat) : ∀ p, Quiet k (greedyS g n p) := by
  induction n with
  | zero => exact quiet_offer
  | succ n ih => exact fun p => quiet_append (quiet_proceed (hg p) ih) (quiet_offer p)

theorem quiet_lazyS (n : Nat) : ∀ p, Quiet k (lazyS g n p) := by
  induction n with
  | zero => exact quiet_offer
  | succ n ih => exact fun p => quiet_append (quiet_offer p) (quiet_proceed (hg p) ih)

theorem quiet_possessiveS (n : Nat) : ∀ p, Quiet k (possessiveS g n p) := by
  induction n with
  | zero => exact quiet_offer
  | succ n ih => exact fun p => quiet_commit (hg p) ih (quiet_offer p)

theorem quiet_greedyStarS (n : Nat) : ∀ p, Quiet k (greedyStarS g n p) := by
  induction n with
  | zero => exact fun _ => quiet_nil
  | succ n ih => exact fun p => quiet_append (quiet_proceed (quiet_except (hg p) p) ih) (quiet_offer p)

theorem quiet_lazyStarS (n : Nat) : ∀ p, Quiet k (lazyStarS g n p) := by
  induction n with
  | zero => exact fun _ => quiet_nil
  | succ n ih => exact fun p => quiet_append (quiet_offer p) (quiet_proceed (quiet_except (hg p) p) ih)

theorem quiet_possessiveStarS (n : Nat) : ∀ p, Quiet k (possessiveStarS g n p) := by
  induction n with
  | zero => exact fun _ => quiet_nil
  | succ n ih =>
    intro p
    refine quiet_commit (hg p) (fun q => ?_) (quiet_offer p)
    split
    · exact quiet_offer p
    · exact ih q

theorem quiet_quantifiedS (n : Nat) (m : Mode) (u : Bool) (lo : Nat) (hi : Bound) (p : Nat) : Quiet k (quantifiedS n m u lo hi g p) := by
  have hx : ∀ o q, Quiet k (extraS n m u g o q) := by
    intro o
    cases o with
    | some j =>
      cases m <;> simp only [extraS]
      · split
        · exact quiet_greedyS hg j
        · exact quiet_lazyS hg j
      · split
        · exact quiet_greedyS hg j
        · exact quiet_lazyS hg j
      · exact quiet_possessiveS hg j
    | none =>
      cases m <;> simp only [extraS]
      · split
        · exact quiet_greedyStarS hg _
        · exact quiet_lazyStarS hg _
      · split
        · exact quiet_greedyStarS hg _
        · exact quiet_lazyStarS hg _
      · exact quiet_possessiveStarS hg _
  refine quiet_proceed ?_ (hx _)
  cases m with
  | possessive => exact quiet_commit (quiet_timesS hg lo p) quiet_offer quiet_nil
  | greedy => exact quiet_timesS hg lo p
  | lazy => exact quiet_timesS hg lo p
end

theorem quiet_script {a : Ast} (hk : k ∉ groupIds a) (f : Flags) (s : List Byte) (fwd inv : Bool) (p : Nat) : Quiet k (script f s a fwd inv p) := by
  induction a using ind generalizing fwd inv p with
  | neg a ih =>
    simp only [script]
    split
    · exact quiet_commit (ih hk _ _ _) (fun _ => quiet_nil) (quiet_offer p)
    · exact quiet_offers _
  | seq l ih =>
    simp only [script]
    simp only [groupIds] at hk
    induction l generalizing p with
    | nil => exact quiet_offer p
    | cons a l ihl =>
      simp only [groupIdsAll, List.mem_append, not_or] at hk
      have ihl := ihl (fun b hb => ih b (List.mem_cons_of_mem _ hb)) hk.2
      simp only [scriptAll]
      split
      · exact quiet_proceed (ihl p) (fun q => ih a (by simp) hk.1 fwd inv q)
      · exact quiet_proceed (ih a (by simp) hk.1 fwd inv p) ihl
  | alt l ih =>
    simp only [script]
    simp only [groupIds] at hk
    induction l with
    | nil => exact quiet_nil
    | cons a l ihl =>
      simp only [groupIdsAll, List.mem_append, not_or] at hk
      exact quiet_append (ih a (by simp) hk.1 fwd inv p) (ihl (fun b hb => ih b (List.mem_cons_of_mem _ hb)) hk.2)
  | cap id n a ih =>
    simp only [groupIds, List.mem_cons, not_or] at hk
    simp only [script]
    refine quiet_append (quiet_proceed (ih hk.2 _ _ _) (fun q => ?_)) ?_
    · cases fwd
      · exact quiet_append (S := [_]) (fun x hx => by rw [List.mem_singleton.1 hx]; exact Ne.symm hk.1) (quiet_offer q)
      · exact quiet_append (S := [_]) (fun x hx => by rw [List.mem_singleton.1 hx]; exact Ne.symm hk.1) (quiet_offer q)
    · intro x hx
      rw [List.mem_singleton.1 hx]
      exact Ne.symm hk.1
  | rep m lo hi a ih => exact quiet_quantifiedS (fun q => ih hk fwd inv q) _ _ _ _ _ _
  | look d a ih =>
    simp only [script]
    split
    · exact quiet_commit (ih hk _ _ _) (fun _ => quiet_offer p) quiet_nil
    · exact quiet_commit (ih hk _ _ _) (fun _ => quiet_offer p) quiet_nil
  | _ => exact quiet_offers _

/-! ### Scripts along trails -/

/-- What a step does with the value of the group `k`. -/
abbrev crossed (v : Cap) : Cap := v.map (fun x => (x.1, x.1))

/-- The offers of the script are the ends of the trails; at each offer the value of the group `k` fits to the last participation on the trail (`h`: before it), also if the
value is changed to another fitting one in between; `F` holds for the value at the end. -/
def Along (k : Nat) (J : Option (Nat × Nat) → Cap → Prop) (h : Option (Nat × Nat)) (F : Cap → Prop) : Script → List Place → Cap → Prop
  | [], T, v => T = [] ∧ F v
  | .note i b e :: S, T, v => Along k J h F S T (if i = k then some (b, e) else v)
  | .cross i :: S, T, v => Along k J h F S T (if i = k then crossed v else v)
  | .offer q :: S, T, v =>
    match T with
    | [] => False
    | x :: T' => x.1 = q ∧ J ((held k x.2).or h) v ∧ ∀ v', J ((held k x.2).or h) v' → Along k J h F S T' v'

variable {J : Option (Nat × Nat) → Cap → Prop} {h : Option (Nat × Nat)} {F : Cap → Prop}

theorem Along.append {F' : Cap → Prop} {S S' : Script} {T T' : List Place} {v : Cap} (hs : Along k J h F S T v) (hs' : ∀ v', F v' → Along k J h F' S' T' v') :
    Along k J h F' (S ++ S') (T ++ T') v := by
  induction S generalizing T v with
  | nil =>
    obtain ⟨rfl, hv⟩ := hs
    exact hs' v hv
  | cons t S ih =>
    cases t with
    | note i b e => exact ih hs
    | cross i => exact ih hs
    | offer q =>
      cases T with
      | nil => exact False.elim hs
      | cons x T => exact ⟨hs.1, hs.2.1, fun v' hv' => ih (hs.2.2 v' hv')⟩

theorem Along.shift {e : List Event} {S : Script} {T : List Place} {v : Cap} (hs : Along k J ((held k e).or h) F S T v) :
    Along k J h F S (T.map (fun y => (y.1, e ++ y.2))) v := by
  induction S generalizing T v with
  | nil =>
    obtain ⟨rfl, hv⟩ := hs
    exact ⟨rfl, hv⟩
  | cons t S ih =>
    cases t with
    | note i b e => exact ih hs
    | cross i => exact ih hs
    | offer q =>
      cases T with
      | nil => exact False.elim hs
      | cons x T =>
        obtain ⟨h1, h2, h3⟩ := hs
        have e1 : (held k (e ++ x.2)).or h = (held k x.2).or ((held k e).or h) := by rw [held_append, Option.or_assoc]
        refine ⟨h1, ?_, fun v' hv' => ih (h3 v' ?_)⟩
        · show J ((held k (e ++ x.2)).or h) v
          rw [e1]; exact h2
        · have hv' : J ((held k (e ++ x.2)).or h) v' := hv'
          rw [e1] at hv'; exact hv'

theorem Along.bind {S : Script} {T : List Place} {v : Cap} {g : Nat → Script} {G : Nat → List Place} (hs : Along k J h F S T v)
    (hg : ∀ x ∈ T, ∀ v', J ((held k x.2).or h) v' → Along k J ((held k x.2).or h) (J ((held k x.2).or h)) (g x.1) (G x.1) v') :
    Along k J h F (proceed S g) (thenT T G) v := by
  induction S generalizing T v with
  | nil =>
    obtain ⟨rfl, hv⟩ := hs
    exact ⟨rfl, hv⟩
  | cons t S ih =>
    cases t with
    | note i b e => exact ih (v := if i = k then some (b, e) else v) hs hg
    | cross i => exact ih (v := if i = k then crossed v else v) hs hg
    | offer q =>
      cases T with
      | nil => exact False.elim hs
      | cons x T =>
        obtain ⟨rfl, h2, h3⟩ := hs
        exact (hg x (by simp) v h2).shift.append (fun v' hv' => ih (h3 v' hv') (fun y hy => hg y (List.mem_cons_of_mem _ hy)))

theorem Along.commit {F' : Cap → Prop} {S H : Script} {T U : List Place} {v : Cap} {g : Nat → Script} (hs : Along k J h F S T v)
    (hg : ∀ x T', T = x :: T' → ∀ v', J ((held k x.2).or h) v' → Along k J h F' (g x.1) U v')
    (hH : T = [] → ∀ v', F v' → Along k J h F' H U v') :
    Along k J h F' (Spec.commit g H S) U v := by
  induction S generalizing v with
  | nil =>
    obtain ⟨rfl, hv⟩ := hs
    exact hH rfl v hv
  | cons t S ih =>
    cases t with
    | note i b e => exact ih hs
    | cross i => exact ih hs
    | offer q =>
      cases T with
      | nil => exact False.elim hs
      | cons x T =>
        obtain ⟨rfl, h2, h3⟩ := hs
        exact hg x T rfl v h2

theorem Along.except {S : Script} {T : List Place} {v : Cap} (hs : Along k J h F S T v) (p : Nat) :
    Along k J h F (Spec.except p S) (T.filter (·.1 ≠ p)) v := by
  induction S generalizing T v with
  | nil =>
    obtain ⟨rfl, hv⟩ := hs
    exact ⟨rfl, hv⟩
  | cons t S ih =>
    cases t with
    | note i b e => exact ih hs
    | cross i => exact ih hs
    | offer q =>
      cases T with
      | nil => exact False.elim hs
      | cons x T =>
        obtain ⟨rfl, h2, h3⟩ := hs
        by_cases hq : x.1 = p
        · rw [show Spec.except p (Step.offer x.1 :: S) = Spec.except p S by simp [Spec.except, hq],
            show (x :: T).filter (·.1 ≠ p) = T.filter (·.1 ≠ p) by simp [hq]]
          exact ih (h3 v h2)
        · rw [show Spec.except p (Step.offer x.1 :: S) = Step.offer x.1 :: Spec.except p S by simp [Spec.except, hq],
            show (x :: T).filter (·.1 ≠ p) = x :: T.filter (·.1 ≠ p) by simp [hq]]
          exact ⟨rfl, h2, fun v' hv' => ih (h3 v' hv')⟩

/-- A part without the group. -/
theorem al_quiet {S : Script} {T : List Place} {v : Cap} (hS : Quiet k S) (hT : T.map Prod.fst = offs S) (hn : NoEv k T) (hv : J h v) :
    Along k J h (J h) S T v := by
  induction S generalizing T v with
  | nil =>
    have : T = [] := by simpa [offs] using hT
    exact ⟨this, hv⟩
  | cons t S ih =>
    have ih := fun {T v} => @ih T v (fun x hx => hS x (List.mem_cons_of_mem _ hx))
    have ht := hS t (by simp)
    cases t with
    | note i b e =>
      show Along k J h (J h) S T (if i = k then _ else v)
      rw [if_neg ht]
      exact ih hT hn hv
    | cross i =>
      show Along k J h (J h) S T (if i = k then _ else v)
      rw [if_neg ht]
      exact ih hT hn hv
    | offer q =>
      cases T with
      | nil => simp [offs] at hT
      | cons x T =>
        have hT : x.1 :: T.map Prod.fst = q :: offs S := hT
        injection hT with h1 h2
        have hx : held k x.2 = none := hn x (by simp)
        simp only [Along, hx, Option.none_or]
        exact ⟨h1, hv, fun v' hv' => ih h2 (fun y hy => hn y (List.mem_cons_of_mem _ hy)) hv'⟩

theorem al_quiet_script {a : Ast} (hk : k ∉ groupIds a) (f : Flags) (s : List Byte) (fwd inv : Bool) (p : Nat) {v : Cap} (hv : J h v) :
    Along k J h (J h) (script f s a fwd inv p) (trails f s a fwd inv p) v :=
  al_quiet (quiet_script hk f s fwd inv p) (fst_trails_eq f s a fwd inv p) (noEv_trails hk f s fwd inv p) hv

theorem al_offer (q : Nat) {v : Cap} (hv : J h v) : Along k J h (J h) [.offer q] [(q, [])] v := by
  simp only [Along, held, Option.none_or]
  exact ⟨trivial, hv, fun v' hv' => ⟨trivial, hv'⟩⟩

/-- Everything fits. -/
theorem al_free {S : Script} {T : List Place} {v : Cap} (hT : T.map Prod.fst = offs S) (hJ : ∀ x ∈ T, ∀ v, J ((held k x.2).or h) v) (hF : ∀ v, F v) :
    Along k J h F S T v := by
  induction S generalizing T v with
  | nil =>
    have : T = [] := by simpa [offs] using hT
    exact ⟨this, hF v⟩
  | cons t S ih =>
    cases t with
    | note i b e => exact ih hT hJ
    | cross i => exact ih hT hJ
    | offer q =>
      cases T with
      | nil => simp [offs] at hT
      | cons x T =>
        have hT : x.1 :: T.map Prod.fst = q :: offs S := hT
        injection hT with h1 h2
        exact ⟨h1, hJ x (by simp) v, fun v' _ => ih h2 (fun y hy => hJ y (List.mem_cons_of_mem _ hy))⟩

/-- The group itself. -/
theorem al_cap {S : Script} {T : List Place} {v : Cap} (fwd : Bool) (p : Nat) (hT : T.map Prod.fst = offs S) (hJ : ∀ w, J (some w) (some w))
    (hF : ∀ v, F (crossed v)) :
    Along k J h F (proceed S (fun q => [if fwd then .note k p q else .note k q p, .offer q]) ++ [.cross k])
      (T.map (fun y => (y.1, y.2 ++ [if fwd then (k, p, y.1) else (k, y.1, p)]))) v := by
  induction S generalizing T v with
  | nil =>
    have : T = [] := by simpa [offs] using hT
    subst this
    show Along k J h F [] [] (if k = k then crossed v else v)
    rw [if_pos rfl]
    exact ⟨rfl, hF v⟩
  | cons t S ih =>
    cases t with
    | note i b e => exact ih hT
    | cross i => exact ih hT
    | offer q =>
      cases T with
      | nil => simp [offs] at hT
      | cons x T =>
        have hT : x.1 :: T.map Prod.fst = q :: offs S := hT
        injection hT with h1 h2
        subst h1
        cases fwd with
        | true =>
          show x.1 = x.1 ∧ J ((held k (x.2 ++ [(k, p, x.1)])).or h) (if k = k then some (p, x.1) else v) ∧ _
          rw [held_snoc, if_pos rfl, if_pos rfl, Option.some_or]
          exact ⟨rfl, hJ _, fun v' _ => ih h2⟩
        | false =>
          show x.1 = x.1 ∧ J ((held k (x.2 ++ [(k, x.1, p)])).or h) (if k = k then some (x.1, p) else v) ∧ _
          rw [held_snoc, if_pos rfl, if_pos rfl, Option.some_or]
          exact ⟨rfl, hJ _, fun v' _ => ih h2⟩

/-- Another group. -/
theorem al_otherCap {i : Nat} (hi : i ≠ k) {S : Script} {T : List Place} {v : Cap} (fwd : Bool) (p : Nat) (hs : Along k J h F S T v) :
    Along k J h F (proceed S (fun q => [if fwd then .note i p q else .note i q p, .offer q]) ++ [.cross i])
      (T.map (fun y => (y.1, y.2 ++ [if fwd then (i, p, y.1) else (i, y.1, p)]))) v := by
  have e : T.map (fun y => (y.1, y.2 ++ [if fwd then (i, p, y.1) else (i, y.1, p)])) =
      thenT T (fun q => [(q, [if fwd then (i, p, q) else (i, q, p)])]) ++ [] := by
    clear hs
    rw [List.append_nil]
    unfold thenT
    induction T with
    | nil => rfl
    | cons x T ih => rw [List.map_cons, List.flatMap_cons]; exact congrArg (List.cons _) ih
  rw [e]
  refine (hs.bind (fun x _ v' hv' => ?_)).append (fun v' hv' => ?_)
  · have hn : held k [if fwd then (i, p, x.1) else (i, x.1, p)] = none := by cases fwd <;> simp [held, hi]
    cases fwd with
    | true =>
      show x.1 = x.1 ∧ J ((held k [(i, p, x.1)]).or _) (if i = k then some (p, x.1) else v') ∧ _
      rw [if_neg hi, show held k [(i, p, x.1)] = none from hn, Option.none_or]
      refine ⟨rfl, hv', fun v'' hv'' => ⟨rfl, ?_⟩⟩
      rwa [hn, Option.none_or] at hv''
    | false =>
      show x.1 = x.1 ∧ J ((held k [(i, x.1, p)]).or _) (if i = k then some (x.1, p) else v') ∧ _
      rw [if_neg hi, show held k [(i, x.1, p)] = none from hn, Option.none_or]
      refine ⟨rfl, hv', fun v'' hv'' => ⟨rfl, ?_⟩⟩
      rwa [hn, Option.none_or] at hv''
  · show Along k J h F [] [] (if i = k then _ else v')
    rw [if_neg hi]
    exact ⟨rfl, hv'⟩

/-- The value at the first accepted offer. -/
theorem Along.find (acc : Nat → Bool) {S : Script} {T : List Place} {v : Cap} (hs : Along k J h F S T v) :
    match T.find? (fun y => acc y.1) with
    | some x => taken acc S = some x.1 ∧ J ((held k x.2).or h) (noted acc k S v)
    | none => taken acc S = none ∧ F (noted acc k S v) := by
  induction S generalizing T v with
  | nil =>
    obtain ⟨rfl, hv⟩ := hs
    exact ⟨rfl, hv⟩
  | cons t S ih =>
    cases t with
    | note i b e => exact ih hs
    | cross i => exact ih hs
    | offer q =>
      cases T with
      | nil => exact False.elim hs
      | cons x T =>
        obtain ⟨rfl, h2, h3⟩ := hs
        cases hq : acc x.1 with
        | true => simp only [List.find?_cons, hq, taken, noted, if_true]; exact ⟨trivial, h2⟩
        | false =>
          simp only [List.find?_cons, hq, taken, noted, Bool.false_eq_true, if_false]
          exact ih (h3 v h2)

end

end Mregex
