import Verif.Proof.Trails
import Verif.Proof.PathsMain

/-!
# What groups hold at the end of a trail
-/

namespace Mregex
open Ast Spec

section
variable {k : Nat} {f : Flags} {s : List Byte}

/-! ### Groups that are visited once -/

/-- If the group has taken part, it holds that range. -/
def Exact (h : Option (Nat × Nat)) (v : Cap) : Prop := ∀ w, h = some w → v = some w

theorem exact_none (v : Cap) : Exact none v := fun _ h => (by cases h)
theorem exact_some (w : Nat × Nat) : Exact (some w) (some w) := fun _ h => h

theorem not_mem_triv {a : Ast} (hw : wf a = true) (ht : triv a = true) : k ∉ groupIds a := by
  rw [(closed_of_triv hw ht).1]
  simp

theorem thenT_here (p : Nat) (g : Nat → List Place) : thenT [(p, [])] g = g p := by
  simp [thenT]

theorem thenT_stay (T : List Place) : thenT T (fun q => [(q, [])]) = T := by
  induction T with
  | nil => rfl
  | cons x T ih =>
    unfold thenT at ih ⊢
    rw [List.flatMap_cons, ih]
    simp

theorem al_once_rep {g : Nat → Script} {G : Nat → List Place} (hg : ∀ p v, Along k Exact none (fun _ => True) (g p) (G p) v) (m : Mode) (lo h : Nat) (hlo : lo ≤ h)
    (hh : h = 0 ∨ h = 1) (n : Nat) (u : Bool) (p : Nat) (v : Cap) :
    Along k Exact none (fun _ => True) (quantifiedS n m u lo (.fin h) g p) (quantifiedT n m u lo (.fin h) G p) v := by
  have weak : ∀ {h : Option (Nat × Nat)} {F F' : Cap → Prop} {S : Script} {T : List Place} {v : Cap}, (∀ v, F v → F' v) →
      Along k Exact h F S T v → Along k Exact h F' S T v := by
    intro h F F' S T v hF hs
    have := hs.append (S' := []) (T' := []) (F' := F') (fun v' hv' => ⟨rfl, hF v' hv'⟩)
    rwa [List.append_nil, List.append_nil] at this
  have stay : ∀ (h : Option (Nat × Nat)) q v', Exact h v' → Along k Exact h (Exact h) (extraS n m u g (some 0) q) (extraT n m u G (some 0) q) v' := by
    intro h q v' hv'
    have e1 : extraS n m u g (some 0) q = [.offer q] := by
      cases m <;> simp only [extraS] <;> first | rfl | (split <;> rfl)
    have e2 : extraT n m u G (some 0) q = [(q, [])] := by
      cases m <;> simp only [extraT] <;> first | rfl | (split <;> rfl)
    rw [e1, e2]
    exact al_offer q hv'
  have one : ∀ q v', Along k Exact none (fun _ => True) (extraS n m u g (some 1) q) (extraT n m u G (some 1) q) v' := by
    intro q v'
    have hup : Along k Exact none (fun _ => True) (proceed (g q) (fun q => [.offer q])) (thenT (G q) (fun q => [(q, [])])) v' :=
      (hg q v').bind (fun x _ v' hv' => al_offer _ hv')
    have hgr : ∀ v', Along k Exact none (fun _ => True) (greedyS g 1 q) (greedyT G 1 q) v' := fun v' =>
      ((hg q v').bind (fun x _ v' hv' => al_offer _ hv')).append (fun v'' _ => weak (fun _ _ => trivial) (al_offer _ (exact_none _)))
    have hlz : ∀ v', Along k Exact none (fun _ => True) (lazyS g 1 q) (lazyT G 1 q) v' := fun v' =>
      (al_offer (h := none) _ (exact_none _)).append (S' := proceed (g q) (lazyS g 0)) (T' := thenT (G q) (lazyT G 0))
        (fun v'' _ => (hg q v'').bind (fun x _ v' hv' => al_offer _ hv'))
    cases m with
    | possessive =>
      simp only [extraS, extraT]
      show Along k Exact none (fun _ => True) (Spec.commit (possessiveS g 0) [.offer q] (g q)) (match G q with | [] => [(q, [])] | x :: _ => thenT [x] (possessiveT G 0)) v'
      refine (hg q v').commit (fun x T' hT v'' hv'' => ?_) (fun hT v'' _ => ?_)
      · rw [hT]
        have := (al_offer (k := k) x.1 hv'').shift
        exact weak (fun _ _ => trivial) (this)
      · rw [hT]
        exact weak (fun _ _ => trivial) (al_offer _ (exact_none _))
    | greedy =>
      simp only [extraS, extraT]
      split
      · exact hgr v'
      · exact hlz v'
    | lazy =>
      simp only [extraS, extraT]
      split
      · exact hgr v'
      · exact hlz v'
  rcases Nat.eq_zero_or_pos lo with rfl | hpos
  · have key : Along k Exact none (fun _ => True) (proceed [.offer p] (extraS n m u g (some (h - 0)))) (thenT [(p, [])] (extraT n m u G (some (h - 0)))) v := by
      rw [thenT_here, show ∀ X, proceed [Step.offer p] X = X p from fun X => List.append_nil _]
      rcases hh with rfl | rfl
      · exact weak (fun _ _ => trivial) (stay none p v (exact_none _))
      · exact one p v
    cases m <;> exact key
  · have : lo = 1 ∧ h = 1 := by omega
    obtain ⟨rfl, rfl⟩ := this
    have key : ∀ S T, Along k Exact none (fun _ => True) S T v →
        Along k Exact none (fun _ => True) (proceed S (extraS n m u g (some (1 - 1)))) (thenT T (extraT n m u G (some (1 - 1)))) v :=
      fun S T hs => hs.bind (fun x _ v' hv' => stay _ x.1 v' hv')
    have hup : Along k Exact none (fun _ => True) (timesS g 1 p) (timesT G 1 p) v :=
      (hg p v).bind (fun x _ v' hv' => al_offer _ hv')
    cases m with
    | possessive =>
      refine key _ ((timesT G 1 p).take 1) (hup.commit (fun x T' hT v'' hv'' => ?_) (fun hT v'' _ => ?_))
      · rw [hT]
        exact ⟨rfl, hv'', fun v' hv' => ⟨rfl, trivial⟩⟩
      · rw [hT]
        exact ⟨rfl, trivial⟩
    | greedy => exact key _ _ hup
    | lazy => exact key _ _ hup

theorem al_once {a : Ast} (hw : wf a = true) (hv : visitedOnce k a = true) (fwd inv : Bool) (p : Nat) (v : Cap) :
    Along k Exact none (fun _ => True) (script f s a fwd inv p) (trails f s a fwd inv p) v := by
  have weak : ∀ {h : Option (Nat × Nat)} {F F' : Cap → Prop} {S : Script} {T : List Place} {v : Cap}, (∀ v, F v → F' v) →
      Along k Exact h F S T v → Along k Exact h F' S T v := by
    intro h F F' S T v hF hs
    have := hs.append (S' := []) (T' := []) (F' := F') (fun v' hv' => ⟨rfl, hF v' hv'⟩)
    rwa [List.append_nil, List.append_nil] at this
  have quiet : ∀ {a : Ast}, k ∉ groupIds a → ∀ fwd inv p v, Along k Exact none (fun _ => True) (script f s a fwd inv p) (trails f s a fwd inv p) v :=
    fun hk fwd inv p v => weak (fun _ _ => trivial) (al_quiet_script hk f s fwd inv p (exact_none v))
  induction a using ind generalizing fwd inv p v with
  | neg a ih =>
    simp only [script, trails]
    split
    · simp only [wf, Bool.and_eq_true] at hw
      refine (ih hw.2 hv fwd inv p v).commit (fun x T' hT v' _ => ?_) (fun hT v' _ => ?_)
      · rw [hT]; exact ⟨rfl, trivial⟩
      · rw [hT]; exact weak (fun _ _ => trivial) (al_offer _ (exact_none _))
    · exact weak (fun _ _ => trivial) (al_quiet (quiet_offers _) (by rw [offs_offers, List.map_map]; exact List.map_id' _) (noEv_plain _) (exact_none v))
  | seq l ih =>
    simp only [script, trails]
    simp only [wf, wfAll_eq, Bool.and_eq_true, List.all_eq_true] at hw
    replace hw := hw.2
    simp only [visitedOnce] at hv
    induction l generalizing p v with
    | nil => exact weak (fun _ _ => trivial) (al_offer _ (exact_none _))
    | cons a l ihl =>
      have ihl := fun p v hv => ihl (fun b hb => ih b (List.mem_cons_of_mem _ hb)) hv p v (fun b hb => hw b (List.mem_cons_of_mem _ hb))
      simp only [visitedOnceAll, Bool.and_eq_true, Bool.or_eq_true, Bool.not_eq_true', List.contains_eq_mem, decide_eq_false_iff_not] at hv
      obtain ⟨⟨hva, hd⟩, hvl⟩ := hv
      have iha := ih a (by simp) (hw a (by simp)) hva
      have qtail : k ∉ groupIdsAll l → ∀ q h v', Exact h v' → Along k Exact h (Exact h) (scriptAll f s l fwd inv q) (trailsAll f s l fwd inv q) v' := by
        intro hk q h v' hv'
        have := al_quiet_script (a := .seq l) (k := k) (J := Exact) (h := h) (by simpa [groupIds] using hk) f s fwd inv q hv'
        simpa only [script, trails] using this
      simp only [scriptAll, trailsAll]
      rcases hd with hd | hd
      · split
        · refine (ihl p v hvl).bind (fun x hx v' hv' => ?_)
          exact al_quiet_script hd f s fwd inv x.1 hv'
        · refine (iha fwd inv p v).bind (fun x hx v' hv' => ?_)
          rw [noEv_trails hd f s fwd inv p x hx, Option.none_or]
          exact weak (fun v _ => exact_none v) (ihl x.1 v' hvl)
      · split
        · refine (ihl p v hvl).bind (fun x hx v' hv' => ?_)
          have hn : held k x.2 = none := noEv_trails (a := .seq l) (k := k) (by simpa [groupIds] using hd) f s fwd inv p x (by simpa only [trails] using hx)
          rw [hn, Option.none_or]
          exact weak (fun v _ => exact_none v) (iha fwd inv x.1 v')
        · refine (iha fwd inv p v).bind (fun x hx v' hv' => ?_)
          exact qtail hd x.1 _ v' hv'
  | alt l ih =>
    simp only [script, trails]
    simp only [wf, wfAll_eq, Bool.and_eq_true, List.all_eq_true] at hw
    replace hw := hw.2
    simp only [visitedOnce] at hv
    induction l generalizing v with
    | nil => exact ⟨rfl, trivial⟩
    | cons a l ihl =>
      simp only [visitedOnceAny, Bool.and_eq_true] at hv
      exact (ih a (by simp) (hw a (by simp)) hv.1 fwd inv p v).append
        (fun v' _ => ihl (fun b hb => ih b (List.mem_cons_of_mem _ hb)) hv.2 v' (fun b hb => hw b (List.mem_cons_of_mem _ hb)))
  | cap id n a ih =>
    simp only [script, trails]
    simp only [wf] at hw
    simp only [visitedOnce, Bool.and_eq_true] at hv
    by_cases hi : id = k
    · subst hi
      exact al_cap fwd p (fst_trails_eq f s a fwd inv p) exact_some (fun _ => trivial)
    · exact al_otherCap hi fwd p (ih hw hv.2 fwd inv p v)
  | rep m lo hi a ih =>
    simp only [visitedOnce, Bool.and_eq_true, Bool.or_eq_true, Bool.not_eq_true', List.contains_eq_mem, decide_eq_false_iff_not, beq_iff_eq] at hv
    obtain ⟨(hk | rfl) | rfl, hva⟩ := hv
    · exact quiet (a := .rep m lo hi a) (by simpa [groupIds] using hk) fwd inv p v
    · simp only [wf, Bool.and_eq_true, decide_eq_true_eq] at hw
      exact al_once_rep (fun p v => ih hw.2 hva fwd inv p v) m lo 0 hw.1 (.inl rfl) _ _ p v
    · simp only [wf, Bool.and_eq_true, decide_eq_true_eq] at hw
      exact al_once_rep (fun p v => ih hw.2 hva fwd inv p v) m lo 1 hw.1 (.inr rfl) _ _ p v
  | look d a ih =>
    simp only [wf] at hw
    simp only [visitedOnce] at hv
    simp only [script, trails]
    split
    · refine (ih hw hv fwd false p v).commit (fun x T' hT v' hv' => ?_) (fun hT v' _ => ?_)
      · rw [hT]; exact ⟨rfl, hv', fun v'' _ => ⟨rfl, trivial⟩⟩
      · rw [hT]; exact ⟨rfl, trivial⟩
    · refine (ih hw hv (!fwd) true p v).commit (fun x T' hT v' hv' => ?_) (fun hT v' _ => ?_)
      · rw [hT]; exact ⟨rfl, hv', fun v'' _ => ⟨rfl, trivial⟩⟩
      · rw [hT]; exact ⟨rfl, trivial⟩
  | set l => exact quiet (not_mem_triv hw rfl) fwd inv p v
  | _ => exact quiet (by simp [groupIds]) fwd inv p v

/-! ### Groups outside of lookarounds and possessive constructs -/

/-- The group holds the range of its last participation or no text. -/
def Loose (h : Option (Nat × Nat)) (v : Cap) : Prop := v = h ∨ NoText v

theorem loose_crossed (h : Option (Nat × Nat)) (v : Cap) : Loose h (crossed v) := by
  refine .inr ?_
  cases v with
  | none => trivial
  | some x => exact rfl

section
variable {g : Nat → Script} {G : Nat → List Place} (hg : ∀ p h v, Loose h v → Along k Loose h (Loose h) (g p) (G p) v)
include hg

theorem al_timesS (n : Nat) : ∀ p h v, Loose h v → Along k Loose h (Loose h) (timesS g n p) (timesT G n p) v := by
  induction n with
  | zero => exact fun p h v hv => al_offer p hv
  | succ n ih => exact fun p h v hv => (hg p h v hv).bind (fun x _ v' hv' => ih x.1 _ v' hv')

theorem al_greedyS (n : Nat) : ∀ p h v, Loose h v → Along k Loose h (Loose h) (greedyS g n p) (greedyT G n p) v := by
  induction n with
  | zero => exact fun p h v hv => al_offer p hv
  | succ n ih => exact fun p h v hv => ((hg p h v hv).bind (fun x _ v' hv' => ih x.1 _ v' hv')).append (fun v' hv' => al_offer p hv')

theorem al_lazyS (n : Nat) : ∀ p h v, Loose h v → Along k Loose h (Loose h) (lazyS g n p) (lazyT G n p) v := by
  induction n with
  | zero => exact fun p h v hv => al_offer p hv
  | succ n ih =>
    exact fun p h v hv => (al_offer p hv).append (S' := proceed (g p) (lazyS g n)) (T' := thenT (G p) (lazyT G n))
      (fun v'' hv'' => (hg p h v'' hv'').bind (fun x _ v' hv' => ih x.1 _ v' hv'))

theorem al_greedyStarS (n : Nat) : ∀ p h v, Loose h v → Along k Loose h (Loose h) (greedyStarS g n p) (greedyStarT G n p) v := by
  induction n with
  | zero => exact fun p h v hv => ⟨rfl, hv⟩
  | succ n ih =>
    exact fun p h v hv => (((hg p h v hv).except p).bind (fun x _ v' hv' => ih x.1 _ v' hv')).append (fun v' hv' => al_offer p hv')

theorem al_lazyStarS (n : Nat) : ∀ p h v, Loose h v → Along k Loose h (Loose h) (lazyStarS g n p) (lazyStarT G n p) v := by
  induction n with
  | zero => exact fun p h v hv => ⟨rfl, hv⟩
  | succ n ih =>
    exact fun p h v hv => (al_offer p hv).append (S' := proceed (Spec.except p (g p)) (lazyStarS g n)) (T' := thenT ((G p).filter (·.1 ≠ p)) (lazyStarT G n))
      (fun v'' hv'' => ((hg p h v'' hv'').except p).bind (fun x _ v' hv' => ih x.1 _ v' hv'))

theorem al_quantifiedS {m : Mode} (hm : m ≠ .possessive) (n : Nat) (u : Bool) (lo : Nat) (hi : Bound) (p : Nat) (h : Option (Nat × Nat)) (v : Cap) (hv : Loose h v) :
    Along k Loose h (Loose h) (quantifiedS n m u lo hi g p) (quantifiedT n m u lo hi G p) v := by
  have hx : ∀ o q h v, Loose h v → Along k Loose h (Loose h) (extraS n m u g o q) (extraT n m u G o q) v := by
    intro o q h v hv
    cases o with
    | some j =>
      cases m <;> simp only [extraS, extraT]
      · split
        · exact al_greedyS hg j q h v hv
        · exact al_lazyS hg j q h v hv
      · split
        · exact al_greedyS hg j q h v hv
        · exact al_lazyS hg j q h v hv
      · exact absurd rfl hm
    | none =>
      cases m <;> simp only [extraS, extraT]
      · split
        · exact al_greedyStarS hg _ q h v hv
        · exact al_lazyStarS hg _ q h v hv
      · split
        · exact al_greedyStarS hg _ q h v hv
        · exact al_lazyStarS hg _ q h v hv
      · exact absurd rfl hm
  unfold quantifiedS quantifiedT
  cases m with
  | possessive => exact absurd rfl hm
  | greedy => exact (al_timesS hg lo p h v hv).bind (fun x _ v' hv' => hx _ x.1 _ v' hv')
  | lazy => exact (al_timesS hg lo p h v hv).bind (fun x _ v' hv' => hx _ x.1 _ v' hv')
end

theorem al_outside {a : Ast} (ho : outside k a = true) (fwd inv : Bool) (p : Nat) (h : Option (Nat × Nat)) (v : Cap) (hv : Loose h v) :
    Along k Loose h (Loose h) (script f s a fwd inv p) (trails f s a fwd inv p) v := by
  induction a using ind generalizing fwd inv p h v with
  | seq l ih =>
    simp only [script, trails]
    simp only [outside] at ho
    induction l generalizing p h v with
    | nil => exact al_offer p hv
    | cons a l ihl =>
      simp only [outsideAll, Bool.and_eq_true] at ho
      have ihl := ihl (fun b hb => ih b (List.mem_cons_of_mem _ hb)) ho.2
      simp only [scriptAll, trailsAll]
      split
      · exact (ihl p h v hv).bind (fun x _ v' hv' => ih a (by simp) ho.1 fwd inv x.1 _ v' hv')
      · exact (ih a (by simp) ho.1 fwd inv p h v hv).bind (fun x _ v' hv' => ihl x.1 _ v' hv')
  | alt l ih =>
    simp only [script, trails]
    simp only [outside] at ho
    induction l generalizing v with
    | nil => exact ⟨rfl, hv⟩
    | cons a l ihl =>
      simp only [outsideAll, Bool.and_eq_true] at ho
      exact (ih a (by simp) ho.1 fwd inv p h v hv).append (fun v' hv' => ihl (fun b hb => ih b (List.mem_cons_of_mem _ hb)) ho.2 v' hv')
  | cap id n a ih =>
    simp only [script, trails]
    simp only [outside] at ho
    by_cases hi : id = k
    · subst hi
      exact al_cap fwd p (fst_trails_eq f s a fwd inv p) (fun _ => .inl rfl) (fun v => loose_crossed h v)
    · exact al_otherCap hi fwd p (ih ho fwd inv p h v hv)
  | rep m lo hi a ih =>
    cases m with
    | possessive => exact al_quiet_script (by simpa [outside, groupIds] using ho) f s fwd inv p hv
    | greedy => exact al_quantifiedS (fun p h v hv => ih ho fwd inv p h v hv) (by simp) _ _ _ _ p h v hv
    | lazy => exact al_quantifiedS (fun p h v hv => ih ho fwd inv p h v hv) (by simp) _ _ _ _ p h v hv
  | neg a | look d a | set l => exact al_quiet_script (by simpa [outside, groupIds] using ho) f s fwd inv p hv
  | _ => exact al_quiet_script (by simp [groupIds]) f s fwd inv p hv

end

/-! ### Methods -/

section
variable {k : Nat} {J : Option (Nat × Nat) → Cap → Prop} {f : Flags} {s : List Byte} {a : Ast}

/-- What is found and noted by searching the start positions `l`. -/
theorem search_trails (h : ∀ p v, J none v → Along k J none (J none) (script f s a true false p) (trails f s a true false p) v) (l : List Nat) (v : Cap)
    (hv : J none v) :
    match l.findSome? (fun j => (trails f s a true false j).head?.map (j, ·)) with
    | some (i, y) => searchRange (script f s a true false) l = some (i, y.1) ∧ J (held k y.2) (searchNoted (script f s a true false) k l v)
    | none => searchRange (script f s a true false) l = none ∧ J none (searchNoted (script f s a true false) k l v) := by
  induction l generalizing v with
  | nil => exact ⟨rfl, hv⟩
  | cons j l ih =>
    have := (h j v hv).find (fun _ => true)
    cases ht : trails f s a true false j with
    | nil =>
      rw [ht] at this
      simp only [List.find?_nil] at this
      simp only [List.findSome?_cons, ht, List.head?_nil, Option.map_none, searchRange, searchNoted, this.1]
      exact ih _ this.2
    | cons y T =>
      rw [ht] at this
      simp only [List.find?_cons, Option.or_none] at this
      simp only [List.findSome?_cons, ht, List.head?_cons, Option.map_some, searchRange, searchNoted, this.1]
      exact ⟨trivial, this.2⟩

/-- What a method finds and notes. -/
theorem script_trails (h : ∀ p v, J none v → Along k J none (J none) (script f s a true false p) (trails f s a true false p) v) (h0 : J none none) (M : Method) :
    match methodTrail f s a M with
    | some (i, y) => scriptRange s.length (script f s a true false) 0 M = some (i, y.1) ∧
        J (held k y.2) (scriptGroup s.length (script f s a true false) k 0 none M)
    | none => scriptRange s.length (script f s a true false) 0 M = none ∧ J none (scriptGroup s.length (script f s a true false) k 0 none M) := by
  cases M with
  | «match» =>
    have := (h 0 none h0).find (fun q => q == s.length)
    simp only [methodTrail, scriptRange, scriptGroup]
    generalize (trails f s a true false 0).find? _ = o at this ⊢
    cases o with
    | none => exact ⟨by rw [this.1]; rfl, this.2⟩
    | some y =>
      simp only [Option.or_none] at this
      exact ⟨by rw [this.1]; rfl, this.2⟩
  | matchPrefix =>
    have := (h 0 none h0).find (fun _ => true)
    simp only [methodTrail, scriptRange, scriptGroup]
    cases ht : trails f s a true false 0 with
    | nil =>
      rw [ht] at this
      exact ⟨by rw [this.1]; rfl, this.2⟩
    | cons y T =>
      rw [ht] at this
      simp only [List.find?_cons, Option.or_none] at this
      exact ⟨by rw [this.1]; rfl, this.2⟩
  | search =>
    have := search_trails h (List.range' 0 (s.length + 1 - 0)) none h0
    simp only [methodTrail, searchTrail, scriptRange, scriptGroup]
    exact this

/-! ### Trails and paths -/

theorem thenT_flatMap (T : List Place) (g : Nat → List Place) (e : List Event) :
    (thenT T g).map (fun y => (y.1, e ++ y.2)) = (T.map (fun y => (y.1, e ++ y.2))).flatMap (fun x => (g x.1).map (fun y => (y.1, x.2 ++ y.2))) := by
  simp only [thenT, List.map_flatMap, List.flatMap_map, List.map_map]
  congr 1
  funext x
  congr 1
  funext y
  simp

/-- A trail that continues the history `e`. -/
abbrev onto (e : List Event) (T : List Place) : List Place := T.map (fun y => (y.1, e ++ y.2))

theorem onto_thenT {T : List Place} {g : Nat → List Place} {P : Place → List Place} (h : ∀ p e, P (p, e) = onto e (g p)) (e : List Event) :
    (onto e T).flatMap P = onto e (thenT T g) := by
  rw [onto, onto, thenT_flatMap]
  exact flatMap_congr' (fun x _ => h x.1 x.2)

section
variable {P : Place → List Place} {g : Nat → List Place} (h : ∀ p e, P (p, e) = onto e (g p))
include h

theorem timesP_onto (n : Nat) : ∀ p e, timesP P n (p, e) = onto e (timesT g n p) := by
  induction n with
  | zero => intro p e; simp [timesP, timesT, onto]
  | succ n ih => intro p e; rw [timesP, h, timesT, onto_thenT ih]

theorem greedyP_onto (n : Nat) : ∀ p e, greedyP P n (p, e) = onto e (greedyT g n p) := by
  induction n with
  | zero => intro p e; simp [greedyP, greedyT, onto]
  | succ n ih => intro p e; rw [greedyP, h, greedyT, onto_thenT ih, onto, onto, List.map_append]; simp

theorem lazyP_onto (n : Nat) : ∀ p e, lazyP P n (p, e) = onto e (lazyT g n p) := by
  induction n with
  | zero => intro p e; simp [lazyP, lazyT, onto]
  | succ n ih => intro p e; rw [lazyP, h, lazyT, onto_thenT ih, onto, onto, List.map_cons]; simp

theorem filter_onto (p : Nat) (e : List Event) : (P (p, e)).filter (fun y => decide (y.1 ≠ p)) = onto e ((g p).filter (fun y => decide (y.1 ≠ p))) := by
  rw [h, onto, onto, List.filter_map]
  rfl

theorem greedyStarP_onto (n : Nat) : ∀ p e, greedyStarP P n (p, e) = onto e (greedyStarT g n p) := by
  induction n with
  | zero => intro p e; rfl
  | succ n ih =>
    intro p e
    rw [greedyStarP]
    dsimp only
    rw [filter_onto h, greedyStarT, onto_thenT ih, onto, onto, List.map_append]
    simp

theorem lazyStarP_onto (n : Nat) : ∀ p e, lazyStarP P n (p, e) = onto e (lazyStarT g n p) := by
  induction n with
  | zero => intro p e; rfl
  | succ n ih =>
    intro p e
    rw [lazyStarP]
    dsimp only
    rw [filter_onto h, lazyStarT, onto_thenT ih, onto, onto, List.map_cons]
    simp

theorem quantifiedP_onto {m : Mode} (hm : m ≠ .possessive) (n : Nat) (u : Bool) (lo : Nat) (hi : Bound) (p : Nat) (e : List Event) :
    (timesP P lo (p, e)).flatMap (extraP n ((m == .greedy) != u) P (match hi with | .fin h => some (h - lo) | .inf => none)) =
      onto e (quantifiedT n m u lo hi g p) := by
  have hx : ∀ o q e, extraP n ((m == .greedy) != u) P o (q, e) = onto e (extraT n m u g o q) := by
    intro o q e
    cases o with
    | some j =>
      cases m <;> cases u <;> simp only [extraP, extraT] <;>
        first | exact greedyP_onto h j q e | exact lazyP_onto h j q e | exact absurd rfl hm
    | none =>
      cases m <;> cases u <;> simp only [extraP, extraT] <;>
        first | exact greedyStarP_onto h _ q e | exact lazyStarP_onto h _ q e | exact absurd rfl hm
  rw [timesP_onto h, onto_thenT (hx _)]
  cases m with
  | possessive => exact absurd rfl hm
  | greedy => rfl
  | lazy => rfl

end

theorem no_events {e : List Event} (h : ∀ k, held k e = none) : e = [] := by
  cases e with
  | nil => rfl
  | cons x e =>
    have := h x.1
    simp [held] at this

theorem onto_closed {a : Ast} (ha : groupIds a = []) (fwd inv : Bool) (p : Nat) (e : List Event) :
    (ends f s a fwd inv p).map (fun q => ((q, e) : Place)) = onto e (trails f s a fwd inv p) := by
  rw [← congrFun (fst_trails f s a fwd inv) p, List.map_map]
  refine List.map_congr_left (fun y hy => ?_)
  have : y.2 = [] := no_events (fun k => noEv_trails (a := a) (by rw [ha]; simp) f s fwd inv p y hy)
  simp [this]

/-- Where lookarounds and possessive constructs contain no groups, trails are paths. -/
theorem paths_trails {a : Ast} (hc : commitsClosed a = true) (hb : noBackref a = true) (p : Nat) (e : List Event) :
    paths f s a (p, e) = onto e (trails f s a true false p) := by
  have hcl : ∀ {a : Ast}, closed a = true → groupIds a = [] := by
    intro a h
    simp only [closed, Bool.and_eq_true, List.isEmpty_iff] at h
    exact h.1
  induction a using ind generalizing p e with
  | seq l ih =>
    simp only [paths, trails]
    simp only [commitsClosed] at hc
    simp only [noBackref] at hb
    induction l generalizing p e with
    | nil => simp [pathsAll, trailsAll, onto]
    | cons a l ihl =>
      simp only [commitsClosedAll, Bool.and_eq_true] at hc
      simp only [noBackrefAll, Bool.and_eq_true] at hb
      simp only [pathsAll, trailsAll, Bool.false_eq_true, if_false]
      rw [ih a (by simp) hc.1 hb.1 p e]
      exact onto_thenT (fun p e => ihl (fun b hb => ih b (List.mem_cons_of_mem _ hb)) hc.2 hb.2 p e) e
  | alt l ih =>
    simp only [paths, trails]
    simp only [commitsClosed] at hc
    simp only [noBackref] at hb
    induction l with
    | nil => rfl
    | cons a l ihl =>
      simp only [commitsClosedAll, Bool.and_eq_true] at hc
      simp only [noBackrefAll, Bool.and_eq_true] at hb
      simp only [pathsAny, trailsAny, onto, List.map_append]
      rw [ih a (by simp) hc.1 hb.1 p e, ihl (fun b hb => ih b (List.mem_cons_of_mem _ hb)) hc.2 hb.2]
  | cap id n a ih =>
    simp only [paths, trails, if_true]
    rw [ih hc hb p e, onto, onto, List.map_map, List.map_map]
    refine List.map_congr_left (fun y _ => ?_)
    simp
  | rep m lo hi a ih =>
    cases m with
    | possessive =>
      simp only [paths]
      exact onto_closed (a := .rep .possessive lo hi a) (hcl (a := a) hc) true false p e
    | greedy =>
      simp only [paths, trails]
      exact quantifiedP_onto (fun p e => ih hc hb p e) (m := .greedy) (by simp) s.length f.ungreedy lo hi p e
    | lazy =>
      simp only [paths, trails]
      exact quantifiedP_onto (fun p e => ih hc hb p e) (m := .lazy) (by simp) s.length f.ungreedy lo hi p e
  | backref => simp [noBackref] at hb
  | namedBackref => simp [noBackref] at hb
  | neg a | look d a | set l => simp only [paths]; exact onto_closed (hcl hc) true false p e
  | _ => simp only [paths]; exact onto_closed rfl true false p e

theorem methodPath_trail {a : Ast} (hc : commitsClosed a = true) (hb : noBackref a = true) (M : Method) : methodPath f s a M = methodTrail f s a M := by
  have h : ∀ p, paths f s a (p, []) = trails f s a true false p := by
    intro p
    rw [paths_trails hc hb, onto]
    simp
  cases M with
  | «match» => simp only [methodPath, methodTrail, fullPath, h]
  | matchPrefix => simp only [methodPath, methodTrail, prefixPath, h]
  | search => simp only [methodPath, methodTrail, searchPath, searchTrail, h]

end

end Mregex
