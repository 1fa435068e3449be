import Verif.Proof.Oblivious
import Verif.Proof.Ends
import Verif.Spec.Script

/-!
# The matcher follows the scripts
-/

namespace Mregex
open Ast Spec

/-! ### Offers -/

/-- The offers of a script, in order. -/
def offs (S : Script) : List Nat := S.filterMap (fun t => match t with | .offer q => some q | _ => none)

theorem offs_append (S T : Script) : offs (S ++ T) = offs S ++ offs T := by simp [offs]
theorem offs_offers (l : List Nat) : offs (offers l) = l := by
  induction l with
  | nil => rfl
  | cons a l ih => simpa [offs, offers] using ih

theorem mem_offs {q : Nat} {S : Script} : q ∈ offs S ↔ Step.offer q ∈ S := by
  induction S with
  | nil => simp [offs]
  | cons t S ih => cases t <;> simp_all [offs, List.filterMap_cons]

theorem offs_proceed (S : Script) (g : Nat → Script) : offs (proceed S g) = (offs S).flatMap (fun q => offs (g q)) := by
  induction S with
  | nil => rfl
  | cons t S ih =>
    have ih : offs (proceed S g) = _ := ih
    have e : ∀ t, proceed (t :: S) g = (match t with | .offer q => g q | t => [t]) ++ proceed S g := fun _ => rfl
    have e1 : ∀ t T, offs (t :: T) = offs [t] ++ offs T := fun t T => offs_append [t] T
    rw [e, offs_append, ih, e1 t S, List.flatMap_append]
    congr 1
    cases t <;> simp [offs]

theorem offs_commit (f : Nat → Script) (h S : Script) :
    offs (commit f h S) = match offs S with | [] => offs h | q :: _ => offs (f q) := by
  induction S with
  | nil => rfl
  | cons t S ih => cases t <;> first | exact ih | rfl

theorem offs_except (p : Nat) (S : Script) : offs (except p S) = (offs S).filter (· ≠ p) := by
  induction S with
  | nil => rfl
  | cons t S ih =>
    cases t with
    | offer q =>
      by_cases h : q = p
      · subst h
        have e : except q (.offer q :: S) = except q S := by simp [except]
        rw [e, ih]
        simp [offs]
      · have e : except p (.offer q :: S) = .offer q :: except p S := by simp [except, h]
        rw [e]
        have e1 : ∀ T, offs (.offer q :: T) = q :: offs T := fun _ => rfl
        rw [e1, e1, ih]
        simp [h]
    | note k b e =>
      have e : except p (.note k b e :: S) = .note k b e :: except p S := by simp [except]
      rw [e]; exact ih
    | cross k =>
      have e : except p (.cross k :: S) = .cross k :: except p S := by simp [except]
      rw [e]; exact ih

section
variable (g : Nat → Script)

theorem offs_timesS (k p : Nat) : offs (timesS g k p) = exactly (fun q => offs (g q)) k p := by
  induction k generalizing p with
  | zero => rfl
  | succ k ih => simp only [timesS, exactly, offs_proceed, ih]

theorem offs_greedyS (k p : Nat) : offs (greedyS g k p) = greedyUpTo (fun q => offs (g q)) k p := by
  induction k generalizing p with
  | zero => rfl
  | succ k ih => simp only [greedyS, greedyUpTo, offs_append, offs_proceed, ih]; rfl

theorem offs_lazyS (k p : Nat) : offs (lazyS g k p) = lazyUpTo (fun q => offs (g q)) k p := by
  induction k generalizing p with
  | zero => rfl
  | succ k ih =>
    show p :: offs (proceed _ _) = _
    simp only [lazyUpTo, offs_proceed, ih]; rfl

theorem offs_possessiveS (k p : Nat) : offs (possessiveS g k p) = possessiveUpTo (fun q => offs (g q)) k p := by
  induction k generalizing p with
  | zero => rfl
  | succ k ih => simp only [possessiveS, possessiveUpTo, offs_commit, ih]; rfl

theorem offs_greedyStarS (k p : Nat) : offs (greedyStarS g k p) = greedyStar (fun q => offs (g q)) k p := by
  induction k generalizing p with
  | zero => rfl
  | succ k ih => simp only [greedyStarS, greedyStar, offs_append, offs_proceed, offs_except, ih]; rfl

theorem offs_lazyStarS (k p : Nat) : offs (lazyStarS g k p) = lazyStar (fun q => offs (g q)) k p := by
  induction k generalizing p with
  | zero => rfl
  | succ k ih =>
    show p :: offs (proceed _ _) = _
    simp only [lazyStar, offs_proceed, offs_except, ih]; rfl

theorem offs_possessiveStarS (k p : Nat) : offs (possessiveStarS g k p) = possessiveStar (fun q => offs (g q)) k p := by
  induction k generalizing p with
  | zero => rfl
  | succ k ih =>
    simp only [possessiveStarS, possessiveStar, offs_commit]
    cases offs (g p) with
    | nil => rfl
    | cons q l =>
      dsimp only
      split
      · rfl
      · exact ih _

theorem offs_extraS (n : Nat) (m : Mode) (u : Bool) (k : Option Nat) (p : Nat) :
    offs (extraS n m u g k p) = extra n m u (fun q => offs (g q)) k p := by
  cases k <;> cases m <;> cases u <;>
    simp [extraS, extra, offs_greedyS, offs_lazyS, offs_possessiveS, offs_greedyStarS, offs_lazyStarS, offs_possessiveStarS]

theorem offs_quantifiedS (n : Nat) (m : Mode) (u : Bool) (lo : Nat) (hi : Bound) (p : Nat) :
    offs (quantifiedS n m u lo hi g p) = quantified n m u lo hi (fun q => offs (g q)) p := by
  simp only [quantifiedS, quantified, offs_proceed, offs_extraS]
  cases m with
  | possessive =>
    simp only [offs_commit, offs_timesS]
    cases exactly (fun q => offs (g q)) lo p <;> simp [offs]
    rfl
  | greedy => simp only [offs_timesS]; rfl
  | lazy => simp only [offs_timesS]; rfl

end

theorem offs_script (f : Flags) (s : List Byte) (a : Ast) (fwd inv : Bool) :
    (fun p => offs (script f s a fwd inv p)) = ends f s a fwd inv := by
  induction a using ind generalizing fwd inv with
  | neg a ih =>
    funext p
    have ih := congrFun (ih fwd inv) p
    simp only [script, ends]
    split
    · simp only [offs_commit, ih]
      cases ends f s a fwd inv p <;> simp [test, offs]
    · exact offs_offers _
  | seq l ih =>
    funext p
    simp only [script, ends]
    induction l generalizing p with
    | nil => rfl
    | cons a l ihl =>
      have ihl := funext (ihl (fun b hb => ih b (List.mem_cons_of_mem _ hb)))
      simp only [scriptAll, endsAll]
      split
      · rw [offs_proceed, ih a (by simp), congrFun ihl p]
      · rw [offs_proceed, ihl, congrFun (ih a (by simp) fwd inv) p]
  | alt l ih =>
    funext p
    simp only [script, ends]
    induction l with
    | nil => rfl
    | cons a l ihl =>
      have ihl := ihl (fun b hb => ih b (List.mem_cons_of_mem _ hb))
      simp only [scriptAny, endsAny, offs_append, ihl, congrFun (ih a (by simp) fwd inv) p]
  | cap id n a ih =>
    funext p
    simp only [script, ends, offs_append, offs_proceed, congrFun (ih fwd inv) p]
    have e : ∀ q : Nat, offs [if fwd = true then Step.note id p q else Step.note id q p, Step.offer q] = [q] := by
      intro q; cases fwd <;> rfl
    simp only [e, flatMap_singleton']
    simp [offs]
  | rep m lo hi a ih =>
    funext p
    simp only [script, ends, offs_quantifiedS, ih]
  | look d a ih =>
    funext p
    simp only [script, ends]
    split
    · simp only [offs_commit, congrFun (ih fwd false) p]
      cases ends f s a fwd false p <;> simp [test, offs]
    · simp only [offs_commit, congrFun (ih (!fwd) true) p]
      cases ends f s a (!fwd) true p <;> simp [test, offs]
  | _ => funext p; simp only [script]; exact offs_offers _

theorem mem_script {f : Flags} {s : List Byte} {a : Ast} {fwd inv : Bool} {p q : Nat} :
    Step.offer q ∈ script f s a fwd inv p ↔ q ∈ ends f s a fwd inv p := by
  rw [← mem_offs, ← congrFun (offs_script f s a fwd inv) p]

/-! ### Scripts of offers -/

theorem proceed_offers (l : List Nat) (e : Nat → List Nat) : proceed (offers l) (fun q => offers (e q)) = offers (l.flatMap e) := by
  induction l with
  | nil => rfl
  | cons a l ih =>
    show offers (e a) ++ proceed (offers l) _ = _
    rw [ih]
    simp [offers]

theorem commit_offers (f : Nat → List Nat) (h l : List Nat) :
    commit (fun q => offers (f q)) (offers h) (offers l) = offers (match l with | [] => h | q :: _ => f q) := by
  cases l <;> rfl

theorem except_offers (p : Nat) (l : List Nat) : except p (offers l) = offers (l.filter (· ≠ p)) := by
  induction l with
  | nil => rfl
  | cons a l ih =>
    have e : offers (a :: l) = .offer a :: offers l := rfl
    by_cases h : a = p
    · subst h
      have e1 : except a (.offer a :: offers l) = except a (offers l) := by simp [except]
      rw [e, e1, ih]; simp
    · have e1 : except p (.offer a :: offers l) = .offer a :: except p (offers l) := by simp [except, h]
      rw [e, e1, ih]; simp [h, offers]

section
variable (e : Nat → List Nat)

theorem timesS_offers (k p : Nat) : timesS (fun q => offers (e q)) k p = offers (exactly e k p) := by
  induction k generalizing p with
  | zero => rfl
  | succ k ih => simp only [timesS, exactly, funext ih, proceed_offers]

theorem greedyS_offers (k p : Nat) : greedyS (fun q => offers (e q)) k p = offers (greedyUpTo e k p) := by
  induction k generalizing p with
  | zero => rfl
  | succ k ih => simp only [greedyS, greedyUpTo, funext ih, proceed_offers]; simp [offers]

theorem lazyS_offers (k p : Nat) : lazyS (fun q => offers (e q)) k p = offers (lazyUpTo e k p) := by
  induction k generalizing p with
  | zero => rfl
  | succ k ih => simp only [lazyS, lazyUpTo, funext ih, proceed_offers]; simp [offers]

theorem possessiveS_offers (k p : Nat) : possessiveS (fun q => offers (e q)) k p = offers (possessiveUpTo e k p) := by
  induction k generalizing p with
  | zero => rfl
  | succ k ih =>
    simp only [possessiveS, possessiveUpTo, funext ih]
    exact commit_offers _ [p] _

theorem greedyStarS_offers (k p : Nat) : greedyStarS (fun q => offers (e q)) k p = offers (greedyStar e k p) := by
  induction k generalizing p with
  | zero => rfl
  | succ k ih => simp only [greedyStarS, greedyStar, funext ih, proceed_offers, except_offers]; simp [offers]

theorem lazyStarS_offers (k p : Nat) : lazyStarS (fun q => offers (e q)) k p = offers (lazyStar e k p) := by
  induction k generalizing p with
  | zero => rfl
  | succ k ih => simp only [lazyStarS, lazyStar, funext ih, proceed_offers, except_offers]; simp [offers]

theorem possessiveStarS_offers (k p : Nat) : possessiveStarS (fun q => offers (e q)) k p = offers (possessiveStar e k p) := by
  induction k generalizing p with
  | zero => rfl
  | succ k ih =>
    simp only [possessiveStarS, possessiveStar, funext ih]
    have h1 : (fun q => if q = p then [Step.offer p] else offers (possessiveStar e k q)) =
        (fun q => offers (if q = p then [p] else possessiveStar e k q)) := by
      funext q; split <;> rfl
    rw [h1]
    exact commit_offers _ [p] _

end

/-! ### Running a script -/

/-- Carry out a script, with `k` for the rest of the regex. -/
def runS (k : Cont) : Script → Ctx → Out
  | [], c => nonMatch 0 c
  | .note i b e :: S, c => runS k S (c.set i (some (b, e)))
  | .cross i :: S, c => runS k S (clearCapture i c)
  | .offer q :: S, c => (k q c).orElse (runS k S)

theorem run_append (k : Cont) (S T : Script) (c : Ctx) : runS k (S ++ T) c = (runS k S c).orElse (runS k T) := by
  induction S generalizing c with
  | nil => simp [runS, nonMatch, Out.orElse]
  | cons t S ih =>
    cases t with
    | offer q =>
      simp only [List.cons_append, runS, orElse_assoc']
      congr 1
      funext c'
      exact ih c'
    | note i b e => exact ih _
    | cross i => exact ih _

theorem run_proceed (k : Cont) (S : Script) (g : Nat → Script) (c : Ctx) :
    runS k (proceed S g) c = runS (fun q => runS k (g q)) S c := by
  induction S generalizing c with
  | nil => rfl
  | cons t S ih =>
    have e : ∀ t, proceed (t :: S) g = (match t with | .offer q => g q | t => [t]) ++ proceed S g := fun _ => rfl
    cases t with
    | offer q =>
      simp only [e, run_append, runS]
      congr 1
      funext c'
      exact ih c'
    | note i b e' => exact ih _
    | cross i => exact ih _

theorem run_commit (k : Cont) (f : Nat → Script) (h S : Script) (c : Ctx) :
    runS k (commit f h S) c = (runS success S c).onMatch (fun q => runS k (f q)) (runS k h) := by
  induction S generalizing c with
  | nil => simp [commit, runS, nonMatch, Out.onMatch]
  | cons t S ih =>
    cases t with
    | offer q => simp [commit, runS, success, Out.onMatch, Out.orElse]
    | note i b e' => exact ih _
    | cross i => exact ih _

theorem run_except (k : Cont) (p : Nat) (S : Script) (c : Ctx) :
    runS k (except p S) c = runS (fun q c' => if q = p then nonMatch 0 c' else k q c') S c := by
  induction S generalizing c with
  | nil => rfl
  | cons t S ih =>
    cases t with
    | offer q =>
      by_cases h : q = p
      · subst h
        have e : except q (.offer q :: S) = except q S := by simp [except]
        rw [e, ih]
        simp [runS, nonMatch, Out.orElse]
      · have e : except p (.offer q :: S) = .offer q :: except p S := by simp [except, h]
        rw [e]
        simp only [runS, if_neg h]
        congr 1
        funext c'
        exact ih c'
    | note i b e' =>
      have e : except p (.note i b e' :: S) = .note i b e' :: except p S := by simp [except]
      rw [e]; exact ih _
    | cross i =>
      have e : except p (.cross i :: S) = .cross i :: except p S := by simp [except]
      rw [e]; exact ih _

theorem run_congr {k k' : Cont} {S : Script} (h : ∀ q, Step.offer q ∈ S → k q = k' q) : runS k S = runS k' S := by
  induction S with
  | nil => rfl
  | cons t S ih =>
    have ih := ih (fun q hq => h q (List.mem_cons_of_mem _ hq))
    funext c
    cases t with
    | offer q => simp only [runS, ih, h q (by simp)]
    | note i b e' => simp only [runS, ih]
    | cross i => simp only [runS, ih]

section
variable {N : Nat}

theorem run_rel {k k' : Cont} {S : Script} (h : ∀ q, Step.offer q ∈ S → FRel N (k q) (k' q)) : FRel N (runS k S) (runS k' S) := by
  induction S with
  | nil => exact .nonMatch 0 0
  | cons t S ih =>
    have ih := ih (fun q hq => h q (List.mem_cons_of_mem _ hq))
    cases t with
    | offer q => exact (h q (by simp)).orElse ih
    | note i b e =>
      have := ih.pre (fun j => if j = i then .put (some (b, e)) else .keep)
      simp only [Writes.app_set] at this
      exact this
    | cross i =>
      have := ih.pre (fun j => if j = i then .clear else .keep)
      simp only [Writes.app_clear] at this
      exact this

theorem run_equals (q : Nat) (S : Script) (c : Ctx) :
    ∃ t c', runS (equals q) S c = .ok ⟨t, decide (Step.offer q ∈ S)⟩ c' := by
  induction S generalizing c with
  | nil => exact ⟨0, c, by simp [runS, nonMatch]⟩
  | cons t S ih =>
    cases t with
    | offer q' =>
      by_cases h : q' = q
      · subst h
        exact ⟨q', c, by simp [runS, equals, Out.orElse]⟩
      · obtain ⟨t, c', h'⟩ := ih c
        refine ⟨t, c', ?_⟩
        simp only [runS, equals, Out.orElse, beq_eq_false_iff_ne.2 h, Bool.false_eq_true, if_false, h']
        simp [Ne.symm h]
    | note i b e => obtain ⟨t, c', h'⟩ := ih (c.set i (some (b, e))); exact ⟨t, c', by simpa [runS] using h'⟩
    | cross i => obtain ⟨t, c', h'⟩ := ih (clearCapture i c); exact ⟨t, c', by simpa [runS] using h'⟩

/-- A success is one of the offers. -/
theorem run_success {S : Script} {c c' : Ctx} {q : Nat} (h : runS success S c = .ok ⟨q, true⟩ c') : Step.offer q ∈ S := by
  induction S generalizing c with
  | nil => simp [runS, nonMatch] at h
  | cons t S ih =>
    cases t with
    | offer q' =>
      simp only [runS, success, Out.orElse, if_true, Out.ok.injEq, MR.mk.injEq] at h
      simp [h.1]
    | note i b e => exact List.mem_cons_of_mem _ (ih h)
    | cross i => exact List.mem_cons_of_mem _ (ih h)

variable (N) in
/-- The two scripts have the same effect. -/
def SEq (S T : Script) : Prop := ∀ k k', CRel N k k' → FRel N (runS k S) (runS k' T)

theorem SEq.refl (S : Script) : SEq N S S := fun _ _ hk => run_rel (fun q _ => hk q)
theorem SEq.of_eq {S T : Script} (h : S = T) : SEq N S T := h ▸ .refl S
theorem SEq.symm {S T : Script} (h : SEq N S T) : SEq N T S := fun k k' hk => (h k' k hk.symm).symm
theorem SEq.trans {S T U : Script} (h : SEq N S T) (h' : SEq N T U) : SEq N S U :=
  fun k k' hk => (h k k hk.left).trans (h' k k' hk)

theorem FRel.matched {f f' : Ctx → Out} (h : FRel N f f') {c : Ctx} (hc : c.length = N) {q q' : Nat} {b b' : Bool} {c1 c2 : Ctx}
    (h1 : f c = .ok ⟨q, b⟩ c1) (h2 : f' c = .ok ⟨q', b'⟩ c2) : b = b' := by
  obtain ⟨pl, h⟩ := h
  have := h c hc
  rw [h1, h2] at this
  cases pl <;> simp_all [Follows]

theorem SEq.mem {S T : Script} (h : SEq N S T) {q : Nat} : Step.offer q ∈ S ↔ Step.offer q ∈ T := by
  obtain ⟨t, c, h1⟩ := run_equals q S (List.replicate N none)
  obtain ⟨t', c', h2⟩ := run_equals q T (List.replicate N none)
  have := (h _ _ (CRel.equals q)).matched (by simp) h1 h2
  simpa using this

theorem SEq.append {S S' T T' : Script} (h : SEq N S S') (h' : SEq N T T') : SEq N (S ++ T) (S' ++ T') := by
  intro k k' hk
  have e1 : runS k (S ++ T) = fun c => (runS k S c).orElse (runS k T) := funext (run_append _ _ _)
  have e2 : runS k' (S' ++ T') = fun c => (runS k' S' c).orElse (runS k' T') := funext (run_append _ _ _)
  rw [e1, e2]
  exact (h k k' hk).orElse (h' k k' hk)

theorem SEq.proceed {S S' : Script} {g g' : Nat → Script} (h : SEq N S S') (hg : ∀ q, SEq N (g q) (g' q)) :
    SEq N (proceed S g) (proceed S' g') := by
  intro k k' hk
  rw [funext (run_proceed k S g), funext (run_proceed k' S' g')]
  exact h _ _ (fun q => hg q k k' hk)

theorem SEq.except {S S' : Script} (h : SEq N S S') (p : Nat) : SEq N (except p S) (except p S') := by
  intro k k' hk
  rw [funext (run_except k p S), funext (run_except k' p S')]
  refine h _ _ (fun q => ?_)
  by_cases hq : q = p
  · simp only [hq, if_true]; exact .nonMatch 0 0
  · simp only [hq, if_false]; exact hk q

theorem SEq.commit {S S' : Script} {f f' : Nat → Script} {t t' : Script} (h : SEq N S S') (hf : ∀ q, SEq N (f q) (f' q)) (ht : SEq N t t') :
    SEq N (commit f t S) (commit f' t' S') := by
  intro k k' hk
  rw [funext (run_commit k f t S), funext (run_commit k' f' t' S')]
  exact (h _ _ .success).onMatch (fun q => hf q k k' hk) (ht k k' hk)

theorem SEq.cons {S T : Script} (q : Nat) (h : SEq N S T) : SEq N (.offer q :: S) (.offer q :: T) := (SEq.refl [.offer q]).append h

section
variable {g g' : Nat → Script} (hg : ∀ q, SEq N (g q) (g' q))
include hg

theorem timesS_seq (k p : Nat) : SEq N (timesS g k p) (timesS g' k p) := by
  induction k generalizing p with
  | zero => exact .refl _
  | succ k ih => exact (hg p).proceed ih

theorem greedyS_seq (k p : Nat) : SEq N (greedyS g k p) (greedyS g' k p) := by
  induction k generalizing p with
  | zero => exact .refl _
  | succ k ih => exact ((hg p).proceed ih).append (.refl _)

theorem lazyS_seq (k p : Nat) : SEq N (lazyS g k p) (lazyS g' k p) := by
  induction k generalizing p with
  | zero => exact .refl _
  | succ k ih => exact ((hg p).proceed ih).cons p

theorem possessiveS_seq (k p : Nat) : SEq N (possessiveS g k p) (possessiveS g' k p) := by
  induction k generalizing p with
  | zero => exact .refl _
  | succ k ih => exact (hg p).commit ih (.refl _)

theorem greedyStarS_seq (k p : Nat) : SEq N (greedyStarS g k p) (greedyStarS g' k p) := by
  induction k generalizing p with
  | zero => exact .refl _
  | succ k ih => exact (((hg p).except p).proceed ih).append (.refl _)

theorem lazyStarS_seq (k p : Nat) : SEq N (lazyStarS g k p) (lazyStarS g' k p) := by
  induction k generalizing p with
  | zero => exact .refl _
  | succ k ih => exact (((hg p).except p).proceed ih).cons p

theorem possessiveStarS_seq (k p : Nat) : SEq N (possessiveStarS g k p) (possessiveStarS g' k p) := by
  induction k generalizing p with
  | zero => exact .refl _
  | succ k ih =>
    refine (hg p).commit (fun q => ?_) (.refl _)
    split
    · exact .refl _
    · exact ih q

theorem extraS_seq (n : Nat) (m : Mode) (u : Bool) (k : Option Nat) (p : Nat) : SEq N (extraS n m u g k p) (extraS n m u g' k p) := by
  cases k <;> cases m <;> cases u <;> simp only [extraS] <;> first
    | exact possessiveS_seq hg _ _
    | exact possessiveStarS_seq hg _ _
    | (split <;> first
        | exact greedyS_seq hg _ _
        | exact greedyStarS_seq hg _ _
        | exact lazyS_seq hg _ _
        | exact lazyStarS_seq hg _ _)

theorem quantifiedS_seq (n : Nat) (m : Mode) (u : Bool) (lo : Nat) (hi : Bound) (p : Nat) :
    SEq N (quantifiedS n m u lo hi g p) (quantifiedS n m u lo hi g' p) := by
  refine SEq.proceed ?_ (fun q => extraS_seq hg n m u _ q)
  cases m with
  | possessive => exact (timesS_seq hg lo p).commit (fun _ => .refl _) (.refl _)
  | greedy => exact timesS_seq hg lo p
  | lazy => exact timesS_seq hg lo p

end

/-! ### Matchers that follow a script -/

variable (N) in
def DenS (E : Env) (m : Matcher) (g : Nat → Script) : Prop :=
  ∀ p k k', p ≤ E.inp.length → (∀ q, Step.offer q ∈ g p → FRel N (k q) (k' q)) → FRel N (fun c => m p c k) (runS k' (g p))

section
variable {E : Env} {r : Nat}

theorem DenS.congr {m : Matcher} {g g' : Nat → Script} (h : DenS N E m g) (hg : ∀ p, p ≤ E.inp.length → g p = g' p) : DenS N E m g' := by
  intro p k k' hp hk
  rw [← hg p hp] at hk ⊢
  exact h p k k' hp hk

theorem DenS.congrE {m : Matcher} {g g' : Nat → Script} (h : DenS N E m g) (hg : ∀ p, p ≤ E.inp.length → SEq N (g p) (g' p)) :
    DenS N E m g' := by
  intro p k k' hp hk
  have hk0 : ∀ q, Step.offer q ∈ g p → FRel N (k q) (k' q) := fun q hq => hk q ((hg p hp).mem.1 hq)
  refine (h p k k' hp hk0).trans ?_
  let k1 : Cont := fun q => if Step.offer q ∈ g p then k' q else nonMatch 0
  have hk1 : CRel N k1 k1 := by
    intro q
    dsimp only [k1]
    by_cases hq : Step.offer q ∈ g p
    · rw [if_pos hq]; exact (hk0 q hq).right
    · rw [if_neg hq]; exact .nonMatch 0 0
  have e1 : runS k' (g p) = runS k1 (g p) := run_congr (fun q hq => by simp only [k1, if_pos hq])
  have e2 : runS k' (g' p) = runS k1 (g' p) := run_congr (fun q hq => by simp only [k1, if_pos ((hg p hp).mem.2 hq)])
  rw [e1, e2]
  exact hg p hp k1 k1 hk1

theorem DenS.id : DenS N E (fun p c k => k p c) (fun p => [.offer p]) := by
  intro p k k' _ hk
  exact ((hk p (by simp)).symm.orElse_fail 0).symm

theorem DenS.comp {m m' : Matcher} {g g' : Nat → Script} (h : DenS N E m g) (h' : DenS N E m' g')
    (hle : ∀ p q, p ≤ E.inp.length → Step.offer q ∈ g p → q ≤ E.inp.length) :
    DenS N E (fun p c k => m p c (fun q c' => m' q c' k)) (fun p => proceed (g p) g') := by
  intro p k k' hp hk
  rw [funext (run_proceed k' (g p) g')]
  refine h p _ _ hp (fun q hq => h' q k k' (hle p q hp hq) (fun t ht => hk t ?_))
  exact List.mem_flatMap.2 ⟨_, hq, ht⟩

theorem DenS.orElse {m m' : Matcher} {g g' : Nat → Script} (h : DenS N E m g) (h' : DenS N E m' g') :
    DenS N E (fun p c k => (m p c k).orElse (fun c' => m' p c' k)) (fun p => g p ++ g' p) := by
  intro p k k' hp hk
  rw [funext (run_append k' (g p) (g' p))]
  exact (h p k k' hp (fun q hq => hk q (List.mem_append_left _ hq))).orElse (h' p k k' hp (fun q hq => hk q (List.mem_append_right _ hq)))

theorem FRel.onMatchIn {P : Nat → Prop} {f f' h h' : Ctx → Out} {g g' : Nat → Ctx → Out} (hf : FRel N f f')
    (hP : ∀ c q c', f' c = .ok ⟨q, true⟩ c' → P q) (hg : ∀ q, P q → FRel N (g q) (g' q)) (hh : FRel N h h') :
    FRel N (fun c => (f c).onMatch g h) (fun c => (f' c).onMatch g' h') := by
  obtain ⟨pl, hf⟩ := hf
  match pl, hf with
  | .hit q w, hf =>
    have hq : P q := hP _ _ _ (hf (List.replicate N none) (by simp)).2
    obtain ⟨pl, h2⟩ := (hg q hq).pre w
    refine ⟨pl, fun c hc => ?_⟩
    obtain ⟨e, e'⟩ := hf c hc
    simp only [Follows] at e e'
    simp only [e, e', Out.onMatch, if_true]
    exact h2 c hc
  | .miss w, hf =>
    obtain ⟨pl, h2⟩ := hh.pre w
    refine ⟨pl, fun c hc => ?_⟩
    obtain ⟨⟨q, e⟩, ⟨q', e'⟩⟩ := hf c hc
    simp only [e, e', Out.onMatch, Bool.false_eq_true, if_false]
    exact h2 c hc
  | .ub, h => exact ⟨.ub, fun c hc => by simp only [Follows] at h ⊢; simp [(h c hc).1, (h c hc).2, Out.onMatch]⟩
  | .diverge, h => exact ⟨.diverge, fun c hc => by simp only [Follows] at h ⊢; simp [(h c hc).1, (h c hc).2, Out.onMatch]⟩

theorem DenS.first {m : Matcher} {g : Nat → Script} (h : DenS N E m g) {p : Nat} (hp : p ≤ E.inp.length) {f : Nat → Ctx → Out} {t : Ctx → Out}
    {F : Nat → Script} {T : Script} {k' : Cont} (hf : ∀ q, Step.offer q ∈ g p → FRel N (f q) (runS k' (F q))) (ht : FRel N t (runS k' T)) :
    FRel N (fun c => (m p c Mregex.success).onMatch f t) (runS k' (Spec.commit F T (g p))) := by
  rw [funext (run_commit k' F T (g p))]
  exact (h p _ _ hp (fun q _ => CRel.success q)).onMatchIn (P := fun q => Step.offer q ∈ g p) (fun c q c' e => run_success e) hf ht

theorem commit_offer_mem {F : Nat → Script} {T S : Script} {q t : Nat} (hS : Step.offer q ∈ S) (hq : offs S = q :: (offs S).tail)
    (ht : Step.offer t ∈ F q) : Step.offer t ∈ Spec.commit F T S := by
  rw [← mem_offs, offs_commit, hq]
  exact mem_offs.2 ht

theorem frel_offer {f : Ctx → Out} {k' : Cont} {q : Nat} (h : FRel N f (k' q)) : FRel N f (runS k' [.offer q]) :=
  (h.symm.orElse_fail 0).symm

/-- The script of the first offer. -/
theorem commit_first {F : Nat → Script} {T S : Script} {k k' : Cont} (hk : ∀ q, Step.offer q ∈ Spec.commit F T S → FRel N (k q) (k' q)) :
    (∃ q rest, offs S = q :: rest ∧ ∀ t, Step.offer t ∈ F q → FRel N (k t) (k' t)) ∨
      (offs S = [] ∧ ∀ t, Step.offer t ∈ T → FRel N (k t) (k' t)) := by
  have hk : ∀ q, q ∈ offs (Spec.commit F T S) → FRel N (k q) (k' q) := fun q hq => hk q (mem_offs.1 hq)
  rw [offs_commit] at hk
  cases hS : offs S with
  | nil => rw [hS] at hk; exact .inr ⟨rfl, fun t ht => hk t (mem_offs.2 ht)⟩
  | cons q rest => rw [hS] at hk; exact .inl ⟨q, rest, rfl, fun t ht => hk t (mem_offs.2 ht)⟩

theorem run_success_first {S : Script} {c c' : Ctx} {q : Nat} (h : runS success S c = .ok ⟨q, true⟩ c') : (offs S).head? = some q := by
  induction S generalizing c with
  | nil => simp [runS, nonMatch] at h
  | cons t S ih =>
    cases t with
    | offer q' =>
      simp only [runS, success, Out.orElse, if_true, Out.ok.injEq, MR.mk.injEq] at h
      simp [h.1, offs]
    | note i b e => exact ih h
    | cross i => exact ih h

theorem run_success_miss {S : Script} {c c' : Ctx} {q : Nat} (h : runS success S c = .ok ⟨q, false⟩ c') : offs S = [] := by
  induction S generalizing c with
  | nil => rfl
  | cons t S ih =>
    cases t with
    | offer q' => simp [runS, success, Out.orElse] at h
    | note i b e => exact ih h
    | cross i => exact ih h

/-- `first`, with conditions on the continuations for the relevant case only. -/
theorem DenS.firstE {m : Matcher} {g : Nat → Script} (h : DenS N E m g) {p : Nat} (hp : p ≤ E.inp.length) {f : Nat → Ctx → Out} {t : Ctx → Out}
    {F : Nat → Script} {T : Script} {k' : Cont} (hf : ∀ q rest, offs (g p) = q :: rest → FRel N (f q) (runS k' (F q)))
    (ht : offs (g p) = [] → FRel N t (runS k' T)) :
    FRel N (fun c => (m p c Mregex.success).onMatch f t) (runS k' (Spec.commit F T (g p))) := by
  rw [funext (run_commit k' F T (g p))]
  obtain ⟨pl, hpl⟩ := h p _ _ hp (fun q _ => CRel.success q)
  match pl, hpl with
  | .hit q w, hf' =>
    have hq := run_success_first (hf' (List.replicate N none) (by simp)).2
    obtain ⟨rest, hq⟩ : ∃ rest, offs (g p) = q :: rest := by
      cases hg : offs (g p) with
      | nil => simp [hg] at hq
      | cons a l => rw [hg] at hq; simp only [List.head?_cons, Option.some.injEq] at hq; exact ⟨l, by rw [hq]⟩
    obtain ⟨pl, h2⟩ := (hf q rest hq).pre w
    refine ⟨pl, fun c hc => ?_⟩
    obtain ⟨e, e'⟩ := hf' c hc
    simp only [Follows] at e e'
    simp only [e, e', Out.onMatch, if_true]
    exact h2 c hc
  | .miss w, hf' =>
    obtain ⟨_, q0, hq⟩ := hf' (List.replicate N none) (by simp)
    obtain ⟨pl, h2⟩ := (ht (run_success_miss hq)).pre w
    refine ⟨pl, fun c hc => ?_⟩
    obtain ⟨⟨q, e⟩, ⟨q', e'⟩⟩ := hf' c hc
    simp only [e, e', Out.onMatch, Bool.false_eq_true, if_false]
    exact h2 c hc
  | .ub, h => exact ⟨.ub, fun c hc => by simp only [Follows] at h ⊢; simp [(h c hc).1, (h c hc).2, Out.onMatch]⟩
  | .diverge, h => exact ⟨.diverge, fun c hc => by simp only [Follows] at h ⊢; simp [(h c hc).1, (h c hc).2, Out.onMatch]⟩

theorem offers_commit_iff {F : Nat → Script} {T S : Script} {t : Nat} :
    Step.offer t ∈ Spec.commit F T S ↔ (∃ q rest, offs S = q :: rest ∧ Step.offer t ∈ F q) ∨ (offs S = [] ∧ Step.offer t ∈ T) := by
  rw [← mem_offs, offs_commit]
  cases hS : offs S with
  | nil => simp [mem_offs]
  | cons q rest => simp [mem_offs]

theorem DenS.commit {m : Matcher} {g : Nat → Script} (h : DenS N E m g) :
    DenS N E (fun p c k => (m p c Mregex.success).onMatch k (fun c' => nonMatch p c')) (fun p => Spec.commit (fun q => [.offer q]) [] (g p)) := by
  intro p k k' hp hk
  refine h.firstE hp (fun q rest hq => frel_offer (hk q ?_)) (fun _ => .nonMatch p 0)
  exact offers_commit_iff.2 (.inl ⟨q, rest, hq, by simp⟩)

theorem DenS.look {m : Matcher} {g : Nat → Script} (h : DenS N E m g) :
    DenS N E (lookMatch m) (fun p => Spec.commit (fun _ => [.offer p]) [] (g p)) := by
  intro p k k' hp hk
  refine h.firstE hp (fun q rest hq => frel_offer (hk p ?_)) (fun _ => .nonMatch p 0)
  exact offers_commit_iff.2 (.inl ⟨q, rest, hq, by simp⟩)

theorem DenS.negAssert {m : Matcher} {g : Nat → Script} (h : DenS N E m g) :
    DenS N E (negAssertMatch m) (fun p => Spec.commit (fun _ => []) [.offer p] (g p)) := by
  intro p k k' hp hk
  refine h.firstE hp (fun q rest hq => .nonMatch p 0) (fun hq => frel_offer (hk p ?_))
  exact offers_commit_iff.2 (.inr ⟨hq, by simp⟩)

theorem DenS.assert {pred : Nat → Option Bool} {b : Nat → Bool} (h : ∀ p, p ≤ E.inp.length → pred p = some (b p)) :
    DenS N E (assertMatch pred) (fun p => offers (test (b p) p)) := by
  intro p k k' hp hk
  unfold assertMatch
  rw [h p hp]
  dsimp only at hk ⊢
  cases hb : b p with
  | false => exact .nonMatch p 0
  | true => rw [hb] at hk; exact frel_offer (hk p (by simp [offers, test]))

theorem denS_cap {id : Nat} {name : GroupName} {m : Matcher} {g : Nat → Script} (h : DenS N E m g) (hN : N = E.names.length)
    (hn : E.names[id]? = some name) (hr : r ≤ 1) {fwd : Bool} (hf : fwd = (r % 2 == 0)) :
    DenS N E (capMatch E r id name m)
      (fun p => proceed (g p) (fun q => [if fwd then .note id p q else .note id q p, .offer q]) ++ [.cross id]) := by
  intro p k k' hp hk
  rw [funext (run_append k' _ _)]
  unfold capMatch
  refine FRel.orElse ?_ ?_
  · rw [funext (run_proceed k' _ _)]
    refine h p _ _ hp (fun q hq => ?_)
    have hk := hk q (List.mem_append_left _ (List.mem_flatMap.2 ⟨_, hq, by simp⟩))
    have hid : id < N := by rw [hN]; exact (List.getElem?_eq_some_iff.1 hn).1
    obtain ⟨pl, hpl⟩ := (frel_offer hk).pre (fun i => if i = id then .put (some (if r = 0 then (p, q) else (q, p))) else .keep)
    refine ⟨pl, fun c hc => ?_⟩
    have := hpl c hc
    simp only [Writes.app_set] at this
    have e : setCapture E r id name p q c = some (c.set id (some (if r = 0 then (p, q) else (q, p)))) := by
      unfold setCapture; rw [if_pos ⟨hn, hr, by rw [hc]; exact hid⟩]
    simp only [e]
    have e2 : runS k' [if fwd = true then .note id p q else .note id q p, .offer q] c =
        runS k' [.offer q] (c.set id (some (if r = 0 then (p, q) else (q, p)))) := by
      have : r = 0 ∨ r = 1 := by omega
      rcases this with rfl | rfl
      · subst hf; rfl
      · subst hf; rfl
    rw [e2]
    exact this
  · have := (FRel.nonMatch (N := N) p 0).pre (fun i => if i = id then .clear else .keep)
    simpa only [Writes.app_clear, runS] using this

/-! ### Characters -/

theorem DenS.triv {fwd : Bool} (hf : fwd = (r % 2 == 0)) (a : Ast) :
    DenS N E (trivMatch E r a) (fun p => offers (oneChar E.inp fwd (accepts E.flags a) p)) := by
  intro p k k' hp hk
  unfold trivMatch
  by_cases h0 : E.remaining r p = 0
  · simp only [(Env.atEnd_iff hp).2 h0, if_true, oneChar_end hf hp h0]
    exact .nonMatch p 0
  · have h1 : E.atEnd r p = false := by
      rw [← Bool.not_eq_true, Env.atEnd_iff hp]; exact h0
    obtain ⟨x, hx⟩ := Env.deref_some hp h0
    dsimp only at hk ⊢
    rw [oneChar_next hf hp h0 hx] at hk ⊢
    simp only [h1, hx, Bool.false_eq_true, if_false, matchOne_eq_accepts]
    cases hm : accepts E.flags a x with
    | true =>
      rw [hm] at hk
      simp only [if_true]
      exact frel_offer (hk _ (by simp [offers]))
    | false =>
      simp only [Bool.false_eq_true, if_false]
      exact .nonMatch p 0

theorem rel_runFail (p : Nat) (q : Nat) (b : Prop) [Decidable b] : FRel N (fun c => if b then nonMatch p c else nonMatch q c) (nonMatch 0) := by
  by_cases h : b
  · simp only [h, if_true]; exact .nonMatch p 0
  · simp only [h, if_false]; exact .nonMatch q 0

theorem DenS.seqTriv {fwd : Bool} (hf : fwd = (r % 2 == 0)) (l : List Ast) :
    DenS N E (seqTriv E r l) (fun p => offers (charSeq E.flags E.inp fwd l p)) := by
  intro p k k' hp hk
  unfold Mregex.seqTriv
  rw [Env.distanceLessThan_eq _ hp]
  by_cases h : E.remaining r p < l.length
  · simp only [h, decide_true, if_true, charSeq_short hf l hp h]
    exact .nonMatch p 0
  · simp only [h, decide_false, Bool.false_eq_true, if_false]
    rcases runTriv_charSeq hf l hp (by simpa using h) with ⟨q, h1, h2⟩ | ⟨q, h1, h2⟩
    · dsimp only at hk ⊢
      rw [h2] at hk ⊢
      simp only [h1]
      exact frel_offer (hk q (by simp [offers]))
    · simp only [h1, h2]
      exact rel_runFail _ _ _

theorem DenS.fixedTriv {fwd : Bool} (hf : fwd = (r % 2 == 0)) (a : Ast) (n : Nat) :
    DenS N E (fixedTriv E r a n) (fun p => offers (exactly (oneChar E.inp fwd (accepts E.flags a)) n p)) := by
  intro p k k' hp hk
  dsimp only at hk ⊢
  rw [← charSeq_replicate] at hk ⊢
  unfold Mregex.fixedTriv
  rw [Env.distanceLessThan_eq _ hp]
  by_cases h : E.remaining r p < n
  · simp only [h, decide_true, if_true, charSeq_short hf (List.replicate n a) hp (by simpa using h)]
    exact .nonMatch p 0
  · simp only [h, decide_false, Bool.false_eq_true, if_false]
    rcases runTriv_charSeq hf (List.replicate n a) hp (by simpa using h) with ⟨q, h1, h2⟩ | ⟨q, h1, h2⟩
    · rw [h2] at hk ⊢
      simp only [h1]
      exact frel_offer (hk q (by simp [offers]))
    · simp only [h1, h2]
      exact rel_runFail _ _ _

/-! ### Fixed repetitions -/

/-- Offers stay inside the input and move in the reading direction. -/
def InsideS (E : Env) (r : Nat) (g : Nat → Script) : Prop := Inside E r (fun p => offs (g p))

theorem InsideS.reach {g : Nat → Script} (h : InsideS E r g) {p q : Nat} (hp : p ≤ E.inp.length) (hq : Step.offer q ∈ g p) : E.Reach r p q :=
  h p q hp (mem_offs.2 hq)

theorem InsideS.times {g : Nat → Script} (h : InsideS E r g) (n : Nat) : InsideS E r (timesS g n) := by
  have := Inside.exactly h n
  intro p q hp hq
  dsimp only at hq
  rw [offs_timesS] at hq
  exact this p q hp hq

theorem proceed_offer (S : Script) : proceed S (fun q => [.offer q]) = S := by
  induction S with
  | nil => rfl
  | cons t S ih =>
    have e : ∀ t, proceed (t :: S) (fun q => [.offer q]) = (match t with | .offer q => [.offer q] | t => [t]) ++ proceed S (fun q => [.offer q]) :=
      fun _ => rfl
    cases t <;> simp [e, ih]

theorem timesS_one (g : Nat → Script) (p : Nat) : timesS g 1 p = g p := proceed_offer (g p)

theorem DenS.pow_nonUnrolled {m : Matcher} {g : Nat → Script} (h : DenS N E m g) (hg : InsideS E r g) (k : Nat) :
    DenS N E (nonUnrolled m (k + 1)) (timesS g (k + 1)) := by
  induction k with
  | zero => exact h.congr (fun p _ => (timesS_one g p).symm)
  | succ k ih => exact h.comp ih (fun p q hp hq => (hg.reach hp hq).right_le)

theorem DenS.pow_unrolled {m : Matcher} {g : Nat → Script} (h : DenS N E m g) (hg : InsideS E r g) (k : Nat) :
    DenS N E (unrolled m k) (timesS g k) := by
  match k with
  | 0 => exact DenS.id
  | k + 1 =>
    induction k with
    | zero => exact h.congr (fun p _ => (timesS_one g p).symm)
    | succ k ih => exact h.comp ih (fun p q hp hq => (hg.reach hp hq).right_le)

/-- The required iterations. -/
def requiredS (mode : Mode) (g : Nat → Script) (n p : Nat) : Script :=
  match mode with | .possessive => Spec.commit (fun q => [.offer q]) [] (timesS g n p) | _ => timesS g n p

theorem commit_short (l : List Nat) (h : l.length ≤ 1) : Spec.commit (fun q => [.offer q]) [] (offers l) = offers l := by
  match l, h with
  | [], _ => rfl
  | [q], _ => rfl

theorem denS_fixedMatch {a : Ast} {m : Matcher} {g : Nat → Script} {mode : Mode} {n : Nat} {fwd : Bool}
    (hf : fwd = (r % 2 == 0)) (h : DenS N E m g) (hg : InsideS E r g)
    (ht : Ast.triv a = true → g = fun p => offers (oneChar E.inp fwd (accepts E.flags a) p)) :
    DenS N E (fixedMatch E r mode a m n) (requiredS mode g n) := by
  have hb : n ≠ 0 → DenS N E (fixedBacktracking E r a m n) (timesS g n) := by
    intro hN
    unfold fixedBacktracking
    split
    · next hta =>
      rw [ht hta]
      exact (DenS.fixedTriv hf a n).congr (fun p _ => (timesS_offers _ n p).symm)
    · split
      · exact h.pow_unrolled hg n
      · obtain ⟨k, rfl⟩ := Nat.exists_eq_succ_of_ne_zero hN
        exact h.pow_nonUnrolled hg k
  unfold fixedMatch
  split
  · next hN =>
    subst hN
    exact DenS.id.congr (fun p _ => by cases mode <;> rfl)
  · next hN =>
    split
    · next hN1 =>
      subst hN1
      split
      · next hm =>
        obtain ⟨rfl, _⟩ := hm
        exact h.commit.congr (fun p _ => by simp only [requiredS, timesS_one])
      · next hm =>
        refine h.congr (fun p _ => ?_)
        cases mode with
        | possessive =>
          have hta : Ast.triv a = true := by simpa using hm
          simp only [requiredS, timesS_one]
          rw [ht hta]
          exact (commit_short _ (oneChar_short ..)).symm
        | greedy => exact (timesS_one g p).symm
        | lazy => exact (timesS_one g p).symm
    · split
      · next hm => subst hm; exact (hb hN).commit
      · next hm => cases mode <;> first | exact hb hN | exact absurd rfl hm

/-! ### Loops -/

section loops
variable {m : Matcher} {g : Nat → Script}

def greedyItS (g : Nat → Script) (inf : Bool) (k : Nat) : Nat → Script := if inf then greedyStarS g k else greedyS g k
def lazyItS (g : Nat → Script) (inf : Bool) (k : Nat) : Nat → Script := if inf then lazyStarS g k else lazyS g k
def possItS (g : Nat → Script) (inf : Bool) (k : Nat) : Nat → Script := if inf then possessiveStarS g k else possessiveS g k

theorem mem_except {p q : Nat} {S : Script} : Step.offer q ∈ except p S ↔ Step.offer q ∈ S ∧ q ≠ p := by
  simp [except]

theorem denS_guard (h : DenS N E m g) {inf guard : Bool} {p : Nat} {rest : Matcher} {g' : Nat → Script} {k k' : Cont} (hp : p ≤ E.inp.length)
    (hguard : inf = true → guard = true ∨ ∀ q, Step.offer q ∈ g p → q ≠ p) (hbound : inf = false → guard = false)
    (hrest : ∀ q, Step.offer q ∈ g p → (inf = true → q ≠ p) → FRel N (fun c => rest q c k) (runS k' (g' q))) :
    FRel N (fun c => m p c (guardCont guard p (fun q c' => rest q c' k))) (runS k' (proceed (if inf then except p (g p) else g p) g')) := by
  rw [funext (run_proceed k' _ _)]
  cases inf with
  | false =>
    have := hbound rfl
    subst this
    refine h p _ _ hp (fun q hq => ?_)
    have := hrest q hq (by simp)
    show FRel N (fun c => guardCont false p _ q c) _
    simpa [guardCont] using this
  | true =>
    simp only [if_true]
    rw [funext (run_except _ p (g p))]
    refine h p _ _ hp (fun q hq => ?_)
    by_cases hpq : q = p
    · subst hpq
      rcases hguard rfl with hg | hg
      · subst hg
        show FRel N (fun c => guardCont true q _ q c) _
        simp only [guardCont, Bool.true_and, beq_self_eq_true, if_true]
        exact .nonMatch q 0
      · exact absurd rfl (hg q hq)
    · have hpq' : (p == q) = false := by simpa using fun e => hpq e.symm
      show FRel N (fun c => guardCont guard p _ q c) _
      simp only [guardCont, hpq', Bool.and_false, Bool.false_eq_true, if_false, hpq]
      exact hrest q hq (fun _ => hpq)

theorem denS_greedyLoop (h : DenS N E m g) (hin : InsideS E r g) {inf guard : Bool}
    (hguard : inf = true → guard = true ∨ ∀ p q, p ≤ E.inp.length → Step.offer q ∈ g p → q ≠ p) (hbound : inf = false → guard = false) :
    ∀ n p k k', p ≤ E.inp.length → (inf = true → E.remaining r p < n) → (∀ q, Step.offer q ∈ greedyItS g inf n p → FRel N (k q) (k' q)) →
      FRel N (fun c => greedyLoop m guard inf n p c k) (runS k' (greedyItS g inf n p)) := by
  intro n
  induction n with
  | zero =>
    intro p k k' hp hn hk
    unfold greedyLoop
    cases inf with
    | true => exact absurd (hn rfl) (by omega)
    | false => exact frel_offer (hk p (by simp [greedyItS, greedyS]))
  | succ n ih =>
    intro p k k' hp hn hk
    have e : greedyItS g inf (n + 1) p = proceed (if inf then except p (g p) else g p) (greedyItS g inf n) ++ [.offer p] := by
      unfold greedyItS; cases inf <;> simp [greedyStarS, greedyS]
    rw [e] at hk ⊢
    rw [funext (run_append k' _ _)]
    unfold greedyLoop
    refine FRel.orElse (denS_guard h hp (fun hi => (hguard hi).imp_right (fun hh q hq => hh p q hp hq)) hbound (fun q hq hne => ?_))
      (frel_offer (hk p (by simp)))
    have hr := hin.reach hp hq
    refine ih q k k' hr.right_le (fun hi => ?_) (fun t ht => hk t (List.mem_append_left _ (List.mem_flatMap.2 ⟨.offer q, ?_, ht⟩)))
    · have := hr.remaining_lt (fun e => hne hi e.symm)
      have := hn hi
      omega
    · cases inf with
      | false => simpa using hq
      | true => simpa using mem_except.2 ⟨hq, hne rfl⟩

theorem denS_lazyLoop (h : DenS N E m g) (hin : InsideS E r g) {inf guard : Bool}
    (hguard : inf = true → guard = true ∨ ∀ p q, p ≤ E.inp.length → Step.offer q ∈ g p → q ≠ p) (hbound : inf = false → guard = false) :
    ∀ n p k k', p ≤ E.inp.length → (inf = true → E.remaining r p < n) → (∀ q, Step.offer q ∈ lazyItS g inf n p → FRel N (k q) (k' q)) →
      FRel N (fun c => lazyLoop m guard inf n p c k) (runS k' (lazyItS g inf n p)) := by
  intro n
  induction n with
  | zero =>
    intro p k k' hp hn hk
    unfold lazyLoop
    cases inf with
    | true => exact absurd (hn rfl) (by omega)
    | false => exact (hk p (by simp [lazyItS, lazyS])).orElse (.nonMatch p 0)
  | succ n ih =>
    intro p k k' hp hn hk
    have e : lazyItS g inf (n + 1) p = .offer p :: proceed (if inf then except p (g p) else g p) (lazyItS g inf n) := by
      unfold lazyItS; cases inf <;> simp [lazyStarS, lazyS]
    rw [e] at hk ⊢
    unfold lazyLoop
    refine FRel.orElse (hk p (by simp))
      (denS_guard h hp (fun hi => (hguard hi).imp_right (fun hh q hq => hh p q hp hq)) hbound (fun q hq hne => ?_))
    have hr := hin.reach hp hq
    refine ih q k k' hr.right_le (fun hi => ?_) (fun t ht => hk t (List.mem_cons_of_mem _ (List.mem_flatMap.2 ⟨.offer q, ?_, ht⟩)))
    · have := hr.remaining_lt (fun e => hne hi e.symm)
      have := hn hi
      omega
    · cases inf with
      | false => simpa using hq
      | true => simpa using mem_except.2 ⟨hq, hne rfl⟩

theorem denS_possLoop (h : DenS N E m g) (hin : InsideS E r g) {inf guard : Bool}
    (hguard : inf = true → guard = true ∨ ∀ p q, p ≤ E.inp.length → Step.offer q ∈ g p → q ≠ p) (hbound : inf = false → guard = false) :
    ∀ n p k k', p ≤ E.inp.length → (inf = true → E.remaining r p < n) → (∀ q, Step.offer q ∈ possItS g inf n p → FRel N (k q) (k' q)) →
      FRel N (fun c => possLoop m guard inf n p c k) (runS k' (possItS g inf n p)) := by
  intro n
  induction n with
  | zero =>
    intro p k k' hp hn hk
    unfold possLoop
    cases inf with
    | true => exact absurd (hn rfl) (by omega)
    | false => exact frel_offer (hk p (by simp [possItS, possessiveS]))
  | succ n ih =>
    intro p k k' hp hn hk
    have e : possItS g inf (n + 1) p = Spec.commit (fun q => if inf = true ∧ q = p then [.offer p] else possItS g inf n q) [.offer p] (g p) := by
      unfold possItS
      cases inf with
      | false => simp [possessiveS]
      | true => simp [possessiveStarS]
    rw [e] at hk ⊢
    unfold possLoop
    refine h.firstE hp (fun q rest hq => ?_) (fun hq => frel_offer (hk p (offers_commit_iff.2 (.inr ⟨hq, by simp⟩))))
    have hqm : Step.offer q ∈ g p := mem_offs.1 (by rw [hq]; simp)
    have hr := hin.reach hp hqm
    have hk' : ∀ t, Step.offer t ∈ (if inf = true ∧ q = p then [Step.offer p] else possItS g inf n q) → FRel N (k t) (k' t) :=
      fun t ht => hk t (offers_commit_iff.2 (.inl ⟨q, rest, hq, ht⟩))
    by_cases hqp : q = p
    · subst hqp
      cases inf with
      | true =>
        rcases hguard rfl with hg | hg
        · subst hg
          simp only [Bool.true_and, beq_self_eq_true, if_true, and_self] at hk' ⊢
          exact frel_offer (hk' q (by simp))
        · exact absurd rfl (hg q q hp hqm)
      | false =>
        have := hbound rfl
        subst this
        simp only [Bool.false_and, Bool.false_eq_true, if_false, false_and] at hk' ⊢
        exact ih q k k' hp (by simp) hk'
    · have h2 : (p == q) = false := by simpa using fun e => hqp e.symm
      simp only [h2, hqp, Bool.and_false, Bool.false_eq_true, if_false, and_false] at hk' ⊢
      refine ih q k k' hr.right_le (fun hi => ?_) hk'
      have := hr.remaining_lt (fun e => hqp e.symm)
      have := hn hi
      omega

end loops

section trivLoops
variable {a : Ast} {fwd : Bool}

theorem greedyItS_offers (e : Nat → List Nat) (inf : Bool) (k p : Nat) :
    greedyItS (fun q => offers (e q)) inf k p = offers (greedyIter e inf k p) := by
  unfold greedyItS greedyIter; cases inf <;> simp [greedyS_offers, greedyStarS_offers]

theorem lazyItS_offers (e : Nat → List Nat) (inf : Bool) (k p : Nat) :
    lazyItS (fun q => offers (e q)) inf k p = offers (lazyIter e inf k p) := by
  unfold lazyItS lazyIter; cases inf <;> simp [lazyS_offers, lazyStarS_offers]

theorem possItS_offers (e : Nat → List Nat) (inf : Bool) (k p : Nat) :
    possItS (fun q => offers (e q)) inf k p = offers (possIter e inf k p) := by
  unfold possItS possIter; cases inf <;> simp [possessiveS_offers, possessiveStarS_offers]

theorem mem_offers {l : List Nat} {q : Nat} : Step.offer q ∈ offers l ↔ q ∈ l := by simp [offers]

theorem rel_backTo {p : Nat} {k k' : Cont} :
    ∀ n q, E.Reach r p q → Env.dist r p q ≤ n → (∀ t, t ∈ backTo r p n q → FRel N (k t) (k' t)) →
      FRel N (backOff r p k n q) (runS k' (offers (backTo r p n q))) := by
  intro n
  induction n with
  | zero =>
    intro q hq hn hk
    show FRel N (fun c => backOff r p k 0 q c) _
    unfold backOff
    have hqp : q = p := (Env.dist_eq_zero hq).1 (by omega)
    refine (hk q (by simp [backTo])).orElse ?_
    simp only [hqp, if_true]
    exact .nonMatch p 0
  | succ n ih =>
    intro q hq hn hk
    show FRel N (fun c => backOff r p k (n + 1) q c) _
    unfold backOff
    by_cases hqp : q = p
    · subst hqp
      have e : backTo r q (n + 1) q = [q] := by simp [backTo]
      rw [e] at hk ⊢
      refine (hk q (by simp)).orElse ?_
      simp only [if_true]
      exact .nonMatch q 0
    · have e : backTo r p (n + 1) q = q :: backTo r p n (Env.prev r q) := by
        rw [backTo, if_neg hqp]
      rw [e] at hk ⊢
      refine (hk q (by simp)).orElse ?_
      simp only [hqp, if_false]
      have := Env.dist_prev hq hqp
      exact ih _ (Env.reach_prev hq hqp) (by omega) (fun t ht => hk t (List.mem_cons_of_mem _ ht))

theorem denS_greedyTriv (hf : fwd = (r % 2 == 0)) {inf : Bool} (n p : Nat) (k k' : Cont) (hp : p ≤ E.inp.length)
    (hn : inf = true → E.remaining r p < n)
    (hk : ∀ q, q ∈ greedyIter (oneChar E.inp fwd (accepts E.flags a)) inf n p → FRel N (k q) (k' q)) :
    FRel N (fun c => greedyTriv E r a inf n p c k) (runS k' (offers (greedyIter (oneChar E.inp fwd (accepts E.flags a)) inf n p))) := by
  have e : accepts E.flags a = matchOne E.flags a := by funext x; exact (matchOne_eq_accepts _ _ _).symm
  rw [e] at hk ⊢
  unfold greedyTriv
  simp only [possTriv_eq n _ _ hp hn]
  rw [greedyIter_oneChar hf _ n hp hn] at hk ⊢
  exact rel_backTo _ _ (runEnd_reach _ n hp) (Nat.le_refl _) hk

theorem denS_possTriv (hf : fwd = (r % 2 == 0)) {inf : Bool} :
    ∀ n p k k', p ≤ E.inp.length → (inf = true → E.remaining r p < n) →
    (∀ q, q ∈ possIter (oneChar E.inp fwd (accepts E.flags a)) inf n p → FRel N (k q) (k' q)) →
    FRel N (fun c => possTriv E r a inf n p c k) (runS k' (offers (possIter (oneChar E.inp fwd (accepts E.flags a)) inf n p))) := by
  intro n
  induction n with
  | zero =>
    intro p k k' hp hn hk
    unfold possTriv
    cases inf with
    | true => exact absurd (hn rfl) (by omega)
    | false => exact frel_offer (hk p (by simp [possIter, possessiveUpTo]))
  | succ n ih =>
    intro p k k' hp hn hk
    have e : possIter (oneChar E.inp fwd (accepts E.flags a)) inf (n + 1) p =
        match oneChar E.inp fwd (accepts E.flags a) p with
        | [] => [p]
        | q :: _ => possIter (oneChar E.inp fwd (accepts E.flags a)) inf n q := by
      unfold possIter
      cases inf with
      | false =>
        simp only [possessiveUpTo, Bool.false_eq_true, if_false]
        cases oneChar E.inp fwd (accepts E.flags a) p <;> rfl
      | true =>
        simp only [possessiveStar, if_true]
        have hm : ∀ q ∈ oneChar E.inp fwd (accepts E.flags a) p, q ≠ p := by
          intro q hq
          obtain ⟨rfl, h0⟩ := oneChar_ne hf hp hq
          exact Env.next_ne hp h0
        cases hl : oneChar E.inp fwd (accepts E.flags a) p with
        | nil => rfl
        | cons q l => rw [hl] at hm; dsimp only; rw [if_neg (hm q (by simp))]
    rw [e] at hk ⊢
    unfold possTriv
    by_cases h0 : E.remaining r p = 0
    · simp only [(Env.atEnd_iff hp).2 h0, if_true]
      rw [oneChar_end hf hp h0] at hk ⊢
      exact frel_offer (hk p (by simp))
    · have h1 : E.atEnd r p = false := by
        rw [← Bool.not_eq_true, Env.atEnd_iff hp]; exact h0
      obtain ⟨x, hx⟩ := Env.deref_some hp h0
      rw [oneChar_next hf hp h0 hx] at hk ⊢
      simp only [h1, hx, Bool.false_eq_true, if_false, matchOne_eq_accepts]
      cases hm : accepts E.flags a x with
      | true =>
        rw [hm] at hk
        simp only [if_true] at hk ⊢
        refine ih _ k k' (Env.reach_next hp h0).right_le (fun hi => ?_) hk
        have := Env.remaining_next hp h0
        have := hn hi
        omega
      | false =>
        rw [hm] at hk
        simp only [Bool.false_eq_true, if_false] at hk ⊢
        exact frel_offer (hk p (by simp))

theorem denS_lazyTriv (hf : fwd = (r % 2 == 0)) {inf : Bool} :
    ∀ n p k k', p ≤ E.inp.length → (inf = true → E.remaining r p < n) →
    (∀ q, q ∈ lazyIter (oneChar E.inp fwd (accepts E.flags a)) inf n p → FRel N (k q) (k' q)) →
    FRel N (fun c => lazyTriv E r a inf n p c k) (runS k' (offers (lazyIter (oneChar E.inp fwd (accepts E.flags a)) inf n p))) := by
  intro n
  induction n with
  | zero =>
    intro p k k' hp hn hk
    unfold lazyTriv
    cases inf with
    | true => exact absurd (hn rfl) (by omega)
    | false => exact (hk p (by simp [lazyIter, lazyUpTo])).orElse (.nonMatch p 0)
  | succ n ih =>
    intro p k k' hp hn hk
    have e : lazyIter (oneChar E.inp fwd (accepts E.flags a)) inf (n + 1) p =
        p :: (oneChar E.inp fwd (accepts E.flags a) p).flatMap (lazyIter (oneChar E.inp fwd (accepts E.flags a)) inf n) := by
      unfold lazyIter
      cases inf with
      | false => simp [lazyUpTo]
      | true =>
        simp only [lazyStar, if_true, List.singleton_append]
        congr 2
        refine List.filter_eq_self.2 (fun q hq => ?_)
        obtain ⟨rfl, h0⟩ := oneChar_ne hf hp hq
        simpa using Env.next_ne hp h0
    rw [e] at hk ⊢
    unfold lazyTriv
    refine (hk p (by simp)).orElse ?_
    have hk' := fun q hq => hk q (List.mem_cons_of_mem _ hq)
    by_cases h0 : E.remaining r p = 0
    · simp only [(Env.atEnd_iff hp).2 h0, if_true, oneChar_end hf hp h0]
      exact .nonMatch p 0
    · have h1 : E.atEnd r p = false := by
        rw [← Bool.not_eq_true, Env.atEnd_iff hp]; exact h0
      obtain ⟨x, hx⟩ := Env.deref_some hp h0
      rw [oneChar_next hf hp h0 hx] at hk' ⊢
      simp only [h1, hx, Bool.false_eq_true, if_false, matchOne_eq_accepts]
      cases hm : accepts E.flags a x with
      | true =>
        rw [hm] at hk'
        simp only [if_true, List.flatMap_cons, List.flatMap_nil, List.append_nil] at hk' ⊢
        refine ih _ k k' (Env.reach_next hp h0).right_le (fun hi => ?_) hk'
        have := Env.remaining_next hp h0
        have := hn hi
        omega
      | false =>
        simp only [Bool.false_eq_true, if_false]
        exact .nonMatch p 0

end trivLoops

/-! ### A number of rounds above the length of the input is as good as any other -/

section rounds
variable {g : Nat → Script}

theorem proceed_congr {S : Script} {g g' : Nat → Script} (h : ∀ q, Step.offer q ∈ S → g q = g' q) : proceed S g = proceed S g' := by
  unfold proceed
  refine flatMap_congr' (fun t ht => ?_)
  cases t with
  | offer q => exact h q ht
  | _ => rfl

theorem commit_congr {S : Script} {f f' : Nat → Script} {T : Script} (h : ∀ q, Step.offer q ∈ S → f q = f' q) :
    Spec.commit f T S = Spec.commit f' T S := by
  induction S with
  | nil => rfl
  | cons t S ih =>
    have ih := ih (fun q hq => h q (List.mem_cons_of_mem _ hq))
    cases t with
    | offer q => exact h q (by simp)
    | _ => simp only [Spec.commit, ih]

theorem greedyStarS_rounds (hin : InsideS E r g) (k k' : Nat) {p : Nat} (hp : p ≤ E.inp.length)
    (hk : E.remaining r p < k) (hk' : E.remaining r p < k') : greedyStarS g k p = greedyStarS g k' p := by
  induction k generalizing p k' with
  | zero => omega
  | succ k ih =>
    obtain ⟨k', rfl⟩ : ∃ i, k' = i + 1 := ⟨k' - 1, by omega⟩
    simp only [greedyStarS]
    congr 1
    refine proceed_congr (fun q hq => ?_)
    obtain ⟨hq, hne⟩ := mem_except.1 hq
    have hr := hin.reach hp hq
    have := hr.remaining_lt (fun e => hne e.symm)
    exact ih k' hr.right_le (by omega) (by omega)

theorem lazyStarS_rounds (hin : InsideS E r g) (k k' : Nat) {p : Nat} (hp : p ≤ E.inp.length)
    (hk : E.remaining r p < k) (hk' : E.remaining r p < k') : lazyStarS g k p = lazyStarS g k' p := by
  induction k generalizing p k' with
  | zero => omega
  | succ k ih =>
    obtain ⟨k', rfl⟩ : ∃ i, k' = i + 1 := ⟨k' - 1, by omega⟩
    simp only [lazyStarS]
    congr 1
    refine proceed_congr (fun q hq => ?_)
    obtain ⟨hq, hne⟩ := mem_except.1 hq
    have hr := hin.reach hp hq
    have := hr.remaining_lt (fun e => hne e.symm)
    exact ih k' hr.right_le (by omega) (by omega)

theorem possStarS_rounds (hin : InsideS E r g) (k k' : Nat) {p : Nat} (hp : p ≤ E.inp.length)
    (hk : E.remaining r p < k) (hk' : E.remaining r p < k') : possessiveStarS g k p = possessiveStarS g k' p := by
  induction k generalizing p k' with
  | zero => omega
  | succ k ih =>
    obtain ⟨k', rfl⟩ : ∃ i, k' = i + 1 := ⟨k' - 1, by omega⟩
    simp only [possessiveStarS]
    refine commit_congr (fun q hq => ?_)
    split
    · rfl
    · next hne =>
      have hr := hin.reach hp hq
      have := hr.remaining_lt (fun e => hne e.symm)
      exact ih k' hr.right_le (by omega) (by omega)

end rounds

theorem denS_betweenBounds {a : Ast} {m : Matcher} {g : Nat → Script} {mode : Mode} {inf : Bool} {n : Nat} {fwd : Bool}
    (hf : fwd = (r % 2 == 0)) (h : DenS N E m g) (hin : InsideS E r g)
    (hz : zlm a = false → ∀ p q, p ≤ E.inp.length → Step.offer q ∈ g p → q ≠ p)
    (ht : Ast.triv a = true → g = fun p => offers (oneChar E.inp fwd (accepts E.flags a) p))
    (hn : inf = true → E.inp.length < n) :
    DenS N E (betweenBounds E r mode a m inf n) (extraS E.inp.length mode E.flags.ungreedy g (if inf then none else some n)) := by
  intro p k k' hp hk
  have hrem := Env.remaining_le (E := E) (r := r) hp
  have hn' : inf = true → E.remaining r p < n := fun hi => by have := hn hi; omega
  have hguard : inf = true → (inf && zlm a) = true ∨ ∀ p q, p ≤ E.inp.length → Step.offer q ∈ g p → q ≠ p := by
    intro hi
    cases hza : zlm a with
    | true => left; simp [hi]
    | false => exact .inr (hz hza)
  have hbound : inf = false → (inf && zlm a) = false := by intro hi; simp [hi]
  have e : extraS E.inp.length mode E.flags.ungreedy g (if inf then none else some n) p =
      if mode = .possessive then possItS g inf n p
      else if Bool.xor (mode == .greedy) E.flags.ungreedy then greedyItS g inf n p else lazyItS g inf n p := by
    cases inf with
    | false => cases mode <;> cases E.flags.ungreedy <;> simp [extraS, possItS, greedyItS, lazyItS]
    | true =>
      have h1 := greedyStarS_rounds hin (E.inp.length + 1) n hp (by omega) (hn' rfl)
      have h2 := lazyStarS_rounds hin (E.inp.length + 1) n hp (by omega) (hn' rfl)
      have h3 := possStarS_rounds hin (E.inp.length + 1) n hp (by omega) (hn' rfl)
      cases mode <;> cases E.flags.ungreedy <;> simp [extraS, possItS, greedyItS, lazyItS, h1, h2, h3]
  rw [e] at hk ⊢
  unfold betweenBounds
  split
  · next hm =>
    rw [if_pos hm] at hk
    split
    · next hta =>
      rw [ht hta, possItS_offers] at hk ⊢
      exact denS_possTriv hf n p k k' hp hn' (fun q hq => hk q (mem_offers.2 hq))
    · exact denS_possLoop h hin hguard hbound n p k k' hp hn' hk
  · next hm =>
    rw [if_neg hm] at hk
    split
    · next hx =>
      rw [if_pos hx] at hk
      split
      · next hta =>
        simp only [Bool.and_eq_true] at hta
        rw [ht hta.1, greedyItS_offers] at hk ⊢
        exact denS_greedyTriv hf n p k k' hp hn' (fun q hq => hk q (mem_offers.2 hq))
      · exact denS_greedyLoop h hin hguard hbound n p k k' hp hn' hk
    · next hx =>
      rw [if_neg hx] at hk
      split
      · next hta =>
        rw [ht hta, lazyItS_offers] at hk ⊢
        exact denS_lazyTriv hf n p k k' hp hn' (fun q hq => hk q (mem_offers.2 hq))
      · exact denS_lazyLoop h hin hguard hbound n p k k' hp hn' hk

theorem extraS_zero {n : Nat} {mode : Mode} {u : Bool} {g : Nat → Script} : extraS n mode u g (some 0) = fun p => [.offer p] := by
  funext p
  cases mode <;> cases u <;> simp [extraS, possessiveS, greedyS, lazyS]

theorem denS_repMatch {a : Ast} {m : Matcher} {g : Nat → Script} {mode : Mode} {lo : Nat} {hi : Bound} {n : Nat} {fwd : Bool}
    (hf : fwd = (r % 2 == 0)) (h : DenS N E m g) (hin : InsideS E r g)
    (hz : zlm a = false → ∀ p q, p ≤ E.inp.length → Step.offer q ∈ g p → q ≠ p)
    (ht : Ast.triv a = true → g = fun p => offers (oneChar E.inp fwd (accepts E.flags a) p))
    (hn : E.inp.length < n) (hlo : ∀ h, hi = .fin h → lo ≤ h) :
    DenS N E (repMatch E r n mode lo hi a m) (quantifiedS E.inp.length mode E.flags.ungreedy lo hi g) := by
  have hq : ∀ p, quantifiedS E.inp.length mode E.flags.ungreedy lo hi g p =
      proceed (requiredS mode g lo p) (extraS E.inp.length mode E.flags.ungreedy g (match hi with | .fin h => some (h - lo) | .inf => none)) := by
    intro p; cases mode <;> cases hi <;> rfl
  have hinE : ∀ p q, p ≤ E.inp.length → Step.offer q ∈ requiredS mode g lo p → q ≤ E.inp.length := by
    intro p q hp hq
    have : Step.offer q ∈ timesS g lo p := by
      cases mode with
      | greedy => exact hq
      | lazy => exact hq
      | possessive =>
        rcases offers_commit_iff.1 hq with ⟨t, rest, h1, h2⟩ | ⟨_, h2⟩
        · simp only [List.mem_singleton, Step.offer.injEq] at h2
          subst h2
          exact mem_offs.1 (by rw [h1]; simp)
        · simp at h2
    exact ((hin.times lo).reach hp this).right_le
  have h0E : ∀ p, requiredS mode g 0 p = [.offer p] := by intro p; cases mode <;> rfl
  unfold repMatch
  split
  · next hh =>
    have hlh := hlo hh rfl
    split
    · next heq =>
      subst heq
      refine (denS_fixedMatch (mode := mode) (n := hh) hf h hin ht).congr (fun p hp => ?_)
      rw [hq]
      simp only [Nat.sub_self, extraS_zero, proceed_offer]
    · split
      · omega
      · split
        · next h0 =>
          subst h0
          refine (denS_betweenBounds (mode := mode) (inf := false) (n := hh) hf h hin hz ht (by simp)).congr (fun p hp => ?_)
          rw [hq, h0E]
          simp [proceed]
        · refine ((denS_fixedMatch (mode := mode) (n := lo) hf h hin ht).comp
            (denS_betweenBounds (mode := mode) (inf := false) (n := hh - lo) hf h hin hz ht (by simp)) hinE).congr (fun p hp => ?_)
          rw [hq]; rfl
  · split
    · next h0 =>
      subst h0
      refine (denS_betweenBounds (mode := mode) (inf := true) (n := n) hf h hin hz ht (fun _ => hn)).congr (fun p hp => ?_)
      rw [hq, h0E]
      simp [proceed]
    · refine ((denS_fixedMatch (mode := mode) (n := lo) hf h hin ht).comp
        (denS_betweenBounds (mode := mode) (inf := true) (n := n) hf h hin hz ht (fun _ => hn)) hinE).congr (fun p hp => ?_)
      rw [hq]; rfl

end
end
end Mregex
