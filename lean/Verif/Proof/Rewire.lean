import Verif.Proof.ProcMethods
import Verif.Proof.Regroup
import Verif.Spec.Rewire

/-!
# Other groups, and references to them
-/

namespace Mregex
open Ast Spec

variable {σ : Nat → Option (Nat × GroupName)} {ν ν' : List Byte → Nat}

theorem rewireAll_eq (l : List Ast) : rewireAll σ ν l = l.map (rewire σ ν) := by
  induction l with
  | nil => rfl
  | cons a l ih => simp [rewireAll, ih]

theorem refersKeptAll_eq (l : List Ast) : refersKeptAll σ ν l = l.all (refersKept σ ν) := by
  induction l with
  | nil => rfl
  | cons a l ih => simp [refersKeptAll, ih]

theorem branchesKeptAll_eq (l : List Ast) : branchesKeptAll σ ν l = l.all (branchesKept σ ν) := by
  induction l with
  | nil => rfl
  | cons a l ih => simp [branchesKeptAll, ih]

/-- Characters have no groups. -/
theorem rewire_triv {a : Ast} (hw : wf a = true) (ht : triv a = true) : rewire σ ν a = a := by
  induction a using ind with
  | set l ih =>
    simp only [wf, wfAll_eq, Bool.and_eq_true, List.all_eq_true] at hw
    simp only [rewire, rewireAll_eq]
    rw [map_id_of (fun b hb => ih b hb (hw.2 b hb) (hw.1 b hb))]
  | neg a ih =>
    simp only [triv, Bool.not_eq_true'] at ht
    simp only [wf, ht, Bool.or_false, Bool.and_eq_true] at hw
    simp only [rewire, ih hw.2 hw.1]
  | seq l ih =>
    simp only [triv, trivSingle_eq, Bool.and_eq_true, List.all_eq_true] at ht
    simp only [wf, wfAll_eq, Bool.and_eq_true, List.all_eq_true] at hw
    simp only [rewire, rewireAll_eq]
    rw [map_id_of (fun b hb => ih b hb (hw.2 b hb) (ht.2 b hb))]
  | alt l ih =>
    simp only [triv, trivAlt_eq, Bool.and_eq_true, List.all_eq_true] at ht
    simp only [wf, wfAll_eq, Bool.and_eq_true, List.all_eq_true] at hw
    simp only [rewire, rewireAll_eq]
    rw [map_id_of (fun b hb => ih b hb (hw.2 b hb) (ht.2 b hb))]
  | rep m lo hi a ih =>
    simp only [triv, Bool.and_eq_true, beq_iff_eq] at ht
    obtain ⟨⟨rfl, rfl⟩, ht⟩ := ht
    simp only [wf, Bool.and_eq_true] at hw
    simp only [rewire, ih hw.2 ht]
  | cap id n a ih => simp [triv] at ht
  | look d a ih => simp [triv] at ht
  | backref k => simp [triv] at ht
  | namedBackref n => simp [triv] at ht
  | _ => simp only [rewire]

theorem isAssertion_rewire {a : Ast} (hw : wf a = true) (h : isAssertion a = true) : isAssertion (rewire σ ν a) = true := by
  induction a using ind with
  | seq l ih =>
    simp only [isAssertion_seq, Bool.and_eq_true, List.all_eq_true] at h
    simp only [wf, wfAll_eq, Bool.and_eq_true, List.all_eq_true] at hw
    simp only [rewire, rewireAll_eq, isAssertion_seq, List.length_map, List.all_map, Bool.and_eq_true, List.all_eq_true]
    exact ⟨h.1, fun b hb => ih b hb (hw.2 b hb) (h.2 b hb)⟩
  | alt l ih =>
    simp only [isAssertion_alt, Bool.and_eq_true, List.all_eq_true] at h
    simp only [wf, wfAll_eq, Bool.and_eq_true, List.all_eq_true] at hw
    simp only [rewire, rewireAll_eq, isAssertion_alt, List.length_map, List.all_map, Bool.and_eq_true, List.all_eq_true]
    exact ⟨h.1, fun b hb => ih b hb (hw.2 b hb) (h.2 b hb)⟩
  | neg a ih =>
    simp only [isAssertion] at h
    simp only [wf, Bool.and_eq_true] at hw
    simp only [rewire, isAssertion]
    exact ih hw.2 h
  | rep m lo hi a ih =>
    simp only [isAssertion, Bool.and_eq_true] at h
    have hw' : wf a = true := by cases hi <;> simp only [wf, Bool.and_eq_true] at hw <;> first | exact hw.2 | exact hw
    simp only [rewire, isAssertion, Bool.and_eq_true]
    exact ⟨h.1, ih hw' h.2⟩
  | cap id n a ih => simp [isAssertion] at h
  | look d a ih => simp [rewire, isAssertion]
  | set l ih => simp [isAssertion] at h
  | backref k => simp [isAssertion] at h
  | namedBackref n => simp [isAssertion] at h
  | _ => simpa only [rewire] using h

theorem characters_rewire {l : List Ast} (hw : ∀ b ∈ l, wf b = true) (h : ∀ b ∈ l, (character b || !character (rewire σ ν b)) = true) :
    characters (l.map (rewire σ ν)) = characters l ∧ (characters l = true → l.map (rewire σ ν) = l) := by
  induction l with
  | nil => exact ⟨rfl, fun _ => rfl⟩
  | cons b l ih =>
    obtain ⟨i1, i2⟩ := ih (fun b hb => hw b (List.mem_cons_of_mem _ hb)) (fun b hb => h b (List.mem_cons_of_mem _ hb))
    have hb := h b (by simp)
    cases hc : character b with
    | true =>
      have e : rewire σ ν b = b := rewire_triv (hw b (by simp)) (by rw [← character_eq]; exact hc)
      simp only [List.map_cons, characters, e, hc, i1, Bool.true_and, true_and]
      exact fun h' => by rw [i2 h']
    | false =>
      simp only [hc, Bool.false_or, Bool.not_eq_true'] at hb
      simp [characters, hc, hb]

/-! ### Procedures -/

/-- The second procedure is the first with other groups. -/
inductive Renoted (σ : Nat → Option (Nat × GroupName)) : Proc → Proc → Prop
  | done : Renoted σ .done .done
  | offer {q P P'} : Renoted σ P P' → Renoted σ (.offer q P) (.offer q P')
  | note {k j n b e P P'} : σ k = some (j, n) → Renoted σ P P' → Renoted σ (.note k b e P) (.note j b e P')
  | noteDrop {k b e P P'} : σ k = none → Renoted σ P P' → Renoted σ (.note k b e P) P'
  | cross {k j n P P'} : σ k = some (j, n) → Renoted σ P P' → Renoted σ (.cross k P) (.cross j P')
  | crossDrop {k P P'} : σ k = none → Renoted σ P P' → Renoted σ (.cross k P) P'
  | recall {k j n f f'} : σ k = some (j, n) → (∀ v, Renoted σ (f v) (f' v)) → Renoted σ (.recall k f) (.recall j f')

namespace Renoted

theorem andThen {P P' Q Q' : Proc} (h : Renoted σ P P') (hq : Renoted σ Q Q') : Renoted σ (P.andThen Q) (P'.andThen Q') := by
  induction h with
  | done => exact hq
  | offer _ ih => exact .offer ih
  | note h _ ih => exact .note h ih
  | noteDrop h _ ih => exact .noteDrop h ih
  | cross h _ ih => exact .cross h ih
  | crossDrop h _ ih => exact .crossDrop h ih
  | recall h _ ih => exact .recall h ih

theorem proceed {P P' : Proc} (h : Renoted σ P P') {g g' : Nat → Proc} (hg : ∀ q, Renoted σ (g q) (g' q)) :
    Renoted σ (P.proceed g) (P'.proceed g') := by
  induction h with
  | done => exact .done
  | offer _ ih => exact (hg _).andThen ih
  | note h _ ih => exact .note h ih
  | noteDrop h _ ih => exact .noteDrop h ih
  | cross h _ ih => exact .cross h ih
  | crossDrop h _ ih => exact .crossDrop h ih
  | recall h _ ih => exact .recall h ih

theorem commit {P P' Q Q' : Proc} (h : Renoted σ P P') {g g' : Nat → Proc} (hg : ∀ q, Renoted σ (g q) (g' q)) (hq : Renoted σ Q Q') :
    Renoted σ (P.commit g Q) (P'.commit g' Q') := by
  induction h with
  | done => exact hq
  | offer _ ih => exact hg _
  | note h _ ih => exact .note h ih
  | noteDrop h _ ih => exact .noteDrop h ih
  | cross h _ ih => exact .cross h ih
  | crossDrop h _ ih => exact .crossDrop h ih
  | recall h _ ih => exact .recall h ih

theorem except {P P' : Proc} (h : Renoted σ P P') (p : Nat) : Renoted σ (P.except p) (P'.except p) := by
  induction h with
  | done => exact .done
  | @offer q P P' _ ih =>
    simp only [Proc.except]
    split
    · exact ih
    · exact .offer ih
  | note h _ ih => exact .note h ih
  | noteDrop h _ ih => exact .noteDrop h ih
  | cross h _ ih => exact .cross h ih
  | crossDrop h _ ih => exact .crossDrop h ih
  | recall h _ ih => exact .recall h ih

theorem offers (l : List Nat) : Renoted σ (.offers l) (.offers l) := by
  induction l with
  | nil => exact .done
  | cons q l ih => exact .offer ih

theorem only (q : Nat) : Renoted σ (.only q) (.only q) := .offer .done

section
variable {g g' : Nat → Proc} (hg : ∀ q, Renoted σ (g q) (g' q))
include hg

theorem times (k p : Nat) : Renoted σ (Proc.times g k p) (Proc.times g' k p) := by
  induction k generalizing p with
  | zero => exact only p
  | succ k ih => exact (hg p).proceed ih

theorem greedyUpTo (k p : Nat) : Renoted σ (Proc.greedyUpTo g k p) (Proc.greedyUpTo g' k p) := by
  induction k generalizing p with
  | zero => exact only p
  | succ k ih => exact ((hg p).proceed ih).andThen (only p)

theorem lazyUpTo (k p : Nat) : Renoted σ (Proc.lazyUpTo g k p) (Proc.lazyUpTo g' k p) := by
  induction k generalizing p with
  | zero => exact only p
  | succ k ih => exact .offer ((hg p).proceed ih)

theorem possessiveUpTo (k p : Nat) : Renoted σ (Proc.possessiveUpTo g k p) (Proc.possessiveUpTo g' k p) := by
  induction k generalizing p with
  | zero => exact only p
  | succ k ih => exact (hg p).commit ih (only p)

theorem greedyStar (k p : Nat) : Renoted σ (Proc.greedyStar g k p) (Proc.greedyStar g' k p) := by
  induction k generalizing p with
  | zero => exact .done
  | succ k ih => exact (((hg p).except p).proceed ih).andThen (only p)

theorem lazyStar (k p : Nat) : Renoted σ (Proc.lazyStar g k p) (Proc.lazyStar g' k p) := by
  induction k generalizing p with
  | zero => exact .done
  | succ k ih => exact .offer (((hg p).except p).proceed ih)

theorem possessiveStar (k p : Nat) : Renoted σ (Proc.possessiveStar g k p) (Proc.possessiveStar g' k p) := by
  induction k generalizing p with
  | zero => exact .done
  | succ k ih =>
    refine (hg p).commit (fun q => ?_) (only p)
    split
    · exact only p
    · exact ih q

theorem extra (n : Nat) (m : Mode) (u : Bool) (k : Option Nat) (p : Nat) : Renoted σ (Proc.extra n m u g k p) (Proc.extra n m u g' k p) := by
  cases k <;> cases m <;> cases u <;>
    first
      | exact possessiveUpTo hg _ _ | exact possessiveStar hg _ _ | exact greedyUpTo hg _ _ | exact greedyStar hg _ _ | exact lazyUpTo hg _ _
      | exact lazyStar hg _ _

theorem quantified (n : Nat) (m : Mode) (u : Bool) (lo : Nat) (hi : Bound) (p : Nat) :
    Renoted σ (Proc.quantified n m u lo hi g p) (Proc.quantified n m u lo hi g' p) := by
  unfold Proc.quantified
  refine proceed ?_ (fun q => extra hg n m u _ q)
  cases m
  · exact times hg lo p
  · exact times hg lo p
  · exact (times hg lo p).commit only .done

end

/-- The notes for the groups that stay. -/
def Same (σ : Nat → Option (Nat × GroupName)) (h h' : Notes) : Prop := ∀ k j n, σ k = some (j, n) → h k = h' j

theorem Same.put {h h' : Notes} (hσ : Renumbering σ) (hs : Same σ h h') {k j : Nat} {n : GroupName} (hk : σ k = some (j, n)) (v : Cap) :
    Same σ (h.put k v) (h'.put j v) := by
  intro k₁ j₁ n₁ h₁
  unfold Notes.put
  by_cases hj : j₁ = j
  · subst hj
    rw [if_pos (hσ.1 _ _ _ _ _ h₁ hk), if_pos rfl]
  · have : k₁ ≠ k := by rintro rfl; rw [hk] at h₁; cases h₁; exact hj rfl
    rw [if_neg hj, if_neg this]
    exact hs _ _ _ h₁

theorem Same.drop {h h' : Notes} (hs : Same σ h h') {k : Nat} (hk : σ k = none) (v : Cap) : Same σ (h.put k v) h' := by
  intro k₁ j₁ n₁ h₁
  unfold Notes.put
  have : k₁ ≠ k := by rintro rfl; rw [hk] at h₁; cases h₁
  rw [if_neg this]
  exact hs _ _ _ h₁

theorem follow {P P' : Proc} (hσ : Renumbering σ) (hP : Renoted σ P P') (acc : Nat → Bool) {h h' : Notes} (hs : Same σ h h') :
    (P'.follow acc h').1 = (P.follow acc h).1 ∧ Same σ (P.follow acc h).2 (P'.follow acc h').2 := by
  induction hP generalizing h h' with
  | done => exact ⟨rfl, hs⟩
  | @offer q P P' _ ih =>
    simp only [Proc.follow]
    cases acc q with
    | true => exact ⟨rfl, hs⟩
    | false => exact ih hs
  | note hk _ ih => exact ih (hs.put hσ hk _)
  | noteDrop hk _ ih => exact ih (hs.drop hk _)
  | @cross k j n P P' hk _ ih =>
    simp only [Proc.follow, hs k j n hk]
    exact ih (hs.put hσ hk _)
  | crossDrop hk _ ih => exact ih (hs.drop hk _)
  | @recall k j n f f' hk _ ih =>
    simp only [Proc.follow, hs k j n hk]
    exact ih _ hs

theorem tryFrom {g g' : Nat → Proc} (hσ : Renumbering σ) (hg : ∀ q, Renoted σ (g q) (g' q)) (l : List Nat) {h h' : Notes} (hs : Same σ h h') :
    (Spec.tryFrom g' l h').1 = (Spec.tryFrom g l h).1 ∧ Same σ (Spec.tryFrom g l h).2 (Spec.tryFrom g' l h').2 := by
  induction l generalizing h h' with
  | nil => exact ⟨rfl, hs⟩
  | cons i l ih =>
    obtain ⟨h1, h2⟩ := follow hσ (hg i) (fun _ => true) hs
    simp only [Spec.tryFrom]
    generalize (g i).follow (fun _ => true) h = x at h1 h2
    generalize (g' i).follow (fun _ => true) h' = x' at h1 h2
    obtain ⟨x, y⟩ := x
    obtain ⟨x', y'⟩ := x'
    obtain rfl := h1
    cases x' with
    | none => exact ih h2
    | some q => exact ⟨rfl, h2⟩

theorem carryOut {g g' : Nat → Proc} (hσ : Renumbering σ) (hg : ∀ q, Renoted σ (g q) (g' q)) (n cur : Nat) (M : Method) {h h' : Notes} (hs : Same σ h h') :
    (Spec.carryOut n g' cur h' M).1 = (Spec.carryOut n g cur h M).1 ∧ Same σ (Spec.carryOut n g cur h M).2 (Spec.carryOut n g' cur h' M).2 := by
  cases M with
  | «match» =>
    obtain ⟨h1, h2⟩ := follow hσ (hg cur) (· == n) hs
    exact ⟨congrArg (Option.map (cur, ·)) h1, h2⟩
  | matchPrefix =>
    obtain ⟨h1, h2⟩ := follow hσ (hg cur) (fun _ => true) hs
    exact ⟨congrArg (Option.map (cur, ·)) h1, h2⟩
  | search => exact tryFrom hσ hg _ hs

end Renoted

/-- The node refers to this name. -/
inductive Mentions (n : List Byte) : Ast → Prop
  | here : Mentions n (.namedBackref n)
  | cap {id name a} : Mentions n a → Mentions n (.cap id name a)
  | neg {a} : Mentions n a → Mentions n (.neg a)
  | rep {m lo hi a} : Mentions n a → Mentions n (.rep m lo hi a)
  | look {d a} : Mentions n a → Mentions n (.look d a)
  | seq {l a} : a ∈ l → Mentions n a → Mentions n (.seq l)
  | alt {l a} : a ∈ l → Mentions n a → Mentions n (.alt l)
  | set {l a} : a ∈ l → Mentions n a → Mentions n (.set l)

theorem reference_rewire (f : Flags) (s : List Byte) (r p : Nat) {k j : Nat} {n : GroupName} (hk : σ k = some (j, n)) :
    Renoted σ (reference f s k r p) (reference f s j r p) := .recall hk (fun _ => .offers _)

theorem proc_rewire {a : Ast} (hw : wf a = true) (hk : refersKept σ ν a = true) (hb : branchesKept σ ν a = true)
    (hν : ∀ n j n', Mentions n a → σ (ν n) = some (j, some n') → ν' n' = j) (f : Flags) (s : List Byte) (r : Nat) (inv : Bool) (p : Nat) :
    Renoted σ (proc f s ν a r inv p) (proc f s ν' (rewire σ ν a) r inv p) := by
  induction a using ind generalizing r inv p with
  | neg a ih =>
    simp only [wf, Bool.and_eq_true] at hw
    simp only [refersKept] at hk
    simp only [branchesKept] at hb
    by_cases ha : isAssertion a = true
    · simp only [rewire, proc, assertion_eq, ha, isAssertion_rewire hw.2 ha, if_true]
      exact (ih hw.2 hk hb (fun n j n' hm => hν n j n' (.neg hm)) r inv p).commit (fun _ => .done) (.only p)
    · have ht : triv a = true := by simpa [ha] using hw.1
      simp only [rewire, rewire_triv hw.2 ht, proc, assertion_eq, if_neg ha]
      exact .offers _
  | seq l ih =>
    simp only [wf, wfAll_eq, Bool.and_eq_true, List.all_eq_true] at hw
    simp only [refersKept, refersKeptAll_eq, List.all_eq_true] at hk
    simp only [branchesKept, branchesKeptAll_eq, List.all_eq_true] at hb
    replace hw := hw.2
    have ih' : ∀ a ∈ l, ∀ r inv p, Renoted σ (proc f s ν a r inv p) (proc f s ν' (rewire σ ν a) r inv p) :=
      fun a ha r inv p => ih a ha (hw a ha) (hk a ha) (hb a ha) (fun n j n' hm => hν n j n' (.seq ha hm)) r inv p
    clear ih hw hk hb hν
    simp only [rewire, proc, rewireAll_eq]
    induction l generalizing p with
    | nil => exact .only p
    | cons a l ihl =>
      have ihl := fun p => ihl p (fun b hb => ih' b (List.mem_cons_of_mem _ hb))
      have ha := ih' a (by simp) r inv
      simp only [List.map_cons, procAll]
      split
      · exact (ihl p).proceed ha
      · exact (ha p).proceed ihl
  | alt l ih =>
    simp only [wf, wfAll_eq, Bool.and_eq_true, List.all_eq_true] at hw
    simp only [refersKept, refersKeptAll_eq, List.all_eq_true] at hk
    rw [branchesKept, branchesKeptAll_eq, Bool.and_eq_true, List.all_eq_true, List.all_eq_true] at hb
    replace hw := hw.2
    have ih' : ∀ a ∈ l, ∀ r inv p, Renoted σ (proc f s ν a r inv p) (proc f s ν' (rewire σ ν a) r inv p) :=
      fun a ha r inv p => ih a ha (hw a ha) (hk a ha) (hb.1 a ha) (fun n j n' hm => hν n j n' (.alt ha hm)) r inv p
    have hc := hb.2
    clear ih hk hb hν
    simp only [rewire, proc, rewireAll_eq]
    induction l with
    | nil => exact .done
    | cons a l ihl =>
      have ihl := ihl (fun b hb => hw b (List.mem_cons_of_mem _ hb)) (fun b hb => ih' b (List.mem_cons_of_mem _ hb)) (fun b hb => hc b (List.mem_cons_of_mem _ hb))
      obtain ⟨e1, e2⟩ := characters_rewire (ν := ν) hw hc
      by_cases h : characters (a :: l) = true
      · have e := e2 h
        rw [e]
        rw [procAny.eq_2, procAny.eq_2, if_pos h, if_pos h]
        exact .offers _
      · have h' : ¬ characters (rewire σ ν a :: l.map (rewire σ ν)) = true := by rw [← List.map_cons, e1]; exact h
        rw [List.map_cons, procAny.eq_2, procAny.eq_2, if_neg h, if_neg h']
        exact (ih' a (by simp) r inv p).andThen ihl
  | cap id n a ih =>
    simp only [wf] at hw
    simp only [refersKept] at hk
    simp only [branchesKept] at hb
    have ih := ih hw hk hb (fun n j n' hm => hν n j n' (.cap hm)) r inv p
    simp only [rewire, proc]
    cases hs : σ id with
    | none =>
      have key : ∀ {P P' : Proc}, Renoted σ P P' →
          Renoted σ ((P.proceed (fun q => if r % 2 = 0 then .note id p q (.only q) else .note id q p (.only q))).andThen (.cross id .done)) P' := by
        intro P P' h
        induction h with
        | done => exact .crossDrop hs .done
        | offer _ ih =>
          by_cases hr : r % 2 = 0
          · simp only [hr, if_true, Proc.proceed] at ih ⊢
            exact .noteDrop hs (.offer ih)
          · simp only [hr, if_false, Proc.proceed] at ih ⊢
            exact .noteDrop hs (.offer ih)
        | note h _ ih => exact .note h ih
        | noteDrop h _ ih => exact .noteDrop h ih
        | cross h _ ih => exact .cross h ih
        | crossDrop h _ ih => exact .crossDrop h ih
        | recall h _ ih => exact .recall h ih
      exact key ih
    | some x =>
      obtain ⟨j, nm⟩ := x
      simp only [proc]
      refine (ih.proceed (fun q => ?_)).andThen (.cross hs .done)
      split
      · exact .note hs (.only q)
      · exact .note hs (.only q)
  | rep m lo hi a ih =>
    have hw' : wf a = true := by cases hi <;> simp only [wf, Bool.and_eq_true] at hw <;> first | exact hw.2 | exact hw
    simp only [refersKept] at hk
    simp only [branchesKept] at hb
    simp only [rewire, proc]
    exact .quantified (fun q => ih hw' hk hb (fun n j n' hm => hν n j n' (.rep hm)) r inv q) ..
  | look d a ih =>
    simp only [wf] at hw
    simp only [refersKept] at hk
    simp only [branchesKept] at hb
    have ih := ih hw hk hb (fun n j n' hm => hν n j n' (.look hm))
    simp only [rewire, proc]
    split
    · exact (ih _ _ _).commit (fun _ => .only p) .done
    · exact (ih _ _ _).commit (fun _ => .only p) .done
  | set l ih =>
    have : rewire σ ν (.set l) = .set l := rewire_triv hw rfl
    rw [this]; simp only [proc]; exact .offers _
  | backref k =>
    simp only [refersKept] at hk
    obtain ⟨⟨j, n⟩, hj⟩ := Option.isSome_iff_exists.1 hk
    simp only [rewire, hj, proc]
    exact reference_rewire f s r p hj
  | namedBackref n =>
    simp only [refersKept] at hk
    obtain ⟨⟨j, nm⟩, hj⟩ := Option.isSome_iff_exists.1 hk
    cases nm with
    | none =>
      simp only [rewire, hj, proc]
      exact reference_rewire f s r p hj
    | some n' =>
      simp only [rewire, hj, proc, hν n j n' .here hj]
      exact reference_rewire f s r p hj
  | _ => simp only [rewire, proc]; exact .offers _

theorem hasGroup_rewire {a : Ast} {k j : Nat} {n n' : GroupName} (h : HasGroup a k n) (hσ : σ k = some (j, n')) : HasGroup (rewire σ ν a) j n' := by
  induction h with
  | here => simp only [rewire, hσ]; exact .here
  | cap _ ih =>
    simp only [rewire]
    split
    · exact .cap (ih hσ)
    · exact ih hσ
  | set hm _ ih => simp only [rewire, rewireAll_eq]; exact .set (List.mem_map_of_mem hm) (ih hσ)
  | neg _ ih => exact .neg (ih hσ)
  | seq hm _ ih => simp only [rewire, rewireAll_eq]; exact .seq (List.mem_map_of_mem hm) (ih hσ)
  | alt hm _ ih => simp only [rewire, rewireAll_eq]; exact .alt (List.mem_map_of_mem hm) (ih hσ)
  | rep _ ih => exact .rep (ih hσ)
  | look _ ih => exact .look (ih hσ)

theorem mentions_rewire {a : Ast} {n n' : List Byte} {j : Nat} (h : Mentions n a) (hσ : σ (ν n) = some (j, some n')) : Mentions n' (rewire σ ν a) := by
  induction h with
  | here => simp only [rewire, hσ]; exact .here
  | cap _ ih =>
    simp only [rewire]
    split
    · exact .cap ih
    · exact ih
  | set hm _ ih => simp only [rewire, rewireAll_eq]; exact .set (List.mem_map_of_mem hm) ih
  | neg _ ih => exact .neg ih
  | seq hm _ ih => simp only [rewire, rewireAll_eq]; exact .seq (List.mem_map_of_mem hm) ih
  | alt hm _ ih => simp only [rewire, rewireAll_eq]; exact .alt (List.mem_map_of_mem hm) ih
  | rep _ ih => exact .rep ih
  | look _ ih => exact .look ih

theorem mentions_invert {n : List Byte} {a : Ast} (h : Mentions n a) : Mentions n (invert a) := by
  induction h with
  | here => exact .here
  | cap _ ih => exact .cap ih
  | set hm _ ih => simp only [invert, invertAll_eq]; exact .set (List.mem_map_of_mem hm) ih
  | neg _ ih => exact .neg ih
  | seq hm _ ih => simp only [invert, invertAll_eq]; exact .seq (List.mem_reverse.2 (List.mem_map_of_mem hm)) ih
  | alt hm _ ih => simp only [invert, invertAll_eq]; exact .alt (List.mem_map_of_mem hm) ih
  | rep _ ih => exact .rep ih
  | @look d a h _ => cases d <;> exact .look h

/-- Whoever refers to a name of a usable regex refers to a group. -/
theorem ok_mentions {E : Env} {r : Nat} {a : Ast} {n : List Byte} (h : Ok E r a) (hm : Mentions n a) : E.names.count (some n) = 1 := by
  induction h with
  | set _ _ ih => cases hm with | set h1 h2 => exact ih _ h1 h2
  | neg _ _ ih => cases hm with | neg h2 => exact ih h2
  | seq _ _ ih => cases hm with | seq h1 h2 => exact ih _ h1 h2
  | alt _ _ ih => cases hm with | alt h1 h2 => exact ih _ h1 h2
  | cap _ _ _ ih => cases hm with | cap h2 => exact ih h2
  | repFin _ _ ih => cases hm with | rep h2 => exact ih h2
  | repInf _ ih => cases hm with | rep h2 => exact ih h2
  | ahead _ ih => cases hm with | look h2 => exact ih h2
  | behindTriv _ _ _ ih => cases hm with | look h2 => exact ih h2
  | behind _ _ ih => cases hm with | look h2 => exact ih (mentions_invert h2)
  | namedBackref h1 h2 => cases hm; exact h2
  | _ => cases hm

theorem exists_group {a : Ast} {n : GroupName} (h : n ∈ a.nameSpec) : ∃ k, HasGroup a k n := by
  obtain ⟨i, hi, he⟩ := List.getElem_of_mem h
  have hl : i < (groupIds a).length := by
    rw [length_groupIds, ← length_nameSpec]; exact hi
  refine ⟨(groupIds a)[i], ?_⟩
  rw [hasGroup_iff]
  have : i < ((groupIds a).zip a.nameSpec).length := by simp; omega
  have h2 := List.getElem_mem this
  rw [List.getElem_zip, he] at h2
  exact h2

/-- The names in the new regex mean the groups that they should mean. -/
theorem rewire_names {R R' : Regex} {cat : Cat} (hR : R.Ok cat) (hR' : R'.Ok cat) (he : R'.ast = rewire σ ν R.ast)
    (hν : ∀ k n, R.ast.nameSpec.count (some n) = 1 → HasGroup R.ast k (some n) → ν n = k) {n n' : List Byte} {j : Nat} (hm : Mentions n R.ast)
    (hj : σ (ν n) = some (j, some n')) : (nameIndex R'.names n').getD 0 = j := by
  have h1 : R.names.count (some n) = 1 := ok_mentions (hR []) hm
  have h1' : R.ast.nameSpec.count (some n) = 1 := by simpa [Regex.names] using h1
  have h2 : R'.names.count (some n') = 1 := ok_mentions (hR' []) (by rw [he]; exact mentions_rewire hm hj)
  obtain ⟨k, hk⟩ := exists_group (List.count_pos_iff.1 (by omega : 0 < R.ast.nameSpec.count (some n)))
  rw [hν k n h1' hk] at hj
  have h3 : HasGroup R'.ast j (some n') := by rw [he]; exact hasGroup_rewire hk hj
  unfold nameIndex
  rw [if_pos h2]
  exact idxOf_of_count h2 (ok_name (hR' []) h3)

/-! ### All groups stay -/

theorem all_congr_mem {α : Type} {l : List α} {f g : α → Bool} (h : ∀ b ∈ l, f b = g b) : l.all f = l.all g := by
  induction l with
  | nil => rfl
  | cons a l ih => simp only [List.all_cons, h a (by simp), ih (fun b hb => h b (List.mem_cons_of_mem _ hb))]


theorem triv_rewire {a : Ast} (h : ∀ k n, HasGroup a k n → (σ k).isSome = true) (hw : wf a = true) : triv (rewire σ ν a) = triv a := by
  induction a using ind with
  | seq l ih =>
    simp only [wf, wfAll_eq, Bool.and_eq_true, List.all_eq_true] at hw
    simp only [rewire, rewireAll_eq, triv, trivSingle_eq, List.length_map, List.all_map]
    congr 1
    exact all_congr_mem (fun b hb => ih b hb (fun k n hg => h k n (.seq hb hg)) (hw.2 b hb))
  | alt l ih =>
    simp only [wf, wfAll_eq, Bool.and_eq_true, List.all_eq_true] at hw
    simp only [rewire, rewireAll_eq, triv, trivAlt_eq, List.isEmpty_map, List.length_map, List.all_map]
    congr 1
    exact all_congr_mem (fun b hb => ih b hb (fun k n hg => h k n (.alt hb hg)) (hw.2 b hb))
  | cap id n a ih =>
    obtain ⟨⟨j, m⟩, hj⟩ := Option.isSome_iff_exists.1 (h id n .here)
    simp only [rewire, hj, triv]
  | neg a ih =>
    simp only [wf, Bool.and_eq_true] at hw
    by_cases ha : isAssertion a = true
    · simp only [rewire, triv, ha, isAssertion_rewire hw.2 ha]
    · have ht : triv a = true := by simpa [ha] using hw.1
      simp only [rewire, rewire_triv hw.2 ht]
  | rep m lo hi a ih =>
    have hw' : wf a = true := by cases hi <;> simp only [wf, Bool.and_eq_true] at hw <;> first | exact hw.2 | exact hw
    simp only [rewire, triv, ih (fun k n hg => h k n (.rep hg)) hw']
  | look d a ih => simp only [rewire, triv]
  | set l ih => simp only [rewire, triv]
  | backref k =>
    simp only [rewire]
    split <;> rfl
  | namedBackref n =>
    simp only [rewire]
    split <;> rfl
  | _ => simp only [rewire]

theorem branchesKept_of_all {a : Ast} (h : ∀ k n, HasGroup a k n → (σ k).isSome = true) (hw : wf a = true) : branchesKept σ ν a = true := by
  induction a using ind with
  | seq l ih =>
    simp only [wf, wfAll_eq, Bool.and_eq_true, List.all_eq_true] at hw
    simp only [branchesKept, branchesKeptAll_eq, List.all_eq_true]
    exact fun b hb => ih b hb (fun k n hg => h k n (.seq hb hg)) (hw.2 b hb)
  | set l ih =>
    simp only [wf, wfAll_eq, Bool.and_eq_true, List.all_eq_true] at hw
    simp only [branchesKept, branchesKeptAll_eq, List.all_eq_true]
    exact fun b hb => ih b hb (fun k n hg => h k n (.set hb hg)) (hw.2 b hb)
  | alt l ih =>
    simp only [wf, wfAll_eq, Bool.and_eq_true, List.all_eq_true] at hw
    rw [branchesKept, branchesKeptAll_eq, Bool.and_eq_true, List.all_eq_true, List.all_eq_true]
    refine ⟨fun b hb => ih b hb (fun k n hg => h k n (.alt hb hg)) (hw.2 b hb), fun b hb => ?_⟩
    rw [character_eq, character_eq, triv_rewire (fun k n hg => h k n (.alt hb hg)) (hw.2 b hb)]
    cases triv b <;> rfl
  | cap id n a ih => exact ih (fun k n hg => h k n (.cap hg)) hw
  | neg a ih =>
    simp only [wf, Bool.and_eq_true] at hw
    exact ih (fun k n hg => h k n (.neg hg)) hw.2
  | rep m lo hi a ih =>
    have hw' : wf a = true := by cases hi <;> simp only [wf, Bool.and_eq_true] at hw <;> first | exact hw.2 | exact hw
    exact ih (fun k n hg => h k n (.rep hg)) hw'
  | look d a ih => exact ih (fun k n hg => h k n (.look hg)) hw
  | _ => rfl

end Mregex
