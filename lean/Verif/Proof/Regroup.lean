import Verif.Proof.ScriptMethods
import Verif.Spec.Regroup
import Verif.Model.Generator
import Verif.Proof.Variants

/-!
# Other groups
-/

namespace Mregex
open Ast Spec

variable {σ : Nat → Option (Nat × GroupName)}

theorem regroupAll_eq (l : List Ast) : regroupAll σ l = l.map (regroup σ) := by
  induction l with
  | nil => rfl
  | cons a l ih => simp [regroupAll, ih]

theorem map_id_of {l : List Ast} {f : Ast → Ast} (h : ∀ a ∈ l, f a = a) : l.map f = l := by
  induction l with
  | nil => rfl
  | cons a l ih => simp only [List.map_cons, h a (by simp), ih (fun b hb => h b (List.mem_cons_of_mem _ hb))]

/-- Characters have no groups. -/
theorem regroup_triv {a : Ast} (hw : wf a = true) (ht : triv a = true) : regroup σ a = a := by
  induction a using ind with
  | set l ih =>
    simp only [wf, wfAll_eq, Bool.and_eq_true, List.all_eq_true] at hw
    simp only [regroup, regroupAll_eq]
    rw [map_id_of (fun b hb => ih b hb (hw.2 b hb) (hw.1 b hb))]
  | neg a ih =>
    simp only [triv, Bool.not_eq_true'] at ht
    simp only [wf, ht, Bool.or_false, Bool.and_eq_true] at hw
    simp only [regroup, ih hw.2 hw.1]
  | seq l ih =>
    simp only [triv, trivSingle_eq, Bool.and_eq_true, List.all_eq_true] at ht
    simp only [wf, wfAll_eq, Bool.and_eq_true, List.all_eq_true] at hw
    simp only [regroup, regroupAll_eq]
    rw [map_id_of (fun b hb => ih b hb (hw.2 b hb) (ht.2 b hb))]
  | alt l ih =>
    simp only [triv, trivAlt_eq, Bool.and_eq_true, List.all_eq_true] at ht
    simp only [wf, wfAll_eq, Bool.and_eq_true, List.all_eq_true] at hw
    simp only [regroup, regroupAll_eq]
    rw [map_id_of (fun b hb => ih b hb (hw.2 b hb) (ht.2 b hb))]
  | rep m lo hi a ih =>
    simp only [triv, Bool.and_eq_true, beq_iff_eq] at ht
    obtain ⟨⟨rfl, rfl⟩, ht⟩ := ht
    simp only [wf, Bool.and_eq_true] at hw
    simp only [regroup, ih hw.2 ht]
  | cap id n a ih => simp [triv] at ht
  | look d a ih => simp [triv] at ht
  | _ => simp only [regroup]

theorem regroup_invert (a : Ast) : regroup σ (invert a) = invert (regroup σ a) := by
  induction a using ind with
  | seq l ih =>
    simp only [invert, regroup, regroupAll_eq, invertAll_eq, List.map_reverse, List.map_map]
    congr 2
    exact List.map_congr_left ih
  | alt l ih =>
    simp only [invert, regroup, regroupAll_eq, invertAll_eq, List.map_map]
    congr 1
    exact List.map_congr_left ih
  | set l ih =>
    simp only [invert, regroup, regroupAll_eq, invertAll_eq, List.map_map]
    congr 1
    exact List.map_congr_left ih
  | cap id n a ih =>
    simp only [invert, regroup]
    cases σ id with
    | none => exact ih
    | some x => simp only [invert, ih]
  | rep m lo hi a ih => simp only [invert, regroup, ih]
  | neg a ih => simp only [invert, regroup, ih]
  | look d a ih => cases d <;> simp only [invert, regroup]
  | _ => simp only [invert, regroup]

theorem isAssertion_regroup {a : Ast} (hw : wf a = true) (h : isAssertion a = true) : isAssertion (regroup σ a) = true := by
  induction a using ind with
  | seq l ih =>
    simp only [isAssertion_seq, Bool.and_eq_true, List.all_eq_true] at h
    simp only [wf, wfAll_eq, Bool.and_eq_true, List.all_eq_true] at hw
    simp only [regroup, regroupAll_eq, isAssertion_seq, List.length_map, List.all_map, Bool.and_eq_true, List.all_eq_true]
    exact ⟨h.1, fun b hb => ih b hb (hw.2 b hb) (h.2 b hb)⟩
  | alt l ih =>
    simp only [isAssertion_alt, Bool.and_eq_true, List.all_eq_true] at h
    simp only [wf, wfAll_eq, Bool.and_eq_true, List.all_eq_true] at hw
    simp only [regroup, regroupAll_eq, isAssertion_alt, List.length_map, List.all_map, Bool.and_eq_true, List.all_eq_true]
    exact ⟨h.1, fun b hb => ih b hb (hw.2 b hb) (h.2 b hb)⟩
  | neg a ih =>
    simp only [isAssertion] at h
    simp only [wf, Bool.and_eq_true] at hw
    simp only [regroup, isAssertion]
    exact ih hw.2 h
  | rep m lo hi a ih =>
    simp only [isAssertion, Bool.and_eq_true] at h
    have hw' : wf a = true := by cases hi <;> simp only [wf, Bool.and_eq_true] at hw <;> first | exact hw.2 | exact hw
    simp only [regroup, isAssertion, Bool.and_eq_true]
    exact ⟨h.1, ih hw' h.2⟩
  | cap id n a ih => simp [isAssertion] at h
  | look d a ih => simp [regroup, isAssertion]
  | set l ih => simp [isAssertion] at h
  | _ => simpa only [regroup] using h

/-- Usability does not depend on groups, as long as the new numbers and names exist. -/
theorem ok_regroup {E E' : Env} (hf : E'.flags = E.flags) (hc : E'.cat = E.cat) {r : Nat} {a : Ast}
    (hn : ∀ id j n, id ∈ groupIds a → σ id = some (j, n) → E'.names[j]? = some n) (hb : noBackref a = true) (h : Ok E r a) :
    Ok E' r (regroup σ a) := by
  have hmem : ∀ (l : List Ast) a id, a ∈ l → id ∈ groupIds a → id ∈ groupIdsAll l := by
    intro l
    induction l with
    | nil => intro a id h; simp at h
    | cons b l ih =>
      intro a id h1 h2
      simp only [groupIdsAll, List.mem_append]
      rcases List.mem_cons.1 h1 with rfl | h1
      · exact .inl h2
      · exact .inr (ih a id h1 h2)
  induction h with
  | empty => exact .empty
  | lit => exact .lit
  | range h => exact .range h
  | wildcard => exact .wildcard
  | @set r l h1 h2 ih =>
    simp only [noBackref, noBackrefAll_eq, List.all_eq_true] at hb
    simp only [groupIds] at hn
    simp only [regroup, regroupAll_eq]
    have e : ∀ a ∈ l, regroup σ a = a := fun a ha => regroup_triv (wf_of_ok (h2 a ha)) (h1 a ha)
    rw [map_id_of e]
    refine .set h1 (fun a ha => ?_)
    have := ih a ha (fun id j n hid => hn id j n (hmem l a id ha hid)) (hb a ha)
    rwa [e a ha] at this
  | @neg r a h1 h2 ih =>
    simp only [noBackref] at hb
    simp only [groupIds] at hn
    simp only [regroup]
    refine .neg ?_ (ih hn hb)
    rcases h1 with h1 | h1
    · left; rw [regroup_triv (wf_of_ok h2) h1]; exact h1
    · exact .inr (isAssertion_regroup (wf_of_ok h2) h1)
  | @seq r l h1 h2 ih =>
    simp only [noBackref, noBackrefAll_eq, List.all_eq_true] at hb
    simp only [groupIds] at hn
    simp only [regroup, regroupAll_eq]
    refine .seq (by simpa using h1) (fun b hb' => ?_)
    obtain ⟨a, ha, rfl⟩ := List.mem_map.1 hb'
    exact ih a ha (fun id j n hid => hn id j n (hmem l a id ha hid)) (hb a ha)
  | @alt r l h1 h2 ih =>
    simp only [noBackref, noBackrefAll_eq, List.all_eq_true] at hb
    simp only [groupIds] at hn
    simp only [regroup, regroupAll_eq]
    refine .alt (by simpa using h1) (fun b hb' => ?_)
    obtain ⟨a, ha, rfl⟩ := List.mem_map.1 hb'
    exact ih a ha (fun id j n hid => hn id j n (hmem l a id ha hid)) (hb a ha)
  | @cap r id name a h1 h2 h3 ih =>
    simp only [noBackref] at hb
    simp only [groupIds] at hn
    have := ih (fun id j n hid => hn id j n (List.mem_cons_of_mem _ hid)) hb
    simp only [regroup]
    cases hs : σ id with
    | none => exact this
    | some x =>
      obtain ⟨j, n⟩ := x
      exact .cap (hn id j n (by simp) hs) h2 this
  | repFin h _ ih => simp only [noBackref] at hb; simp only [groupIds] at hn; simp only [regroup]; exact .repFin h (ih hn hb)
  | repInf _ ih => simp only [noBackref] at hb; simp only [groupIds] at hn; simp only [regroup]; exact .repInf (ih hn hb)
  | ahead _ ih => simp only [noBackref] at hb; simp only [groupIds] at hn; simp only [regroup]; exact .ahead (ih hn hb)
  | behindTriv h1 h2 h3 ih =>
    simp only [noBackref] at hb
    simp only [groupIds] at hn
    have := ih hn hb
    simp only [regroup]
    rw [regroup_triv (wf_of_ok h3) h2] at this ⊢
    exact .behindTriv (by rw [hc]; exact h1) h2 this
  | behind h1 _ ih =>
    simp only [noBackref] at hb
    simp only [groupIds] at hn
    simp only [regroup]
    refine .behind (by rw [hc]; exact h1) ?_
    rw [← regroup_invert]
    exact ih (fun id j n hid => hn id j n ((mem_groupIds_invert _ _).1 hid)) (by rw [noBackref_invert]; exact hb)
  | bol h => exact .bol (by rw [hf, hc]; exact h)
  | boi => exact .boi
  | eol => exact .eol
  | eoi => exact .eoi
  | wordB h => exact .wordB (by rw [hc]; exact h)
  | backref _ _ => simp [noBackref] at hb
  | namedBackref _ _ => simp [noBackref] at hb

/-! ### Scripts -/

/-- The script with the notes for other groups. -/
def renote (σ : Nat → Option (Nat × GroupName)) (S : Script) : Script :=
  S.flatMap (fun t => match t with
    | .offer q => [.offer q]
    | .note k b e => match σ k with | some (j, _) => [.note j b e] | none => []
    | .cross k => match σ k with | some (j, _) => [.cross j] | none => [])

theorem renote_append (S T : Script) : renote σ (S ++ T) = renote σ S ++ renote σ T := by simp [renote]
theorem renote_cons (t : Step) (S : Script) : renote σ (t :: S) = renote σ [t] ++ renote σ S := renote_append [t] S
theorem renote_offers (l : List Nat) : renote σ (offers l) = offers l := by
  induction l with
  | nil => rfl
  | cons a l ih => show renote σ (.offer a :: offers l) = _; rw [renote_cons, ih]; rfl

/-- There are no offers among new notes. -/
theorem renote_step {t : Step} (h : ∀ q, t ≠ .offer q) :
    renote σ [t] = [] ∨ ∃ t', renote σ [t] = [t'] ∧ ∀ q, t' ≠ .offer q := by
  cases t with
  | offer q => exact absurd rfl (h q)
  | note k b e =>
    simp only [renote, List.flatMap_cons, List.flatMap_nil, List.append_nil]
    cases σ k with
    | none => exact .inl rfl
    | some x => exact .inr ⟨_, rfl, by simp⟩
  | cross k =>
    simp only [renote, List.flatMap_cons, List.flatMap_nil, List.append_nil]
    cases σ k with
    | none => exact .inl rfl
    | some x => exact .inr ⟨_, rfl, by simp⟩

theorem proceed_cons (t : Step) (S : Script) (g : Nat → Script) : proceed (t :: S) g = proceed [t] g ++ proceed S g := proceed_append [t] S g
theorem proceed_step {t : Step} (h : ∀ q, t ≠ .offer q) (g : Nat → Script) : proceed [t] g = [t] := by
  cases t <;> first | rfl | exact absurd rfl (h _)
theorem commit_step {t : Step} (h : ∀ q, t ≠ .offer q) (f : Nat → Script) (T S : Script) : Spec.commit f T (t :: S) = t :: Spec.commit f T S := by
  cases t <;> first | rfl | exact absurd rfl (h _)
theorem except_step {t : Step} (h : ∀ q, t ≠ .offer q) (p : Nat) (S : Script) : except p (t :: S) = t :: except p S := by
  cases t with
  | offer q => exact absurd rfl (h q)
  | _ => simp [except]

theorem step_cases (t : Step) : (∃ q, t = .offer q) ∨ ∀ q, t ≠ .offer q := by
  cases t with
  | offer q => exact .inl ⟨q, rfl⟩
  | _ => exact .inr (by simp)

theorem renote_proceed (S : Script) (g : Nat → Script) : renote σ (proceed S g) = proceed (renote σ S) (fun q => renote σ (g q)) := by
  induction S with
  | nil => rfl
  | cons t S ih =>
    rw [proceed_cons, renote_append, ih, renote_cons, proceed_append]
    congr 1
    rcases step_cases t with ⟨q, rfl⟩ | h
    · show renote σ (proceed [.offer q] g) = proceed [.offer q] _
      simp [proceed]
    · rw [proceed_step h]
      rcases renote_step (σ := σ) h with h' | ⟨t', h', h2⟩
      · rw [h']; rfl
      · rw [h', proceed_step h2]

theorem renote_commit (f : Nat → Script) (T S : Script) :
    renote σ (Spec.commit f T S) = Spec.commit (fun q => renote σ (f q)) (renote σ T) (renote σ S) := by
  induction S with
  | nil => rfl
  | cons t S ih =>
    rcases step_cases t with ⟨q, rfl⟩ | h
    · rfl
    · rw [commit_step h, renote_cons, renote_cons (S := S), ih]
      rcases renote_step (σ := σ) h with h' | ⟨t', h', h2⟩
      · rw [h']; rfl
      · rw [h']; exact (commit_step h2 ..).symm

theorem renote_except (p : Nat) (S : Script) : renote σ (except p S) = except p (renote σ S) := by
  induction S with
  | nil => rfl
  | cons t S ih =>
    rcases step_cases t with ⟨q, rfl⟩ | h
    · rw [renote_cons]
      show _ = except p (.offer q :: renote σ S)
      by_cases h : q = p
      · subst h
        have e : ∀ S, except q (.offer q :: S) = except q S := by simp [except]
        rw [e, e, ih]
      · have e : ∀ S, except p (.offer q :: S) = .offer q :: except p S := by simp [except, h]
        rw [e, e, ← ih]; rfl
    · rw [except_step h, renote_cons, renote_cons (S := S), ih]
      rcases renote_step (σ := σ) h with h' | ⟨t', h', h2⟩
      · rw [h']; rfl
      · rw [h']; exact (except_step h2 ..).symm

section
variable {g g' : Nat → Script} (hg : ∀ q, g' q = renote σ (g q))
include hg

theorem timesS_renote (k p : Nat) : timesS g' k p = renote σ (timesS g k p) := by
  induction k generalizing p with
  | zero => rfl
  | succ k ih => simp only [timesS, renote_proceed, hg, funext ih]

theorem greedyS_renote (k p : Nat) : greedyS g' k p = renote σ (greedyS g k p) := by
  induction k generalizing p with
  | zero => rfl
  | succ k ih => simp only [greedyS, renote_append, renote_proceed, hg, funext ih]; rfl

theorem lazyS_renote (k p : Nat) : lazyS g' k p = renote σ (lazyS g k p) := by
  induction k generalizing p with
  | zero => rfl
  | succ k ih => rw [lazyS, lazyS, renote_cons, renote_proceed, hg, funext ih]; rfl

theorem possessiveS_renote (k p : Nat) : possessiveS g' k p = renote σ (possessiveS g k p) := by
  induction k generalizing p with
  | zero => rfl
  | succ k ih => simp only [possessiveS, renote_commit, hg, funext ih]; rfl

theorem greedyStarS_renote (k p : Nat) : greedyStarS g' k p = renote σ (greedyStarS g k p) := by
  induction k generalizing p with
  | zero => rfl
  | succ k ih => simp only [greedyStarS, renote_append, renote_proceed, renote_except, hg, funext ih]; rfl

theorem lazyStarS_renote (k p : Nat) : lazyStarS g' k p = renote σ (lazyStarS g k p) := by
  induction k generalizing p with
  | zero => rfl
  | succ k ih => rw [lazyStarS, lazyStarS, renote_cons, renote_proceed, renote_except, hg, funext ih]; rfl

theorem possessiveStarS_renote (k p : Nat) : possessiveStarS g' k p = renote σ (possessiveStarS g k p) := by
  induction k generalizing p with
  | zero => rfl
  | succ k ih =>
    simp only [possessiveStarS, renote_commit, hg, funext ih]
    refine congrArg (fun F => Spec.commit F [.offer p] (renote σ (g p))) (funext (fun q => ?_))
    split <;> rfl

theorem extraS_renote (n : Nat) (m : Mode) (u : Bool) (k : Option Nat) (p : Nat) : extraS n m u g' k p = renote σ (extraS n m u g k p) := by
  cases k <;> cases m <;> cases u <;>
    simp [extraS, greedyS_renote hg, lazyS_renote hg, possessiveS_renote hg, greedyStarS_renote hg, lazyStarS_renote hg, possessiveStarS_renote hg]

theorem quantifiedS_renote (n : Nat) (m : Mode) (u : Bool) (lo : Nat) (hi : Bound) (p : Nat) :
    quantifiedS n m u lo hi g' p = renote σ (quantifiedS n m u lo hi g p) := by
  have e := fun k => funext (fun p => extraS_renote hg n m u k p)
  cases m with
  | possessive =>
    simp only [quantifiedS, renote_proceed, renote_commit, e, timesS_renote hg]
    rfl
  | greedy => simp only [quantifiedS, renote_proceed, e, timesS_renote hg]
  | lazy => simp only [quantifiedS, renote_proceed, e, timesS_renote hg]

end

theorem script_regroup {a : Ast} (hw : wf a = true) (f : Flags) (s : List Byte) (fwd inv : Bool) (p : Nat) :
    script f s (regroup σ a) fwd inv p = renote σ (script f s a fwd inv p) := by
  induction a using ind generalizing fwd inv p with
  | neg a ih =>
    simp only [wf, Bool.and_eq_true] at hw
    by_cases ha : isAssertion a = true
    · simp only [regroup, script, assertion_eq, ha, isAssertion_regroup hw.2 ha, if_true, renote_commit, ih hw.2]
      rfl
    · have ht : triv a = true := by simpa [ha] using hw.1
      simp only [regroup, regroup_triv hw.2 ht, script, assertion_eq, if_neg ha, renote_offers]
  | seq l ih =>
    simp only [wf, wfAll_eq, Bool.and_eq_true, List.all_eq_true] at hw
    replace hw := hw.2
    simp only [regroup, script, regroupAll_eq]
    induction l generalizing p with
    | nil => rfl
    | cons a l ihl =>
      have ihl := funext (fun p => ihl (fun b hb => ih b (List.mem_cons_of_mem _ hb)) p (fun b hb => hw b (List.mem_cons_of_mem _ hb)))
      have ha := fun p => ih a (by simp) (hw a (by simp)) fwd inv p
      simp only [List.map_cons, scriptAll, ihl, funext ha]
      split <;> rw [renote_proceed]
  | alt l ih =>
    simp only [wf, wfAll_eq, Bool.and_eq_true, List.all_eq_true] at hw
    replace hw := hw.2
    simp only [regroup, script, regroupAll_eq]
    induction l with
    | nil => rfl
    | cons a l ihl =>
      simp only [List.map_cons, scriptAny, renote_append, ih a (by simp) (hw a (by simp)),
        ihl (fun b hb => ih b (List.mem_cons_of_mem _ hb)) (fun b hb => hw b (List.mem_cons_of_mem _ hb))]
  | cap id n a ih =>
    simp only [wf] at hw
    simp only [regroup, script, renote_append, renote_proceed]
    cases hs : σ id with
    | none =>
      have e : (fun q => renote σ [if fwd = true then Step.note id p q else Step.note id q p, Step.offer q]) = fun q => [.offer q] := by
        funext q; cases fwd <;> simp [renote, hs]
      have e2 : renote σ [.cross id] = [] := by simp [renote, hs]
      rw [e, e2, proceed_offer, List.append_nil]
      exact ih hw fwd inv p
    | some x =>
      obtain ⟨j, nm⟩ := x
      have e : (fun q => renote σ [if fwd = true then Step.note id p q else Step.note id q p, Step.offer q]) =
          fun q => [if fwd = true then Step.note j p q else Step.note j q p, Step.offer q] := by
        funext q; cases fwd <;> simp [renote, hs]
      have e2 : renote σ [.cross id] = [.cross j] := by simp [renote, hs]
      rw [e, e2]
      simp only [script, ih hw fwd inv p]
  | rep m lo hi a ih =>
    have hw' : wf a = true := by cases hi <;> simp only [wf, Bool.and_eq_true] at hw <;> first | exact hw.2 | exact hw
    simp only [regroup, script]
    exact quantifiedS_renote (fun q => ih hw' fwd inv q) ..
  | look d a ih =>
    simp only [wf] at hw
    simp only [regroup, script]
    split <;> rw [renote_commit, ih hw] <;> rfl
  | set l ih =>
    have : regroup σ (.set l) = .set l := regroup_triv hw rfl
    rw [this]; simp only [script, renote_offers]
  | _ => simp only [regroup, script, renote_offers]

theorem taken_renote (acc : Nat → Bool) (S : Script) : taken acc (renote σ S) = taken acc S := by
  induction S with
  | nil => rfl
  | cons t S ih =>
    rw [renote_cons]
    cases t with
    | offer q =>
      show taken acc (.offer q :: renote σ S) = _
      simp only [taken, ih]
    | note k b e =>
      simp only [taken, ← ih]
      cases hs : σ k with
      | none => simp [renote, hs]
      | some x => simp [renote, hs, taken]
    | cross k =>
      simp only [taken, ← ih]
      cases hs : σ k with
      | none => simp [renote, hs]
      | some x => simp [renote, hs, taken]

theorem noted_renote (hσ : Renumbering σ) {k j : Nat} {n : GroupName} (hk : σ k = some (j, n)) (acc : Nat → Bool) (S : Script) (v : Cap) :
    noted acc j (renote σ S) v = noted acc k S v := by
  have hj : ∀ i j' n', σ i = some (j', n') → (j' = j ↔ i = k) := by
    intro i j' n' h
    constructor
    · rintro rfl; exact hσ.1 _ _ _ _ _ h hk
    · rintro rfl; rw [hk] at h; cases h; rfl
  induction S generalizing v with
  | nil => rfl
  | cons t S ih =>
    rw [renote_cons]
    cases t with
    | offer q =>
      show noted acc j (.offer q :: renote σ S) v = _
      simp only [noted, ih]
    | note i b e =>
      cases hs : σ i with
      | none =>
        have : i ≠ k := by rintro rfl; rw [hk] at hs; cases hs
        simp only [noted, if_neg this, ← ih]
        simp [renote, hs]
      | some x =>
        obtain ⟨j', n'⟩ := x
        have h := hj i j' n' hs
        have e : renote σ [.note i b e] = [.note j' b e] := by simp [renote, hs]
        rw [e]
        simp only [List.singleton_append, noted, ih]
        by_cases hik : i = k
        · rw [if_pos hik, if_pos (h.2 hik)]
        · rw [if_neg hik, if_neg (fun e => hik (h.1 e))]
    | cross i =>
      cases hs : σ i with
      | none =>
        have : i ≠ k := by rintro rfl; rw [hk] at hs; cases hs
        simp only [noted, if_neg this, ← ih]
        simp [renote, hs]
      | some x =>
        obtain ⟨j', n'⟩ := x
        have h := hj i j' n' hs
        have e : renote σ [.cross i] = [.cross j'] := by simp [renote, hs]
        rw [e]
        simp only [List.singleton_append, noted, ih]
        by_cases hik : i = k
        · rw [if_pos hik, if_pos (h.2 hik)]
        · rw [if_neg hik, if_neg (fun e => hik (h.1 e))]

section
variable {g g' : Nat → Script} (hg : ∀ q, g' q = renote σ (g q))
include hg

theorem scriptRange_renote (n cur : Nat) (M : Method) : scriptRange n g' cur M = scriptRange n g cur M := by
  cases M with
  | «match» => simp only [scriptRange, hg, taken_renote]
  | matchPrefix => simp only [scriptRange, hg, taken_renote]
  | search =>
    simp only [scriptRange]
    generalize List.range' cur (n + 1 - cur) = l
    induction l with
    | nil => rfl
    | cons i l ih => simp only [searchRange, hg, taken_renote, ih]

theorem scriptGroup_renote (hσ : Renumbering σ) {k j : Nat} {nm : GroupName} (hk : σ k = some (j, nm)) (n cur : Nat) (v : Cap) (M : Method) :
    scriptGroup n g' j cur v M = scriptGroup n g k cur v M := by
  cases M with
  | «match» => simp only [scriptGroup, hg, noted_renote hσ hk]
  | matchPrefix => simp only [scriptGroup, hg, noted_renote hσ hk]
  | search =>
    simp only [scriptGroup]
    generalize List.range' cur (n + 1 - cur) = l
    induction l generalizing v with
    | nil => rfl
    | cons i l ih => simp only [searchNoted, hg, taken_renote, noted_renote hσ hk, ih]

end
end Mregex
