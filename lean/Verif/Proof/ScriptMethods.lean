import Verif.Proof.ScriptMain
import Verif.Proof.Flatten

/-!
# The methods follow the scripts
-/

namespace Mregex
open Ast Spec

/-- A continuation that accepts some positions. -/
def accCont (acc : Nat → Bool) : Cont := fun q c => .ok ⟨q, acc q⟩ c

theorem success_acc : success = accCont (fun _ => true) := rfl
theorem equals_acc (t : Nat) : equals t = accCont (· == t) := rfl

theorem crel_acc {N : Nat} (acc : Nat → Bool) : CRel N (accCont acc) (accCont acc) := by
  intro q
  cases h : acc q with
  | true => exact ⟨.hit q (fun _ => .keep), fun c _ => by simp [Follows, Writes.app_keep, accCont, h]⟩
  | false => exact ⟨.miss (fun _ => .keep), fun c _ => by simp [Follows, Writes.app_keep, accCont, h]⟩

/-- All groups. -/
def notedAll (acc : Nat → Bool) (S : Script) (c : Ctx) : Ctx := c.mapIdx (fun k v => noted acc k S v)

theorem length_notedAll (acc : Nat → Bool) (S : Script) (c : Ctx) : (notedAll acc S c).length = c.length := by simp [notedAll]

theorem getElem?_notedAll (acc : Nat → Bool) (S : Script) (c : Ctx) (k : Nat) : (notedAll acc S c)[k]? = c[k]?.map (noted acc k S) := by
  simp [notedAll, List.getElem?_mapIdx]

theorem run_acc (acc : Nat → Bool) (S : Script) (c : Ctx) :
    runS (accCont acc) S c = match taken acc S with
      | some q => .ok ⟨q, true⟩ (notedAll acc S c)
      | none => .ok ⟨0, false⟩ (notedAll acc S c) := by
  induction S generalizing c with
  | nil =>
    have : notedAll acc [] c = c := by
      refine List.ext_getElem (by simp [notedAll]) (fun i h h' => by simp [notedAll, noted])
    simp only [runS, taken, this]
    rfl
  | cons t S ih =>
    cases t with
    | note i b e =>
      have : notedAll acc (.note i b e :: S) c = notedAll acc S (c.set i (some (b, e))) := by
        refine List.ext_getElem (by simp [notedAll]) (fun j h h' => ?_)
        simp only [notedAll, List.getElem_mapIdx, List.getElem_set, noted]
      simp only [runS, taken, ih, this]
    | cross i =>
      have : notedAll acc (.cross i :: S) c = notedAll acc S (clearCapture i c) := by
        refine List.ext_getElem (by simp [notedAll, clearCapture]) (fun j h h' => ?_)
        simp only [notedAll, clearCapture, List.getElem_mapIdx, List.getElem_modify, noted]
        congr 1
        split
        · generalize c[j]'_ = x; cases x <;> rfl
        · rfl
      simp only [runS, taken, ih, this]
    | offer q =>
      simp only [runS, accCont, Out.orElse, taken]
      cases h : acc q with
      | true =>
        have : notedAll acc (.offer q :: S) c = c := by
          refine List.ext_getElem (by simp [notedAll]) (fun i _ _ => by simp [notedAll, noted, h])
        simp [this]
      | false =>
        have : notedAll acc (.offer q :: S) c = notedAll acc S c := by
          refine List.ext_getElem (by simp [notedAll]) (fun i _ _ => by simp [notedAll, noted, h])
        simp only [Bool.false_eq_true, if_false, this]
        exact ih c

section
variable {E : Env}

/-- An attempt with a continuation that accepts some positions. -/
theorem mtch_acc {a : Ast} (hok : Ok E 0 a) (hb : noBackref a = true) {fuel : Nat} (hf : a.depth + E.inp.length + 1 ≤ fuel) {p : Nat}
    (hp : p ≤ E.inp.length) {c : Ctx} (hc : c.length = E.names.length) (acc : Nat → Bool) :
    ∃ q, mtch E fuel a 0 p c (accCont acc) = .ok ⟨q, (taken acc (script E.flags E.inp a true false p)).isSome⟩
        (notedAll acc (script E.flags E.inp a true false p) c) ∧
      ∀ q', taken acc (script E.flags E.inp a true false p) = some q' → q = q' := by
  obtain ⟨pl, h⟩ := mtch_script (N := E.names.length) rfl fuel a 0 hok hb hf p _ _ hp (fun q _ => crel_acc acc q)
  obtain ⟨h1, h2⟩ := h c hc
  have e : ((0 : Nat) % 2 == 0) = true := rfl
  rw [e, run_acc] at h2
  cases ht : taken acc (script E.flags E.inp a true false p) with
  | some q =>
    rw [ht] at h2
    cases pl with
    | hit q' w =>
      simp only [Follows] at h1 h2
      exact ⟨q, by rw [h1, ← h2]; rfl, fun q' e => by cases e; rfl⟩
    | miss w => simp [Follows] at h2
    | ub => simp [Follows] at h2
    | diverge => simp [Follows] at h2
  | none =>
    rw [ht] at h2
    cases pl with
    | hit q' w => simp [Follows] at h2
    | miss w =>
      obtain ⟨q, h1⟩ := h1
      obtain ⟨q', h2⟩ := h2
      simp only [Out.ok.injEq] at h2
      exact ⟨q, by dsimp only at h1; rw [h1, ← h2.2]; rfl, fun q' e => by cases e⟩
    | ub => simp [Follows] at h2
    | diverge => simp [Follows] at h2

/-- What a call returns. -/
def FollowsScripts (n : Nat) (g : Nat → Script) (M : Method) (cur : Nat) (c : Ctx) (o : Out) : Prop :=
  ∃ q c', o = .ok ⟨q, (scriptRange n g cur M).isSome⟩ c' ∧ c'.length = c.length ∧
    (∀ b e, scriptRange n g cur M = some (b, e) → q = e ∧ (0 < c.length → c'[0]? = some (some (b, e)))) ∧
    ∀ k, k ≠ 0 → c'[k]? = c[k]?.map (fun v => scriptGroup n g k cur v M)

theorem searchLoop_scripts {a : Ast} (hok : Ok E 0 a) (hb : noBackref a = true) {fuel : Nat} (hf : a.depth + E.inp.length + 1 ≤ fuel)
    {g : Nat → Script} (hg : g = script E.flags E.inp a true false) :
    ∀ k cur (c : Ctx), cur ≤ E.inp.length → c.length = E.names.length → k = E.inp.length - cur + 1 →
    ∃ q c', searchLoop E fuel a k cur c = .ok ⟨q, (searchRange g (List.range' cur k)).isSome⟩ c' ∧ c'.length = c.length ∧
      (∀ b e, searchRange g (List.range' cur k) = some (b, e) → q = e ∧ (0 < c.length → c'[0]? = some (some (b, e)))) ∧
      ∀ i, i ≠ 0 → c'[i]? = c[i]?.map (searchNoted g i (List.range' cur k)) := by
  intro k
  induction k with
  | zero => intro cur c _ _ h; omega
  | succ k ih =>
    intro cur c hcur hc hk
    subst hg
    obtain ⟨q, h1, h2⟩ := mtch_acc hok hb hf hcur hc (fun _ => true)
    unfold searchLoop
    rw [success_acc, h1]
    simp only [List.range'_succ, searchRange]
    cases ht : taken (fun _ => true) (script E.flags E.inp a true false cur) with
    | some q' =>
      obtain rfl := h2 q' ht
      simp only [Option.isSome_some, if_true]
      refine ⟨q, _, rfl, by simp [length_notedAll], ?_, fun i hi => ?_⟩
      · rintro b e he
        simp only [Option.some.injEq, Prod.mk.injEq] at he
        obtain ⟨rfl, rfl⟩ := he
        refine ⟨rfl, fun h0 => ?_⟩
        rw [List.getElem?_set_self (by rw [length_notedAll]; exact h0)]
      · rw [List.getElem?_set_ne (fun e => hi e.symm), getElem?_notedAll]
        cases c[i]? with
        | none => rfl
        | some v => simp only [Option.map_some, searchNoted, ht]
    | none =>
      simp only [Option.isSome_none, Bool.false_eq_true, if_false]
      by_cases he : cur = E.inp.length
      · have hk0 : k = 0 := by omega
        subst hk0
        rw [if_pos he]
        refine ⟨cur, _, rfl, length_notedAll .., ?_, fun i hi => ?_⟩
        · intro b e he; simp [searchRange] at he
        · rw [getElem?_notedAll]
          cases c[i]? with
          | none => rfl
          | some v => simp only [Option.map_some, searchNoted, ht, List.range'_zero]
      · rw [if_neg he]
        obtain ⟨q', c', h3, h4, h5, h6⟩ := ih (cur + 1) (notedAll (fun _ => true) (script E.flags E.inp a true false cur) c) (by omega) (by rw [length_notedAll]; exact hc) (by omega)
        refine ⟨q', c', h3, by rw [h4, length_notedAll (fun _ => true) _ c], fun b e hbe => ?_, fun i hi => ?_⟩
        · have := h5 b e hbe
          rwa [length_notedAll] at this
        · rw [h6 i hi, getElem?_notedAll]
          cases c[i]? with
          | none => rfl
          | some v => simp only [Option.map_some, searchNoted]; rw [ht]

theorem invoke_scripts {a : Ast} (hok : Ok E 0 a) (hb : noBackref a = true) (M : Method) {fuel : Nat}
    (hf : a.depth + E.inp.length + 1 ≤ fuel) {cur : Nat} (hcur : cur ≤ E.inp.length) {c : Ctx} (hc : c.length = E.names.length) :
    FollowsScripts E.inp.length (script E.flags E.inp a true false) M cur c (M.invoke E fuel a cur c) := by
  have key : ∀ acc, ∃ q c', setGroup0 cur (mtch E fuel a 0 cur c (accCont acc)) =
      .ok ⟨q, ((taken acc (script E.flags E.inp a true false cur)).map (cur, ·)).isSome⟩ c' ∧ c'.length = c.length ∧
      (∀ b e, (taken acc (script E.flags E.inp a true false cur)).map (cur, ·) = some (b, e) →
        q = e ∧ (0 < c.length → c'[0]? = some (some (b, e)))) ∧
      ∀ k, k ≠ 0 → c'[k]? = c[k]?.map (noted acc k (script E.flags E.inp a true false cur)) := by
    intro acc
    obtain ⟨q, h1, h2⟩ := mtch_acc hok hb hf hcur hc acc
    rw [h1]
    refine ⟨q, (notedAll acc (script E.flags E.inp a true false cur) c).set 0 (some (cur, q)), by simp [setGroup0],
      by simp [length_notedAll], fun b e he => ?_, fun k hk => ?_⟩
    · obtain ⟨q', h3, h4⟩ := Option.map_eq_some_iff.1 he
      obtain rfl := h2 q' h3
      simp only [Prod.mk.injEq] at h4
      obtain ⟨rfl, rfl⟩ := h4
      exact ⟨rfl, fun h0 => by rw [List.getElem?_set_self (by rw [length_notedAll]; exact h0)]⟩
    · rw [List.getElem?_set_ne (fun e => hk e.symm), getElem?_notedAll]
  cases M with
  | «match» => exact key _
  | matchPrefix => exact key _
  | search =>
    have := searchLoop_scripts hok hb hf rfl (E.inp.length - cur + 1) cur c hcur hc rfl
    have e : E.inp.length - cur + 1 = E.inp.length + 1 - cur := by omega
    unfold FollowsScripts Method.invoke searchMethod scriptRange scriptGroup
    rw [← e]
    exact this

end
end Mregex
