import Verif.Proof.ProcMain
import Verif.Proof.ScriptMethods
import Verif.Proof.MethodLemmas
import Verif.Proof.Named
import Verif.Proof.Numbering

/-!
# The methods carry out the procedures
-/

namespace Mregex
open Ast Spec

/-- The captures of `N` groups. -/
def ctxOf (N : Nat) (h : Notes) : Ctx := (List.range N).map h

theorem length_ctxOf (N : Nat) (h : Notes) : (ctxOf N h).length = N := by simp [ctxOf]

theorem getElem?_ctxOf (N : Nat) (h : Notes) (i : Nat) : (ctxOf N h)[i]? = if i < N then some (h i) else none := by
  unfold ctxOf
  rw [List.getElem?_map]
  by_cases hi : i < N
  · rw [if_pos hi, List.getElem?_range hi]; rfl
  · rw [if_neg hi, List.getElem?_eq_none (by simpa using hi)]; rfl

theorem ctxOf_set (N : Nat) (h : Notes) (i : Nat) (v : Cap) : (ctxOf N h).set i v = ctxOf N (h.put i v) := by
  refine List.ext_getElem? (fun j => ?_)
  rw [getElem?_ctxOf]
  by_cases hj : j < N
  · rw [if_pos hj]
    by_cases hji : j = i
    · subst hji
      rw [List.getElem?_set_self (by rw [length_ctxOf]; exact hj)]
      simp [Notes.put]
    · rw [List.getElem?_set_ne (fun e => hji e.symm), getElem?_ctxOf, if_pos hj]
      simp [Notes.put, hji]
  · rw [if_neg hj, List.getElem?_eq_none (by simp [length_ctxOf]; omega)]

theorem ctxOf_clear (N : Nat) (h : Notes) (i : Nat) : clearCapture i (ctxOf N h) = ctxOf N (h.put i ((h i).map (fun x => (x.1, x.1)))) := by
  refine List.ext_getElem? (fun j => ?_)
  rw [getElem?_ctxOf]
  unfold clearCapture
  rw [List.getElem?_modify, getElem?_ctxOf]
  by_cases hj : j < N
  · simp only [if_pos hj]
    by_cases hji : i = j
    · subst hji
      simp only [if_true, Notes.put, Option.map_some]
      cases h i <;> rfl
    · have hji' : ¬ j = i := fun e => hji e.symm
      simp [hji, hji', Notes.put]
  · simp [hj]

theorem ctxOf_init (names : List GroupName) : initCtx names = ctxOf names.length (fun _ => none) := by
  unfold initCtx ctxOf
  refine List.ext_getElem (by simp) (fun i _ _ => by simp)

/-- Running a procedure is following it, unless it recalls a group that does not exist. -/
theorem run_follow (N : Nat) (acc : Nat → Bool) (P : Proc) (h : Notes) :
    runP (accCont acc) P (ctxOf N h) = .ub ∨
      ∃ q, runP (accCont acc) P (ctxOf N h) = .ok ⟨q, (P.follow acc h).1.isSome⟩ (ctxOf N (P.follow acc h).2) ∧
        ∀ q', (P.follow acc h).1 = some q' → q = q' := by
  induction P generalizing h with
  | done => exact .inr ⟨0, rfl, fun q' e => by cases e⟩
  | note i b e P ih =>
    simp only [runP, ctxOf_set, Proc.follow]
    exact ih _
  | cross i P ih =>
    simp only [runP, ctxOf_clear, Proc.follow]
    exact ih _
  | offer q P ih =>
    simp only [runP, accCont, Out.orElse, Proc.follow]
    cases ha : acc q with
    | true => exact .inr ⟨q, by simp, fun q' e => by simpa using e⟩
    | false => simpa using ih h
  | recall i f ih =>
    simp only [runP, getElem?_ctxOf, Proc.follow]
    by_cases hi : i < N
    · simp only [if_pos hi]; exact ih _ h
    · simp only [if_neg hi]; exact .inl trivial

section
variable {E : Env} {ν : List Byte → Nat}

/-- An attempt with a continuation that accepts some positions. -/
theorem mtch_follow {a : Ast} (hok : Ok E 0 a) (hν : ∀ n id, nameIndex E.names n = some id → ν n = id) {fuel : Nat}
    (hf : a.depth + E.inp.length + 1 ≤ fuel) {p : Nat} (hp : p ≤ E.inp.length) (h : Notes) (acc : Nat → Bool) :
    ∃ q, mtch E fuel a 0 p (ctxOf E.names.length h) (accCont acc) =
        .ok ⟨q, ((proc E.flags E.inp ν a 0 false p).follow acc h).1.isSome⟩ (ctxOf E.names.length ((proc E.flags E.inp ν a 0 false p).follow acc h).2) ∧
      ∀ q', ((proc E.flags E.inp ν a 0 false p).follow acc h).1 = some q' → q = q' := by
  have hlike : ∀ q, LikeF E.names.length (accCont acc q) (accCont acc q) := fun q c hc => ⟨rfl, fun _ => rfl, rfl, hc⟩
  have hd := mtch_proc (N := E.names.length) rfl hν fuel a 0 hok hf p (accCont acc) (accCont acc) hp (fun q _ => hlike q)
    (ctxOf E.names.length h) (length_ctxOf _ _)
  have hs := mtch_safe (E := E) (I := fun c => c.length = E.names.length) (fun _ h => h) fuel a 0 hok hf capClosed_len p p
    (ctxOf E.names.length h) (accCont acc) (fun _ _ => True) (.refl hp) (length_ctxOf _ _) (fun q c' hq hc' => by
      simp only [accCont, Post]
      split
      · trivial
      · exact ⟨over_reach hp hq, hc'⟩)
  dsimp only at hd
  generalize mtch E fuel a 0 p (ctxOf E.names.length h) (accCont acc) = o at hd hs
  rcases run_follow E.names.length acc (proc E.flags E.inp ν a 0 false p) h with hu | ⟨q, hq, hq'⟩
  · rw [hu] at hd
    match o, hd with
    | .ub, _ => exact False.elim hs
  · rw [hq] at hd
    match o, hd with
    | .ok res c, ⟨h1, h2, h3, h4⟩ =>
      refine ⟨res.pos, ?_, fun q' e => ?_⟩
      · rw [← h3]
        congr 1
        cases res
        simp only at h1
        rw [h1]
      · have hm : res.matched = true := by rw [h1, e]; rfl
        rw [h2 hm]
        exact hq' q' e

/-- What a call returns. -/
def CarriesOut (N n : Nat) (g : Nat → Proc) (M : Method) (cur : Nat) (h : Notes) (o : Out) : Prop :=
  ∃ q c', o = .ok ⟨q, (carryOut n g cur h M).1.isSome⟩ c' ∧ c'.length = N ∧
    (∀ b e, (carryOut n g cur h M).1 = some (b, e) → q = e ∧ (0 < N → c'[0]? = some (some (b, e)))) ∧
    ∀ k, k ≠ 0 → c'[k]? = (ctxOf N (carryOut n g cur h M).2)[k]?

theorem searchLoop_follow {a : Ast} (hok : Ok E 0 a) (hν : ∀ n id, nameIndex E.names n = some id → ν n = id) {fuel : Nat}
    (hf : a.depth + E.inp.length + 1 ≤ fuel) {g : Nat → Proc} (hg : g = proc E.flags E.inp ν a 0 false) :
    ∀ k cur (h : Notes), cur ≤ E.inp.length → k = E.inp.length - cur + 1 →
    ∃ q c', searchLoop E fuel a k cur (ctxOf E.names.length h) = .ok ⟨q, (tryFrom g (List.range' cur k) h).1.isSome⟩ c' ∧ c'.length = E.names.length ∧
      (∀ b e, (tryFrom g (List.range' cur k) h).1 = some (b, e) → q = e ∧ (0 < E.names.length → c'[0]? = some (some (b, e)))) ∧
      ∀ i, i ≠ 0 → c'[i]? = (ctxOf E.names.length (tryFrom g (List.range' cur k) h).2)[i]? := by
  intro k
  induction k with
  | zero => intro cur h _ hk; omega
  | succ k ih =>
    intro cur h hcur hk
    subst hg
    obtain ⟨q, h1, h2⟩ := mtch_follow (ν := ν) hok hν hf hcur h (fun _ => true)
    unfold searchLoop
    rw [success_acc, h1]
    simp only [List.range'_succ, tryFrom]
    generalize hfo : (proc E.flags E.inp ν a 0 false cur).follow (fun _ => true) h = fo at h2
    obtain ⟨x, h'⟩ := fo
    cases x with
    | some q' =>
      obtain rfl := h2 q' rfl
      simp only [Option.isSome_some, if_true]
      refine ⟨q, _, rfl, by simp [length_ctxOf], ?_, fun i hi => ?_⟩
      · rintro b e he
        simp only [Option.some.injEq, Prod.mk.injEq] at he
        obtain ⟨rfl, rfl⟩ := he
        refine ⟨rfl, fun h0 => ?_⟩
        rw [List.getElem?_set_self (by rw [length_ctxOf]; exact h0)]
      · rw [List.getElem?_set_ne (fun e => hi e.symm)]
    | none =>
      simp only [Option.isSome_none, Bool.false_eq_true, if_false]
      by_cases he : cur = E.inp.length
      · have hk0 : k = 0 := by omega
        subst hk0
        rw [if_pos he]
        refine ⟨cur, _, rfl, length_ctxOf .., ?_, fun i hi => ?_⟩
        · intro b e he; simp [tryFrom] at he
        · simp only [List.range'_zero, tryFrom]
      · rw [if_neg he]
        exact ih (cur + 1) h' (by omega) (by omega)

theorem invoke_follow {a : Ast} (hok : Ok E 0 a) (hν : ∀ n id, nameIndex E.names n = some id → ν n = id) (M : Method) {fuel : Nat}
    (hf : a.depth + E.inp.length + 1 ≤ fuel) {cur : Nat} (hcur : cur ≤ E.inp.length) (h : Notes) :
    CarriesOut E.names.length E.inp.length (proc E.flags E.inp ν a 0 false) M cur h (M.invoke E fuel a cur (ctxOf E.names.length h)) := by
  have key : ∀ acc, ∃ q c', setGroup0 cur (mtch E fuel a 0 cur (ctxOf E.names.length h) (accCont acc)) =
      .ok ⟨q, (((proc E.flags E.inp ν a 0 false cur).follow acc h).1.map (cur, ·)).isSome⟩ c' ∧ c'.length = E.names.length ∧
      (∀ b e, ((proc E.flags E.inp ν a 0 false cur).follow acc h).1.map (cur, ·) = some (b, e) →
        q = e ∧ (0 < E.names.length → c'[0]? = some (some (b, e)))) ∧
      ∀ k, k ≠ 0 → c'[k]? = (ctxOf E.names.length ((proc E.flags E.inp ν a 0 false cur).follow acc h).2)[k]? := by
    intro acc
    obtain ⟨q, h1, h2⟩ := mtch_follow (ν := ν) hok hν hf hcur h acc
    rw [h1]
    refine ⟨q, (ctxOf E.names.length ((proc E.flags E.inp ν a 0 false cur).follow acc h).2).set 0 (some (cur, q)), by simp [setGroup0],
      by simp [length_ctxOf], fun b e he => ?_, fun k hk => ?_⟩
    · obtain ⟨q', h3, h4⟩ := Option.map_eq_some_iff.1 he
      obtain rfl := h2 q' h3
      simp only [Prod.mk.injEq] at h4
      obtain ⟨rfl, rfl⟩ := h4
      exact ⟨rfl, fun h0 => by rw [List.getElem?_set_self (by rw [length_ctxOf]; exact h0)]⟩
    · rw [List.getElem?_set_ne (fun e => hk e.symm)]
  cases M with
  | «match» => exact key _
  | matchPrefix => exact key _
  | search =>
    have := searchLoop_follow hok hν hf rfl (E.inp.length - cur + 1) cur h hcur rfl
    have e : E.inp.length - cur + 1 = E.inp.length + 1 - cur := by omega
    unfold CarriesOut Method.invoke searchMethod carryOut
    rw [← e]
    exact this

end

/-- What names mean, in terms of groups. -/
theorem names_of_groups {R : Regex} {cat : Cat} (hR : R.Ok cat) {ν : List Byte → Nat}
    (hν : ∀ k n, R.ast.nameSpec.count (some n) = 1 → HasGroup R.ast k (some n) → ν n = k) {n : List Byte} {id : Nat}
    (h : nameIndex R.names n = some id) : ν n = id := by
  unfold nameIndex at h
  split at h
  · next hc =>
    injection h with h
    have hc' : R.ast.nameSpec.count (some n) = 1 := by simpa [Regex.names] using hc
    have hm : some n ∈ R.ast.nameSpec := List.count_pos_iff.1 (by omega)
    obtain ⟨i, hi, he⟩ := List.getElem_of_mem hm
    have hl : i < (groupIds R.ast).length := by
      rw [length_groupIds, ← length_nameSpec]; exact hi
    have hg : HasGroup R.ast ((groupIds R.ast)[i]) (some n) := by
      rw [hasGroup_iff]
      have : i < ((groupIds R.ast).zip R.ast.nameSpec).length := by simp; omega
      have h2 := List.getElem_mem this
      rw [List.getElem_zip, he] at h2
      exact h2
    rw [hν _ n hc' hg, ← h]
    exact (idxOf_of_count hc (ok_name (hR []) hg)).symm
  · cases h

end Mregex
