import Verif.Proof.Sim
import Verif.Proof.Fuel
import Verif.Proof.MethodLemmas
import Verif.Proof.CaptureLemmas

/-!
# Nested sequences and alternations
-/

namespace Mregex
open Ast

/-- Matchers one after the other. -/
def chain : List Matcher → Matcher
  | [] => fun p c k => k p c
  | m :: l => fun p c k => m p c (fun q c' => chain l q c' k)

theorem chain_append (l l' : List Matcher) (p : Nat) (c : Ctx) (k : Cont) :
    chain (l ++ l') p c k = chain l p c (fun q c' => chain l' q c' k) := by
  induction l generalizing p c with
  | nil => rfl
  | cons m l ih => simp only [List.cons_append, chain, ih]

theorem chain_le {f g : Ast → Matcher} (l : List Ast) (h : ∀ a ∈ l, Matcher.Le (f a) (g a)) :
    Matcher.Le (chain (l.map f)) (chain (l.map g)) := by
  induction l with
  | nil => intro p c k k' hk; exact hk p c
  | cons a l ih =>
    intro p c k k' hk
    exact h a (by simp) p c _ _ (fun q c' => ih (fun b hb => h b (by simp [hb])) q c' k k' hk)

theorem msim_chain {n : Nat} {f g : Ast → Matcher} (l : List Ast) (h : ∀ a ∈ l, MSim n (f a) (g a)) :
    MSim n (chain (l.map f)) (chain (l.map g)) := by
  induction l with
  | nil => exact .id
  | cons a l ih => exact (h a (by simp)).comp (ih (fun b hb => h b (by simp [hb])))

section
variable {E : Env}

theorem deref_isSome {r p : Nat} (hp : p ≤ E.inp.length) (h : E.remaining r p ≠ 0) : ∃ x, E.deref r p = some x := by
  unfold Env.remaining at h
  unfold Env.deref
  split
  · next hr =>
    rw [if_pos hr] at h
    exact ⟨_, List.getElem?_eq_getElem (by omega)⟩
  · next hr =>
    rw [if_neg hr] at h
    rw [if_neg h]
    exact ⟨_, List.getElem?_eq_getElem (by omega)⟩

theorem chain_triv_short {r : Nat} (l : List Ast) : ∀ p c k, p ≤ E.inp.length → E.remaining r p < l.length →
    ∃ q, chain (l.map (trivMatch E r)) p c k = nonMatch q c := by
  induction l with
  | nil => intro p c k _ h; simp at h
  | cons a l ih =>
    intro p c k hp h
    simp only [List.map_cons, chain, trivMatch]
    cases he : E.atEnd r p with
    | true => exact ⟨p, by simp⟩
    | false =>
      have hr : E.remaining r p ≠ 0 := fun h => by rw [(Env.atEnd_iff hp).2 h] at he; cases he
      obtain ⟨x, hx⟩ := deref_isSome hp hr
      simp only [Bool.false_eq_true, if_false, hx]
      split
      · have := Env.remaining_next hp hr
        simp only [List.length_cons] at h
        exact ih _ c k (next_le hx) (by omega)
      · exact ⟨p, rfl⟩

theorem chain_triv_long {r : Nat} (l : List Ast) : ∀ p c k, p ≤ E.inp.length → l.length ≤ E.remaining r p →
    chain (l.map (trivMatch E r)) p c k =
      match runTriv E r l p with
      | .ub => .ub
      | .done q => k q c
      | .fail q => nonMatch q c := by
  induction l with
  | nil => intro p c k _ h; rfl
  | cons a l ih =>
    intro p c k hp h
    simp only [List.length_cons] at h
    have hr : E.remaining r p ≠ 0 := by omega
    have he : E.atEnd r p = false := by
      cases he : E.atEnd r p with
      | false => rfl
      | true => exact absurd ((Env.atEnd_iff hp).1 he) hr
    obtain ⟨x, hx⟩ := deref_isSome hp hr
    simp only [List.map_cons, chain, trivMatch, he, hx, runTriv, Bool.false_eq_true, if_false]
    split
    · have := Env.remaining_next hp hr
      exact ih _ c k (next_le hx) (by omega)
    · rfl

/-- Checking characters in one go is checking them one after the other. -/
theorem msim_seqTriv_chain (r : Nat) (l : List Ast) :
    MSim E.inp.length (seqTriv E r l) (chain (l.map (trivMatch E r))) := by
  intro p c k k' hp hk
  unfold seqTriv
  rw [distanceLessThan_eq hp]
  split
  · next h =>
    obtain ⟨q, hq⟩ := chain_triv_short l p c k' hp (of_decide_eq_true h)
    rw [hq]
    exact .nonMatch
  · next h =>
    rw [chain_triv_long l p c k' hp (by simpa using h)]
    cases hr : runTriv E r l p with
    | ub => exact .ub
    | done q => exact hk q c (runTriv_le _ _ _ hp hr)
    | fail q => dsimp only; split <;> exact .miss

theorem msim_seqMatch_chain (r : Nat) {m : Ast → Matcher} (l : List Ast) (hl : l ≠ [])
    (hm : ∀ a ∈ l, MSim E.inp.length (m a) (m a)) (ht : ∀ a ∈ l, triv a = true → MSim E.inp.length (m a) (trivMatch E r a)) :
    MSim E.inp.length (seqMatch E r m l) (chain (l.map m)) := by
  induction l with
  | nil => exact absurd rfl hl
  | cons a l ih =>
    match l with
    | [] => exact hm a (by simp)
    | b :: l =>
      unfold seqMatch
      split
      · next har =>
        exact (msim_seqTriv_chain r (a :: b :: l)).trans
          (msim_chain _ (fun x hx => (ht x hx (List.all_eq_true.1 har x hx)).symm))
      · exact (hm a (by simp)).comp (ih (by simp) (fun x hx => hm x (List.mem_cons_of_mem _ hx))
          (fun x hx => ht x (List.mem_cons_of_mem _ hx)))

theorem msim_self {fuel r : Nat} {a : Ast} (hok : Ok E r a) (hf : a.depth + E.inp.length + 1 ≤ fuel) :
    MSim E.inp.length (mtch E fuel a r) (mtch E fuel a r) :=
  msim_mtch (cat' := E.cat) fuel a r hok hok hf

/-- A sequence is its parts one after the other. -/
theorem msim_seq {fuel r : Nat} {l : List Ast} (hl : l ≠ []) (hok : ∀ a ∈ l, Ok E r a)
    (hf : ∀ a ∈ l, a.depth + E.inp.length + 1 ≤ fuel) :
    MSim E.inp.length (mtch E (fuel + 1) (.seq l) r) (chain (l.map (fun a => mtch E fuel a r))) := by
  simp only [mtch]
  refine msim_seqMatch_chain r l hl (fun a ha => msim_self (hok a ha) (hf a ha)) (fun a ha ht => ?_)
  rw [mtch_triv ht (by have := hf a ha; omega)]
  exact msim_triv (cat' := E.cat) r a

/-! ### Methods as functions of the matcher -/

/-- The loop of `search` for any matcher. -/
def searchWith (n : Nat) (m : Matcher) : Nat → Nat → Ctx → Out
  | 0, _, _ => .diverge
  | k + 1, cur, c =>
    match m cur c success with
    | .ok res c' =>
      if res.matched then .ok res (c'.set 0 (some (cur, res.pos)))
      else if cur = n then nonMatch cur c'
      else searchWith n m k (cur + 1) c'
    | o => o

/-- The methods for any matcher. -/
def invokeWith (M : Method) (n : Nat) (m : Matcher) (cur : Nat) (c : Ctx) : Out :=
  match M with
  | .match => setGroup0 cur (m cur c (equals n))
  | .matchPrefix => setGroup0 cur (m cur c success)
  | .search => searchWith n m (n - cur + 1) cur c

theorem invoke_eq_with (M : Method) (fuel : Nat) (a : Ast) (cur : Nat) (c : Ctx) :
    M.invoke E fuel a cur c = invokeWith M E.inp.length (mtch E fuel a 0) cur c := by
  cases M with
  | «match» => rfl
  | matchPrefix => rfl
  | search =>
    show searchLoop E fuel a (E.inp.length - cur + 1) cur c = searchWith E.inp.length _ (E.inp.length - cur + 1) cur c
    generalize E.inp.length - cur + 1 = k
    induction k generalizing cur c with
    | zero => rfl
    | succ k ih => unfold searchLoop searchWith; simp only [ih]; rfl

theorem invokeWith_le (M : Method) (n : Nat) {m m' : Matcher} (h : m.Le m') (cur : Nat) (c : Ctx) :
    (invokeWith M n m cur c).Le (invokeWith M n m' cur c) := by
  have hs : ∀ {o o' : Out}, o.Le o' → (setGroup0 cur o).Le (setGroup0 cur o') := by
    intro o o' h
    rcases h with rfl | rfl
    · exact .inl rfl
    · exact .refl _
  cases M with
  | «match» => exact hs (h _ _ _ _ (Cont.Le.refl _))
  | matchPrefix => exact hs (h _ _ _ _ (Cont.Le.refl _))
  | search =>
    show Out.Le (searchWith n m (n - cur + 1) cur c) (searchWith n m' (n - cur + 1) cur c)
    generalize n - cur + 1 = k
    induction k generalizing cur c with
    | zero => exact .inl rfl
    | succ k ih =>
      unfold searchWith
      rcases h cur c _ _ (Cont.Le.refl success) with h' | h'
      · rw [h']; exact .inl rfl
      · rw [← h']
        match m cur c success with
        | .ub => exact .refl _
        | .diverge => exact .refl _
        | .ok ⟨q, true⟩ c' => exact .refl _
        | .ok ⟨q, false⟩ c' =>
          simp only [Bool.false_eq_true, if_false]
          split
          · exact .refl _
          · exact ih _ _ (fun h => by
              rcases h with rfl | rfl
              · exact .inl rfl
              · exact .refl _)

/-- Outcomes of a method that agree on the verdict, on the groups of a match, and on all groups but group 0. -/
inductive SameResult : Out → Out → Prop
  | hit {q c} : SameResult (.ok ⟨q, true⟩ c) (.ok ⟨q, true⟩ c)
  | miss {q q' c c'} : c.tail = c'.tail → SameResult (.ok ⟨q, false⟩ c) (.ok ⟨q', false⟩ c')
  | ub : SameResult .ub .ub
  | diverge : SameResult .diverge .diverge

theorem SameResult.trans {o o' o'' : Out} (h : SameResult o o') (h' : SameResult o' o'') : SameResult o o'' := by
  cases h with
  | hit => exact h'
  | miss h => cases h' with | miss h' => exact .miss (h.trans h')
  | ub => exact h'
  | diverge => exact h'

theorem SameResult.symm {o o' : Out} (h : SameResult o o') : SameResult o' o := by
  cases h with
  | hit => exact .hit
  | miss h => exact .miss h.symm
  | ub => exact .ub
  | diverge => exact .diverge

theorem tail_set_zero (c : Ctx) (g g' : Cap) : (c.set 0 g).tail = (c.set 0 g').tail := by cases c <;> rfl

theorem Sim.setGroup0 {n cur : Nat} {o o' : Out} (h : Sim n o o') : SameResult (setGroup0 cur o) (setGroup0 cur o') := by
  cases h with
  | hit h => exact .hit
  | miss => exact .miss (tail_set_zero _ _ _)
  | ub => exact .ub
  | diverge => exact .diverge

theorem sameResult_with (M : Method) {n : Nat} {m m' : Matcher} (hm : MSim n m m') {cur : Nat}
    (hcur : cur ≤ n) (c : Ctx) : SameResult (invokeWith M n m cur c) (invokeWith M n m' cur c) := by
  cases M with
  | «match» => exact (hm cur c _ _ hcur (.equals _ _)).setGroup0
  | matchPrefix => exact (hm cur c _ _ hcur (.success _)).setGroup0
  | search =>
    show SameResult (searchWith n m (n - cur + 1) cur c) (searchWith n m' (n - cur + 1) cur c)
    generalize n - cur + 1 = k
    induction k generalizing cur c with
    | zero => exact .diverge
    | succ k ih =>
      unfold searchWith
      have := hm cur c _ _ hcur (.success _)
      generalize m cur c success = o at *
      generalize m' cur c success = o' at *
      cases this with
      | hit h => exact .hit
      | ub => exact .ub
      | diverge => exact .diverge
      | miss =>
        simp only [Bool.false_eq_true, if_false]
        by_cases hc : cur = n
        · rw [if_pos hc, if_pos hc]; exact .miss rfl
        · rw [if_neg hc, if_neg hc]
          exact ih (by omega) _

end

/-- What two calls have in common if they return the same up to the position of a failure. -/
def SameCall (o o' : Option Result) : Prop :=
  ∃ res res', o = some res ∧ o' = some res' ∧ res.matched = res'.matched ∧
    (res.matched = true → res.groups = res'.groups) ∧ res.groups.tail = res'.groups.tail

theorem sameCall_of {R R' : Regex} {M M' : Method} {cat cat' : Cat} {s s' : List Byte} {res res' : Result}
    (hr : R.invoke M cat s = some res) (hr' : R'.invoke M' cat' s' = some res')
    (hs : SameResult (M.invoke (R.env cat s) (fuelFor R.ast s) R.ast 0 (initCtx R.names))
      (M'.invoke (R'.env cat' s') (fuelFor R'.ast s') R'.ast 0 (initCtx R'.names))) :
    SameCall (R.invoke M cat s) (R'.invoke M' cat' s') := by
  obtain ⟨q, hq⟩ := Regex.invoke_eq hr
  obtain ⟨q', hq'⟩ := Regex.invoke_eq hr'
  rw [hq, hq'] at hs
  refine ⟨res, res', hr, hr', ?_⟩
  generalize res.matched = b at hs
  generalize res'.matched = b' at hs
  generalize res.groups = g at hs
  generalize res'.groups = g' at hs
  cases hs with
  | hit => exact ⟨rfl, fun _ => rfl, rfl⟩
  | miss h => exact ⟨rfl, fun h => (by cases h), h⟩

end Mregex
