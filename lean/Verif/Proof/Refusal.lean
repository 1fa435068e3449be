import Verif.Spec.Possible
import Verif.Proof.Formula
import Verif.Props.Compose

/-!
# What `(?!(?:P)\Z)[^]*` accepts
-/

namespace Mregex
open Ast Spec

theorem names_refusal (R : Regex) : (refusal R).names = R.names := by
  have := R.withEndAnchor_names
  simp only [Regex.names, Regex.withEndAnchor, refusal, refusalA, nameSpec, nameSpecAll, List.append_nil] at this ⊢
  exact this

theorem ok_refusal {R : Regex} {cat : Cat} (h : R.Ok cat) : (refusal R).Ok cat := by
  intro s
  have hE : (refusal R).env cat s = R.withEndAnchor.env cat s := by
    simp only [Regex.env, names_refusal, Regex.withEndAnchor_names]; rfl
  rw [hE]
  refine .seq (by simp) fun a ha => ?_
  simp only [List.mem_cons, List.not_mem_nil, or_false] at ha
  rcases ha with rfl | rfl
  · exact .neg (.inr (by simp [isAssertion])) (.ahead (Regex.withEndAnchor_ok h s))
  · exact .repInf (.neg (.inl rfl) (.set (by simp) (by simp)))

theorem triv_end (a : Ast) : triv (makeSequence .eoi a) = false := by
  cases a with
  | seq l =>
    match l with
    | [] => simp [makeSequence, triv, trivSingle]
    | [b] => simp [makeSequence, triv, trivSingle]
    | b :: c :: l => simp [makeSequence, triv, trivSingle]
  | _ => simp [makeSequence, triv, trivSingle]

theorem match_refusal {R : Regex} {cat : Cat} (h : R.Ok cat) (s : List Byte) :
    ∃ res res', R.invoke .match cat s = some res ∧ (refusal R).invoke .match cat s = some res' ∧ res'.matched = !res.matched := by
  obtain ⟨res, res1, h1, h2, h3, _⟩ := C50_match_is_prefix_with_end_partial R cat h s
  refine ⟨res, ?_⟩
  have hE : (refusal R).env cat s = R.withEndAnchor.env cat s := by
    simp only [Regex.env, names_refusal, Regex.withEndAnchor_names]; rfl
  have hX := Regex.withEndAnchor_ok h s
  have hN : initCtx (refusal R).names = initCtx R.withEndAnchor.names := by rw [names_refusal, Regex.withEndAnchor_names]
  simp only [Regex.matchPrefix, Regex.invoke, Method.invoke, prefixMethod] at h2
  simp only [Regex.invoke, Method.invoke, matchMethod, hE, hN]
  generalize hEE : R.withEndAnchor.env cat s = E at *
  have hs : E.inp = s := by rw [← hEE]; rfl
  have hc : (initCtx R.withEndAnchor.names).length = E.names.length := by rw [← hEE]; simp [initCtx, Regex.env]
  generalize initCtx R.withEndAnchor.names = c at *
  generalize hX' : R.withEndAnchor.ast = X at *
  have ht : triv X = false := by rw [← hX']; exact triv_end _
  have hx : (refusal R).ast = .seq [.neg (.look .ahead X), anything] := by rw [← hX']; rfl
  rw [hx]
  have hsafe := prefix_safe (fun _ h => h) hX (Nat.le_refl (fuelFor X E.inp)) capClosed_len (Nat.zero_le _) hc
  rw [hs] at hsafe
  obtain ⟨n, hn1, hn2⟩ : ∃ n, fuelFor (.seq [.neg (.look .ahead X), anything]) s = n + 3 ∧ fuelFor X s ≤ n := by
    refine ⟨fuelFor (.seq [.neg (.look .ahead X), anything]) s - 3, ?_, ?_⟩ <;> simp only [fuelFor, depth, depthAll] <;> omega
  have hdiv : mtch E (fuelFor X s) X 0 0 c success ≠ .diverge := by
    rcases hsafe.elim with ⟨q, c', h, _⟩ | ⟨q, c', h, _⟩ <;> rw [h] <;> simp
  have hm : mtch E n X 0 0 c success = mtch E (fuelFor X s) X 0 0 c success := mtch_fuel hn2 hdiv
  have e1 : mtch E (n + 3) (.seq [.neg (.look .ahead X), anything]) 0 0 c (equals E.inp.length) =
      negAssertMatch (lookMatch (mtch E n X 0)) 0 c (fun q c' => mtch E (n + 2) anything 0 q c' (equals E.inp.length)) := by
    rw [mtch]
    have hnt : areTriv [.neg (.look .ahead X), anything] = false := by simp [areTriv, triv, isAssertion]
    simp only [seqMatch, hnt, Bool.false_eq_true, if_false]
    have : mtch E (n + 2) (.neg (.look .ahead X)) 0 = negAssertMatch (lookMatch (mtch E n X 0)) := by
      rw [mtch]
      simp only [isAssertion, if_true]
      rw [mtch]
      simp [ht]
    rw [this]
  rw [hn1, e1]
  unfold negAssertMatch lookMatch
  rw [hm]
  rcases hsafe.elim with ⟨q, c', h4, h5⟩ | ⟨q, c', h4, h5⟩
  · rw [h4] at h2
    simp only [setGroup0, Option.some.injEq] at h2
    rw [h4]
    refine ⟨_, h1, rfl, ?_⟩
    rw [h3, ← h2]
    rfl
  · rw [h4] at h2
    simp only [setGroup0, Option.some.injEq] at h2
    rw [h4]
    have hv := match_view (E := E) (I := fun c => c.length = E.names.length) (fuel := n + 2) (a := anything) (cur := 0) (c := c') (fun _ h => h)
      (.repInf (.neg (.inl rfl) (.set (by simp) (by simp)))) rfl
      (by rw [hs]; simp only [fuelFor, depth, anything, depthAll] at hn1 hn2 ⊢; omega) capStable_len (Nat.zero_le _) h5.2
    rw [if_pos ((mem_anything _ _ (Nat.zero_le _)).2 ⟨Nat.zero_le _, Nat.le_refl _⟩)] at hv
    simp only [Out.onMatch, nonMatch, success]
    rcases Post.elim hv with ⟨q', c'', h6, h7⟩ | ⟨q', c'', h6, h7⟩
    · simp only [Bool.false_eq_true, if_false, h6]
      refine ⟨_, h1, rfl, ?_⟩
      rw [h3, ← h2]
      rfl
    · cases h7.1

end Mregex
