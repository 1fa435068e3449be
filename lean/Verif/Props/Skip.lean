import Verif.Proof.Skip
import Verif.Props.Proc

/-!
# C76: searching is skipping
-/

namespace Mregex
open Ast Spec

theorem skipInto_names (R : Regex) : (skipInto R).names = R.names := by
  simp [skipInto, skipping, Regex.names, nameSpec, nameSpecAll]

theorem skipInto_ok {R : Regex} {cat : Cat} (hR : R.Ok cat) : (skipInto R).Ok cat := by
  intro s
  have e : (skipInto R).env cat s = R.env cat s := by
    simp only [Regex.env, skipInto_names]; rfl
  rw [e]
  refine .seq (by simp) (fun a ha => ?_)
  rcases List.mem_cons.1 ha with rfl | ha
  · exact .repInf (.range (by decide))
  · cases List.mem_singleton.1 ha
    exact hR s

/-! ## C76 -/

/-- **C76**: a search from any position of the text does what `match_prefix` with characters to skip in front does there: same verdict, same end, and
the same contents of all groups but group 0, with and without a match, for every usable regex.  (Group 0 of the latter starts where the call
started.) -/
theorem C76_generators (R : Regex) (cat : Cat) (hR : R.Ok cat) (s : List Byte) (cur : Nat) (hcur : cur ≤ s.length) :
    ∃ res res' g g', genNext R .search cat s ⟨cur, true⟩ = some (res, g) ∧ genNext (skipInto R) .matchPrefix cat s ⟨cur, true⟩ = some (res', g') ∧
      res.matched = res'.matched ∧
      (res.matched = true → ∃ b e, res.group 0 = some (some (b, e)) ∧ res'.group 0 = some (some (cur, e)) ∧ g.current = g'.current) ∧
      ∀ k, k ≠ 0 → k ≤ captureCount R.ast → ∃ v, res.group k = some v ∧ res'.group k = some v := by
  have hν : ∀ n id, nameIndex R.names n = some id → (fun n => (nameIndex R.names n).getD 0) n = id := fun n id h => by
    simp only [h]; rfl
  have hν' : ∀ n id, nameIndex (skipInto R).names n = some id → (fun n => (nameIndex R.names n).getD 0) n = id := by
    rw [skipInto_names]; exact hν
  obtain ⟨q, c, h1, h2, h3, h4⟩ := invoke_follow (E := R.env cat s) (hR s) hν .search (Nat.le_refl _) hcur (fun _ => none)
  obtain ⟨q', c', h1', h2', h3', h4'⟩ := invoke_follow (E := (skipInto R).env cat s) (skipInto_ok hR s) hν' .matchPrefix (Nat.le_refl _) hcur (fun _ => none)
  have hm := carryOut_skipping R.fl s (fun n => (nameIndex R.names n).getD 0) R.ast cur hcur (fun _ => none)
  have e : ∀ k, carryOut ((skipInto R).env cat s).inp.length (proc ((skipInto R).env cat s).flags ((skipInto R).env cat s).inp
      (fun n => (nameIndex R.names n).getD 0) (skipInto R).ast 0 false) cur k .matchPrefix =
      carryOut s.length (proc R.fl s (fun n => (nameIndex R.names n).getD 0) (skipping R.fl.ungreedy R.ast) 0 false) cur k .matchPrefix := fun _ => rfl
  have e' : ∀ k, carryOut (R.env cat s).inp.length (proc (R.env cat s).flags (R.env cat s).inp
      (fun n => (nameIndex R.names n).getD 0) R.ast 0 false) cur k .search =
      carryOut s.length (proc R.fl s (fun n => (nameIndex R.names n).getD 0) R.ast 0 false) cur k .search := fun _ => rfl
  have hn : ((skipInto R).env cat s).names = R.names := skipInto_names R
  have hn' : (R.env cat s).names = R.names := rfl
  rw [e, hm] at h1' h3' h4'
  rw [e'] at h1 h3 h4
  rw [hn', ← ctxOf_init] at h1
  rw [hn, ← ctxOf_init] at h1'
  rw [hn] at h2' h3' h4'
  generalize carryOut s.length (proc R.fl s (fun n => (nameIndex R.names n).getD 0) R.ast 0 false) cur (fun _ => none) .search = x at h1 h3 h4 h1' h3' h4'
  obtain ⟨o, h⟩ := x
  simp only [Option.isSome_map] at h1'
  have hi : Method.search.invoke (R.env cat s) (fuelFor R.ast s) R.ast cur (initCtx R.names) = .ok ⟨q, o.isSome⟩ c := h1
  have hi' : Method.matchPrefix.invoke ((skipInto R).env cat s) (fuelFor (skipInto R).ast s) (skipInto R).ast cur (initCtx (skipInto R).names) =
      .ok ⟨q', o.isSome⟩ c' := by
    rw [skipInto_names]; exact h1'
  unfold genNext
  simp only [Bool.not_true, Bool.false_eq_true, if_false, hi, hi']
  refine ⟨_, _, _, _, rfl, rfl, rfl, fun ho => ?_, fun k hk hk' => ?_⟩
  · obtain ⟨⟨b, e⟩, rfl⟩ := Option.isSome_iff_exists.1 ho
    obtain ⟨h5, h6⟩ := h3 b e rfl
    obtain ⟨h5', h6'⟩ := h3' cur e rfl
    exact ⟨b, e, h6 (Nat.succ_pos _), h6' (Nat.succ_pos _), by rw [h5, h5']⟩
  · have hlt : k < R.names.length := by
      rw [Regex.names, List.length_cons, length_nameSpec]; omega
    refine ⟨h k, ?_, ?_⟩
    · show c[k]? = _
      rw [h4 k hk, getElem?_ctxOf, hn', if_pos hlt]
    · show c'[k]? = _
      rw [h4' k hk, getElem?_ctxOf, if_pos hlt]

/-- **C76** for the methods of the regex. -/
theorem C76_search (R : Regex) (cat : Cat) (hR : R.Ok cat) (s : List Byte) :
    ∃ res res', R.search s cat = some res ∧ (skipInto R).matchPrefix s cat = some res' ∧ res.matched = res'.matched ∧
      (res.matched = true → ∃ b e, res.group 0 = some (some (b, e)) ∧ res'.group 0 = some (some (0, e))) ∧
      ∀ k, k ≠ 0 → k ≤ captureCount R.ast → ∃ v, res.group k = some v ∧ res'.group k = some v := by
  obtain ⟨res, res', g, g', h1, h2, h3, h4, h5⟩ := C76_generators R cat hR s 0 (Nat.zero_le _)
  have key : ∀ (R : Regex) (M : Method) res g, genNext R M cat s ⟨0, true⟩ = some (res, g) → R.invoke M cat s = some res := by
    intro R M res g h
    unfold genNext at h
    unfold Regex.invoke
    simp only [Bool.not_true, Bool.false_eq_true, if_false] at h
    cases hm : M.invoke (R.env cat s) (fuelFor R.ast s) R.ast 0 (initCtx R.names) with
    | ok r c =>
      rw [hm] at h
      simp only [Option.some.injEq, Prod.mk.injEq] at h
      simp only [h.1]
    | _ => rw [hm] at h; cases h
  refine ⟨res, res', key _ _ _ _ h1, key _ _ _ _ h2, h3, fun hm => ?_, h5⟩
  obtain ⟨b, e, h6, h7, _⟩ := h4 hm
  exact ⟨b, e, h6, h7⟩

/-- `(a)?b\1`. -/
def exSkip : Regex := ⟨.seq [.rep .greedy 0 (.fin 1) (.cap 1 none (.lit (ch 'a'))), .lit (ch 'b'), .backref 1], []⟩

example : exSkip.Ok .randomAccess ∧ exSkip.search (txt "caba") = some ⟨[some (1, 4), some (1, 2)], true⟩ ∧
    (skipInto exSkip).matchPrefix (txt "caba") = some ⟨[some (0, 4), some (1, 2)], true⟩ ∧
    exSkip.search (txt "cab") = some ⟨[some (2, 3), some (1, 1)], true⟩ ∧
    (skipInto exSkip).matchPrefix (txt "cab") = some ⟨[some (0, 3), some (1, 1)], true⟩ :=
  ⟨Regex.ok_of_okb (by decide), by decide +kernel, by decide +kernel, by decide +kernel, by decide +kernel⟩

end Mregex
