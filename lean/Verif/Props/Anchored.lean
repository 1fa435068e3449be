import Verif.Proof.Anchored
import Verif.Proof.Unfold
import Verif.Proof.OkCheck
import Verif.Props.Compose
import Verif.Model.Generator
import Verif.Spec.Openers

/-!
# C79: anchored searches
-/

namespace Mregex
open Ast Spec

/-- Calls that carry out the same return the same. -/
theorem sameCall_of_carryOut {R R' : Regex} {cat : Cat} (hR : R.Ok cat) (hR' : R'.Ok cat) (hn : R'.names = R.names) {M M' : Method} {s : List Byte}
    (h : ∀ ν, carryOut s.length (proc (Flags.ofList R'.flags) s ν R'.ast 0 false) 0 (fun _ => none) M' =
      carryOut s.length (proc (Flags.ofList R.flags) s ν R.ast 0 false) 0 (fun _ => none) M) :
    SameCall (R.invoke M cat s) (R'.invoke M' cat s) := by
  obtain ⟨ν, hν⟩ : ∃ ν : List Byte → Nat, ∀ n id, nameIndex R.names n = some id → ν n = id :=
    ⟨fun n => (nameIndex R.names n).getD 0, fun n id h => by simp only [h]; rfl⟩
  have h1 := invoke_follow (E := R.env cat s) (hR s) hν M (Nat.le_refl _) (Nat.zero_le _) (fun _ => none)
  have h2 := invoke_follow (E := R'.env cat s) (hR' s) (by rw [show (R'.env cat s).names = R.names from hn]; exact hν) M' (Nat.le_refl _) (Nat.zero_le _)
    (fun _ => none)
  rw [← ctxOf_init] at h1 h2
  obtain ⟨res, hr⟩ := C01_methods_return _ cat hR M s
  obtain ⟨res', hr'⟩ := C01_methods_return _ cat hR' M' s
  refine sameCall_of hr hr' (carriesOut_same (N := R.names.length) (n := s.length) (g := proc (Flags.ofList R.flags) s ν R.ast 0 false) (M := M)
    (cur := 0) (h := fun _ => none) (Nat.succ_pos _) h1 ?_)
  unfold CarriesOut at h2 ⊢
  rw [← h ν, ← hn]
  exact h2

theorem fromStart_names (R : Regex) : (fromStart R).names = R.names := by
  simp [fromStart, Regex.names, nameSpec, nameSpecAll]

theorem startToEnd_names (R : Regex) : (startToEnd R).names = R.names := by
  simp [startToEnd, Regex.names, nameSpec, nameSpecAll]

/-! ## C79 -/

/-- **C79**: `\AR` and `\AR\Z` can be used wherever `R` can. -/
theorem C79_usable {R : Regex} {cat : Cat} (hR : R.Ok cat) : (fromStart R).Ok cat ∧ (startToEnd R).Ok cat := by
  refine ⟨fun s => ?_, fun s => ?_⟩
  · rw [show (fromStart R).env cat s = R.env cat s by simp only [Regex.env, fromStart_names]; rfl]
    refine .seq (by simp) (fun a ha => ?_)
    rcases List.mem_cons.1 ha with rfl | ha
    · exact .boi
    · cases List.mem_singleton.1 ha
      exact hR s
  · rw [show (startToEnd R).env cat s = R.env cat s by simp only [Regex.env, startToEnd_names]; rfl]
    refine .seq (by simp) (fun a ha => ?_)
    rcases List.mem_cons.1 ha with rfl | ha
    · exact .boi
    · rcases List.mem_cons.1 ha with rfl | ha
      · exact hR s
      · cases List.mem_singleton.1 ha
        exact .eoi

/-- **C79**: `match_prefix` of a regex is `search` of `\AR`: same verdict, same groups (after a failed call except the whole match). -/
theorem C79_prefix {R : Regex} {cat : Cat} (hR : R.Ok cat) (s : List Byte) : SameCall (R.matchPrefix s cat) ((fromStart R).search s cat) :=
  sameCall_of_carryOut hR (C79_usable hR).1 (fromStart_names R) (fun ν => carryOut_fromStart _ s ν R.ast _)

/-- **C79**: `match` of a regex is `search` of `\AR\Z`. -/
theorem C79_match {R : Regex} {cat : Cat} (hR : R.Ok cat) (s : List Byte) : SameCall (R.match s cat) ((startToEnd R).search s cat) :=
  sameCall_of_carryOut hR (C79_usable hR).2 (startToEnd_names R) (fun ν => carryOut_startToEnd _ s ν R.ast _)

/-- **C79**: further on in the text, no method of `\AR` finds anything, and no group is touched; so its generators give at most one result. -/
theorem C79_once {R : Regex} {cat : Cat} (hR : R.Ok cat) (M : Method) (s : List Byte) {cur : Nat} (h0 : 0 < cur) (hcur : cur ≤ s.length) :
    ∃ res g, genNext (fromStart R) M cat s ⟨cur, true⟩ = some (res, g) ∧ res.matched = false ∧
      ∀ k, k ≠ 0 → k ≤ captureCount R.ast → res.group k = some none := by
  have hR' := (C79_usable hR).1
  have hn := fromStart_names R
  obtain ⟨ν, hν⟩ : ∃ ν : List Byte → Nat, ∀ n id, nameIndex (fromStart R).names n = some id → ν n = id :=
    ⟨fun n => (nameIndex (fromStart R).names n).getD 0, fun n id h => by simp only [h]; rfl⟩
  obtain ⟨q, c, h1, h2, h3, h4⟩ := invoke_follow (E := (fromStart R).env cat s) (hR' s) hν M (Nat.le_refl _) hcur (fun _ => none)
  have hc : carryOut ((fromStart R).env cat s).inp.length (proc ((fromStart R).env cat s).flags ((fromStart R).env cat s).inp ν (fromStart R).ast 0 false)
      cur (fun _ => none) M = (none, fun _ => none) := carryOut_later _ s ν [R.ast] h0 _ M
  rw [← ctxOf_init, hc] at h1
  rw [hc] at h4
  unfold genNext
  have hi : M.invoke ((fromStart R).env cat s) (fuelFor (fromStart R).ast s) (fromStart R).ast cur (initCtx (fromStart R).names) =
    .ok ⟨q, false⟩ c := h1
  simp only [Bool.not_true, Bool.false_eq_true, if_false, hi]
  refine ⟨_, _, rfl, rfl, fun k hk hk' => ?_⟩
  show c[k]? = _
  rw [h4 k hk, getElem?_ctxOf, if_pos]
  rw [show ((fromStart R).env cat s).names = R.names from hn, Regex.names, List.length_cons, length_nameSpec]
  omega

/-- `(a)?b\1` with `multiline`. -/
def exAnchored : Regex := ⟨.seq [.rep .greedy 0 (.fin 1) (.cap 1 none (.lit (ch 'a'))), .lit (ch 'b'), .backref 1], [.multiline]⟩

example := C79_prefix (R := exAnchored) (cat := .bidirectional) (Regex.ok_of_okb (by decide)) (txt "abac")
example := C79_match (R := exAnchored) (cat := .bidirectional) (Regex.ok_of_okb (by decide)) (txt "aba")
example := C79_once (R := exAnchored) (cat := .bidirectional) (Regex.ok_of_okb (by decide)) .search (txt "a\naba") (cur := 2) (by decide) (by decide)
example : (exAnchored.matchPrefix (txt "abac")) = some ⟨[some (0, 3), some (0, 1)], true⟩ ∧
    ((fromStart exAnchored).search (txt "abac")) = some ⟨[some (0, 3), some (0, 1)], true⟩ ∧
    ((startToEnd exAnchored).search (txt "abac")).map (·.matched) = some false := by decide +kernel

end Mregex
