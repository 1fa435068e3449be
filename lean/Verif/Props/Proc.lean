import Verif.Proof.ProcMethods
import Verif.Props.Regroup

/-!
# Regexes with references
-/

namespace Mregex
open Ast Spec

/-! ## C68 -/

/-- **C68**: every call of every usable regex returns exactly what one gets by carrying out the procedure of the regex: the verdict, the range
of the match, and the contents of every group, whether the call succeeds or not.  `ν` says which group a name means. -/
theorem C68_methods (R : Regex) (cat : Cat) (hR : R.Ok cat) (ν : List Byte → Nat)
    (hν : ∀ k n, R.ast.nameSpec.count (some n) = 1 → HasGroup R.ast k (some n) → ν n = k) (M : Method) (s : List Byte) :
    ∃ res, R.invoke M cat s = some res ∧
      res.matched = (carryOut s.length (proc (Flags.ofList R.flags) s ν R.ast 0 false) 0 (fun _ => none) M).1.isSome ∧
      (∀ r, (carryOut s.length (proc (Flags.ofList R.flags) s ν R.ast 0 false) 0 (fun _ => none) M).1 = some r → res.group 0 = some (some r)) ∧
      ∀ k, k ≠ 0 → k ≤ captureCount R.ast →
        res.group k = some ((carryOut s.length (proc (Flags.ofList R.flags) s ν R.ast 0 false) 0 (fun _ => none) M).2 k) := by
  obtain ⟨q, c', h1, h2, h3, h4⟩ := invoke_follow (E := R.env cat s) (hR s) (fun n id => names_of_groups hR hν) M (Nat.le_refl _) (Nat.zero_le _)
    (fun _ => none)
  have hi : (R.env cat s).names = R.names := rfl
  rw [hi, ← ctxOf_init] at h1
  refine ⟨⟨c', (carryOut s.length (proc (Flags.ofList R.flags) s ν R.ast 0 false) 0 (fun _ => none) M).1.isSome⟩, ?_, rfl, fun r hr => ?_, fun k hk hk' => ?_⟩
  · unfold Regex.invoke fuelFor
    rw [show M.invoke (R.env cat s) (R.ast.depth + s.length + 1) R.ast 0 (initCtx R.names) = _ from h1]
    rfl
  · exact (h3 r.1 r.2 hr).2 (Nat.succ_pos _)
  · show c'[k]? = _
    rw [h4 k hk, getElem?_ctxOf, if_pos]
    · rfl
    · show k < (R.ast.nameSpec).length + 1
      rw [length_nameSpec]; omega

theorem genNext_follow {R : Regex} {cat : Cat} (hR : R.Ok cat) {ν : List Byte → Nat} (hν : ∀ n id, nameIndex R.names n = some id → ν n = id)
    (M : Method) (s : List Byte) (g : Gen) (ha : g.active = true) (hg : g.current ≤ s.length) :
    ∃ res g', genNext R M cat s g = some (res, g') ∧
      res.matched = (carryOut s.length (proc (Flags.ofList R.flags) s ν R.ast 0 false) g.current (fun _ => none) M).1.isSome ∧
      (∀ r, (carryOut s.length (proc (Flags.ofList R.flags) s ν R.ast 0 false) g.current (fun _ => none) M).1 = some r →
        res.group 0 = some (some r) ∧ g' = ⟨r.2, r.1 != r.2⟩) ∧
      ((carryOut s.length (proc (Flags.ofList R.flags) s ν R.ast 0 false) g.current (fun _ => none) M).1 = none → g'.active = false) ∧
      ∀ k, k ≠ 0 → k ≤ captureCount R.ast →
        res.group k = some ((carryOut s.length (proc (Flags.ofList R.flags) s ν R.ast 0 false) g.current (fun _ => none) M).2 k) := by
  obtain ⟨q, c', h1, h2, h3, h4⟩ := invoke_follow (E := R.env cat s) (hR s) hν M (Nat.le_refl _) hg (fun _ => none)
  have hi : (R.env cat s).names = R.names := rfl
  rw [hi, ← ctxOf_init] at h1
  refine ⟨⟨c', (carryOut s.length (proc (Flags.ofList R.flags) s ν R.ast 0 false) g.current (fun _ => none) M).1.isSome⟩,
    { current := q, active := (carryOut s.length (proc (Flags.ofList R.flags) s ν R.ast 0 false) g.current (fun _ => none) M).1.isSome && !(c'.getD 0 none).isEmpty },
    ?_, rfl, fun r hr => ⟨?_, ?_⟩, fun hr => ?_, fun k hk hk' => ?_⟩
  · unfold genNext fuelFor
    simp only [ha, Bool.not_true, Bool.false_eq_true, if_false]
    rw [show M.invoke (R.env cat s) (R.ast.depth + s.length + 1) R.ast g.current (initCtx R.names) = _ from h1]
    rfl
  · exact (h3 r.1 r.2 hr).2 (Nat.succ_pos _)
  · have h0 := (h3 r.1 r.2 hr).2 (Nat.succ_pos _)
    rw [(h3 r.1 r.2 hr).1, hr, List.getD_eq_getElem?_getD, h0]
    rfl
  · simp only [hr, Option.isSome_none, Bool.false_and]
  · show c'[k]? = _
    rw [h4 k hk, getElem?_ctxOf, if_pos]
    · rfl
    · show k < (R.ast.nameSpec).length + 1
      rw [length_nameSpec]; omega

/-- **C68**: the same for each result of a generator (`tokenizer`, `searcher`), from wherever it has got to. -/
theorem C68_generators (R : Regex) (cat : Cat) (hR : R.Ok cat) (ν : List Byte → Nat)
    (hν : ∀ k n, R.ast.nameSpec.count (some n) = 1 → HasGroup R.ast k (some n) → ν n = k) (M : Method) (s : List Byte) (g : Gen)
    (ha : g.active = true) (hg : g.current ≤ s.length) :
    ∃ res g', genNext R M cat s g = some (res, g') ∧
      res.matched = (carryOut s.length (proc (Flags.ofList R.flags) s ν R.ast 0 false) g.current (fun _ => none) M).1.isSome ∧
      (∀ r, (carryOut s.length (proc (Flags.ofList R.flags) s ν R.ast 0 false) g.current (fun _ => none) M).1 = some r →
        res.group 0 = some (some r) ∧ g' = ⟨r.2, r.1 != r.2⟩) ∧
      ((carryOut s.length (proc (Flags.ofList R.flags) s ν R.ast 0 false) g.current (fun _ => none) M).1 = none → g'.active = false) ∧
      ∀ k, k ≠ 0 → k ≤ captureCount R.ast →
        res.group k = some ((carryOut s.length (proc (Flags.ofList R.flags) s ν R.ast 0 false) g.current (fun _ => none) M).2 k) :=
  genNext_follow hR (fun _ _ => names_of_groups hR hν) M s g ha hg

/-- `(?:(?:(a)|a)(?:\k<x>c|)|(?<x>b))*$`. -/
def exProc : Regex :=
  ⟨.seq [.rep .greedy 0 .inf (.alt [.seq [.alt [.cap 1 none (.lit (ch 'a')), .lit (ch 'a')], .alt [.seq [.namedBackref (txt "x"), .lit (ch 'c')], .empty]],
    .cap 2 (some (txt "x")) (.lit (ch 'b'))]), .eol], []⟩

/-- On `bac`: the reference first reads `b`, and, after the group has been tried in vain, nothing. -/
example : exProc.Ok .randomAccess ∧ exProc.ast.nameSpec.count (some (txt "x")) = 1 ∧ HasGroup exProc.ast 2 (some (txt "x")) ∧
    exProc.match (txt "bac") = some ⟨[some (0, 3), some (1, 1), some (0, 0)], true⟩ ∧
    (carryOut 3 (proc {} (txt "bac") (fun _ => 2) exProc.ast 0 false) 0 (fun _ => none) .match).1 = some (0, 3) ∧
    (carryOut 3 (proc {} (txt "bac") (fun _ => 2) exProc.ast 0 false) 0 (fun _ => none) .match).2 1 = some (1, 1) ∧
    (carryOut 3 (proc {} (txt "bac") (fun _ => 2) exProc.ast 0 false) 0 (fun _ => none) .match).2 2 = some (0, 0) :=
  ⟨Regex.ok_of_okb (by decide), by decide, by rw [hasGroup_iff]; decide, by decide, by decide, by decide, by decide⟩

end Mregex
