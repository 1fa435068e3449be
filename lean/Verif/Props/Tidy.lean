import Verif.Proof.Tidy
import Verif.Props.Proc
import Verif.Props.Generators
import Verif.Props.Safety

/-!
# C05, C12, C31 for regexes with references
-/

namespace Mregex
open Ast Spec

section
variable {R : Regex} {cat : Cat} {ν : List Byte → Nat}

/-- Where a fresh attempt at `j` ends. -/
def freshEnd (R : Regex) (ν : List Byte → Nat) (s : List Byte) (j : Nat) : Option Nat :=
  ((proc R.fl s ν R.ast 0 false j).follow (fun _ => true) (fun _ => none)).1

theorem invoke_fresh (hR : R.Ok cat) (hν : ∀ k n, R.ast.nameSpec.count (some n) = 1 → HasGroup R.ast k (some n) → ν n = k) (s : List Byte)
    {j : Nat} (hj : j ≤ s.length) :
    ∃ q c, Method.matchPrefix.invoke (R.env cat s) (fuelFor R.ast s) R.ast j (initCtx R.names) = .ok ⟨q, (freshEnd R ν s j).isSome⟩ c ∧
      (∀ e, freshEnd R ν s j = some e → q = e) ∧
      ∀ k, k ≠ 0 → c[k]? = (ctxOf R.names.length ((proc R.fl s ν R.ast 0 false j).follow (fun _ => true) (fun _ => none)).2)[k]? := by
  obtain ⟨q, c', h1, h2, h3, h4⟩ := invoke_follow (E := R.env cat s) (hR s) (fun n id => names_of_groups hR hν) .matchPrefix (Nat.le_refl _) hj
    (fun _ => none)
  rw [show (R.env cat s).names = R.names from rfl, ← ctxOf_init] at h1
  have he : (carryOut (R.env cat s).inp.length (proc (R.env cat s).flags (R.env cat s).inp ν R.ast 0 false) j (fun _ => none) .matchPrefix).1 =
    (freshEnd R ν s j).map (j, ·) := rfl
  rw [he, Option.isSome_map] at h1
  refine ⟨q, c', h1, fun e hf => (h3 j e (by rw [he, hf]; rfl)).1, h4⟩

/-- The outcome of a search in terms of fresh attempts. -/
theorem search_fresh (hR : R.Ok cat) (hν : ∀ k n, R.ast.nameSpec.count (some n) = 1 → HasGroup R.ast k (some n) → ν n = k)
    (ho : ∀ k ∈ referred ν R.ast, k ∉ innerGroups R.ast) (s : List Byte) {cur : Nat} (hcur : cur ≤ s.length) :
    ∃ q m c, Method.search.invoke (R.env cat s) (fuelFor R.ast s) R.ast cur (initCtx R.names) = .ok ⟨q, m⟩ c ∧
      (m = true → ∃ b, cur ≤ b ∧ b ≤ s.length ∧ c[0]? = some (some (b, q)) ∧ freshEnd R ν s b = some q ∧ (∀ j, cur ≤ j → j < b → freshEnd R ν s j = none) ∧
        ∀ k, k ≠ 0 → k ∉ innerGroups R.ast → ∃ n, c[k]? = (ctxOf R.names.length n)[k]? ∧
          heldText s (n k) = heldText s (((proc R.fl s ν R.ast 0 false b).follow (fun _ => true) (fun _ => none)).2 k)) ∧
      (m = false → ∀ j, cur ≤ j → j ≤ s.length → freshEnd R ν s j = none) := by
  obtain ⟨q, c', h1, h2, h3, h4⟩ := invoke_follow (E := R.env cat s) (hR s) (fun n id => names_of_groups hR hν) .search (Nat.le_refl _) hcur
    (fun _ => none)
  rw [show (R.env cat s).names = R.names from rfl, ← ctxOf_init] at h1
  obtain ⟨t1, t2⟩ := tryFrom_fresh (s := s) (O := fun k => k ∉ innerGroups R.ast) (g := proc R.fl s ν R.ast 0 false)
    (fun j => proc_clean R.fl s ν R.ast (fun k hk hk' => hk' hk) 0 false j) (fun j => proc_textual R.fl ν R.ast ho 0 false j)
    (List.range' cur (s.length + 1 - cur)) (h := fun _ => none) (fun _ _ => rfl)
  have he : ∀ x, carryOut (R.env cat s).inp.length (proc (R.env cat s).flags (R.env cat s).inp ν R.ast 0 false) cur x .search =
    tryFrom (proc R.fl s ν R.ast 0 false) (List.range' cur (s.length + 1 - cur)) x := fun _ => rfl
  rw [he] at h1 h3 h4
  refine ⟨q, _, c', h1, fun hm => ?_, fun hm j hj hj' => ?_⟩
  · obtain ⟨⟨b, e⟩, hr⟩ := Option.isSome_iff_exists.1 hm
    obtain ⟨rfl, h6⟩ := h3 b e hr
    obtain ⟨l₁, l₂, e1, e2, e3, e4⟩ := t1 b q hr
    have hb : b ∈ List.range' cur (s.length + 1 - cur) := by rw [e1]; simp
    rw [List.mem_range'_1] at hb
    refine ⟨b, hb.1, by omega, h6 (Nat.succ_pos _), e2, fun j hj hj' => e3 j ?_, fun k hk hk' => ⟨_, h4 k hk, e4 k hk'⟩⟩
    have hjm : j ∈ List.range' cur (s.length + 1 - cur) := by rw [List.mem_range'_1]; omega
    rw [e1] at hjm
    rcases List.mem_append.1 hjm with h | h
    · exact h
    · have hs := List.pairwise_lt_range' (s := cur) (n := s.length + 1 - cur) (step := 1)
      rw [e1] at hs
      have hs := (List.pairwise_append.1 hs).2.1
      rcases List.mem_cons.1 h with rfl | h
      · omega
      · have := (List.pairwise_cons.1 hs).1 j h
        omega
  · have : (tryFrom (proc R.fl s ν R.ast 0 false) (List.range' cur (s.length + 1 - cur)) (fun _ => none)).1 = none := by
      cases hx : (tryFrom (proc R.fl s ν R.ast 0 false) (List.range' cur (s.length + 1 - cur)) (fun _ => none)).1 with
      | none => rfl
      | some x => rw [hx] at hm; cases hm
    exact (t2 this).1 j (by rw [List.mem_range'_1]; omega)

end

/-- **C05, partial**, for all regexes in which no reference leads to a group inside of a lookaround, a negation, an atomic group or a possessive quantifier (missing: the
others, for which it is false).  If `search` reports `[i,j)`, a fresh attempt at `i` ends at `j`, fresh attempts at all earlier positions fail, and
every group outside of such parts holds the same text as after the fresh attempt.  If `search` fails, fresh attempts fail everywhere. -/
theorem C05_outside_partial (R : Regex) (cat : Cat) (hR : R.Ok cat) (ν : List Byte → Nat)
    (hν : ∀ k n, R.ast.nameSpec.count (some n) = 1 → HasGroup R.ast k (some n) → ν n = k)
    (ho : ∀ k ∈ referred ν R.ast, k ∉ innerGroups R.ast) (s : List Byte) (res : Result) (h : R.search s cat = some res) :
    (res.matched = true → ∃ i j, res.group 0 = some (some (i, j)) ∧ i ≤ s.length ∧
      (∃ c', Method.matchPrefix.invoke (R.env cat s) (fuelFor R.ast s) R.ast i (initCtx R.names) = .ok ⟨j, true⟩ c' ∧
        ∀ k, k ≠ 0 → k ∉ innerGroups R.ast → (res.group k).map (heldText s) = c'[k]?.map (heldText s)) ∧
      ∀ k, k < i → ∃ q c', Method.matchPrefix.invoke (R.env cat s) (fuelFor R.ast s) R.ast k (initCtx R.names) = .ok ⟨q, false⟩ c') ∧
    (res.matched = false → ∀ k, k ≤ s.length →
      ∃ q c', Method.matchPrefix.invoke (R.env cat s) (fuelFor R.ast s) R.ast k (initCtx R.names) = .ok ⟨q, false⟩ c') := by
  have hfail : ∀ j, j ≤ s.length → freshEnd R ν s j = none →
      ∃ q c', Method.matchPrefix.invoke (R.env cat s) (fuelFor R.ast s) R.ast j (initCtx R.names) = .ok ⟨q, false⟩ c' := by
    intro j hj hn
    obtain ⟨q, c, h1, _⟩ := invoke_fresh hR hν s hj
    rw [hn] at h1
    exact ⟨q, c, h1⟩
  obtain ⟨q, m, c, h1, h2, h3⟩ := search_fresh hR hν ho s (Nat.zero_le _)
  have hres : res = ⟨c, m⟩ := by
    simp only [Regex.search, Regex.invoke, h1, Option.some.injEq] at h
    exact h.symm
  subst hres
  refine ⟨fun hm => ?_, fun hm k hk => hfail k hk (h3 hm k (Nat.zero_le _) hk)⟩
  obtain ⟨b, _, hb, h4, h5, h6, h7⟩ := h2 hm
  obtain ⟨q', c', k1, k2, k3⟩ := invoke_fresh hR hν s hb
  rw [h5] at k1
  refine ⟨b, q, h4, hb, ⟨c', ?_, fun k hk hk' => ?_⟩, fun k hk => hfail k (by omega) (h6 k (Nat.zero_le _) hk)⟩
  · rw [k1, k2 q h5]; rfl
  · obtain ⟨n, e1, e2⟩ := h7 k hk hk'
    show c[k]?.map _ = _
    rw [e1, k3 k hk, getElem?_ctxOf, getElem?_ctxOf]
    split
    · simp only [Option.map_some, e2]
    · rfl

/-- `(a|b)+(\1)c(?=\2)`: the groups are tried again, and there are references to both, one of them in a lookahead. -/
def exTidy : Regex :=
  ⟨.seq [plus (.cap 1 none (.alt [.lit (ch 'a'), .lit (ch 'b')])), .cap 2 none (.backref 1), .lit (ch 'c'), .look .ahead (.backref 2)], []⟩

example : exTidy.Ok .randomAccess ∧ (∀ k ∈ referred (fun _ => 0) exTidy.ast, k ∉ innerGroups exTidy.ast) ∧
    exTidy.search (txt "xabc") = some ⟨[some (1, 4), some (2, 2), some (3, 3)], true⟩ :=
  ⟨Regex.ok_of_okb (by decide), by decide, by decide +kernel⟩

/-- **C12**, partial, for all regexes, whatever references they contain: after a failure, no group outside of lookarounds, negations, atomic groups and
possessive quantifiers holds text.  Missing: groups inside of such parts, which do leave text behind (`C12_failure_false`). -/
theorem C12_failure_partial (R : Regex) (cat : Cat) (hR : R.Ok cat) (M : Method) (s : List Byte) (res : Result) (h : R.invoke M cat s = some res)
    (hm : res.matched = false) (k : Nat) (hk : k ≠ 0) (hi : k ∉ innerGroups R.ast) (g : Cap) (hg : res.group k = some g) : NoText g := by
  obtain ⟨q, c', h1, h2, h3, h4⟩ := invoke_follow (E := R.env cat s) (ν := fun n => (nameIndex R.names n).getD 0) (hR s)
    (fun n id h => by simp only [show nameIndex R.names n = some id from h]; rfl) M (Nat.le_refl _) (Nat.zero_le _) (fun _ => none)
  rw [show (R.env cat s).names = R.names from rfl, ← ctxOf_init] at h1
  have hb := C09_groups_in_bounds R cat hR M s res h k g hg
  have hres : res = ⟨c', (carryOut (R.env cat s).inp.length
      (proc (R.env cat s).flags (R.env cat s).inp (fun n => (nameIndex R.names n).getD 0) R.ast 0 false) 0 (fun _ => none) M).1.isSome⟩ := by
    unfold Regex.invoke at h
    rw [show M.invoke (R.env cat s) (fuelFor R.ast s) R.ast 0 (initCtx R.names) = _ from h1] at h
    simp only [Option.some.injEq] at h
    exact h.symm
  subst hres
  have hn : ∀ {α : Type} {o : Option α}, o.isSome = false → o = none := fun {α o} h => by cases o with | none => rfl | some _ => cases h
  have ht := carryOut_tidy (s := s) (O := fun k => k ∉ innerGroups R.ast)
    (g := proc (R.env cat s).flags (R.env cat s).inp (fun n => (nameIndex R.names n).getD 0) R.ast 0 false)
    (fun j => proc_clean _ _ _ R.ast (fun k hk hk' => hk' hk) 0 false j) (R.env cat s).inp.length 0 M (h := fun _ => none) (fun _ _ => rfl) (hn hm) k hi
  have hg : c'[k]? = some g := hg
  rw [h4 k hk, getElem?_ctxOf] at hg
  split at hg
  · simp only [Option.some.injEq] at hg
    rw [hg] at ht
    rcases hb with rfl | ⟨b, e, rfl, h5, h6⟩
    · trivial
    · have := congrArg List.length ht
      simp only [heldText, List.length_take, List.length_drop, List.length_nil] at this
      show b = e
      omega
  · cases hg

example : exTidy.invoke .search .randomAccess (txt "aba") = some ⟨[none, some (2, 2), some (3, 3)], false⟩ ∧ 1 ∉ innerGroups exTidy.ast :=
  ⟨by decide +kernel, by decide⟩

/-- **C31, partial**, for all regexes in which no reference leads to a group inside of a lookaround, a negation, an atomic group or a possessive quantifier: the results of
`find_all` are the iterated searches, up to the first empty match, where the match at a position is that of a fresh attempt there
(missing: the search goes on after an empty match, which is false). -/
theorem C31_outside_partial (R : Regex) (cat : Cat) (hR : R.Ok cat) (ν : List Byte → Nat)
    (hν : ∀ k n, R.ast.nameSpec.count (some n) = 1 → HasGroup R.ast k (some n) → ν n = k)
    (ho : ∀ k ∈ referred ν R.ast, k ∉ innerGroups R.ast) (s : List Byte) (k : Nat) (hk : s.length + 2 ≤ k) :
    ∃ first : Nat → Option Nat, (∀ j, j ≤ s.length → ∃ q c, Method.matchPrefix.invoke (R.env cat s) (fuelFor R.ast s) R.ast j (initCtx R.names) =
        .ok ⟨q, (first j).isSome⟩ c ∧ ∀ e, first j = some e → q = e) ∧
      ∃ rs ranges, rangeElements R findAllMethod cat s k = some (rs, true) ∧ rs.map (·.group 0) = ranges.map (fun x => some (some x)) ∧
        Finds s.length first 0 ranges := by
  refine ⟨freshEnd R ν s, fun j hj => ?_, finds_of_view hR ?_ k hk⟩
  · obtain ⟨q, c, h1, h2, _⟩ := invoke_fresh hR hν s hj
    exact ⟨q, c, h1, h2⟩
  · intro cur hcur
    obtain ⟨q, m, c, h1, h2, h3⟩ := search_fresh hR hν ho s hcur
    refine ⟨⟨q, m⟩, c, h1, fun hm => ?_, h3⟩
    obtain ⟨b, e1, e2, e3, e4, e5, _⟩ := h2 hm
    exact ⟨b, e1, e2, e3, e4, e5⟩

end Mregex
