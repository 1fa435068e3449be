import Verif.Proof.EffortStars
import Verif.Proof.OkCheck
import Verif.Props.Safety
import Verif.Spec.Openers

/-!
# What a call costs
-/

namespace Mregex
open Ast Spec

/-! ## C66 -/

/-- **C66**: every call has a cost, and measuring it does not change the result. -/
theorem C66_measured {R : Regex} {cat : Cat} (hR : R.Ok cat) (M : Method) (s : List Byte) :
    ∃ μ, R.measure M cat s = some μ ∧ R.invoke M cat s = some μ.result := by
  obtain ⟨res, hr⟩ := C01_methods_return R cat hR M s
  have := measure_result hR M s
  rw [hr] at this
  cases hm : R.measure M cat s with
  | none => rw [hm] at this; cases this
  | some μ =>
    rw [hm] at this
    simp only [Option.map_some, Option.some.injEq] at this
    exact ⟨μ, rfl, by rw [hr, this]⟩

/-- **C66**: the number of nested calls is at most proportional to the length of the input, with a factor that depends on the
regex only. -/
theorem C66_linear {R : Regex} {cat : Cat} (hR : R.Ok cat) :
    ∃ K, ∀ (M : Method) (s : List Byte) (μ : Measured), R.measure M cat s = some μ → μ.depth ≤ K * (s.length + 1) := by
  refine ⟨climb cat R.ast + high cat 1 R.ast, fun M s μ h => ?_⟩
  have h1 := (measure_bounds hR h).2
  have h2 := high_linear cat s.length R.ast
  have h3 : climb cat R.ast * s.length ≤ climb cat R.ast * (s.length + 1) := Nat.mul_le_mul_left _ (by omega)
  rw [Nat.add_mul]
  omega

/-- **C66**: it does not depend on the input at all if nothing but tests of single characters is repeated without limit, except
possessively. -/
theorem C66_flat {R : Regex} {cat : Cat} (hR : R.Ok cat) (hf : flat cat R.ast = true) :
    ∃ K, ∀ (M : Method) (s : List Byte) (μ : Measured), R.measure M cat s = some μ → μ.depth ≤ K := by
  refine ⟨high cat 0 R.ast, fun M s μ h => ?_⟩
  have h1 := (measure_bounds hR h).2
  rw [flat_climb hf, flat_high hf] at h1
  omega

/-- **C66**: in general it does depend on it: `(?:aa)*` nests a call for every round (repetition.hpp:78-91), whatever the method. -/
theorem C66_sharp (M : Method) (cat : Cat) (n : Nat) :
    ∃ μ, Regex.measure ⟨.rep .greedy 0 .inf (.seq [.lit 97#8, .lit 97#8]), []⟩ M cat (List.replicate (2 * n) 97#8) = some μ ∧
      μ.result.matched = true ∧ n ≤ μ.depth := pairs_depth M cat n

/-- `(.+)(?:,.+){0,3};??`, and `(?:ab|c)*+d`: flat. -/
example := C66_flat (R := ⟨.seq [.cap 1 none (plus .wildcard), .rep .greedy 0 (.fin 3) (.seq [.lit (ch ','), plus .wildcard]),
  .rep .lazy 0 (.fin 1) (.lit (ch ';'))], []⟩) (cat := .bidirectional) (Regex.ok_of_okb (by decide)) (by decide)
example := C66_flat (R := ⟨.seq [.rep .possessive 0 .inf (.alt [.seq [.lit (ch 'a'), .lit (ch 'b')], .lit (ch 'c')]), .lit (ch 'd')], []⟩)
  (cat := .forward) (Regex.ok_of_okb (by decide)) (by decide)
/-- With forward iterators even `a*` recurses. -/
example : flat .forward (.rep .greedy 0 .inf (.lit (ch 'a'))) = false ∧ flat .bidirectional (.rep .greedy 0 .inf (.lit (ch 'a'))) = true := by
  decide
example : (Regex.measure ⟨.rep .greedy 0 .inf (.lit (ch 'a')), []⟩ .match .forward (txt "aaaaaaaa")).map (·.depth) = some 10 ∧
    (Regex.measure ⟨.rep .greedy 0 .inf (.lit (ch 'a')), []⟩ .match .bidirectional (txt "aaaaaaaa")).map (·.depth) = some 1 := by decide +kernel
example := C66_linear (R := ⟨.rep .lazy 0 .inf (.cap 1 none (.alt [.seq [.lit (ch 'a'), .lit (ch 'b')], .lit (ch 'c')])), [.icase]⟩)
  (cat := .forward) (Regex.ok_of_okb (by decide))
example := C66_measured (R := ⟨.seq [.cap 1 none (plus .wildcard), .backref 1], []⟩) (cat := .bidirectional) (Regex.ok_of_okb (by decide))
  .search (txt "abab")

/-! ## C67 -/

/-- **C67**: the number of calls is at most polynomial in the length of the input if whatever is repeated without limit and not
possessively has nothing to backtrack into. -/
theorem C67_polynomial {R : Regex} {cat : Cat} (hR : R.Ok cat) (hs : steady R.ast = true) :
    ∃ K d, ∀ (M : Method) (s : List Byte) (μ : Measured), R.measure M cat s = some μ → μ.calls ≤ K * (s.length + 1) ^ d := by
  obtain ⟨K, d, h⟩ := poly_succ.mul (steady_effort hs false)
  exact ⟨K, d, fun M s μ hm => Nat.le_trans (measure_bounds hR hm).1 (h s.length)⟩

/-- **C67**: the exponent can be read off the regex: it is `degree`, and one more for `search`, which begins at every position. -/
theorem C67_degree {R : Regex} {cat : Cat} (hR : R.Ok cat) (hs : steady R.ast = true) :
    ∃ K, ∀ (M : Method) (s : List Byte) (μ : Measured), R.measure M cat s = some μ →
      μ.calls ≤ K * (s.length + 1) ^ (if M = .search then degree R.ast + 1 else degree R.ast) := by
  obtain ⟨K, h⟩ := degree_effort hs false
  refine ⟨K, fun M s μ hm => ?_⟩
  split
  · refine Nat.le_trans (measure_bounds hR hm).1 ?_
    rw [Nat.pow_succ, ← Nat.mul_assoc, Nat.mul_comm (s.length + 1)]
    exact Nat.mul_le_mul_right _ (h s.length)
  · next hM => exact Nat.le_trans (measure_bounds_once hR hM hm) (h s.length)

/-- The exponents for `\[(?<level>[A-Z]++)\]: (?<msg>.++)` (example/forward_list.cpp:7), for `.*x.*y` and for `(?:a?b){3}`. -/
example : degree (.seq [.lit (ch '['), .cap 1 none (.rep .possessive 1 .inf (.range 65#8 90#8)), .lit (ch ']'), .cap 2 none (.rep .possessive 1 .inf .wildcard)]) = 1 ∧
    degree (.seq [.rep .greedy 0 .inf .wildcard, .lit (ch 'x'), .rep .greedy 0 .inf .wildcard, .lit (ch 'y')]) = 2 ∧
    degree (.rep .greedy 3 (.fin 3) (.seq [.rep .greedy 0 (.fin 1) (.lit (ch 'a')), .lit (ch 'b')])) = 0 := by decide
example := C67_degree (R := ⟨.seq [.cap 1 none (plus .wildcard), .lit (ch '@'), .backref 1], []⟩) (cat := .randomAccess) (Regex.ok_of_okb (by decide)) (by decide)

/-- **C67**: these exponents are reached: for every one there is a usable regex (`a*…a*b`) such that texts of any length need as many calls, up to a factor. -/
theorem C67_sharp (k : Nat) (hk : 0 < k) :
    ∃ R : Regex, (∀ cat, R.Ok cat) ∧ steady R.ast = true ∧ degree R.ast = k ∧ ∃ C, ∀ (M : Method) (cat : Cat) (n : Nat), ∃ (s : List Byte) (μ : Measured), s.length = n ∧
      R.measure M cat s = some μ ∧ n ^ (if M = .search then degree R.ast + 1 else degree R.ast) ≤ C * μ.calls := by
  refine ⟨stars k, fun cat => stars_ok cat k, stars_steady k, stars_degree hk, fact (k + 1), fun M cat n => ?_⟩
  obtain ⟨μ, h1, _, h2⟩ := stars_calls M cat hk n
  refine ⟨List.replicate n 97#8, μ, by simp, h1, ?_⟩
  rw [stars_degree hk]
  have h3 := pow_shares (if M = .search then k + 1 else k) n
  refine Nat.le_trans h3 (Nat.mul_le_mul ?_ h2)
  split
  · exact Nat.le_refl _
  · simp only [fact]
    exact Nat.le_mul_of_pos_left _ (by omega)

/-- **C67**: and not in general: `(?:a+)+b` makes at least `2 ^ n` calls for `n` letters `a`, whatever the method. -/
theorem C67_exponential (M : Method) {cat : Cat} (hcat : cat ≠ .forward) (n : Nat) :
    ∃ μ, Regex.measure ⟨.seq [.rep .greedy 1 .inf (.rep .greedy 1 .inf (.lit 97#8)), .lit 98#8], []⟩ M cat (List.replicate n 97#8) = some μ ∧
      μ.result.matched = false ∧ 2 ^ n ≤ μ.calls := manyMany_calls M hcat n

/-- **C67**: no polynomial bounds it. -/
theorem C67_unbounded (M : Method) {cat : Cat} (hcat : cat ≠ .forward) (K d : Nat)
    (h : ∀ (s : List Byte) (μ : Measured),
      Regex.measure ⟨.seq [.rep .greedy 1 .inf (.rep .greedy 1 .inf (.lit 97#8)), .lit 98#8], []⟩ M cat s = some μ →
        μ.calls ≤ K * (s.length + 1) ^ d) : False := by
  obtain ⟨n, hn⟩ := exp_gt K d
  obtain ⟨μ, hm, _, hc⟩ := C67_exponential M hcat n
  have := h _ μ hm
  simp only [List.length_replicate] at this
  omega

/-- `(.+)@(?:.+\.)*+(?=x|y).*?\1`: steady. -/
example := C67_polynomial (R := ⟨.seq [.cap 1 none (plus .wildcard), .lit (ch '@'),
    .rep .possessive 0 .inf (.seq [plus .wildcard, .lit (ch '.')]), .look .ahead (.alt [.lit (ch 'x'), .lit (ch 'y')]),
    .rep .lazy 0 .inf .wildcard, .backref 1], []⟩) (cat := .randomAccess) (Regex.ok_of_okb (by decide)) (by decide)
/-- `(?:a+)+` is not, `(?:ab)+` and `(?:a++)+` are. -/
example : steady (plus (plus (.lit (ch 'a')))) = false ∧ steady (plus (.seq [.lit (ch 'a'), .lit (ch 'b')])) = true ∧
    steady (plus (.rep .possessive 1 .inf (.lit (ch 'a')))) = true := by decide
example : (Regex.measure ⟨.seq [plus (plus (.lit (ch 'a'))), .lit (ch 'b')], []⟩ .match .randomAccess (txt "aaaaaa")).map (·.calls) =
    some (3 * 2 ^ 6 + 1) := by decide +kernel

end Mregex
