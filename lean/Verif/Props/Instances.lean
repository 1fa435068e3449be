import Verif.Proof.Instances
import Verif.Props.Compile
import Verif.Props.Parsing
import Mathlib.Data.List.Nodup
import Mathlib.Data.List.Perm.Subperm

/-!
# C99: instantiations of the matcher
-/

namespace Mregex
open Ast Spec

/-- **C99**: what has to be instantiated for a call of `match`, `match_prefix` or `search` is finite: no more than every node once for each copy that its quantifiers stand for.  (The loops are functions that call
themselves, with the same arguments; each bound of a repetition is a function of its own.) -/
theorem C99_finite (S : InstSettings) (whole : Bool) (a : Ast) : ∃ L : List Inst, L.length ≤ instWeight S.unroll a ∧ ∀ x, Needed S (rootInst whole a) x → x ∈ L :=
  (body_le S (nodeCount a + 1) a (Nat.lt_succ_self _) 0 _).needed

/-- **C99** for patterns whose quantifiers stand for at most `B` copies and are nested at most `d` deep: linear in the length of the pattern, with a factor `B ^ d`. -/
theorem C99_size_partial (S : InstSettings) (whole : Bool) (pat : List Byte) (a : Ast) (h : parse pat = .result a .success) (B d : Nat) (hB : 1 ≤ B) (hc : CopiesLe S.unroll B a) (hd : repNest a ≤ d) :
    ∃ L : List Inst, L.length ≤ (20 * pat.length + 4) * B ^ d ∧ ∀ x, Needed S (rootInst whole a) x → x ∈ L := by
  obtain ⟨L, h1, h2⟩ := C99_finite S whole a
  refine ⟨L, ?_, h2⟩
  have h3 := weight_le S.unroll B hB a hc
  have h4 := C97_size pat a h
  have h5 : nodeCount a * B ^ repNest a ≤ (5 * pat.length + 1) * B ^ d := Nat.mul_le_mul h4 (Nat.pow_le_pow_right hB hd)
  have h6 : (20 * pat.length + 4) * B ^ d = 4 * ((5 * pat.length + 1) * B ^ d) := by
    rw [← Nat.mul_assoc]; congr 1; omega
  omega

/-- `*` and `?`, in all modes, stand for one copy; `+` for two. -/
theorem C99_copies (u : Bool) : copiesOf u 0 .inf = 1 ∧ copiesOf u 0 (.fin 1) = 1 ∧ copiesOf u 1 .inf = 2 := by
  cases u <;> decide

/-- A pattern in which only `*` and `?` occur: as many functions as there are characters, up to a factor. -/
example (S : InstSettings) : ∃ L : List Inst, L.length ≤ 324 ∧
    ∀ x, Needed S (rootInst true (.rep .greedy 0 .inf (.seq [.rep .greedy 0 .inf (.alt [.lit (ch 'a'), .seq [.lit (ch 'b'), .lit (ch 'c')]]), .rep .greedy 0 (.fin 1) (.lit (ch 'd'))]))) x → x ∈ L := by
  have h1 : ∀ u, copiesOf u 0 .inf ≤ 1 := fun u => by cases u <;> decide
  have h2 : ∀ u, copiesOf u 0 (.fin 1) ≤ 1 := fun u => by cases u <;> decide
  have := C99_size_partial S true (txt "(?:(?:a|bc)*d?)*") (a := .rep .greedy 0 .inf (.seq [.rep .greedy 0 .inf (.alt [.lit (ch 'a'), .seq [.lit (ch 'b'), .lit (ch 'c')]]), .rep .greedy 0 (.fin 1) (.lit (ch 'd'))]))
    rfl 1 2 (Nat.le_refl _) (by simp [CopiesLe, CopiesLes, h1, h2]) (by simp [repNest, repNests])
  rwa [Nat.one_pow, Nat.mul_one] at this

/-! ### Nested quantifiers -/

/-- `ab` with `k` times a `+` around it. -/
def plusTower : Nat → Ast
  | 0 => .seq [.lit (ch 'a'), .lit (ch 'b')]
  | k + 1 => .rep .greedy 1 .inf (plusTower k)

theorem normal_plusTower : ∀ k, Normal (plusTower k)
  | 0 => .seq (by simp) (by intro a ha l; simp at ha; rcases ha with rfl | rfl <;> simp) (by intro a ha; simp at ha; rcases ha with rfl | rfl <;> exact .lit)
  | k + 1 => .repInf (by decide) (normal_plusTower k)

theorem index_plusTower (i : Nat) : ∀ k, index i (plusTower k) = plusTower k
  | 0 => rfl
  | k + 1 => by simp only [plusTower, index, index_plusTower i k]

theorem print_plusTower : ∀ k, (pr (plusTower k)).text.length = 5 * k + 2 ∧ (pr (plusTower k)).level ∉ [Level.atom, Level.ref]
  | 0 => by decide
  | k + 1 => by
    obtain ⟨h1, h2⟩ := print_plusTower k
    have h3 : (pr (plusTower k)).asAtom = (pr (plusTower k)).wrapped := by
      unfold Printed.asAtom
      split
      · rename_i h; simp [h] at h2
      · rename_i h; simp [h] at h2
      · rfl
    simp only [plusTower, pr]
    rw [if_neg (by simp)]
    simp [h3, Printed.wrapped, quantText, suffixText, txt, h1]
    omega

theorem home_plusTower : ∀ k, home (plusTower k) = plusTower k
  | 0 => rfl
  | k + 1 => by simp [plusTower, home]

/-- The sites of the lambdas a continuation is made of. -/
def ContT.sites : ContT → List Site
  | .lam s _ _ k => s :: k.sites
  | _ => []

/-- What is written in front of the continuation for `k` levels. -/
def towerWords (e : Site) : Nat → List (List Site)
  | 0 => [[]]
  | k + 1 => (towerWords e k).map (· ++ [.rest]) ++ (towerWords e k).map (· ++ [.guard, e])

theorem towerWords_length (e : Site) : ∀ k, (towerWords e k).length = 2 ^ k
  | 0 => rfl
  | k + 1 => by simp [towerWords, towerWords_length e k, Nat.pow_succ]; omega

theorem towerWords_nodup (e : Site) (he : e ≠ .rest) : ∀ k, (towerWords e k).Nodup
  | 0 => by simp [towerWords]
  | k + 1 => by
    have ih := towerWords_nodup e he k
    refine List.Nodup.append (ih.map (fun x y h => by simpa using h)) (ih.map (fun x y h => by simpa using h)) ?_
    intro w h1 h2
    obtain ⟨x, _, rfl⟩ := List.mem_map.mp h1
    obtain ⟨y, _, hy⟩ := List.mem_map.mp h2
    have := congrArg List.getLast? hy
    simp at this
    exact he this

theorem Needed.trans {S : InstSettings} {x y z : Inst} (h : Needed S x y) (h' : Needed S y z) : Needed S x z := by
  induction h' with
  | root => exact h
  | call _ hz ih => exact .call ih hz

/-- The loop of the quantifiers. -/
def towerSite (S : InstSettings) : Site := if S.ungreedy then .lazy .inf else .greedy .inf

theorem triv_plusTower : ∀ k, triv (plusTower k) = false
  | 0 => rfl
  | k + 1 => by simp [plusTower, triv]

theorem needed_tower (S : InstSettings) : ∀ (k : Nat) (κ : ContT) (w : List Site), w ∈ towerWords (towerSite S) k →
    ∃ κ', Needed S ⟨.node (plusTower k), 0, κ⟩ ⟨.node (plusTower 0), 0, κ'⟩ ∧ κ'.sites = w ++ κ.sites
  | 0, κ, w, h => by
    simp [towerWords] at h
    subst h
    exact ⟨κ, .root, rfl⟩
  | k + 1, κ, w, h => by
    have hfix : home (.rep .greedy 1 (.fin 1) (plusTower k)) = plusTower k := by simp [home, home_plusTower]
    have hneeds : Inst.needs S ⟨.node (plusTower (k + 1)), 0, κ⟩ =
        [⟨.node (plusTower k), 0, .lam .rest (plusTower (k + 1)) 0 κ⟩, ⟨if S.ungreedy then .lazy (plusTower (k + 1)) .inf else .greedy (plusTower (k + 1)) .inf, 0, κ⟩] := by
      simp only [plusTower, Inst.needs, hfix]
      cases hu : S.ungreedy <;> simp [betweenNeeds, triv_plusTower, hu, Bound.minus, Bound.below]
    simp only [towerWords, List.mem_append, List.mem_map] at h
    rcases h with ⟨v, hv, rfl⟩ | ⟨v, hv, rfl⟩
    · obtain ⟨κ', h1, h2⟩ := needed_tower S k (.lam .rest (plusTower (k + 1)) 0 κ) v hv
      refine ⟨κ', Needed.trans (.call .root ?_) h1, by rw [h2]; simp [ContT.sites]⟩
      rw [hneeds]; simp
    · obtain ⟨κ', h1, h2⟩ := needed_tower S k (.lam .guard (plusTower (k + 1)) 0 (.lam (towerSite S) (plusTower (k + 1)) 0 κ)) v hv
      refine ⟨κ', Needed.trans (.call (.call .root (z := ⟨if S.ungreedy then .lazy (plusTower (k + 1)) .inf else .greedy (plusTower (k + 1)) .inf, 0, κ⟩) ?_) ?_) h1, by rw [h2]; simp [ContT.sites]⟩
      · rw [hneeds]; simp
      · cases hu : S.ungreedy <;> simp [Inst.needs, plusTower, home_plusTower, towerSite, hu]

/-- **C99** is false as stated: for `(?:(?:…(?:ab)+…)+)+`, with `k` quantifiers, 2 ^ k functions `match` of the sequence `ab` are instantiated; the pattern has 5 k + 2 characters. -/
theorem C99_nested_false (S : InstSettings) (whole : Bool) (k : Nat) : ∃ (pat : List Byte) (a : Ast), pat.length = 5 * k + 2 ∧ parse pat = .result a .success ∧
    ∀ L : List Inst, (∀ x, Needed S (rootInst whole a) x → x ∈ L) → 2 ^ k ≤ L.length := by
  refine ⟨print (plusTower k), plusTower k, (print_plusTower k).1, C36_parse_print (normal_plusTower k) (index_plusTower 1 k), fun L hL => ?_⟩
  have hsub : ∀ w ∈ towerWords (towerSite S) k, w ∈ L.map fun x => x.k.sites := by
    intro w hw
    obtain ⟨κ', h1, h2⟩ := needed_tower S k (if whole then .equals else .success 0) w hw
    refine List.mem_map.mpr ⟨⟨.node (plusTower 0), 0, κ'⟩, hL _ ?_, ?_⟩
    · rw [rootInst, home_plusTower]; exact h1
    · rw [h2]; cases whole <;> simp [ContT.sites]
  have hn := towerWords_nodup (towerSite S) (by unfold towerSite; split <;> simp) k
  have := (hn.subperm hsub).length_le
  rwa [towerWords_length, List.length_map] at this

/-! ### Counts -/

/-- `ab` from 0 to `n` times. -/
def countTo (n : Nat) : Ast := .rep .greedy 0 (.fin n) (.seq [.lit (ch 'a'), .lit (ch 'b')])

theorem needed_count (S : InstSettings) (k : ContT) (n : Nat) (hn : 0 < n) : ∀ j, j ≤ n →
    Needed S ⟨.node (countTo n), 0, k⟩ ⟨if S.ungreedy then .lazy (countTo n) (.fin (n - j)) else .greedy (countTo n) (.fin (n - j)), 0, k⟩
  | 0, _ => by
    refine .call .root ?_
    have h0 : ¬ (Bound.fin n = Bound.fin 0) := by simp; omega
    simp only [countTo, Inst.needs, if_neg h0]
    cases hu : S.ungreedy <;> simp [betweenNeeds, hu, triv, trivSingle, Bound.minus, Bound.below]
  | j + 1, h => by
    refine .call (needed_count S k n hn j (by omega)) ?_
    obtain ⟨m, hm⟩ : ∃ m, n - j = m + 1 := ⟨n - j - 1, by omega⟩
    have hm' : n - (j + 1) = m := by omega
    rw [hm, hm']
    cases hu : S.ungreedy <;> simp [Inst.needs, countTo, Bound.minus]

/-- **C99** is false as stated, without nested quantifiers: for `(?:ab){0,n}` more than `n` functions are instantiated; the pattern has as many characters as `n` has digits, and nine more. -/
theorem C99_counts_false (S : InstSettings) (whole : Bool) (n : Nat) (h1 : 2 ≤ n) (h2 : n < 2 ^ 64) : ∃ a : Ast, parse (txt "(?:ab){0," ++ numeralText n ++ txt "}") = .result a .success ∧
    ∀ L : List Inst, (∀ x, Needed S (rootInst whole a) x → x ∈ L) → n < L.length := by
  refine ⟨countTo n, ?_, fun L hL => ?_⟩
  · have hN : Normal (countTo n) := .repFin (by decide) h2 (.seq (by simp) (by intro a ha l; simp at ha; rcases ha with rfl | rfl <;> simp) (by intro a ha; simp at ha; rcases ha with rfl | rfl <;> exact .lit))
    have := C36_parse_print hN rfl
    rw [show print (countTo n) = txt "(?:ab){0," ++ numeralText n ++ txt "}" from ?_] at this
    · exact this
    · have e1 : n ≠ 1 := by omega
      have e2 : ¬ (0 = n) := by omega
      have hp : (pr (.seq [.lit (ch 'a'), .lit (ch 'b')])).asAtom = txt "(?:ab)" := by decide
      have h0 : numeralText 0 = txt "0" := by unfold numeralText; decide
      simp only [print, countTo, pr]
      rw [if_neg (by simp), ← pr, hp, quantText, if_neg (fun h => e1 h.2), if_neg e2, h0]
      simp [suffixText, txt]
  · have hh : home (countTo n) = countTo n := by
      simp only [countTo, home]
      rw [if_neg (by simp; omega), if_neg (by simp)]
    have hsub : ∀ b ∈ (List.range (n + 1)).map (fun j => (some (Bound.fin j))), b ∈ L.map fun x => (match x.fn with | .greedy _ b | .lazy _ b => some b | _ => none) := by
      intro b hb
      obtain ⟨j, hj, rfl⟩ := List.mem_map.mp hb
      have hj' := List.mem_range.mp hj
      have := needed_count S (if whole then .equals else .success 0) n (by omega) (n - j) (by omega)
      refine List.mem_map.mpr ⟨_, hL _ (by rw [rootInst, hh]; exact this), ?_⟩
      rw [show n - (n - j) = j from by omega]
      cases S.ungreedy <;> rfl
    have hn : ((List.range (n + 1)).map (fun j => (some (Bound.fin j)))).Nodup := List.nodup_range.map (fun x y h => by simpa using h)
    have := (hn.subperm hsub).length_le
    simp at this
    omega

/-- 1024 of them for 52 characters. -/
example (S : InstSettings) : ∃ (pat : List Byte) (a : Ast), pat.length = 52 ∧ parse pat = .result a .success ∧ ∀ L : List Inst, (∀ x, Needed S (rootInst true a) x → x ∈ L) → 1024 ≤ L.length :=
  C99_nested_false S true 10

end Mregex
