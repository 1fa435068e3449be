import Verif.Proof.Compile
import Verif.Proof.Printing

/-!
# C97: what the compiler does to parse a pattern
-/

namespace Mregex
open Ast Spec

/-- **C97**, partial: how deep the instantiations are nested is bounded by a constant and the number of braces and dashes.  Missing: a bound that does not depend on the pattern, which
does not exist (`C97_braces_false`, `C97_ranges_false`). -/
theorem C97_depth_partial (pat : List Byte) : ∀ d ∈ parseRounds pat, d ≤ 15 + 6 * marks pat := by
  intro d hd
  have := (rounds_bounds pat (pat.length + 1) 0 [] [.begin] 1 (Nat.le_refl _) (by simp [Flat, top0, top1, top2, cls, roomOf])).1 d hd
  rw [List.drop_zero] at this
  omega

/-- **C97**: the number of instantiations is linear in the length of the pattern. -/
theorem C97_work (pat : List Byte) : (parseRounds pat).sum ≤ 7 * pat.length + 2 := by
  have := (rounds_bounds pat (pat.length + 1) 0 [] [.begin] 1 (Nat.le_refl _) (by simp [Flat, top0, top1, top2, cls, roomOf])).2.1
  simp only [weights_cons, weights_nil, Sym.weight] at this
  show (roundsFrom _ _ _).sum ≤ _
  omega

/-- **C97**: the number of nodes is linear in the length of the pattern. -/
theorem C97_size (pat : List Byte) (a : Ast) (h : parse pat = .result a .success) : nodeCount a ≤ 5 * pat.length + 1 := by
  have := (rounds_bounds pat (pat.length + 1) 0 [] [.begin] 1 (Nat.le_refl _) (by simp [Flat, top0, top1, top2, cls, roomOf])).2.2 a h
  simp only [nodeCounts, gains_cons, gains_nil, gain] at this
  omega

/-! ### Braces -/

/-- `a{a{a...{a` -/
def braces (n : Nat) : List Byte := (List.range (2 * n + 1)).map fun i => if i % 2 = 0 then ch 'a' else ch '{'

theorem braces_even {n i : Nat} (h : i ≤ n) : (braces n)[2 * i]? = some (ch 'a') := by
  rw [braces, List.getElem?_map, List.getElem?_range (by omega)]
  simp

theorem braces_odd {n i : Nat} (h : i < n) : (braces n)[2 * i + 1]? = some (ch '{') := by
  rw [braces, List.getElem?_map, List.getElem?_range (by omega)]
  simp

def braceTail : Nat → List Sym
  | 0 => [.seq, .alt]
  | k + 1 => .act .makeSequence :: .seq :: .alt :: braceTail k

theorem parseT_seq {pat : List Byte} {k i : Nat} {x y : Ast} {nodes : List Ast} {l : List Sym} :
    parseT pat (k + 1) i (x :: y :: nodes) (.act .makeSequence :: l) = parseT pat k i (makeSequence x y :: nodes) l ∧
    parseCount pat (k + 1) i (x :: y :: nodes) (.act .makeSequence :: l) = parseCount pat k i (makeSequence x y :: nodes) l + 1 := ⟨rfl, rfl⟩

theorem ignored {pat : List Byte} {k i : Nat} {nodes : List Ast} {s : Sym} {l : List Sym} (h : rule (some s) (token pat i) = .ignore) (hs : ∀ a, s ≠ .act a) :
    parseT pat (k + 1) i nodes (s :: l) = parseT pat k i nodes l ∧ parseCount pat (k + 1) i nodes (s :: l) = parseCount pat k i nodes l + 1 := by
  rw [parseT_cons _ _ _ _ _ _ hs, parseCount_cons _ _ _ _ _ _ hs, h]
  exact ⟨rfl, rfl⟩

theorem weights_braceTail (k : Nat) : weights (braceTail k) = 3 * k + 2 := by
  induction k with
  | zero => rfl
  | succ k ih => simp only [braceTail, weights_cons, ih, Sym.weight]; omega

/-- At the end of the pattern, the stack is taken away. -/
theorem braceTail_end {pat : List Byte} {i : Nat} (ht : token pat i = none) (k : Nat) : ∀ fuel nodes, 3 * k + 2 < fuel → nodes.length = k + 1 →
    parseCount pat fuel i nodes (braceTail k) = 3 * k + 3 ∧ ∃ a, parseT pat fuel i nodes (braceTail k) = .result a .success := by
  have h1 : rule (some .seq) (token pat i) = .ignore := by rw [ht]; rfl
  have h2 : rule (some .alt) (token pat i) = .ignore := by rw [ht]; rfl
  induction k with
  | zero =>
    intro fuel nodes hf hn
    obtain ⟨f, rfl⟩ : ∃ f, fuel = f + 3 := ⟨fuel - 3, by omega⟩
    unfold braceTail
    rw [(ignored h1 nofun).1, (ignored h1 nofun).2, (ignored h2 nofun).1, (ignored h2 nofun).2, parseCount_nil, parseT_nil, ht]
    exact ⟨rfl, _, rfl⟩
  | succ k ih =>
    intro fuel nodes hf hn
    obtain ⟨f, rfl⟩ : ∃ f, fuel = f + 3 := ⟨fuel - 3, by omega⟩
    match nodes, hn with
    | x :: y :: nodes, hn =>
      unfold braceTail
      rw [parseT_seq.1, parseT_seq.2, (ignored h1 nofun).1, (ignored h1 nofun).2, (ignored h2 nofun).1, (ignored h2 nofun).2]
      obtain ⟨h3, h4⟩ := ih f (makeSequence x y :: nodes) (by omega) (by simpa using hn)
      exact ⟨by rw [h3]; omega, h4⟩

/-- One more brace. -/
theorem brace_step {pat : List Byte} {i k : Nat} {nodes : List Ast} (h0 : lastToken pat i = some (ch 'a')) (h1 : pat[i]? = some (ch '{')) (h2 : pat[i + 1]? = some (ch 'a')) :
    advanceState pat (advanceState pat (.state i nodes (.act .makeLiteral :: .mod :: braceTail k))) =
      .state (i + 2) (makeSequence (.lit (ch '{')) (.lit (ch 'a')) :: nodes) (.act .makeLiteral :: .mod :: braceTail (k + 1)) := by
  have e1 : advanceState pat (.state i nodes (.act .makeLiteral :: .mod :: braceTail k)) = .state (i + 1) (.lit (ch 'a') :: nodes) (.quantifierBegin :: braceTail k) := by
    simp only [advanceState, parseFuel, List.map_cons, List.sum_cons, Sym.weight]
    rw [show 1 + (1 + ((braceTail k).map Sym.weight).sum) + 1 = ((braceTail k).map Sym.weight).sum + 1 + 1 + 1 by omega, parseT_act, h0]
    dsimp only [build, Option.map_some]
    rw [parseT_cons _ _ _ _ .mod _ nofun, token, h1]
    rfl
  rw [e1]
  simp only [advanceState, parseFuel, List.map_cons, List.sum_cons, Sym.weight]
  rw [show 6 + ((braceTail k).map Sym.weight).sum + 1 = ((braceTail k).map Sym.weight).sum + 1 + 1 + 1 + 1 + 1 + 1 + 1 by omega, parseT_cons _ _ _ _ .quantifierBegin _ nofun, token, h2]
  rw [show rule (some .quantifierBegin) (some (ch 'a')) = .push [.act (.pushLiteral (ch '{')), .mod, .act .makeSequence, .seq, .alt] from rfl]
  dsimp only [List.cons_append, List.nil_append]
  rw [parseT_act]
  dsimp only [build]
  rw [parseT_cons _ _ _ _ .mod _ nofun, token, h2, show rule (some .mod) (some (ch 'a')) = .ignore from rfl]
  dsimp only
  rw [parseT_seq.1, parseT_cons _ _ _ _ .seq _ nofun, token, h2]
  rfl

theorem brace_climb {n : Nat} (k : Nat) (hk : k ≤ n) : ∃ nodes : List Ast, nodes.length = k ∧ ∀ m,
    advanceTimes (braces n) (m + (2 * k + 1)) (.state 0 [] [.begin]) = advanceTimes (braces n) m (.state (2 * k + 1) nodes (.act .makeLiteral :: .mod :: braceTail k)) ∧
    ∀ x ∈ roundsFrom (braces n) m (.state (2 * k + 1) nodes (.act .makeLiteral :: .mod :: braceTail k)), x ∈ roundsFrom (braces n) (m + (2 * k + 1)) (.state 0 [] [.begin]) := by
  induction k with
  | zero =>
    have e : advanceState (braces n) (.state 0 [] [.begin]) = .state 1 [] (.act .makeLiteral :: .mod :: braceTail 0) := by
      have : advanceState (braces n) (.state 0 [] [.begin]) = parseT (braces n) 2 0 [] [.begin] := rfl
      have h0 : (braces n)[0]? = some (ch 'a') := braces_even (Nat.zero_le n)
      rw [this, parseT_cons _ _ _ _ .begin _ nofun, token, h0]
      rfl
    refine ⟨[], rfl, fun m => ⟨?_, fun x hx => ?_⟩⟩
    · simp only [Nat.mul_zero, Nat.zero_add, advanceTimes, e]
    · simp only [Nat.mul_zero, Nat.zero_add, roundsFrom, e]
      exact List.mem_cons_of_mem _ hx
  | succ k ih =>
    obtain ⟨nodes, h1, h2⟩ := ih (by omega)
    have hl : lastToken (braces n) (2 * k + 1) = some (ch 'a') := by
      rw [lastToken, if_neg (by omega)]
      exact braces_even (by omega)
    have e := brace_step (k := k) (nodes := nodes) hl (braces_odd (by omega)) (braces_even (n := n) (i := k + 1) (by omega))
    refine ⟨makeSequence (.lit (ch '{')) (.lit (ch 'a')) :: nodes, by rw [List.length_cons, h1], fun m => ?_⟩
    obtain ⟨h3, h4⟩ := h2 (m + 2)
    rw [show m + (2 * (k + 1) + 1) = m + 2 + (2 * k + 1) by omega]
    refine ⟨?_, fun x hx => h4 x ?_⟩
    · rw [h3]
      simp only [advanceTimes, e]
      rfl
    · simp only [roundsFrom, e]
      exact List.mem_cons_of_mem _ (List.mem_cons_of_mem _ hx)

/-- **C97** is false as stated: in an accepted pattern with `n` braces that begin no quantifier, the instantiations are nested at least `3n` deep. -/
theorem C97_braces_false (n : Nat) : ∃ pat a, pat.length = 2 * n + 1 ∧ pat.count (ch '{') = marks pat ∧ parse pat = .result a .success ∧ 3 * n + 5 ∈ parseRounds pat := by
  obtain ⟨nodes, h1, h2⟩ := brace_climb (n := n) n (Nat.le_refl _)
  obtain ⟨h3, h4⟩ := h2 1
  have hlen : (braces n).length = 2 * n + 1 := by simp [braces]
  have hnone : token (braces n) (2 * n + 1) = none := by
    rw [token, List.getElem?_eq_none]
    omega
  have hlast : lastToken (braces n) (2 * n + 1) = some (ch 'a') := by
    rw [lastToken, if_neg (by omega)]
    exact braces_even (Nat.le_refl _)
  obtain ⟨h5, a, h6⟩ := braceTail_end hnone n (((braceTail n).map Sym.weight).sum + 1) (.lit (ch 'a') :: nodes)
    (by have := weights_braceTail n; simp only [weights] at this; omega) (by simp [h1])
  have hfuel : parseFuel (.act .makeLiteral :: .mod :: braceTail n) = ((braceTail n).map Sym.weight).sum + 1 + 1 + 1 := by
    simp only [parseFuel, List.map_cons, List.sum_cons, Sym.weight]
    omega
  have hmod : rule (some .mod) (token (braces n) (2 * n + 1)) = .ignore := by rw [hnone]; rfl
  refine ⟨braces n, a, hlen, ?_, ?_, ?_⟩
  · simp only [List.count, marks]
    refine List.countP_congr fun c hc => ?_
    simp only [braces, List.mem_map] at hc
    obtain ⟨i, _, rfl⟩ := hc
    split <;> decide
  · rw [parse, hlen, Nat.add_comm, h3]
    simp only [advanceTimes, advanceState, hfuel]
    rw [parseT_act, hlast]
    dsimp only [build, Option.map_some]
    rw [(ignored hmod nofun).1, h6]
  · rw [parseRounds, hlen, Nat.add_comm]
    apply h4
    simp only [roundsFrom, PState.instantiations, hfuel, List.mem_cons]
    left
    rw [parseCount_act, hlast]
    dsimp only [build, Option.map_some]
    rw [(ignored hmod nofun).2, h5]

/-! ### Ranges in sets -/

/-- `[a-ba-b...a-b]` -/
def rangesPat (n : Nat) : List Byte :=
  (List.range (3 * n + 2)).map fun i => if i = 0 then ch '[' else if i = 3 * n + 1 then ch ']' else if i % 3 = 1 then ch 'a' else if i % 3 = 2 then ch '-' else ch 'b'

section
variable {n i : Nat}

theorem ranges_a (h : i < n) : (rangesPat n)[3 * i + 1]? = some (ch 'a') := by
  rw [rangesPat, List.getElem?_map, List.getElem?_range (by omega), Option.map_some, if_neg (by omega), if_neg (by omega), if_pos (by omega)]

theorem ranges_dash (h : i < n) : (rangesPat n)[3 * i + 2]? = some (ch '-') := by
  rw [rangesPat, List.getElem?_map, List.getElem?_range (by omega), Option.map_some, if_neg (by omega), if_neg (by omega), if_neg (by omega), if_pos (by omega)]

theorem ranges_b (h : i < n) : (rangesPat n)[3 * i + 3]? = some (ch 'b') := by
  rw [rangesPat, List.getElem?_map, List.getElem?_range (by omega), Option.map_some, if_neg (by omega), if_neg (by omega), if_neg (by omega), if_neg (by omega)]

theorem ranges_close : (rangesPat n)[3 * n + 1]? = some (ch ']') := by
  rw [rangesPat, List.getElem?_map, List.getElem?_range (by omega), Option.map_some, if_neg (by omega), if_pos (by omega)]

theorem length_ranges : (rangesPat n).length = 3 * n + 2 := by simp [rangesPat]

end

/-- The symbols below the ones for the set. -/
def setTail (k : Nat) : List Sym := List.replicate k .setSeq ++ [.expect (ch ']'), .mod, .seq, .alt]

/-- A symbol that reads. -/
theorem advanced {pat : List Byte} {k i : Nat} {nodes : List Ast} {s : Sym} {l l' : List Sym} {c : Byte} (hc : pat[i]? = some c) (h : rule (some s) (some c) = .advance l')
    (hs : ∀ a, s ≠ .act a) : parseT pat (k + 1) i nodes (s :: l) = .state (i + 1) nodes (l' ++ l) ∧ parseCount pat (k + 1) i nodes (s :: l) = 1 := by
  rw [parseT_cons _ _ _ _ _ _ hs, parseCount_cons _ _ _ _ _ _ hs, token, hc, h]
  exact ⟨rfl, rfl⟩

/-- A first action and then a symbol that reads. -/
theorem advanced_act {pat : List Byte} {i : Nat} {nodes nodes' : List Ast} {a : Action} {s : Sym} {l l' : List Sym} {c : Byte}
    (ha : build a (lastToken pat i) nodes = some nodes') (hc : pat[i]? = some c) (h : rule (some s) (some c) = .advance l') (hs : ∀ a, s ≠ .act a) :
    advanceState pat (.state i nodes (.act a :: s :: l)) = .state (i + 1) nodes' (l' ++ l) := by
  have hp := s.weight_pos
  simp only [advanceState]
  obtain ⟨f, hf⟩ : ∃ f, parseFuel (.act a :: s :: l) = f + 1 + 1 := ⟨parseFuel (.act a :: s :: l) - 2, by simp only [parseFuel, List.map_cons, List.sum_cons, Sym.weight]; omega⟩
  rw [hf, parseT_act, ha]
  exact (advanced hc h hs).1

/-- One more range: from behind one `b` to behind the next. -/
theorem range_step {pat : List Byte} {i k : Nat} {x : Byte} {l rest : List Ast} (h0 : lastToken pat i = some (ch 'b')) (h1 : pat[i]? = some (ch 'a')) (h2 : pat[i + 1]? = some (ch '-'))
    (h3 : pat[i + 2]? = some (ch 'b')) :
    advanceState pat (advanceState pat (advanceState pat (.state i (.set (.lit x :: l) :: rest) (.act .makeRange :: .setRangeSeq :: setTail k)))) =
      .state (i + 3) (.set (.lit (ch 'a') :: .range x (ch 'b') :: l) :: rest) (.act .makeRange :: .setRangeSeq :: setTail (k + 1)) := by
  rw [advanced_act (nodes' := .set (.range x (ch 'b') :: l) :: rest) (s := .setRangeSeq) (by rw [h0]; rfl) h1 (l' := [.act .makeSetFromCurrentChar, .setSeq]) rfl nofun]
  have h0' : lastToken pat (i + 1) = some (ch 'a') := by rw [lastToken, if_neg (by omega)]; exact h1
  dsimp only [List.cons_append, List.nil_append]
  rw [advanced_act (nodes' := .set (.lit (ch 'a') :: .range x (ch 'b') :: l) :: rest) (s := .setSeq) (by rw [h0']; rfl) h2 (l' := [.setRangeBegin, .setSeq]) rfl nofun]
  dsimp only [List.cons_append, List.nil_append]
  simp only [advanceState]
  obtain ⟨f, hf⟩ : ∃ f, parseFuel (.setRangeBegin :: .setSeq :: setTail k) = f + 1 := ⟨_, rfl⟩
  rw [hf, (advanced h3 (s := .setRangeBegin) (l' := [.act .makeRange, .setRangeSeq]) rfl nofun).1]
  rfl

theorem range_climb {n : Nat} (k : Nat) (hk : k < n) : ∃ l : List Ast, ∀ m,
    advanceTimes (rangesPat n) (m + (3 * k + 4)) (.state 0 [] [.begin]) =
      advanceTimes (rangesPat n) m (.state (3 * k + 4) [.set (.lit (ch 'a') :: l)] (.act .makeRange :: .setRangeSeq :: setTail (k + 1))) ∧
    ∀ x ∈ roundsFrom (rangesPat n) m (.state (3 * k + 4) [.set (.lit (ch 'a') :: l)] (.act .makeRange :: .setRangeSeq :: setTail (k + 1))),
      x ∈ roundsFrom (rangesPat n) (m + (3 * k + 4)) (.state 0 [] [.begin]) := by
  induction k with
  | zero =>
    have h0 : (rangesPat n)[0]? = some (ch '[') := by
      rw [rangesPat, List.getElem?_map, List.getElem?_range (by omega)]
      rfl
    have h1 := ranges_a hk
    have h2 := ranges_dash hk
    have h3 := ranges_b hk
    have e1 : advanceState (rangesPat n) (.state 0 [] [.begin]) = .state 1 [] (.act .makeSet :: .setBeginOrNeg :: setTail 0) := by
      have : advanceState (rangesPat n) (.state 0 [] [.begin]) = parseT (rangesPat n) 2 0 [] [.begin] := rfl
      rw [this, (advanced h0 (s := .begin) (l' := .act .makeSet :: .setBeginOrNeg :: setTail 0) rfl nofun).1, List.append_nil]
    have e2 : advanceState (rangesPat n) (.state 1 [] (.act .makeSet :: .setBeginOrNeg :: setTail 0)) =
        .state 2 [.set []] (.act .makeSetFromCurrentChar :: .setSeq :: setTail 0) :=
      advanced_act (nodes' := [.set []]) (s := .setBeginOrNeg) rfl h1 (l' := [.act .makeSetFromCurrentChar, .setSeq]) rfl nofun
    have h1' : lastToken (rangesPat n) 2 = some (ch 'a') := h1
    have e3 : advanceState (rangesPat n) (.state 2 [.set []] (.act .makeSetFromCurrentChar :: .setSeq :: setTail 0)) =
        .state 3 [.set [.lit (ch 'a')]] (.setRangeBegin :: .setSeq :: setTail 0) :=
      advanced_act (nodes' := [.set [.lit (ch 'a')]]) (s := .setSeq) (by rw [h1']; rfl) h2 (l' := [.setRangeBegin, .setSeq]) rfl nofun
    have e4 : advanceState (rangesPat n) (.state 3 [.set [.lit (ch 'a')]] (.setRangeBegin :: .setSeq :: setTail 0)) =
        .state 4 [.set [.lit (ch 'a')]] (.act .makeRange :: .setRangeSeq :: setTail 1) := by
      simp only [advanceState]
      obtain ⟨f, hf⟩ : ∃ f, parseFuel (.setRangeBegin :: .setSeq :: setTail 0) = f + 1 := ⟨_, rfl⟩
      rw [hf, (advanced h3 (s := .setRangeBegin) (l' := [.act .makeRange, .setRangeSeq]) rfl nofun).1]
      rfl
    refine ⟨[], fun m => ⟨?_, fun x hx => ?_⟩⟩
    · simp only [Nat.mul_zero, Nat.zero_add, advanceTimes, e1, e2, e3, e4]
    · simp only [Nat.mul_zero, Nat.zero_add, roundsFrom, e1, e2, e3, e4]
      exact List.mem_cons_of_mem _ (List.mem_cons_of_mem _ (List.mem_cons_of_mem _ (List.mem_cons_of_mem _ hx)))
  | succ k ih =>
    obtain ⟨l, h2⟩ := ih (by omega)
    have hl : lastToken (rangesPat n) (3 * k + 4) = some (ch 'b') := by
      rw [lastToken, if_neg (by omega)]
      exact ranges_b (i := k) (by omega)
    have e := range_step (k := k + 1) (x := ch 'a') (l := l) (rest := []) hl (ranges_a (i := k + 1) hk) (ranges_dash (i := k + 1) hk) (ranges_b (i := k + 1) hk)
    refine ⟨.range (ch 'a') (ch 'b') :: l, fun m => ?_⟩
    obtain ⟨h3, h4⟩ := h2 (m + 3)
    rw [show m + (3 * (k + 1) + 4) = m + 3 + (3 * k + 4) by omega]
    refine ⟨?_, fun x hx => h4 x ?_⟩
    · rw [h3]
      simp only [advanceTimes, e]
      rfl
    · simp only [roundsFrom, e]
      exact List.mem_cons_of_mem _ (List.mem_cons_of_mem _ (List.mem_cons_of_mem _ hx))

/-- All that is left of the set is ignored, one after the other. -/
theorem setTail_close {pat : List Byte} {i : Nat} {nodes : List Ast} (h : pat[i]? = some (ch ']')) (k : Nat) : ∀ fuel, k < fuel →
    parseCount pat fuel i nodes (setTail k) = k + 1 ∧ parseT pat fuel i nodes (setTail k) = .state (i + 1) nodes [.mod, .seq, .alt] := by
  have h1 : rule (some .setSeq) (token pat i) = .ignore := by rw [token, h]; rfl
  induction k with
  | zero =>
    intro fuel hf
    obtain ⟨f, rfl⟩ : ∃ f, fuel = f + 1 := ⟨fuel - 1, by omega⟩
    have h2 := advanced (pat := pat) (k := f) (nodes := nodes) (l := [.mod, .seq, .alt]) h (s := .expect (ch ']')) (l' := []) rfl nofun
    exact ⟨h2.2, h2.1⟩
  | succ k ih =>
    intro fuel hf
    obtain ⟨f, rfl⟩ : ∃ f, fuel = f + 1 := ⟨fuel - 1, by omega⟩
    rw [show setTail (k + 1) = .setSeq :: setTail k from rfl, (ignored h1 nofun).1, (ignored h1 nofun).2]
    obtain ⟨h3, h4⟩ := ih f (by omega)
    exact ⟨by rw [h3], h4⟩

theorem weights_setTail (k : Nat) : weights (setTail k) = k + 4 := by
  induction k with
  | zero => rfl
  | succ k ih => rw [show setTail (k + 1) = .setSeq :: setTail k from rfl, weights_cons, ih]; simp only [Sym.weight]; omega

/-- **C97** is false as stated: in an accepted pattern that consists of a set with `n` ranges, the instantiations are nested at least `n` deep. -/
theorem C97_ranges_false (n : Nat) (hn : 0 < n) : ∃ pat a, pat.length = 3 * n + 2 ∧ ch '{' ∉ pat ∧ parse pat = .result a .success ∧ n + 3 ∈ parseRounds pat := by
  obtain ⟨k, rfl⟩ : ∃ k, n = k + 1 := ⟨n - 1, by omega⟩
  obtain ⟨l, h2⟩ := range_climb (n := k + 1) k (by omega)
  obtain ⟨h3, h4⟩ := h2 2
  have hlast : lastToken (rangesPat (k + 1)) (3 * k + 4) = some (ch 'b') := by
    rw [lastToken, if_neg (by omega)]
    exact ranges_b (i := k) (by omega)
  have hclose : (rangesPat (k + 1))[3 * k + 4]? = some (ch ']') := ranges_close (n := k + 1)
  have hnone : token (rangesPat (k + 1)) (3 * k + 5) = none := by
    rw [token, List.getElem?_eq_none]
    rw [length_ranges]; omega
  have hfuel : parseFuel (.act .makeRange :: .setRangeSeq :: setTail (k + 1)) = weights (setTail (k + 1)) + 1 + 1 + 1 := by
    simp only [parseFuel, List.map_cons, List.sum_cons, Sym.weight, weights]
    omega
  have h1 : rule (some .setRangeSeq) (token (rangesPat (k + 1)) (3 * k + 4)) = .ignore := by rw [token, hclose]; rfl
  obtain ⟨h5, h6⟩ := setTail_close (nodes := [.set (.range (ch 'a') (ch 'b') :: l)]) hclose (k + 1) (weights (setTail (k + 1)) + 1) (by rw [weights_setTail]; omega)
  have hst : advanceState (rangesPat (k + 1)) (.state (3 * k + 4) [.set (.lit (ch 'a') :: l)] (.act .makeRange :: .setRangeSeq :: setTail (k + 1))) =
      .state (3 * k + 5) [.set (.range (ch 'a') (ch 'b') :: l)] [.mod, .seq, .alt] := by
    simp only [advanceState, hfuel]
    rw [parseT_act, hlast]
    dsimp only [build]
    rw [(ignored h1 nofun).1, h6]
  refine ⟨rangesPat (k + 1), acceptedAst [.set (.range (ch 'a') (ch 'b') :: l)], length_ranges, ?_, ?_, ?_⟩
  · simp only [rangesPat, List.mem_map, not_exists, not_and]
    intro i _
    repeat' split
    all_goals decide
  · rw [parse, length_ranges, show 3 * (k + 1) + 2 + 1 = 2 + (3 * k + 4) by omega, h3]
    simp only [advanceTimes]
    rw [hst]
    have : advanceState (rangesPat (k + 1)) (.state (3 * k + 5) [.set (.range (ch 'a') (ch 'b') :: l)] [.mod, .seq, .alt]) =
      parseT (rangesPat (k + 1)) 4 (3 * k + 5) [.set (.range (ch 'a') (ch 'b') :: l)] [.mod, .seq, .alt] := rfl
    rw [this, (ignored (s := .mod) (by rw [hnone]; rfl) nofun).1, (ignored (s := .seq) (by rw [hnone]; rfl) nofun).1, (ignored (s := .alt) (by rw [hnone]; rfl) nofun).1, parseT_nil, hnone]
    rfl
  · rw [parseRounds, length_ranges, show 3 * (k + 1) + 2 + 1 = 2 + (3 * k + 4) by omega]
    apply h4
    simp only [roundsFrom, PState.instantiations, hfuel, List.mem_cons]
    left
    rw [parseCount_act, hlast]
    dsimp only [build]
    rw [(ignored h1 nofun).2, h5]

/-- There is no bound on the depth. -/
theorem C97_depth_false : ¬ ∃ bound, ∀ pat, (∃ a, parse pat = .result a .success) → ∀ d ∈ parseRounds pat, d ≤ bound := by
  rintro ⟨bound, h⟩
  obtain ⟨pat, a, _, _, h1, h2⟩ := C97_braces_false bound
  have := h pat ⟨a, h1⟩ _ h2
  omega

example : parse (braces 2) = .result (.seq [.lit (ch 'a'), .lit (ch '{'), .lit (ch 'a'), .lit (ch '{'), .lit (ch 'a')]) .success := rfl
example : parseRounds (braces 2) = [1, 2, 5, 2, 5, 11] := by decide +kernel
example : parseRounds (rangesPat 3) = [1, 2, 2, 1, 2, 2, 1, 2, 2, 1, 6, 4] := by decide +kernel
example : parseRounds (txt "(a|b*)\\w") = [1, 1, 4, 1, 2, 7, 2, 1, 6] := by decide +kernel
/-- The bounds on the number of nodes are nearly reached. -/
example : (match parse (txt "\\S\\S\\S") with | .result a _ => nodeCount a | _ => 0) = 28 := by decide +kernel

end Mregex
