import Verif.Proof.Regroup
import Verif.Proof.OkCheck
import Verif.Proof.Numbering
import Verif.Proof.Named
import Verif.Props.Safety

/-!
# Regexes without references: scripts, and the independence of the groups
-/

namespace Mregex
open Ast Spec

/-! ## C63 -/

theorem init_getElem? (names : List GroupName) (k : Nat) : (initCtx names)[k]? = if k < names.length then some none else none := by
  unfold initCtx
  rw [List.getElem?_map]
  by_cases h : k < names.length
  · rw [if_pos h, List.getElem?_eq_getElem h]; rfl
  · rw [if_neg h, List.getElem?_eq_none (by omega)]; rfl

/-- **C63**: without references, every call returns exactly what one gets by following the script of the regex: the verdict, the range of the
match, and the contents of every group, whether the call succeeds or not. -/
theorem C63_scripts (R : Regex) (cat : Cat) (hR : R.Ok cat) (hb : noBackref R.ast = true) (M : Method) (s : List Byte) :
    ∃ res, R.invoke M cat s = some res ∧
      res.matched = (scriptRange s.length (script (Flags.ofList R.flags) s R.ast true false) 0 M).isSome ∧
      (∀ r, scriptRange s.length (script (Flags.ofList R.flags) s R.ast true false) 0 M = some r → res.group 0 = some (some r)) ∧
      ∀ k, k ≠ 0 → k ≤ captureCount R.ast → res.group k = some (scriptGroup s.length (script (Flags.ofList R.flags) s R.ast true false) k 0 none M) := by
  obtain ⟨q, c', h1, h2, h3, h4⟩ := invoke_scripts (E := R.env cat s) (hR s) hb M (Nat.le_refl _) (Nat.zero_le _) (length_init R.names)
  refine ⟨⟨c', (scriptRange s.length (script (Flags.ofList R.flags) s R.ast true false) 0 M).isSome⟩, ?_, rfl, fun r hr => ?_, fun k hk hk' => ?_⟩
  · unfold Regex.invoke fuelFor
    rw [show M.invoke (R.env cat s) (R.ast.depth + s.length + 1) R.ast 0 (initCtx R.names) = _ from h1]
    rfl
  · exact (h3 r.1 r.2 hr).2 (by rw [length_init]; exact Nat.succ_pos _)
  · show c'[k]? = _
    rw [h4 k hk, init_getElem?, if_pos]
    · rfl
    · show k < (R.ast.nameSpec).length + 1
      rw [length_nameSpec]; omega

/-- **C63**: the same for each result of a generator (`tokenizer`, `searcher`), from wherever it has got to. -/
theorem C63_generators (R : Regex) (cat : Cat) (hR : R.Ok cat) (hb : noBackref R.ast = true) (M : Method) (s : List Byte) (g : Gen)
    (ha : g.active = true) (hg : g.current ≤ s.length) :
    ∃ res g', genNext R M cat s g = some (res, g') ∧
      res.matched = (scriptRange s.length (script (Flags.ofList R.flags) s R.ast true false) g.current M).isSome ∧
      (∀ r, scriptRange s.length (script (Flags.ofList R.flags) s R.ast true false) g.current M = some r → res.group 0 = some (some r) ∧ g' = ⟨r.2, r.1 != r.2⟩) ∧
      (scriptRange s.length (script (Flags.ofList R.flags) s R.ast true false) g.current M = none → g'.active = false) ∧
      ∀ k, k ≠ 0 → k ≤ captureCount R.ast → res.group k = some (scriptGroup s.length (script (Flags.ofList R.flags) s R.ast true false) k g.current none M) := by
  obtain ⟨q, c', h1, h2, h3, h4⟩ := invoke_scripts (E := R.env cat s) (hR s) hb M (Nat.le_refl _) hg (length_init R.names)
  refine ⟨⟨c', (scriptRange s.length (script (Flags.ofList R.flags) s R.ast true false) g.current M).isSome⟩,
    { current := q, active := (scriptRange s.length (script (Flags.ofList R.flags) s R.ast true false) g.current M).isSome && !(c'.getD 0 none).isEmpty },
    ?_, rfl, fun r hr => ⟨?_, ?_⟩, fun hr => ?_, fun k hk hk' => ?_⟩
  · unfold genNext fuelFor
    simp only [ha, Bool.not_true, Bool.false_eq_true, if_false]
    rw [show M.invoke (R.env cat s) (R.ast.depth + s.length + 1) R.ast g.current (initCtx R.names) = _ from h1]
    rfl
  · exact (h3 r.1 r.2 hr).2 (by rw [length_init]; exact Nat.succ_pos _)
  · have h0 := (h3 r.1 r.2 hr).2 (by rw [length_init]; exact Nat.succ_pos _)
    rw [(h3 r.1 r.2 hr).1, hr, List.getD_eq_getElem?_getD, h0]
    rfl
  · simp only [hr, Option.isSome_none, Bool.false_and]
  · show c'[k]? = _
    rw [h4 k hk, init_getElem?, if_pos]
    · rfl
    · show k < (R.ast.nameSpec).length + 1
      rw [length_nameSpec]; omega

/-- `(?:(a)b|a(?=(a)))+` on `abaac`: the last round, which fails, clears both groups. -/
def exScript : Regex :=
  ⟨.rep .greedy 1 .inf (.alt [.seq [.cap 1 none (.lit (ch 'a')), .lit (ch 'b')], .seq [.lit (ch 'a'), .look .ahead (.cap 2 none (.lit (ch 'a')))]]), []⟩

example : exScript.Ok .randomAccess ∧ noBackref exScript.ast = true ∧
    exScript.search [ch 'a', ch 'b', ch 'a', ch 'a', ch 'c'] = some ⟨[some (0, 3), some (3, 3), some (3, 3)], true⟩ ∧
    scriptRange 5 (script {} [ch 'a', ch 'b', ch 'a', ch 'a', ch 'c'] exScript.ast true false) 0 .search = some (0, 3) ∧
    scriptGroup 5 (script {} [ch 'a', ch 'b', ch 'a', ch 'a', ch 'c'] exScript.ast true false) 1 0 none .search = some (3, 3) ∧
    scriptGroup 5 (script {} [ch 'a', ch 'b', ch 'a', ch 'a', ch 'c'] exScript.ast true false) 2 0 none .search = some (3, 3) :=
  ⟨Regex.ok_of_okb (by decide), by decide, by decide, by decide, by decide, by decide⟩

/-- The second result of `find_all` on `abcaab`. -/
example : genNext exScript .search .randomAccess [ch 'a', ch 'b', ch 'c', ch 'a', ch 'a', ch 'b'] {} = some (⟨[some (0, 2), some (0, 0), none], true⟩, ⟨2, true⟩) ∧
    genNext exScript .search .randomAccess [ch 'a', ch 'b', ch 'c', ch 'a', ch 'a', ch 'b'] ⟨2, true⟩ =
      some (⟨[some (3, 6), some (4, 4), some (4, 5)], true⟩, ⟨6, true⟩) := ⟨rfl, rfl⟩

/-! ## C62 -/

section
variable {σ : Nat → Option (Nat × GroupName)}

theorem hasGroup_regroup {a : Ast} {k j : Nat} {n n' : GroupName} (h : HasGroup a k n) (hσ : σ k = some (j, n')) : HasGroup (regroup σ a) j n' := by
  induction h with
  | here => simp only [regroup, hσ]; exact .here
  | cap _ ih =>
    simp only [regroup]
    split
    · exact .cap (ih hσ)
    · exact ih hσ
  | set hm _ ih => simp only [regroup, regroupAll_eq]; exact .set (List.mem_map_of_mem hm) (ih hσ)
  | neg _ ih => exact .neg (ih hσ)
  | seq hm _ ih => simp only [regroup, regroupAll_eq]; exact .seq (List.mem_map_of_mem hm) (ih hσ)
  | alt hm _ ih => simp only [regroup, regroupAll_eq]; exact .alt (List.mem_map_of_mem hm) (ih hσ)
  | rep _ ih => exact .rep (ih hσ)
  | look _ ih => exact .look (ih hσ)

theorem noBackref_regroup (a : Ast) (h : noBackref a = true) : noBackref (regroup σ a) = true := by
  induction a using ind with
  | cap id n a ih =>
    simp only [regroup]
    cases hi : σ id with
    | none => exact ih h
    | some x => exact ih h
  | seq l ih | alt l ih | set l ih =>
    simp only [regroup, regroupAll_eq, noBackref, noBackrefAll_eq, List.all_eq_true, List.mem_map] at h ⊢
    rintro _ ⟨b, hb, rfl⟩
    exact ih b hb (h b hb)
  | neg a ih | rep _ _ _ a ih | look _ a ih => exact ih h
  | _ => exact h

variable {R R' : Regex} {cat : Cat} (hσ : Renumbering σ) (hR : R.Ok cat) (hR' : R'.Ok cat) (hf : R'.flags = R.flags) (hb : noBackref R.ast = true)
  (he : R'.ast = regroup σ R.ast)
include hσ hR hR' hf hb he

/-- One call of the generators. -/
theorem regroup_next (M : Method) (s : List Byte) (g g' : Gen) (hg : g.current ≤ s.length) (hgg : g = g' ∨ (g.active = false ∧ g'.active = false)) :
    ∃ res res' g₁ g₁', genNext R M cat s g = some (res, g₁) ∧ genNext R' M cat s g' = some (res', g₁') ∧ AgreeOn σ R.ast res res' ∧
      g₁.current ≤ s.length ∧ (g₁ = g₁' ∨ (g₁.active = false ∧ g₁'.active = false)) := by
  have hk : ∀ {k n j n'}, HasGroup R.ast k n → σ k = some (j, n') → k < R.names.length ∧ j < R'.names.length := by
    intro k n j n' h1 h2
    have h3 := hasGroup_regroup h1 h2
    rw [← he] at h3
    exact ⟨(List.getElem?_eq_some_iff.1 (ok_name (hR s) h1)).1, (List.getElem?_eq_some_iff.1 (ok_name (hR' s) h3)).1⟩
  by_cases hact : g.active = true
  · have hgg : g' = g := by
      rcases hgg with h | h
      · exact h.symm
      · rw [h.1] at hact; cases hact
    subst hgg
    have hb' : noBackref R'.ast = true := by rw [he]; exact noBackref_regroup _ hb
    obtain ⟨q, c, h1, h2, h3, h4⟩ := invoke_scripts (E := R.env cat s) (hR s) hb M (Nat.le_refl _) hg (length_init R.names)
    obtain ⟨q', c', h1', h2', h3', h4'⟩ := invoke_scripts (E := R'.env cat s) (hR' s) hb' M (Nat.le_refl _) hg (length_init R'.names)
    have hsc : ∀ p, script (R'.env cat s).flags (R'.env cat s).inp R'.ast true false p =
        renote σ (script (R.env cat s).flags (R.env cat s).inp R.ast true false p) := by
      intro p
      rw [he, script_regroup (wf_of_ok (hR s))]
      simp only [Regex.env, hf]
    have hrng := scriptRange_renote hsc (R.env cat s).inp.length g'.current M
    have hlen : (R'.env cat s).inp.length = (R.env cat s).inp.length := rfl
    rw [hlen] at h1' h3' h4'
    rw [hrng] at h1' h3'
    unfold genNext fuelFor
    simp only [hact, Bool.not_true, Bool.false_eq_true, if_false]
    rw [show M.invoke (R.env cat s) (R.ast.depth + s.length + 1) R.ast g'.current (initCtx R.names) = _ from h1,
      show M.invoke (R'.env cat s) (R'.ast.depth + s.length + 1) R'.ast g'.current (initCtx R'.names) = _ from h1']
    refine ⟨_, _, _, _, rfl, rfl, ⟨rfl, fun hm => ?_, fun k n j n' hk0 hg1 hg2 => ?_⟩, ?_, ?_⟩
    · obtain ⟨r, hr⟩ := Option.isSome_iff_exists.1 hm
      exact ((h3 r.1 r.2 hr).2 (by rw [length_init]; exact Nat.succ_pos _)).trans
        ((h3' r.1 r.2 hr).2 (by rw [length_init]; exact Nat.succ_pos _)).symm
    · obtain ⟨hk1, hk2⟩ := hk hg1 hg2
      have hj : j ≠ 0 := fun e => hσ.2 k n' (by rw [hg2, e])
      refine ⟨scriptGroup (R.env cat s).inp.length (script (R.env cat s).flags (R.env cat s).inp R.ast true false) k g'.current none M, ?_, ?_⟩
      · show c[k]? = _
        rw [h4 k hk0, init_getElem?, if_pos hk1]
        rfl
      · show c'[j]? = _
        rw [h4' j hj, init_getElem?, if_pos hk2, ← scriptGroup_renote hsc hσ hg2]
        rfl
    · obtain ⟨res, c0, hp, hi⟩ := C01_total R cat hR M s g'.current hg _ (length_init _)
      have := (hi _ (Nat.le_refl _)).symm.trans h1
      injection this with e1 e2
      rw [e1] at hp
      exact hp
    · cases hr : scriptRange (R.env cat s).inp.length (script (R.env cat s).flags (R.env cat s).inp R.ast true false) g'.current M with
      | none => exact .inr ⟨rfl, rfl⟩
      | some r =>
        refine .inl ?_
        have a1 := h3 r.1 r.2 hr
        have a2 := h3' r.1 r.2 hr
        have b1 := a1.2 (by rw [length_init]; exact Nat.succ_pos _)
        have b2 := a2.2 (by rw [length_init]; exact Nat.succ_pos _)
        simp only [List.getD_eq_getElem?_getD, b1, b2, a1.1, a2.1]
  · have ha : g.active = false := by simpa using hact
    have ha' : g'.active = false := by
      rcases hgg with h | h
      · rw [← h]; exact ha
      · exact h.2
    unfold genNext
    simp only [ha, ha', Bool.not_false, if_true]
    refine ⟨_, _, _, _, rfl, rfl, ⟨rfl, fun h => by simp at h, fun k n j n' _ h1 h2 => ?_⟩, hg, hgg⟩
    obtain ⟨hk1, hk2⟩ := hk h1 h2
    exact ⟨none, by show (initCtx _)[k]? = _; rw [init_getElem?, if_pos hk1], by show (initCtx _)[j]? = _; rw [init_getElem?, if_pos hk2]⟩

/-- **C62**: without references, capturing groups only record.  Making some of them plain parentheses and giving the others new numbers and names
changes neither the verdict nor the range of a match, and the groups that stay hold the same, even if the call fails. -/
theorem C62_methods (M : Method) (s : List Byte) :
    ∃ res res', R.invoke M cat s = some res ∧ R'.invoke M cat s = some res' ∧ AgreeOn σ R.ast res res' := by
  obtain ⟨res, res', g₁, g₁', h1, h2, h3, _⟩ := regroup_next hσ hR hR' hf hb he M s {} {} (Nat.zero_le _) (.inl rfl)
  refine ⟨res, res', ?_, ?_, h3⟩
  · unfold Regex.invoke
    unfold genNext at h1
    simp only [Bool.not_true, Bool.false_eq_true, if_false] at h1
    split at h1
    · next h => injection h1 with h1; injection h1 with h1; rw [h, ← h1]
    · cases h1
  · unfold Regex.invoke
    unfold genNext at h2
    simp only [Bool.not_true, Bool.false_eq_true, if_false] at h2
    split at h2
    · next h => injection h2 with h2; injection h2 with h2; rw [h, ← h2]
    · cases h2

/-- **C62**: any number of calls of a generator (`tokenizer`, `searcher`). -/
theorem C62_generators (M : Method) (s : List Byte) (k : Nat) :
    ∃ l l' g g', genCalls R M cat s k {} = some (l, g) ∧ genCalls R' M cat s k {} = some (l', g') ∧ AgreeAll σ R.ast l l' := by
  suffices h : ∀ k (g g' : Gen), g.current ≤ s.length → (g = g' ∨ (g.active = false ∧ g'.active = false)) →
      ∃ l l' g₁ g₁', genCalls R M cat s k g = some (l, g₁) ∧ genCalls R' M cat s k g' = some (l', g₁') ∧ AgreeAll σ R.ast l l' from
    h k {} {} (Nat.zero_le _) (.inl rfl)
  intro k
  induction k with
  | zero => intro g g' _ _; exact ⟨_, _, _, _, rfl, rfl, .nil⟩
  | succ k ih =>
    intro g g' hg hgg
    obtain ⟨res, res', g₁, g₁', h1, h2, h3, h4, h5⟩ := regroup_next hσ hR hR' hf hb he M s g g' hg hgg
    obtain ⟨l, l', g₂, g₂', i1, i2, i3⟩ := ih g₁ g₁' h4 h5
    refine ⟨res :: l, res' :: l', g₂, g₂', ?_, ?_, .cons h3 i3⟩
    · simp only [genCalls, h1, i1, Option.bind_eq_bind, Option.bind_some, Option.pure_def]
    · simp only [genCalls, h2, i2, Option.bind_eq_bind, Option.bind_some, Option.pure_def]

/-- **C62**: `tokenize` and `find_all` visit results that agree. -/
theorem C62_ranges (M : Method) (s : List Byte) (rounds : Nat) :
    ∃ l l' fin, rangeElements R M cat s rounds = some (l, fin) ∧ rangeElements R' M cat s rounds = some (l', fin) ∧ AgreeAll σ R.ast l l' := by
  have key : ∀ (k : Nat) (A A' : RangeAdapter), A.gen.current ≤ s.length → AgreeOn σ R.ast A.currentResult A'.currentResult →
      (A.gen = A'.gen ∨ (A.gen.active = false ∧ A'.gen.active = false)) →
      ∃ l l' fin, A.visit R M cat s k = some (l, fin) ∧ A'.visit R' M cat s k = some (l', fin) ∧ AgreeAll σ R.ast l l' := by
    intro k
    induction k with
    | zero =>
      intro A A' _ hA _
      refine ⟨[], [], !A.active, rfl, ?_, .nil⟩
      simp only [RangeAdapter.visit, RangeAdapter.active, Result.toBool, hA.1]
    | succ k ih =>
      intro A A' hcur hA hgg
      have hact : A'.active = A.active := by simp only [RangeAdapter.active, Result.toBool, hA.1]
      cases h : A.active with
      | false =>
        refine ⟨[], [], true, ?_, ?_, .nil⟩
        · simp only [RangeAdapter.visit, h, Bool.false_eq_true, if_false]
        · simp only [RangeAdapter.visit, hact, h, Bool.false_eq_true, if_false]
      | true =>
        obtain ⟨res, res', g₁, g₁', h1, h2, h3, h4, h5⟩ := regroup_next hσ hR hR' hf hb he M s _ _ hcur hgg
        obtain ⟨l, l', fin, i1, i2, i3⟩ := ih ⟨g₁, res⟩ ⟨g₁', res'⟩ h4 h3 h5
        refine ⟨_, _, fin, ?_, ?_, .cons hA i3⟩
        · simp only [RangeAdapter.visit, RangeAdapter.computeNext, h, h1, i1, if_true, Option.bind_eq_bind, Option.bind_some, Option.pure_def]
        · simp only [RangeAdapter.visit, RangeAdapter.computeNext, hact, h, h2, i2, if_true, Option.bind_eq_bind, Option.bind_some, Option.pure_def]
  obtain ⟨res, res', g₁, g₁', h1, h2, h3, h4, h5⟩ := regroup_next hσ hR hR' hf hb he M s {} {} (Nat.zero_le _) (.inl rfl)
  obtain ⟨l, l', fin, i1, i2, i3⟩ := key rounds ⟨g₁, res⟩ ⟨g₁', res'⟩ h4 h3 h5
  exact ⟨l, l', fin, by simp only [rangeElements, RangeAdapter.make, h1, i1, Option.bind_eq_bind, Option.bind_some, Option.pure_def],
    by simp only [rangeElements, RangeAdapter.make, h2, i2, Option.bind_eq_bind, Option.bind_some, Option.pure_def], i3⟩

end

/-- **C62**: the regex with other groups can be used whenever the original can, provided that its groups are numbered and named as its type says. -/
theorem C62_usable (σ : Nat → Option (Nat × GroupName)) (R : Regex) (cat : Cat) (hb : noBackref R.ast = true) (hR : R.Ok cat)
    (hn : ∀ k j n, k ∈ groupIds R.ast → σ k = some (j, n) → (none :: (regroup σ R.ast).nameSpec)[j]? = some n) :
    (Regex.mk (regroup σ R.ast) R.flags).Ok cat :=
  fun s => ok_regroup (E := R.env cat s) (E' := (Regex.mk (regroup σ R.ast) R.flags).env cat s) rfl rfl hn hb (hR s)

/-- **C62**: a regex without references and the same regex without any groups can both be used, and all methods give the same verdict and range. -/
theorem C62_no_groups (R : Regex) (cat : Cat) (hb : noBackref R.ast = true) (hR : R.Ok cat) :
    (Regex.mk (regroup (fun _ => none) R.ast) R.flags).Ok cat ∧ ∀ (M : Method) (s : List Byte),
      ∃ res res', R.invoke M cat s = some res ∧ (Regex.mk (regroup (fun _ => none) R.ast) R.flags).invoke M cat s = some res' ∧
        res.matched = res'.matched ∧ (res.matched = true → res.group 0 = res'.group 0) := by
  have hR' := C62_usable (fun _ => none) R cat hb hR (fun _ _ _ _ h => by cases h)
  refine ⟨hR', fun M s => ?_⟩
  obtain ⟨res, res', h1, h2, h3⟩ := C62_methods (R := R) (R' := ⟨regroup (fun _ => none) R.ast, R.flags⟩) (σ := fun _ => none)
    ⟨fun _ _ _ _ _ h => (by cases h), fun _ _ h => (by cases h)⟩ hR hR' rfl hb rfl M s
  exact ⟨res, res', h1, h2, h3.1, h3.2.1⟩

/-- Keep only group 2 of `exScript`, as group 1 named `x`. -/
def exKeep (k : Nat) : Option (Nat × GroupName) := if k = 2 then some (1, some [ch 'x']) else none

theorem exKeep_renumbering : Renumbering exKeep := by
  constructor
  · intro k k' j n n' h h'
    unfold exKeep at h h'
    split at h
    · split at h'
      · omega
      · cases h'
    · cases h
  · intro k n h
    unfold exKeep at h
    split at h
    · injection h with h; injection h with h; cases h
    · cases h

/-- `(?:ab|a(?=(?<x>a)))+`. -/
example : regroup exKeep exScript.ast =
      .rep .greedy 1 .inf (.alt [.seq [.lit (ch 'a'), .lit (ch 'b')], .seq [.lit (ch 'a'), .look .ahead (.cap 1 (some [ch 'x']) (.lit (ch 'a')))]]) ∧
    (Regex.mk (regroup exKeep exScript.ast) []).Ok .randomAccess ∧
    (Regex.mk (regroup exKeep exScript.ast) []).search [ch 'a', ch 'b', ch 'a', ch 'a', ch 'c'] = some ⟨[some (0, 3), some (3, 3)], true⟩ ∧
    exScript.match [ch 'a', ch 'a', ch 'c'] = some ⟨[some (0, 1), some (1, 1), some (1, 1)], false⟩ ∧
    (Regex.mk (regroup exKeep exScript.ast) []).match [ch 'a', ch 'a', ch 'c'] = some ⟨[some (0, 1), some (1, 1)], false⟩ :=
  ⟨rfl, C62_usable exKeep exScript _ (by decide) (Regex.ok_of_okb (by decide)) (by
    intro k j n _ h
    unfold exKeep at h
    split at h
    · injection h with h; injection h with h h'; subst h h'; rfl
    · cases h), by decide, by decide, by decide⟩

/-- `find_all` with `exScript` and without its groups. -/
example : (rangeElements exScript .search .randomAccess [ch 'a', ch 'b', ch 'c', ch 'a', ch 'a'] 5).map
      (fun x => (x.1.map (fun r => r.group 0), x.2)) = some ([some (some (0, 2)), some (some (3, 4))], true) ∧
    (rangeElements ⟨regroup (fun _ => none) exScript.ast, []⟩ .search .randomAccess [ch 'a', ch 'b', ch 'c', ch 'a', ch 'a'] 5).map
      (fun x => (x.1.map (fun r => r.group 0), x.2)) = some ([some (some (0, 2)), some (some (3, 4))], true) := ⟨rfl, rfl⟩

end Mregex
