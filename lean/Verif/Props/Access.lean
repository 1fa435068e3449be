import Verif.Model.Access
import Verif.Props.Results
import Verif.Proof.Numbering

/-!
# C65: all ways to look at a result show the same groups
-/

namespace Mregex
open Ast Spec

theorem mapM_range {α β : Type} (l : List β) (f : β → α) : (List.range l.length).mapM (fun i => l[i]?.map f) = some (l.map f) := by
  have key : ∀ (k n : Nat), n + k = l.length → (List.range' n k).mapM (fun i => l[i]?.map f) = some ((l.drop n).map f) := by
    intro k
    induction k with
    | zero =>
      intro n hn
      rw [List.range'_zero, List.drop_eq_nil_of_le (by omega)]
      rfl
    | succ k ih =>
      intro n hn
      have hlt : n < l.length := by omega
      rw [List.range'_succ, List.mapM_cons, List.getElem?_eq_getElem hlt, ih (n + 1) (by omega), List.drop_eq_getElem_cons hlt]
      rfl
  rw [List.range_eq_range', key l.length 0 (by omega)]
  rfl

theorem iterate_range {β σ : Type} (l : List β) (f : β → σ → σ) (st : σ) : iterateTuple l f st = some (l.foldl (fun st x => f x st) st) := by
  have key : ∀ (k n : Nat) (st : σ), n + k = l.length → iterateIndices l f (List.range' n k) st = some ((l.drop n).foldl (fun st x => f x st) st) := by
    intro k
    induction k with
    | zero =>
      intro n st hn
      rw [List.range'_zero, List.drop_eq_nil_of_le (by omega)]
      rfl
    | succ k ih =>
      intro n st hn
      have hlt : n < l.length := by omega
      rw [List.range'_succ, iterateIndices, List.getElem?_eq_getElem hlt, List.drop_eq_getElem_cons hlt]
      exact ih (n + 1) _ (by omega)
  rw [iterateTuple, List.range_eq_range', key l.length 0 st (by omega)]
  rfl

/-- A result has the groups 0 to `captureCount`. -/
theorem invoke_groups {R : Regex} {cat : Cat} (hR : R.Ok cat) {M : Method} {s : List Byte} {res : Result} (h : R.invoke M cat s = some res) :
    res.groups.length = captureCount R.ast + 1 := by
  rw [(invoke_inBounds _ cat hR M s res h).1]
  simp [Regex.env, Regex.names, length_nameSpec]

theorem groups_eq {R : Regex} {cat : Cat} (hR : R.Ok cat) {M : Method} {s : List Byte} {res : Result} (h : R.invoke M cat s = some res)
    {l : List Cap} (hl : l.length = captureCount R.ast + 1) (hg : ∀ k, k ≤ captureCount R.ast → res.group k = l[k]?) : res.groups = l := by
  refine List.ext_getElem? (fun k => ?_)
  by_cases hk : k ≤ captureCount R.ast
  · exact hg k hk
  · rw [List.getElem?_eq_none (by rw [invoke_groups hR h]; omega), List.getElem?_eq_none (by omega)]

/-- **C65**: the groups as `group<0>`, `group<1>`, … give them, are visited by `for_each_group` once each and in this order; structured bindings with the right number of
names are these groups. -/
theorem C65_visits (R : Regex) (cat : Cat) (hR : R.Ok cat) (M : Method) (s : List Byte) (res : Result) (h : R.invoke M cat s = some res)
    (l : List Cap) (hl : l.length = captureCount R.ast + 1) (hg : ∀ k, k ≤ captureCount R.ast → res.group k = l[k]?) :
    res.forEachGroup (fun g seen => seen ++ [g]) [] = some l ∧
    (∀ (σ : Type) (func : Cap → σ → σ) (st : σ), res.forEachGroup func st = some (l.foldl (fun st g => func g st) st)) ∧
    (∀ n, res.bindings n = if n = captureCount R.ast + 1 then some l else none) := by
  have he := groups_eq hR h hl hg
  have hv : ∀ (σ : Type) (func : Cap → σ → σ) (st : σ), res.forEachGroup func st = some (l.foldl (fun st g => func g st) st) := by
    intro σ func st
    rw [Result.forEachGroup, iterate_range, he]
  refine ⟨?_, hv, fun n => ?_⟩
  · rw [hv]
    congr 1
    have : ∀ (l acc : List Cap), l.foldl (fun st g => st ++ [g]) acc = acc ++ l := by
      intro l
      induction l with
      | nil => intro acc; simp
      | cons g l ih => intro acc; rw [List.foldl_cons, ih, List.append_assoc]; rfl
    rw [this]; rfl
  · rw [Result.bindings, he, hl]
    split
    · next hn =>
      subst hn
      have := mapM_range l id
      rw [hl] at this
      simpa using this
    · rfl

/-- **C65** fails for `transform_groups`: for a regex without groups, a function that returns a pair gives two elements instead of one. -/
theorem C65_transform_false : ∃ (R : Regex) (s : List Byte) (res : Result) (func : Cap → Val Nat), R.Ok .randomAccess ∧ R.match s = some res ∧
    captureCount R.ast = 0 ∧ (∃ a b, func (some (0, 1)) = .pair (.other a) (.other b)) ∧ (res.transformGroups func).map List.length = some 2 :=
  ⟨⟨.lit (ch 'a'), []⟩, [ch 'a'], ⟨[some (0, 1)], true⟩,
    fun g => match g with | some (b, e) => .pair (.other b) (.other e) | none => .other 0, Regex.ok_of_okb (by decide), by decide, rfl, ⟨0, 1, rfl⟩, rfl⟩

/-- **C65**, partial: `transform_groups` gives the values of the function for all groups in their order, if there are capturing groups or the value for group 0 is neither a
pair nor a tuple.  Missing: pairs and tuples without capturing groups, for which it is false. -/
theorem C65_transform_partial (R : Regex) (cat : Cat) (hR : R.Ok cat) (M : Method) (s : List Byte) (res : Result) (h : R.invoke M cat s = some res)
    (l : List Cap) (hl : l.length = captureCount R.ast + 1) (hg : ∀ k, k ≤ captureCount R.ast → res.group k = l[k]?)
    (α : Type) (func : Cap → Val α) (hf : captureCount R.ast ≠ 0 ∨ ∀ g, ∃ a, func g = .other a) : res.transformGroups func = some (l.map func) := by
  have he := groups_eq hR h hl hg
  rw [Result.transformGroups, transformTuple, mapM_range, he]
  simp only [Option.map_some, Option.some.injEq]
  rcases hf with hf | hf
  · match l, hl with
    | [], _ => rfl
    | [_], hl => simp at hl; omega
    | _ :: _ :: _, _ => simp [makeTuple]
  · match l with
    | [] => rfl
    | [x] =>
      obtain ⟨a, ha⟩ := hf x
      simp [ha, makeTuple]
    | _ :: _ :: _ => simp [makeTuple]

/-- **C65**: `as_memory_owner`, which uses `transform_groups`, gets the texts of all groups. -/
theorem C65_owner (res : Result) (s : List Byte) :
    res.transformGroups (fun g => .other (g.content s)) = some ((res.asMemoryOwner s).groups.map .other) := by
  rw [Result.transformGroups, transformTuple, mapM_range, Result.asMemoryOwner, Option.map_some, List.map_map]
  congr 1
  match res.groups with
  | [] => rfl
  | [x] => rfl
  | _ :: _ :: _ => rfl

theorem copyOut_eq (s : List Byte) (n : Nat) : ∀ p, p + n ≤ s.length → copyOut s n p = some ((s.drop p).take n) := by
  induction n with
  | zero => intro p _; simp [copyOut]
  | succ n ih =>
    intro p hp
    have hlt : p < s.length := by omega
    rw [copyOut, List.getElem?_eq_getElem hlt]
    dsimp only
    rw [ih (p + 1) (by omega), List.drop_eq_getElem_cons hlt, Option.map_some, List.take_succ_cons]

/-- **C65**: comparing with a `bool`; writing the result to a stream and converting it to a `std::string_view` give the text of group 0; writing a group gives its text; its
characters can be read one by one.  None of this is undefined. -/
theorem C65_texts (R : Regex) (cat : Cat) (hR : R.Ok cat) (M : Method) (s : List Byte) (res : Result) (h : R.invoke M cat s = some res) :
    (∀ b, res.eqBool b = true ↔ res.matched = b) ∧
    (∃ g0, res.group 0 = some g0 ∧ res.text s = g0.content s ∧ res.stream s = some (g0.content s)) ∧
    ∀ k g, res.group k = some g → g.stream s = some (g.content s) ∧ (g.content s).length = g.length ∧
      ∀ i, i < g.length → g.at s i = (g.content s)[i]? := by
  have hs : ∀ k g, res.group k = some g → g.stream s = some (g.content s) ∧ (g.content s).length = g.length ∧
      ∀ i, i < g.length → g.at s i = (g.content s)[i]? := by
    intro k g hg
    have hb := C09_groups_in_bounds R cat hR M s res h k g hg
    match g, hb with
    | none, _ => exact ⟨rfl, rfl, fun i hi => absurd hi (Nat.not_lt_zero _)⟩
    | some (b, e), hb =>
      simp only [reduceCtorEq, Option.some.injEq, Prod.mk.injEq, false_or] at hb
      obtain ⟨_, _, ⟨rfl, rfl⟩, h1, h2⟩ := hb
      refine ⟨?_, ?_, fun i hi => ?_⟩
      · rw [Cap.stream, if_pos h1, copyOut_eq s _ _ (by omega)]
        rfl
      · simp only [Cap.content, capText, Cap.length, List.length_take, List.length_drop]
        omega
      · simp only [Cap.length] at hi
        simp only [Cap.at, Cap.content, capText]
        rw [List.getElem?_take_of_lt hi, List.getElem?_drop]
  refine ⟨fun b => ?_, ?_, hs⟩
  · simp [Result.eqBool]
  · have hlen := invoke_groups hR h
    have h0 : res.group 0 = some (res.groups[0]'(by omega)) := List.getElem?_eq_getElem (by omega)
    have h0' : res.groups[0]? = some (res.groups[0]'(by omega)) := h0
    refine ⟨_, h0, ?_, ?_⟩
    · rw [Result.text, List.getD_eq_getElem?_getD, h0']; rfl
    · rw [Result.stream, h0']
      exact (hs 0 _ h0).1

/-- `(a+)(?:(b)|c)` found in `xaab`. -/
def exAccess : Regex := ⟨.seq [.cap 1 none (plus (.lit (ch 'a'))), .alt [.cap 2 none (.lit (ch 'b')), .lit (ch 'c')]], []⟩
example : exAccess.Ok .randomAccess ∧ captureCount exAccess.ast = 2 ∧
    (exAccess.search [ch 'x', ch 'a', ch 'a', ch 'b']).map (fun res => (res.groups, res.stream [ch 'x', ch 'a', ch 'a', ch 'b'], (res.groups.getD 1 none).at [ch 'x', ch 'a', ch 'a', ch 'b'] 1)) =
      some ([some (1, 4), some (1, 3), some (3, 4)], some [ch 'a', ch 'a', ch 'b'], some (ch 'a')) :=
  ⟨Regex.ok_of_okb (by decide), by decide, by decide⟩

end Mregex
