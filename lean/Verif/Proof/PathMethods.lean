import Verif.Proof.PathsMain
import Verif.Proof.MethodLemmas

/-!
# The methods follow the paths
-/

namespace Mregex
open Ast Spec

/-- The groups that may be tried again after they took part. -/
abbrev Again (a : Ast) (k : Nat) : Prop := visitedOnce k a = false

section
variable {R : Regex} {cat : Cat} {s : List Byte} {N : Nat → Prop}

theorem agrees_init : Agrees (R.env cat s) N [] [] (initCtx R.names) := by
  refine ⟨length_init _, fun k g _ hg => ?_⟩
  rw [getElem?_init hg]
  simp [held, NoText]

theorem Agrees.records {ev : List Event} {c : Ctx} (h : Agrees (R.env cat s) (Again R.ast) [] ev c) (v : Cap) :
    Records R.ast ev (c.set 0 v) := by
  intro k g hk hg
  rw [List.getElem?_set, if_neg (Ne.symm hk)] at hg
  exact h.2 k g (by simp) hg

theorem Agrees.noGroups {c : Ctx} (h : Agrees (R.env cat s) N [] [] c) : NoGroups c := by
  intro k g hk hg
  have := h.2 k g (by simp) hg
  simpa [held] using this

theorem noGroups_set {c : Ctx} (h : NoGroups c) (v : Cap) : NoGroups (c.set 0 v) := by
  intro k g hk hg
  rw [List.getElem?_set, if_neg (Ne.symm hk)] at hg
  exact h k g hk hg


theorem denC_root (hR : R.Ok cat) (ht : traceable R.ast = true) : DenC (R.env cat s) (Again R.ast) [] (Start (R.env cat s) (Again R.ast) (groupIds R.ast))
    (mtch (R.env cat s) (fuelFor R.ast s) R.ast 0) (paths (Flags.ofList R.flags) s R.ast) := by
  simp only [traceable, Bool.and_eq_true] at ht
  refine mtch_paths (E := R.env cat s) (P := fun k => visitedOnce k R.ast) (fun k h => by simp [h]) _ R.ast [] (hR s) ht.1 ht.2
    (fun i h => by simpa using h) (Nat.le_refl _)

variable (hd : DenC (R.env cat s) N [] (Start (R.env cat s) N (groupIds R.ast))
  (mtch (R.env cat s) (fuelFor R.ast s) R.ast 0) (paths (Flags.ofList R.flags) s R.ast))
include hd

omit hd in
theorem start_root {i : Nat} (hi : i ≤ s.length) : Start (R.env cat s) N (groupIds R.ast) (i, []) :=
  ⟨hi, fun _ _ _ => rfl⟩

theorem full_view {c : Ctx} (hc : Agrees (R.env cat s) N [] [] c) :
    ViewS (fun y q c => q = y.1 ∧ Agrees (R.env cat s) N [] y.2 c) (Agrees (R.env cat s) N [] [])
      (mtch (R.env cat s) (fuelFor R.ast s) R.ast 0 0 c (equals s.length)) (fullPath (Flags.ofList R.flags) s R.ast) := by
  have h := hd Place (fun y q c => q = y.1 ∧ Agrees (R.env cat s) N [] y.2 c) (0, []) c
    (equals s.length) (fun y => if y.1 == s.length then some y else none) (start_root (Nat.zero_le _)) hc (fun y c' _ hc' => ?_)
  · have e : ∀ l : List Place, l.findSome? (fun y => if y.1 == s.length then some y else none) = l.find? (fun y => y.1 == s.length) := by
      intro l
      induction l with
      | nil => rfl
      | cons y l ih => cases h : y.1 == s.length <;> simp_all [List.find?_cons, List.findSome?_cons]
    rw [e] at h
    exact h
  · cases hy : y.1 == s.length with
    | true => simpa [ViewS, Post, equals, hy] using hc'
    | false => simpa [ViewS, Post, equals, hy] using hc'

theorem prefix_paths {i : Nat} (hi : i ≤ s.length) {c : Ctx} (hc : Agrees (R.env cat s) N [] [] c) :
    ViewS (fun y q c => q = y.1 ∧ Agrees (R.env cat s) N [] y.2 c) (Agrees (R.env cat s) N [] [])
      (mtch (R.env cat s) (fuelFor R.ast s) R.ast 0 i c success) (paths (Flags.ofList R.flags) s R.ast (i, [])).head? := by
  have h := hd Place (fun y q c => q = y.1 ∧ Agrees (R.env cat s) N [] y.2 c) (i, []) c
    success (fun y => some y) (start_root hi) hc (fun y c' _ hc' => ?_)
  · have e : ∀ l : List Place, l.findSome? (fun y => some y) = l.head? := by
      intro l
      cases l <;> simp
    rw [e] at h
    exact h
  · simpa [ViewS, Post, success] using hc'

theorem search_paths : ∀ k cur c, cur ≤ s.length → k = s.length - cur + 1 → Agrees (R.env cat s) N [] [] c →
    Post (fun q c' => ∃ i y c'', searchPath (Flags.ofList R.flags) s R.ast cur = some (i, y) ∧ q = y.1 ∧
        Agrees (R.env cat s) N [] y.2 c'' ∧ c' = c''.set 0 (some (i, q)))
      (fun q c' => q = s.length ∧ searchPath (Flags.ofList R.flags) s R.ast cur = none ∧ Agrees (R.env cat s) N [] [] c')
      (searchLoop (R.env cat s) (fuelFor R.ast s) R.ast k cur c) := by
  intro k
  induction k with
  | zero => intro cur c _ h; omega
  | succ k ih =>
    intro cur c hcur hk hc
    have h := prefix_paths hd hcur hc
    have hs : searchPath (Flags.ofList R.flags) s R.ast cur = ((paths (Flags.ofList R.flags) s R.ast (cur, [])).head?.map (cur, ·)).or
        (searchPath (Flags.ofList R.flags) s R.ast (cur + 1)) := by
      unfold searchPath
      rw [show s.length + 1 - cur = (s.length + 1 - (cur + 1)) + 1 by omega, List.range'_succ, List.findSome?_cons]
      cases (paths (Flags.ofList R.flags) s R.ast (cur, [])).head? <;> rfl
    rw [hs]
    unfold searchLoop
    match hm : mtch (R.env cat s) (fuelFor R.ast s) R.ast 0 cur c success with
    | .ok ⟨q, true⟩ c' =>
      rw [hm] at h
      simp only [ViewS, Post, if_true] at h ⊢
      obtain ⟨y, h1, h2, h3⟩ := h
      exact ⟨cur, y, c', by simp [h1], h2, h3, rfl⟩
    | .ok ⟨q, false⟩ c' =>
      rw [hm] at h
      simp only [ViewS, Post, Bool.false_eq_true, if_false] at h ⊢
      rw [h.1]
      simp only [Option.map_none, Option.none_or]
      by_cases he : cur = s.length
      · have : cur = (R.env cat s).inp.length := he
        simp only [this, if_true, nonMatch]
        refine ⟨rfl, ?_, h.2⟩
        unfold searchPath
        rw [show s.length + 1 - ((R.env cat s).inp.length + 1) = 0 by simp [Regex.env]]
        rfl
      · have : cur ≠ (R.env cat s).inp.length := he
        simp only [this, if_false]
        exact ih (cur + 1) c' (by omega) (by omega) h.2
    | .ub => rw [hm] at h; exact False.elim h
    | .diverge => rw [hm] at h; exact False.elim h

/-- What a method finds is the path, and the groups agree with it up to `N`. -/
theorem method_agrees (M : Method) : ∃ res, R.invoke M cat s = some res ∧
    ((∃ i y, methodPath (Flags.ofList R.flags) s R.ast M = some (i, y) ∧ res.matched = true ∧ res.group 0 = some (some (i, y.1)) ∧
        ∃ c, Agrees (R.env cat s) N [] y.2 c ∧ res.groups = c.set 0 (some (i, y.1))) ∨
      (methodPath (Flags.ofList R.flags) s R.ast M = none ∧ res.matched = false ∧ NoGroups res.groups)) := by
  have h0 : ∀ {c : Ctx} {ev : List Event} {v : Cap}, Agrees (R.env cat s) N [] ev c → (c.set 0 v)[0]? = some v := by
    intro c ev v h
    have : c.length = R.names.length := h.1
    rw [List.getElem?_set_self (by rw [this]; simp [Regex.names])]
  cases M with
  | «match» =>
    rcases (full_view (s := s) hd agrees_init).elim with ⟨q, c, h1, y, h2, rfl, h3⟩ | ⟨q, c, h1, h2, h3⟩
    · refine ⟨⟨c.set 0 (some (0, y.1)), true⟩, ?_, .inl ⟨0, y, ?_, rfl, h0 h3, c, h3, rfl⟩⟩
      · simp only [Regex.invoke, Method.invoke, matchMethod, show (R.env cat s).inp = s from rfl, h1, setGroup0]
      · simp only [methodPath, h2, Option.map_some]
    · refine ⟨⟨c.set 0 (some (0, q)), false⟩, ?_, .inr ⟨?_, rfl, noGroups_set h3.noGroups _⟩⟩
      · simp only [Regex.invoke, Method.invoke, matchMethod, show (R.env cat s).inp = s from rfl, h1, setGroup0]
      · simp only [methodPath, h2, Option.map_none]
  | matchPrefix =>
    rcases (prefix_paths (s := s) hd (Nat.zero_le _) agrees_init).elim with ⟨q, c, h1, y, h2, rfl, h3⟩ | ⟨q, c, h1, h2, h3⟩
    · refine ⟨⟨c.set 0 (some (0, y.1)), true⟩, ?_, .inl ⟨0, y, ?_, rfl, h0 h3, c, h3, rfl⟩⟩
      · simp only [Regex.invoke, Method.invoke, prefixMethod, h1, setGroup0]
      · simp only [methodPath, prefixPath, h2, Option.map_some]
    · refine ⟨⟨c.set 0 (some (0, q)), false⟩, ?_, .inr ⟨?_, rfl, noGroups_set h3.noGroups _⟩⟩
      · simp only [Regex.invoke, Method.invoke, prefixMethod, h1, setGroup0]
      · simp only [methodPath, prefixPath, h2, Option.map_none]
  | search =>
    rcases (search_paths (s := s) hd _ 0 _ (Nat.zero_le _) rfl agrees_init).elim with
      ⟨q, c, h1, i, y, c', h2, rfl, h3, rfl⟩ | ⟨q, c, h1, rfl, h2, h3⟩
    · refine ⟨⟨c'.set 0 (some (i, y.1)), true⟩, ?_, .inl ⟨i, y, h2, rfl, h0 h3, c', h3, rfl⟩⟩
      simp only [Regex.invoke, Method.invoke, searchMethod, show (R.env cat s).inp = s from rfl, h1]
    · refine ⟨⟨c, false⟩, ?_, .inr ⟨h2, rfl, h3.noGroups⟩⟩
      simp only [Regex.invoke, Method.invoke, searchMethod, show (R.env cat s).inp = s from rfl, h1]

omit hd in
theorem method_paths (hR : R.Ok cat) (ht : traceable R.ast = true) (M : Method) : ∃ res, R.invoke M cat s = some res ∧
    ((∃ i y, methodPath (Flags.ofList R.flags) s R.ast M = some (i, y) ∧ res.matched = true ∧ res.group 0 = some (some (i, y.1)) ∧
        Records R.ast y.2 res.groups) ∨
      (methodPath (Flags.ofList R.flags) s R.ast M = none ∧ res.matched = false ∧ NoGroups res.groups)) := by
  obtain ⟨res, h1, h⟩ := method_agrees (s := s) (denC_root hR ht) M
  refine ⟨res, h1, h.imp (fun ⟨i, y, h2, h3, h4, c, h5, h6⟩ => ⟨i, y, h2, h3, h4, ?_⟩) id⟩
  rw [h6]
  exact h5.records _

end
end Mregex
