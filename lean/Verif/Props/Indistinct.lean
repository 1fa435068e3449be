import Verif.Proof.Indistinct
import Verif.Props.Layout

/-!
# Characters that an expression does not tell apart
-/

namespace Mregex
open Ast Spec

/-- What two calls have in common if the procedures are the same. -/
theorem next_of_proc {R : Regex} {cat : Cat} (hR : R.Ok cat) {s s' : List Byte} (hl : s.length = s'.length)
    (h : ∀ ν, proc (Flags.ofList R.flags) s ν R.ast 0 false = proc (Flags.ofList R.flags) s' ν R.ast 0 false) (M : Method) (g : Gen) (hg : g.current ≤ s.length) :
    ∃ res res' g₁ g₁', genNext R M cat s g = some (res, g₁) ∧ genNext R M cat s' g = some (res', g₁') ∧ g₁.current ≤ s.length ∧
      res.matched = res'.matched ∧ res.groups.tail = res'.groups.tail ∧ (res.matched = true → res = res' ∧ g₁ = g₁') := by
  cases ha : g.active with
  | false =>
    obtain ⟨res, hr⟩ : ∃ res, genNext R M cat s g = some (res, g) ∧ genNext R M cat s' g = some (res, g) := ⟨_, by rw [genNext_inactive M ha], by rw [genNext_inactive M ha]⟩
    exact ⟨res, res, g, g, hr.1, hr.2, hg, rfl, rfl, fun _ => ⟨rfl, rfl⟩⟩
  | true =>
    obtain ⟨ν, hν⟩ : ∃ ν : List Byte → Nat, ∀ n id, nameIndex R.names n = some id → ν n = id :=
      ⟨fun n => (nameIndex R.names n).getD 0, fun n id h => by simp only [h]; rfl⟩
    obtain ⟨q, c, h1, h2, h3, h4⟩ := invoke_follow (E := R.env cat s) (hR s) hν M (Nat.le_refl _) hg (fun _ => none)
    obtain ⟨q', c', h1', h2', h3', h4'⟩ := invoke_follow (E := R.env cat s') (hR s') hν M (Nat.le_refl _) (by exact hl ▸ hg) (fun _ => none)
    have hp : proc (R.env cat s').flags (R.env cat s').inp ν R.ast 0 false = proc (R.env cat s).flags (R.env cat s).inp ν R.ast 0 false := (h ν).symm
    have hn : (R.env cat s').inp.length = (R.env cat s).inp.length := hl.symm
    rw [hp, hn] at h1' h3' h4'
    have hq := (C01_total R cat hR M s g.current hg (initCtx R.names) (length_init _))
    obtain ⟨r0, c0, hr0, hi0⟩ := hq
    have hi0 := hi0 _ (Nat.le_refl _)
    have hi : (R.env cat s).names = R.names := rfl
    have hi' : (R.env cat s').names = R.names := rfl
    rw [hi, ← ctxOf_init] at h1
    rw [hi', ← ctxOf_init] at h1'
    have tails : c.tail = c'.tail := by
      refine List.ext_getElem? (fun k => ?_)
      rw [List.getElem?_tail, List.getElem?_tail]
      exact (h4 (k + 1) (by omega)).trans (h4' (k + 1) (by omega)).symm
    have heads : (carryOut (R.env cat s).inp.length (proc (R.env cat s).flags (R.env cat s).inp ν R.ast 0 false) g.current (fun _ => none) M).1.isSome = true →
        c = c' ∧ q = q' := by
      intro hm
      obtain ⟨r, hr⟩ := Option.isSome_iff_exists.1 hm
      have a1 := h3 r.1 r.2 hr
      have a2 := h3' r.1 r.2 hr
      refine ⟨?_, a1.1.trans a2.1.symm⟩
      have b1 := a1.2 (Nat.succ_pos _)
      have b2 := a2.2 (Nat.succ_pos _)
      cases c with
      | nil => cases b1
      | cons x c =>
        cases c' with
        | nil => cases b2
        | cons x' c' =>
          simp only [List.getElem?_cons_zero, Option.some.injEq] at b1 b2
          simp only [List.tail_cons] at tails
          rw [b1, b2, tails]
    generalize (carryOut (R.env cat s).inp.length (proc (R.env cat s).flags (R.env cat s).inp ν R.ast 0 false) g.current (fun _ => none) M).1.isSome = m at h1 h1' heads
    refine ⟨⟨c, m⟩, ⟨c', m⟩, { current := q, active := m && !(c.getD 0 none).isEmpty }, { current := q', active := m && !(c'.getD 0 none).isEmpty },
      ?_, ?_, ?_, rfl, tails, fun hm => ?_⟩
    · unfold genNext fuelFor
      simp only [ha, Bool.not_true, Bool.false_eq_true, if_false]
      rw [show M.invoke (R.env cat s) (R.ast.depth + s.length + 1) R.ast g.current (initCtx R.names) = _ from h1]
    · unfold genNext fuelFor
      simp only [ha, Bool.not_true, Bool.false_eq_true, if_false]
      rw [show M.invoke (R.env cat s') (R.ast.depth + s'.length + 1) R.ast g.current (initCtx R.names) = .ok ⟨q', m⟩ c' from by rw [← hl]; exact h1']
    · have : (.ok r0 c0 : Out) = .ok ⟨q, m⟩ c := hi0.symm.trans h1
      cases this
      exact hr0
    · obtain ⟨e1, e2⟩ := heads hm
      simp only [e1, e2, and_self]

/-- **C83**: if an expression does not tell two texts apart, each call of a generator gives the same for both: the same verdict, the same groups (the whole match is only
compared if there is one), and the generator goes on in the same way. -/
theorem C83_generators (R : Regex) (cat : Cat) (hR : R.Ok cat) (s s' : List Byte) (h : Indistinct (Flags.ofList R.flags) R.ast s s') (M : Method) (g : Gen)
    (hg : g.current ≤ s.length) :
    ∃ res res' g₁ g₁', genNext R M cat s g = some (res, g₁) ∧ genNext R M cat s' g = some (res', g₁') ∧ g₁.current ≤ s.length ∧
      res.matched = res'.matched ∧ res.groups.tail = res'.groups.tail ∧ (res.matched = true → res = res' ∧ g₁ = g₁') :=
  next_of_proc hR h.len (fun ν => proc_indistinct ν R.ast h 0 false) M g hg

/-- **C83**: the same for `match`, `match_prefix` and `search`. -/
theorem C83_methods (R : Regex) (cat : Cat) (hR : R.Ok cat) (s s' : List Byte) (h : Indistinct (Flags.ofList R.flags) R.ast s s') (M : Method) :
    SameCall (R.invoke M cat s) (R.invoke M cat s') := by
  obtain ⟨res, res', g₁, g₁', h1, h2, _, h4, h5, h6⟩ := C83_generators R cat hR s s' h M {} (Nat.zero_le _)
  exact ⟨res, res', invoke_of_genNext h1, invoke_of_genNext h2, h4, fun hm => by rw [(h6 hm).1], h5⟩

/-- **C83**: `tokenize` and `find_all` visit the same. -/
theorem C83_ranges (R : Regex) (cat : Cat) (hR : R.Ok cat) (s s' : List Byte) (h : Indistinct (Flags.ofList R.flags) R.ast s s') (M : Method) (rounds : Nat) :
    rangeElements R M cat s rounds = rangeElements R M cat s' rounds := by
  have key : ∀ (k : Nat) (A A' : RangeAdapter), A.gen.current ≤ s.length →
      A.currentResult.matched = A'.currentResult.matched → (A.currentResult.matched = true → A.currentResult = A'.currentResult ∧ A.gen = A'.gen) →
      A.visit R M cat s k = A'.visit R M cat s' k := by
    intro k
    induction k with
    | zero =>
      intro A A' _ hA _
      simp only [RangeAdapter.visit, RangeAdapter.active, Result.toBool, hA]
    | succ k ih =>
      intro A A' hcur hA hA'
      cases hm : A.currentResult.matched with
      | false =>
        have hm' := hm
        rw [hA] at hm'
        simp [RangeAdapter.visit, RangeAdapter.active, Result.toBool, hm, hm']
      | true =>
        obtain ⟨e, e'⟩ := hA' hm
        obtain ⟨res, res', g₁, g₁', h1, h2, h3, h4, h5, h6⟩ := C83_generators R cat hR s s' h M A.gen hcur
        rw [e'] at h2
        have := ih ⟨g₁, res⟩ ⟨g₁', res'⟩ h3 h4 h6
        have hact : A.active = A'.active := by simp only [RangeAdapter.active, e]
        simp only [RangeAdapter.visit, RangeAdapter.computeNext, h1, h2, ← hact, ← e, Option.bind_eq_bind, Option.bind_some, Option.pure_def, this]
  obtain ⟨res, res', g₁, g₁', h1, h2, h3, h4, h5, h6⟩ := C83_generators R cat hR s s' h M {} (Nat.zero_le _)
  simp only [rangeElements, RangeAdapter.make, h1, h2, Option.bind_eq_bind, Option.bind_some, Option.pure_def]
  exact key rounds ⟨g₁, res⟩ ⟨g₁', res'⟩ h3 h4 h6

/-- **C83**: in particular, if characters are replaced by characters that pass the same tests, without making different ones equal. -/
theorem C83_renamed (R : Regex) (cat : Cat) (hR : R.Ok cat) (φ : Byte → Byte) (s : List Byte) (ht : ∀ x ∈ s, alike (Flags.ofList R.flags) x (φ x) R.ast = true)
    (hi : ∀ x ∈ s, ∀ y ∈ s, sameChar (Flags.ofList R.flags).icase x y = sameChar (Flags.ofList R.flags).icase (φ x) (φ y)) (M : Method) :
    SameCall (R.invoke M cat s) (R.invoke M cat (s.map φ)) := by
  refine C83_methods R cat hR _ _ ⟨by simp, fun i x x' e e' => ?_, fun _ i j x y x' y' e1 e2 e3 e4 => ?_⟩ M
  · rw [List.getElem?_map, e] at e'
    cases e'
    exact ht x (List.mem_of_getElem? e)
  · rw [List.getElem?_map, e1] at e3
    rw [List.getElem?_map, e2] at e4
    cases e3
    cases e4
    exact hi x (List.mem_of_getElem? e1) y (List.mem_of_getElem? e2)

/-- `([a-f]+)-(?!x)\w\1\b`. -/
def exIndistinct : Regex :=
  ⟨.seq [.cap 1 none (plus (.range (ch 'a') (ch 'f'))), .lit (ch '-'), .neg (.look .ahead (.lit (ch 'x'))), word, .backref 1, .wordB], []⟩

/-- `ab-qab` and `dc-7dc`. -/
example : exIndistinct.Ok .bidirectional ∧ exIndistinct.match (txt "ab-qab") .bidirectional = some ⟨[some (0, 6), some (0, 2)], true⟩ ∧
    exIndistinct.match (txt "dc-7dc") .bidirectional = some ⟨[some (0, 6), some (0, 2)], true⟩ ∧ Indistinct {} exIndistinct.ast (txt "ab-qab") (txt "dc-7dc") := by
  refine ⟨Regex.ok_of_okb (by decide +kernel), by decide +kernel, by decide +kernel, rfl, fun i x x' e e' => ?_, fun _ i j x y x' y' e1 e2 e3 e4 => ?_⟩
  · have : ∀ i ∈ List.range 6, ∀ x ∈ (txt "ab-qab")[i]?, ∀ x' ∈ (txt "dc-7dc")[i]?, alike {} x x' exIndistinct.ast = true := by decide +kernel
    exact this i (List.mem_range.2 (List.getElem?_eq_some_iff.1 e).1) x e x' e'
  · have : ∀ i ∈ List.range 6, ∀ j ∈ List.range 6, ∀ x ∈ (txt "ab-qab")[i]?, ∀ y ∈ (txt "ab-qab")[j]?, ∀ x' ∈ (txt "dc-7dc")[i]?, ∀ y' ∈ (txt "dc-7dc")[j]?,
        sameChar false x y = sameChar false x' y' := by decide +kernel
    exact this i (List.mem_range.2 (List.getElem?_eq_some_iff.1 e1).1) j (List.mem_range.2 (List.getElem?_eq_some_iff.1 e2).1) x e1 y e2 x' e3 y' e4

/-- The condition on references cannot be left out: `ab-qab` and `ab-qcd`. -/
example : (∀ i ∈ List.range 6, ∀ x ∈ (txt "ab-qab")[i]?, ∀ x' ∈ (txt "ab-qcd")[i]?, alike {} x x' exIndistinct.ast = true) ∧
    (exIndistinct.match (txt "ab-qcd") .bidirectional).map (·.matched) = some false := by decide +kernel

end Mregex
