import Verif.Proof.Reach
import Verif.Props.Proc
import Verif.Props.Generators
import Verif.Props.Lengths

/-!
# C101: What has not been looked at does not matter
-/

namespace Mregex
open Ast Spec

section
variable {R : Regex} {cat : Cat} {ν : List Byte → Nat} {M : Method} {s s' : List Byte}

theorem genNext_agree (hR : R.Ok cat) (hν : ∀ n id, nameIndex R.names n = some id → ν n = id) {g : Gen} (ha : g.active = true)
    (hg : g.current ≤ s.length) (hg' : g.current ≤ s'.length) (hs : ∀ t ∈ looked R ν M s g.current, s'[t]? = s[t]?) :
    ∃ res res' h h', genNext R M cat s g = some (res, h) ∧ genNext R M cat s' g = some (res', h') ∧ SameOutcome R.ast res res' ∧
      h'.active = h.active ∧ (h.active = true → h'.current = h.current ∧ h.current ≤ s.length ∧ h'.current ≤ s'.length) := by
  obtain ⟨res, h, h1, h2, h3, h4, h5⟩ := genNext_follow hR hν M s g ha hg
  obtain ⟨res', h', k1, k2, k3, k4, k5⟩ := genNext_follow hR hν M s' g ha hg'
  obtain ⟨he, _⟩ := carryOut_agree hg hg' hs
  rw [he] at k2 k3 k4 k5
  refine ⟨res, res', h, h', h1, k1, ⟨k2.trans h2.symm, fun hm => ?_, fun k hk hk' => (k5 k hk hk').trans (h5 k hk hk').symm⟩, ?_, ?_⟩
  · rw [h2, Option.isSome_iff_exists] at hm
    obtain ⟨r, hr⟩ := hm
    rw [(h3 r hr).1, (k3 r hr).1]
  · cases hr : (carryOut s.length (proc (Flags.ofList R.flags) s ν R.ast 0 false) g.current (fun _ => none) M).1 with
    | none => rw [h4 hr, k4 hr]
    | some r => rw [(h3 r hr).2, (k3 r hr).2]
  · intro hact
    cases hr : (carryOut s.length (proc (Flags.ofList R.flags) s ν R.ast 0 false) g.current (fun _ => none) M).1 with
    | none => rw [h4 hr] at hact; cases hact
    | some r =>
      refine ⟨by rw [(h3 r hr).2, (k3 r hr).2], ?_, ?_⟩
      · obtain ⟨_, _, e, _, hle⟩ := sized_genNext hR M s g hg
        cases h1.symm.trans e; exact hle
      · obtain ⟨_, _, e, _, hle⟩ := sized_genNext hR M s' g hg'
        cases k1.symm.trans e; exact hle

/-- **C101**: a call gives the same for every text that agrees with `s` at the positions it looks at. -/
theorem C101_unseen (hR : R.Ok cat) (hν : ∀ k n, R.ast.nameSpec.count (some n) = 1 → HasGroup R.ast k (some n) → ν n = k)
    (hs : ∀ t ∈ looked R ν M s 0, s'[t]? = s[t]?) :
    ∃ res res', R.invoke M cat s = some res ∧ R.invoke M cat s' = some res' ∧ SameOutcome R.ast res res' := by
  obtain ⟨res, res', h, h', h1, h2, h3, _⟩ := genNext_agree (g := {}) hR (fun _ _ => names_of_groups hR hν) rfl (Nat.zero_le _) (Nat.zero_le _) hs
  exact ⟨res, res', invoke_of_genNext h1, invoke_of_genNext h2, h3⟩

/-- **C101**: the same for each call of a generator; it goes on in the same way, too. -/
theorem C101_generators (hR : R.Ok cat) (hν : ∀ k n, R.ast.nameSpec.count (some n) = 1 → HasGroup R.ast k (some n) → ν n = k) {g : Gen} (ha : g.active = true)
    (hg : g.current ≤ s.length) (hg' : g.current ≤ s'.length) (hs : ∀ t ∈ looked R ν M s g.current, s'[t]? = s[t]?) :
    ∃ res res' h h', genNext R M cat s g = some (res, h) ∧ genNext R M cat s' g = some (res', h') ∧ SameOutcome R.ast res res' ∧
      h'.active = h.active ∧ (h.active = true → h'.current = h.current) := by
  obtain ⟨res, res', h, h', h1, h2, h3, h4, h5⟩ := genNext_agree hR (fun _ _ => names_of_groups hR hν) ha hg hg' hs
  exact ⟨res, res', h, h', h1, h2, h3, h4, fun h => (h5 h).1⟩

/-- **C101**, for reading a text piece by piece: if a call on a part of the text has not looked at the end of the part, it gives the same when more text follows. -/
theorem C101_stream (hR : R.Ok cat) (hν : ∀ k n, R.ast.nameSpec.count (some n) = 1 → HasGroup R.ast k (some n) → ν n = k)
    (hs : ∀ t ∈ looked R ν M s 0, t < s.length) (u : List Byte) :
    ∃ res res', R.invoke M cat s = some res ∧ R.invoke M cat (s ++ u) = some res' ∧ SameOutcome R.ast res res' :=
  C101_unseen hR hν fun t ht => List.getElem?_append_left (hs t ht)

theorem genCalls_step {g h j : Gen} {res : Result} {rs : List Result} {k : Nat} (h1 : genNext R M cat s g = some (res, h)) (h2 : genCalls R M cat s k h = some (rs, j)) :
    genCalls R M cat s (k + 1) g = some (res :: rs, j) := by
  rw [genCalls, h1]
  show (genCalls R M cat s k h).bind _ = _
  rw [h2]; rfl

/-- **C101**, for many calls of one generator (tokenizers, searchers, and with them the loops over `tokenize` and `find_all`): the calls on `s'` give the same as those on
`s` as long as `s'` agrees with `s` where the calls on `s` look. -/
theorem C101_calls (hR : R.Ok cat) (hν : ∀ k n, R.ast.nameSpec.count (some n) = 1 → HasGroup R.ast k (some n) → ν n = k) (k : Nat)
    (hs : ∀ i, i < k → ∀ rs g, genCalls R M cat s i {} = some (rs, g) → g.active = true → ∀ t ∈ looked R ν M s g.current, s'[t]? = s[t]?) :
    ∃ rs rs' g g', genCalls R M cat s k {} = some (rs, g) ∧ genCalls R M cat s' k {} = some (rs', g') ∧ SameOutcomes R.ast rs rs' ∧
      g'.active = g.active ∧ (g.active = true → g'.current = g.current) := by
  suffices H : ∀ g g' : Gen, g'.active = g.active → (g.active = true → g'.current = g.current ∧ g.current ≤ s.length ∧ g'.current ≤ s'.length) →
      (∀ i, i < k → ∀ rs h, genCalls R M cat s i g = some (rs, h) → h.active = true → ∀ t ∈ looked R ν M s h.current, s'[t]? = s[t]?) →
      ∃ rs rs' h h', genCalls R M cat s k g = some (rs, h) ∧ genCalls R M cat s' k g' = some (rs', h') ∧ SameOutcomes R.ast rs rs' ∧
        h'.active = h.active ∧ (h.active = true → h'.current = h.current) from
    H {} {} rfl (fun _ => ⟨rfl, Nat.zero_le _, Nat.zero_le _⟩) hs
  clear hs
  induction k with
  | zero => exact fun g g' h1 h2 _ => ⟨[], [], g, g', rfl, rfl, trivial, h1, fun h => (h2 h).1⟩
  | succ k ih =>
    intro g g' h1 h2 hs
    cases ha : g.active with
    | false =>
      have ha' : g'.active = false := h1.trans ha
      obtain ⟨rs, rs', h, h', e1, e2, e3, e4⟩ := ih g g' h1 h2 fun i hi rs h e => by
        refine hs (i + 1) (by omega) (⟨initCtx R.names, false⟩ :: rs) h ?_
        exact genCalls_step (genNext_inactive M ha) e
      refine ⟨⟨initCtx R.names, false⟩ :: rs, ⟨initCtx R.names, false⟩ :: rs', h, h', ?_, ?_, ⟨⟨rfl, fun _ => rfl, fun _ _ _ => rfl⟩, e3⟩, e4⟩
      · exact genCalls_step (genNext_inactive M ha) e1
      · exact genCalls_step (genNext_inactive M ha') e2
    | true =>
      obtain ⟨hc, hl, hl'⟩ := h2 ha
      obtain rfl : g' = g := by
        obtain ⟨c, a⟩ := g
        obtain ⟨c', a'⟩ := g'
        cases h1; cases hc; rfl
      obtain ⟨res, res', h, h', n1, n2, n3, n4, n5⟩ := genNext_agree hR (fun _ _ => names_of_groups hR hν) ha hl hl' (hs 0 (by omega) _ _ rfl ha)
      obtain ⟨rs, rs', j, j', e1, e2, e3, e4⟩ := ih h h' n4 n5 fun i hi rs j e => by
        refine hs (i + 1) (by omega) (res :: rs) j ?_
        exact genCalls_step n1 e
      refine ⟨res :: rs, res' :: rs', j, j', ?_, ?_, ⟨n3, e3⟩, e4⟩
      · exact genCalls_step n1 e1
      · exact genCalls_step n2 e2

/-- **C101**: an expression of finite reach does not look beyond it: a prefix is decided by the `m` characters from the current position on, whatever follows. -/
theorem C101_prefix (hR : R.Ok cat) {m : Nat} (hm : reach R.ast true false = some m) {g : Gen} (ha : g.active = true) (hg : g.current + m ≤ s.length) (u : List Byte) :
    ∃ res res' h h', genNext R .matchPrefix cat s g = some (res, h) ∧ genNext R .matchPrefix cat (s ++ u) g = some (res', h') ∧ SameOutcome R.ast res res' ∧
      h'.active = h.active ∧ (h.active = true → h'.current = h.current) := by
  obtain ⟨ν, hν⟩ : ∃ ν : List Byte → Nat, ∀ n id, nameIndex R.names n = some id → ν n = id := ⟨fun n => (nameIndex R.names n).getD 0, fun n id h => by simp only [h]; rfl⟩
  obtain ⟨res, res', h, h', n1, n2, n3, n4, n5⟩ := genNext_agree (M := .matchPrefix) (s := s) (s' := s ++ u) hR hν ha (by omega)
    (by rw [List.length_append]; omega) fun t ht => List.getElem?_append_left (Nat.lt_of_lt_of_le
      (eyes_run (eyes_watch (Nat.le_refl _) (Flags.ofList R.flags) ν R.ast 0 false g.current hm (Nat.le_refl _)) _ t ht) hg)
  exact ⟨res, res', h, h', n1, n2, n3, n4, fun h => (n5 h).1⟩

/-- **C101**: a match found `m` or more characters before the end is final. -/
theorem C101_search (hR : R.Ok cat) {m : Nat} (hm : reach R.ast true false = some m) {g : Gen} (ha : g.active = true) (hg : g.current ≤ s.length) {res : Result} {h : Gen}
    (hn : genNext R .search cat s g = some (res, h)) (hr : res.matched = true) {i e : Nat} (h0 : res.group 0 = some (some (i, e))) (hi : i + m ≤ s.length) (u : List Byte) :
    ∃ res' h', genNext R .search cat (s ++ u) g = some (res', h') ∧ SameOutcome R.ast res res' ∧ h'.active = h.active ∧ (h.active = true → h'.current = h.current) := by
  obtain ⟨ν, hν⟩ : ∃ ν : List Byte → Nat, ∀ n id, nameIndex R.names n = some id → ν n = id := ⟨fun n => (nameIndex R.names n).getD 0, fun n id h => by simp only [h]; rfl⟩
  obtain ⟨r, k, k1, k2, k3, _, _⟩ := genNext_follow hR hν .search s g ha hg
  cases hn.symm.trans k1
  have hw := watchOut_settle (N := s.length) (s := s) (Nat.le_refl _) (Flags.ofList R.flags) ν R.ast hg (fun _ => none) .search
  have hf : (watchOut s.length s (watch s.length (Flags.ofList R.flags) ν R.ast 0 false) g.current (fun _ => none) .search).found = some (i, e) := by
    rw [k2, Option.isSome_iff_exists] at hr
    obtain ⟨x, hx⟩ := hr
    have := (k3 x hx).1
    rw [h0] at this
    cases this
    rw [← hx, ← hw]
  have hl : ∀ t ∈ looked R ν .search s g.current, t < i + m :=
    (hunt_reach (fun q => eyes_watch (Nat.le_refl _) (Flags.ofList R.flags) ν R.ast 0 false q hm (Nat.le_refl _)) _ _ _ hf).2
  obtain ⟨res, res', j, j', n1, n2, n3, n4, n5⟩ := genNext_agree (M := .search) (s := s) (s' := s ++ u) hR hν ha hg
    (by rw [List.length_append]; omega) fun t ht => List.getElem?_append_left (Nat.lt_of_lt_of_le (hl t ht) hi)
  cases hn.symm.trans n1
  exact ⟨res', j', n2, n3, n4, fun h => (n5 h).1⟩

end

/-- `(\d+)-(?=x)`: looks at all it reads, and at one character more. -/
def exWatch : Regex := ⟨.seq [.cap 1 none (.rep .greedy 1 .inf (.range 48#8 57#8)), .lit 45#8, .look .ahead (.lit 120#8)], []⟩

/-- On `12-xy`, a prefix looks at the positions 0 to 3; so `12-x` decides. -/
example : exWatch.Ok .randomAccess ∧ looked exWatch (fun _ => 0) .matchPrefix (txt "12-xy") 0 = [0, 1, 2, 2, 3] ∧
    (∀ t ∈ looked exWatch (fun _ => 0) .matchPrefix (txt "12-x") 0, t < 4) ∧
    exWatch.invoke .matchPrefix .randomAccess (txt "12-x") = some ⟨[some (0, 3), some (0, 2)], true⟩ ∧
    exWatch.invoke .matchPrefix .randomAccess (txt "12-xyz") = some ⟨[some (0, 3), some (0, 2)], true⟩ :=
  ⟨Regex.ok_of_okb (by decide), by decide, by decide, by decide, by decide⟩

/-- What has been looked at matters: `12` alone asks for the end, and more text changes the result. -/
example : 2 ∈ looked exWatch (fun _ => 0) .matchPrefix (txt "12") 0 ∧ (exWatch.invoke .matchPrefix .randomAccess (txt "12")).map (·.matched) = some false ∧
    exWatch.invoke .matchPrefix .randomAccess (txt "12-x") = some ⟨[some (0, 3), some (0, 2)], true⟩ := by decide

/-- `\b\d{2}(?!\d)`: reach 3. -/
def exReach : Regex := ⟨.seq [.wordB, .rep .greedy 2 (.fin 2) (.range 48#8 57#8), .neg (.look .ahead (.range 48#8 57#8))], []⟩

/-- In `7 42 ` the match at 2 is final, in `7 42` it is not. -/
example : exReach.Ok .randomAccess ∧ reach exReach.ast true false = some 3 ∧ (exReach.invoke .search .randomAccess (txt "7 42 ")) = some ⟨[some (2, 4)], true⟩ ∧
    (exReach.invoke .search .randomAccess (txt "7 42 123")) = some ⟨[some (2, 4)], true⟩ ∧ (exReach.invoke .search .randomAccess (txt "7 42")) = some ⟨[some (2, 4)], true⟩ ∧
    ((exReach.invoke .search .randomAccess (txt "7 421")).map (·.matched)) = some false :=
  ⟨Regex.ok_of_okb (by decide), by decide, by decide, by decide, by decide, by decide⟩

end Mregex
