import Verif.Model.Lifetime
import Verif.Proof.OkCheck
import Verif.Props.Safety
import Verif.Props.Results
import Verif.Proof.Numbering

/-!
# Results outlive the temporaries they were computed from
-/

namespace Mregex
open Ast Spec

/-! ## C61 -/

/-- The text of a group of a result for the input `s`: nothing, or the characters between two positions. -/
def GroupHolds (s : List Byte) (res : Result) (k : Nat) (text : List Byte) : Prop :=
  (res.group k = some none ∧ text = []) ∨ ∃ b e, res.group k = some (some (b, e)) ∧ b ≤ e ∧ e ≤ s.length ∧ text = (s.take e).drop b

theorem groupHolds {s : List Byte} {res : Result} {k : Nat} {c : Cap} (hc : res.groups[k]? = some c)
    (hb : ∀ b e, c = some (b, e) → b ≤ e ∧ e ≤ s.length) : GroupHolds s res k (c.content s) := by
  match c, hc, hb with
  | none, hc, _ => exact .inl ⟨hc, rfl⟩
  | some (b, e), hc, hb =>
    obtain ⟨h1, h2⟩ := hb b e rfl
    refine .inr ⟨b, e, hc, h1, h2, ?_⟩
    simp only [Cap.content, capText, List.drop_take]

/-- **C61, partial** (missing: temporaries of types with trivial destructors, for which it is false).  Whatever the argument of `match`,
`match_prefix` and `search` is, a literal, a view, a container, or a temporary container that has to be destroyed: when the temporaries
are gone, all groups can be read and hold the text of the groups of the call with iterators. -/
theorem C61_methods_partial (R : Regex) (cat : Cat) (hR : R.Ok cat) (M : Method) (a : Arg) (s : List Byte)
    (ha : ¬ (a.temporary = true ∧ a.type = .container true)) :
    ∃ res h, R.invoke M cat s = some res ∧ R.call M cat a s = some h ∧ h.matched = res.matched ∧
      ∀ k, k ≤ captureCount R.ast → ∃ text, h.read (a.memory s) k = some text ∧ GroupHolds s res k text := by
  obtain ⟨res, hres⟩ := C01_methods_return R cat hR M s
  have hlen : res.groups.length = captureCount R.ast + 1 := by
    rw [(invoke_inBounds _ cat hR M s res hres).1]
    simp [Regex.env, Regex.names, length_nameSpec]
  have hc : ∀ k, k ≤ captureCount R.ast → ∃ c, res.groups[k]? = some c ∧ ∀ b e, c = some (b, e) → b ≤ e ∧ e ≤ s.length := by
    intro k hk
    refine ⟨res.groups[k]'(by omega), List.getElem?_eq_getElem _, fun b e hbe => ?_⟩
    have := C09_groups_in_bounds R cat hR M s res hres k _ (List.getElem?_eq_getElem (by omega))
    rw [hbe] at this
    rcases this with h | ⟨_, _, h, h'⟩
    · cases h
    · cases h; exact h'
  by_cases ho : a.overload = .rvalueRef
  · refine ⟨res, .owned (res.asMemoryOwner s), hres, by simp only [Regex.call, hres, Option.map_some, ho], rfl, fun k hk => ?_⟩
    obtain ⟨c, h1, h2⟩ := hc k hk
    exact ⟨c.content s, by simp [Held.read, Result.asMemoryOwner, h1], groupHolds h1 h2⟩
  · have hm : a.memory s = some s := by
      obtain ⟨ty, tmp⟩ := a
      cases ty with
      | literal => rfl
      | view => rfl
      | container tr => cases tr <;> cases tmp <;> simp_all [Arg.memory, Arg.overload, Arg.isExpiringMemoryOwner]
    refine ⟨res, .view res, hres, ?_, rfl, fun k hk => ?_⟩
    · simp only [Regex.call, hres, Option.map_some]
    · obtain ⟨c, h1, h2⟩ := hc k hk
      refine ⟨c.content s, ?_, groupHolds h1 h2⟩
      simp only [Held.read, h1, hm, Option.map_some]
      split
      · next he =>
        match c, he with
        | none, _ => rfl
        | some (b, e), he =>
          have : b = e := by simpa [Cap.isEmpty] using he
          subst this
          simp [Cap.content, capText]
      · rfl

/-- **C61** is false for temporaries with a trivial destructor: the overload that copies the groups is chosen only for types that have to
be destroyed, so the result of `regex<"a">::match(std::array{'a'})` holds views of an object that is gone. -/
theorem C61_trivial_false : ∃ (R : Regex) (a : Arg) (s : List Byte) (h : Held), R.Ok .randomAccess ∧
    R.call .match .randomAccess a s = some h ∧ h.matched = true ∧ h.read (a.memory s) 0 = none :=
  ⟨⟨.lit (ch 'a'), []⟩, ⟨.container true, true⟩, [ch 'a'], .view ⟨[some (0, 1)], true⟩, Regex.ok_of_okb (by decide), by rfl, rfl, rfl⟩

/-- **C61, partial** for `tokenize` and `find_all`: if the argument is no temporary container, loops visit the results for the text. -/
theorem C61_loops_partial (R : Regex) (M : Method) (cat : Cat) (a : Arg) (s : List Byte) (rounds : Nat)
    (ha : a.temporary = true → a.type = .literal ∨ a.type = .view) :
    R.loop M cat a s rounds = rangeElements R M cat s rounds := by
  have hm : a.loopMemory s = some s := by
    obtain ⟨ty, tmp⟩ := a
    cases ty with
    | literal => rfl
    | view => rfl
    | container tr => cases tmp <;> simp_all [Arg.loopMemory, Arg.lazyOverload, Arg.memory]
  simp only [Regex.loop, rangeElements, hm]

/-- **C61** is false for the lazy functions, which accept temporary strings but have no overload for them: a loop over
`regex<"a">::find_all(std::string{"aa"})` reads characters that are gone. -/
theorem C61_loops_false : ∃ (R : Regex) (a : Arg) (s : List Byte), R.Ok .randomAccess ∧ a.type = .container false ∧
    (∃ l, rangeElements R findAllMethod .randomAccess s 5 = some (l, true)) ∧ R.loop findAllMethod .randomAccess a s 5 = none :=
  ⟨⟨.lit (ch 'a'), []⟩, ⟨.container false, true⟩, [ch 'a', ch 'a'], Regex.ok_of_okb (by decide), rfl, ⟨_, rfl⟩, by decide⟩

example : (⟨.cap 1 none (.lit (ch 'a')), []⟩ : Regex).call .search .randomAccess ⟨.container false, true⟩ [ch 'b', ch 'a'] =
    some (.owned ⟨[[ch 'a'], [ch 'a']], true⟩) := by rfl
example := C61_methods_partial ⟨.cap 1 none (.lit (ch 'a')), []⟩ .randomAccess (Regex.ok_of_okb (by decide)) .search ⟨.container false, true⟩
  [ch 'b', ch 'a'] (by decide)

end Mregex
