import Verif.Proof.TrailsMain
import Verif.Props.Regroup
import Verif.Props.Results
import Verif.Props.Captures

/-!
# Groups inside of lookarounds and possessive constructs
-/

namespace Mregex
open Ast Spec

section
variable {R : Regex} {cat : Cat} {k : Nat} {J : Option (Nat × Nat) → Cap → Prop}

/-- What a method finds, and what it leaves in the group `k`. -/
theorem method_trails (hR : R.Ok cat) (hb : noBackref R.ast = true) (s : List Byte) (M : Method)
    (h : ∀ p v, J none v → Along k J none (J none) (script (Flags.ofList R.flags) s R.ast true false p) (trails (Flags.ofList R.flags) s R.ast true false p) v)
    (h0 : J none none) {res : Result} (hi : R.invoke M cat s = some res) :
    match methodTrail (Flags.ofList R.flags) s R.ast M with
    | some (i, y) => res.matched = true ∧ res.group 0 = some (some (i, y.1)) ∧ ∀ g, k ≠ 0 → k ≤ captureCount R.ast → res.group k = some g → J (held k y.2) g
    | none => res.matched = false ∧ ∀ g, k ≠ 0 → k ≤ captureCount R.ast → res.group k = some g → J none g := by
  obtain ⟨res', h1, h2, h3, h4⟩ := C63_scripts R cat hR hb M s
  rw [hi] at h1; cases h1
  have := script_trails (s := s) h h0 M
  cases hm : methodTrail (Flags.ofList R.flags) s R.ast M with
  | none =>
    rw [hm] at this
    refine ⟨by rw [h2, this.1]; rfl, fun g hk hk' hg => ?_⟩
    rw [h4 k hk hk'] at hg
    cases hg
    exact this.2
  | some x =>
    rw [hm] at this
    refine ⟨by rw [h2, this.1]; rfl, h3 _ this.1, fun g hk hk' hg => ?_⟩
    rw [h4 k hk hk'] at hg
    cases hg
    exact this.2

theorem group_le (hR : R.Ok cat) {s : List Byte} {M : Method} {res : Result} (hi : R.invoke M cat s = some res) {g : Cap} (hg : res.group k = some g) :
    k ≤ captureCount R.ast := by
  have h1 : k < res.groups.length := (List.getElem?_eq_some_iff.1 hg).1
  have h2 : res.groups.length = captureCount R.ast + 1 := by
    rw [(invoke_inBounds _ cat hR M s res hi).1]
    simp [Regex.env, Regex.names, length_nameSpec]
  omega

theorem al_any {F : Cap → Prop} (hF : ∀ v, F v) {h : Option (Nat × Nat)} {S : Script} {T : List Place} (hT : T.map Prod.fst = offs S) (v : Cap) :
    Along k (fun _ _ => True) h F S T v := by
  induction S generalizing T v with
  | nil =>
    refine ⟨?_, hF v⟩
    cases T with
    | nil => rfl
    | cons x T => cases hT
  | cons t S ih =>
    cases t with
    | note i b e => exact ih hT _
    | cross i => exact ih hT _
    | offer q =>
      cases T with
      | nil => cases hT
      | cons x T =>
        have : x.1 = q ∧ T.map Prod.fst = offs S := by
          have h : x.1 :: T.map Prod.fst = q :: offs S := hT
          exact List.cons.inj h
        exact ⟨this.1, trivial, fun v' _ => ih this.2 v'⟩

end

/-! ## C11 -/

/-- The trails are exact about the range of the match: a method succeeds iff it finds a trail, and group 0 is its range. -/
theorem C11_trail_ranges (R : Regex) (cat : Cat) (hR : R.Ok cat) (hb : noBackref R.ast = true) (s : List Byte) (M : Method)
    (res : Result) (h : R.invoke M cat s = some res) :
    res.matched = (methodTrail R.fl s R.ast M).isSome ∧ ∀ i y, methodTrail R.fl s R.ast M = some (i, y) → res.group 0 = some (some (i, y.1)) := by
  have := method_trails (k := 0) (J := fun _ _ => True) hR hb s M (fun p v _ => al_any (fun _ => trivial) (fst_trails_eq _ s R.ast true false p) v) trivial h
  rw [show Flags.ofList R.flags = R.fl from rfl] at this
  cases hm : methodTrail R.fl s R.ast M with
  | none => rw [hm] at this; exact ⟨this.1, fun i y hy => by cases hy⟩
  | some x => rw [hm] at this; exact ⟨this.1, fun i y hy => by cases hy; exact this.2.1⟩

/-- **C11**, partial, for all regexes without references, wherever the group is, also inside of lookarounds, negations and possessive constructs: if the group takes part in the
trail of the match and cannot be tried again on the way, it holds exactly the range of its participation.
Missing: groups of iterated parts keep their text (false, `C11_false`); references are covered by `C11_last_participation_partial` as far as the regex is `traceable`. -/
theorem C11_trails_partial (R : Regex) (cat : Cat) (hR : R.Ok cat) (hb : noBackref R.ast = true) (s : List Byte) (M : Method)
    (res : Result) (h : R.invoke M cat s = some res) (i : Nat) (y : Place) (hy : methodTrail R.fl s R.ast M = some (i, y))
    (k : Nat) (hk : k ≠ 0) (v : Nat × Nat) (hv : held k y.2 = some v) (g : Cap) (hg : res.group k = some g) :
    (visitedOnce k R.ast = true → g = some v) ∧ (outside k R.ast = true → g = some v ∨ NoText g) := by
  have hw := wf_of_ok (hR s)
  refine ⟨fun ho => ?_, fun ho => ?_⟩
  · have := method_trails (k := k) (J := Exact) hR hb s M (fun p v' _ => by
      have := (al_once (f := Flags.ofList R.flags) (s := s) hw ho true false p v').append (S' := []) (T' := []) (F' := Exact none) (fun v' _ => ⟨rfl, exact_none v'⟩)
      rwa [List.append_nil, List.append_nil] at this) (exact_none none) h
    rw [show Flags.ofList R.flags = R.fl from rfl, hy] at this
    exact this.2.2 g hk (group_le hR h hg) hg v hv
  · have := method_trails (k := k) (J := Loose) hR hb s M (fun p v' hv' => al_outside ho true false p none v' hv') (.inl rfl) h
    rw [show Flags.ofList R.flags = R.fl from rfl, hy] at this
    have := this.2.2 g hk (group_le hR h hg) hg
    rw [hv] at this
    exact this

/-- Where lookarounds and possessive constructs contain no groups, the trail is the path. -/
theorem C11_trails_are_paths (R : Regex) (hc : commitsClosed R.ast = true) (hb : noBackref R.ast = true) (s : List Byte) (M : Method) :
    methodPath R.fl s R.ast M = methodTrail R.fl s R.ast M := methodPath_trail hc hb M

/-- `(\w)(?=(b))(?>(b|bc))(?<=(\w\w))(c)?` on `abc`.  Group 2 is in a lookahead, group 3 in an atomic group, group 4 in a lookbehind. -/
def exTrail : Regex :=
  ⟨.seq [.cap 1 none word, .look .ahead (.cap 2 none (.lit (ch 'b'))),
    .rep .possessive 1 (.fin 1) (.cap 3 none (.alt [.lit (ch 'b'), .seq [.lit (ch 'b'), .lit (ch 'c')]])),
    .look .behind (.cap 4 none (.seq [word, word])), .rep .greedy 0 (.fin 1) (.cap 5 none (.lit (ch 'c')))], []⟩
example : exTrail.Ok .randomAccess ∧ noBackref exTrail.ast = true ∧ (∀ k ∈ [1, 2, 3, 4, 5], visitedOnce k exTrail.ast = true) ∧
    outside 5 exTrail.ast = true ∧ outside 4 exTrail.ast = false ∧ commitsClosed exTrail.ast = false ∧
    methodTrail exTrail.fl [ch 'a', ch 'b', ch 'c'] exTrail.ast .match = some (0, 3, [(1, 0, 1), (2, 1, 2), (3, 1, 2), (4, 0, 2), (5, 2, 3)]) ∧
    exTrail.match [ch 'a', ch 'b', ch 'c'] = some ⟨[some (0, 3), some (0, 1), some (1, 2), some (1, 2), some (0, 2), some (2, 3)], true⟩ :=
  ⟨Regex.ok_of_okb (by decide), by decide, by decide, by decide, by decide, by decide, by decide, by decide⟩

/-! ## C12 -/

/-- **C12**, partial, for all regexes without references: a group outside of the lookarounds and possessive constructs that does not take part in the trail of the match holds
no text, and so does every such group after a failure; the lookarounds and possessive constructs may contain other groups.
Missing: the groups in there, which do leave text behind (`C12_false`, `C12_failure_false`). -/
theorem C12_outside_partial (R : Regex) (cat : Cat) (hR : R.Ok cat) (hb : noBackref R.ast = true) (s : List Byte) (M : Method)
    (res : Result) (h : R.invoke M cat s = some res) (k : Nat) (hk : k ≠ 0) (ho : outside k R.ast = true) (g : Cap) (hg : res.group k = some g) :
    (∀ i y, methodTrail R.fl s R.ast M = some (i, y) → held k y.2 = none → NoText g) ∧ (res.matched = false → NoText g) := by
  have hl : ∀ {g : Cap}, Loose none g → NoText g := by
    rintro g (rfl | h)
    · trivial
    · exact h
  have := method_trails (k := k) (J := Loose) hR hb s M (fun p v' hv' => al_outside ho true false p none v' hv') (.inl rfl) h
  rw [show Flags.ofList R.flags = R.fl from rfl] at this
  cases hm : methodTrail R.fl s R.ast M with
  | none =>
    rw [hm] at this
    exact ⟨fun i y hy => (by cases hy), fun _ => hl (this.2 g hk (group_le hR h hg) hg)⟩
  | some x =>
    rw [hm] at this
    refine ⟨fun i y hy hv => ?_, fun hf => (by rw [this.1] at hf; cases hf)⟩
    cases hy
    have := this.2.2 g hk (group_le hR h hg) hg
    rw [hv] at this
    exact hl this

/-- `(a)(?=(b))c|(?>(a))b` on `ab`: the first branch is abandoned; its group 1 is outside of the lookahead and is cleared, group 2 is not. -/
def exOutside : Regex :=
  ⟨.alt [.seq [.cap 1 none (.lit (ch 'a')), .look .ahead (.cap 2 none (.lit (ch 'b'))), .lit (ch 'c')],
    .seq [.rep .possessive 1 (.fin 1) (.cap 3 none (.lit (ch 'a'))), .lit (ch 'b')]], []⟩
example : exOutside.Ok .randomAccess ∧ noBackref exOutside.ast = true ∧ outside 1 exOutside.ast = true ∧
    methodTrail exOutside.fl [ch 'a', ch 'b'] exOutside.ast .match = some (0, 2, [(3, 0, 1)]) ∧
    exOutside.match [ch 'a', ch 'b'] = some ⟨[some (0, 2), some (0, 0), some (1, 2), some (0, 1)], true⟩ :=
  ⟨Regex.ok_of_okb (by decide), by decide, by decide, by decide, by decide⟩

end Mregex
