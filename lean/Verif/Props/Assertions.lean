import Verif.Proof.Outcome
import Verif.Proof.Sim
import Verif.Proof.Possessive
import Verif.Props.Safety
import Verif.Props.Language

/-!
# C13 - C18: lookarounds, atomic groups, possessive quantifiers, anchors, word boundaries
-/

namespace Mregex
open Ast Spec

/-- `m` is a test that consumes nothing and changes no group: where `P` holds it goes on at the same position with the same
captures, elsewhere it fails; whatever comes after it. -/
def PureTest (E : Env) (P : Nat → Prop) (m : Matcher) : Prop :=
  ∀ p c k, p ≤ E.inp.length → (P p → m p c k = k p c) ∧ (¬ P p → m p c k = nonMatch p c)

/-- `m` is a test that consumes nothing: where `P` holds it goes on at the same position, elsewhere it fails; whatever comes after it.
(Captures inside may be set, so the captures handed over may differ.) -/
def ZeroWidth (E : Env) (P : Nat → Prop) (m : Matcher) : Prop :=
  ∀ p c k, p ≤ E.inp.length → c.length = E.names.length →
    (P p → ∃ c', c'.length = E.names.length ∧ m p c k = k p c') ∧
    (¬ P p → ∃ c', c'.length = E.names.length ∧ m p c k = nonMatch p c')

/-- `m` has at most one way to match: from `p` it goes on at `v p`, or fails if there is none; whatever comes after it. -/
def Commits (E : Env) (v : Nat → Option Nat) (m : Matcher) : Prop :=
  ∀ p c k, p ≤ E.inp.length → c.length = E.names.length →
    (∀ q, v p = some q → ∃ c', c'.length = E.names.length ∧ m p c k = k q c') ∧
    (v p = none → ∃ q c', c'.length = E.names.length ∧ m p c k = nonMatch q c')

section
variable {E : Env}

theorem PureTest.zeroWidth {P : Nat → Prop} {m : Matcher} (h : PureTest E P m) : ZeroWidth E P m :=
  fun p c k hp hc => ⟨fun hP => ⟨c, hc, (h p c k hp).1 hP⟩, fun hP => ⟨c, hc, (h p c k hp).2 hP⟩⟩

theorem pureTest_assert {P : Nat → Prop} {b : Nat → Bool} {pred : Nat → Option Bool}
    (h : ∀ p, p ≤ E.inp.length → pred p = some (b p)) (hb : ∀ p, p ≤ E.inp.length → (b p = true ↔ P p)) :
    PureTest E P (assertMatch pred) := by
  intro p c k hp
  unfold assertMatch
  rw [h p hp]
  dsimp only
  cases hbp : b p with
  | true => exact ⟨fun _ => rfl, fun hn => absurd ((hb p hp).1 hbp) hn⟩
  | false => exact ⟨fun hP => absurd ((hb p hp).2 hP) (by rw [hbp]; decide), fun _ => rfl⟩

theorem lookMatch_zeroWidth {m : Matcher} {P : Nat → Prop} {v : Nat → Option Nat}
    (h : ∀ p c, p ≤ E.inp.length → c.length = E.names.length →
      View (fun c => c.length = E.names.length) (m p c success) (v p))
    (hv : ∀ p, p ≤ E.inp.length → (v p ≠ none ↔ P p)) : ZeroWidth E P (lookMatch m) := by
  intro p c k hp hc
  unfold lookMatch
  rcases (h p c hp hc).elim with ⟨q, c', h1, h2, h3⟩ | ⟨q, c', h1, h2, h3⟩
  · rw [h1]
    exact ⟨fun _ => ⟨c', h3, rfl⟩, fun hn => absurd ((hv p hp).1 (by rw [h2]; simp)) hn⟩
  · rw [h1]
    exact ⟨fun hP => absurd h2 ((hv p hp).2 hP), fun _ => ⟨c', h3, rfl⟩⟩

theorem negAssertMatch_zeroWidth {m : Matcher} {P : Nat → Prop} (h : ZeroWidth E P m) :
    ZeroWidth E (fun p => ¬ P p) (negAssertMatch m) := by
  intro p c k hp hc
  unfold negAssertMatch
  have := h p c success hp hc
  refine ⟨fun hn => ?_, fun hn => ?_⟩
  · obtain ⟨c', h1, h2⟩ := this.2 hn
    exact ⟨c', h1, by rw [h2]; rfl⟩
  · obtain ⟨c', h1, h2⟩ := this.1 (Classical.not_not.1 hn)
    exact ⟨c', h1, by rw [h2]; rfl⟩

theorem ends_ne_nil {l : List Nat} : l.head? ≠ none ↔ ∃ q, q ∈ l := by
  cases l with
  | nil => simp
  | cons a l => simp only [List.head?_cons, ne_eq, reduceCtorEq, not_false_eq_true, true_iff]; exact ⟨a, by simp⟩

theorem isEmpty_not_iff {l : List Nat} : (!l.isEmpty) = true ↔ ∃ q, q ∈ l := by
  cases l with
  | nil => simp
  | cons a l => simp only [List.isEmpty_cons, Bool.not_false, true_iff]; exact ⟨a, by simp⟩

/-! ## C13 -/

theorem ahead_zeroWidth {X : Ast} (hok : Ok E 0 X) (hb : noBackref X = true) {fuel : Nat}
    (hf : fuelFor (.look .ahead X) E.inp ≤ fuel) :
    ZeroWidth E (fun p => ∃ q, q ∈ ends E.flags E.inp X true false p) (mtch E fuel (.look .ahead X) 0) := by
  obtain ⟨k, rfl⟩ : ∃ k, fuel = k + 1 := ⟨fuel - 1, by simp only [fuelFor] at hf; omega⟩
  unfold mtch
  dsimp only
  split
  · next ht =>
    refine (pureTest_assert (b := fun p => !(oneChar E.inp true (accepts E.flags X) p).isEmpty)
      (fun p hp => oneChar_isEmpty rfl hp) (fun p hp => ?_)).zeroWidth
    rw [← (ends_triv ht E.flags E.inp true false p).isEmpty]
    exact isEmpty_not_iff
  · refine lookMatch_zeroWidth (v := fun p => (ends E.flags E.inp X true false p).head?) (fun p c hp hc => ?_)
      (fun p hp => ends_ne_nil)
    exact attempt_view (fun _ h => h) hok hb (by simp only [fuelFor, depth] at hf ⊢; omega) capStable_len hp hc

/-- **C13.** `(?=X)` consumes nothing and succeeds exactly where `X` matches some text that starts there. -/
theorem C13_lookahead (X : Ast) (hok : Ok E 0 X) (hd : declarative X = true) (fuel : Nat)
    (hf : fuelFor (.look .ahead X) E.inp ≤ fuel) :
    ZeroWidth E (fun p => ∃ q, Matches E.flags E.inp X p q) (mtch E fuel (.look .ahead X) 0) := by
  obtain ⟨h1, h2, h3⟩ := declarative_iff.1 hd
  intro p c k hp hc
  have := ahead_zeroWidth hok h1 hf p c k hp hc
  have he : ∀ q, q ∈ ends E.flags E.inp X true false p ↔ Matches E.flags E.inp X p q :=
    fun q => ends_iff (wf_of_ok hok) h1 h2 (.inl ⟨rfl, rfl, h3⟩) hp
  simp only [he] at this
  exact this

/-- **C13.** `(?!X)` consumes nothing and succeeds exactly where `X` matches no text that starts there. -/
theorem C13_negative_lookahead (X : Ast) (hok : Ok E 0 X) (hd : declarative X = true) (fuel : Nat)
    (hf : fuelFor (.neg (.look .ahead X)) E.inp ≤ fuel) :
    ZeroWidth E (fun p => ¬ ∃ q, Matches E.flags E.inp X p q) (mtch E fuel (.neg (.look .ahead X)) 0) := by
  obtain ⟨k, rfl⟩ : ∃ k, fuel = k + 1 := ⟨fuel - 1, by simp only [fuelFor] at hf; omega⟩
  exact negAssertMatch_zeroWidth (C13_lookahead X hok hd k (by simp only [fuelFor, depth] at hf ⊢; omega))

/-- What is known about a result: the verdict and the end. -/
def Out.hitAt (q : Nat) (o : Out) : Prop := ∃ c', o = .ok ⟨q, true⟩ c'

/-- **C13** for all `X`, with backreferences, atomic groups and so on, in terms of `match_prefix`: `(?=X)` succeeds at a position exactly if
`X` does, and it ends where it began; `(?!X)` succeeds exactly if `X` fails. -/
theorem C13_any_body (X : Ast) (hok : Ok E 0 X) (p : Nat) (hp : p ≤ E.inp.length) (c : Ctx)
    (hc : c.length = E.names.length) :
    ((∃ q, (Method.matchPrefix.invoke E (fuelFor X E.inp) X p c).hitAt q) ↔
      (Method.matchPrefix.invoke E (fuelFor (.look .ahead X) E.inp) (.look .ahead X) p c).hitAt p) ∧
    ((∀ q, ¬ (Method.matchPrefix.invoke E (fuelFor X E.inp) X p c).hitAt q) ↔
      (Method.matchPrefix.invoke E (fuelFor (.neg (.look .ahead X)) E.inp) (.neg (.look .ahead X)) p c).hitAt p) := by
  have h1 := prefix_safe (fun _ h => h) hok (Nat.le_refl (fuelFor X E.inp)) capClosed_len hp hc
  -- the lookahead
  have h2 : ∀ b : Bool, (∃ q c', mtch E (fuelFor X E.inp) X 0 p c success = .ok ⟨q, b⟩ c') →
      ∃ c', mtch E (fuelFor X E.inp + 1) (.look .ahead X) 0 p c success = .ok ⟨p, b⟩ c' := by
    rintro b ⟨q, c', h⟩
    unfold mtch
    dsimp only
    split
    · next ht =>
      rw [mtch_triv ht (by simp only [fuelFor]; omega)] at h
      unfold trivMatch at h
      unfold assertMatch lookaheadTrivPred
      split at h
      · next he =>
        rw [if_pos he]
        cases h
        exact ⟨_, rfl⟩
      · next he =>
        rw [if_neg he]
        cases hx : E.deref 0 p with
        | none => rw [hx] at h; cases h
        | some x =>
          rw [hx] at h
          dsimp only at h
          simp only [Option.map_some]
          split at h
          · next hm => rw [hm]; cases h; exact ⟨_, rfl⟩
          · next hm =>
            rw [Bool.not_eq_true] at hm
            rw [hm]; cases h; exact ⟨_, rfl⟩
    · unfold lookMatch
      rw [h]
      cases b <;> exact ⟨c', rfl⟩
  have h3 : ∀ b : Bool, (∃ q c', mtch E (fuelFor X E.inp) X 0 p c success = .ok ⟨q, b⟩ c') →
      ∃ c', mtch E (fuelFor X E.inp + 2) (.neg (.look .ahead X)) 0 p c success = .ok ⟨p, !b⟩ c' := by
    intro b h
    obtain ⟨c', h'⟩ := h2 b h
    refine ⟨c', ?_⟩
    show negAssertMatch (mtch E (fuelFor X E.inp + 1) (.look .ahead X) 0) p c success = _
    unfold negAssertMatch
    rw [h']
    cases b <;> rfl
  have hf2 : fuelFor (.look .ahead X) E.inp = fuelFor X E.inp + 1 := by simp only [fuelFor, depth]; omega
  have hf3 : fuelFor (.neg (.look .ahead X)) E.inp = fuelFor X E.inp + 2 := by simp only [fuelFor, depth]; omega
  simp only [Method.invoke, prefixMethod, hf2, hf3]
  rcases h1.elim with ⟨q, c', h, _⟩ | ⟨q, c', h, _⟩
  · obtain ⟨c2, e2⟩ := h2 true ⟨q, c', h⟩
    obtain ⟨c3, e3⟩ := h3 true ⟨q, c', h⟩
    rw [h, e2, e3]
    simp [setGroup0, Out.hitAt]
  · obtain ⟨c2, e2⟩ := h2 false ⟨q, c', h⟩
    obtain ⟨c3, e3⟩ := h3 false ⟨q, c', h⟩
    rw [h, e2, e3]
    simp [setGroup0, Out.hitAt]

/-- `(?=(a|b)*c)` -/
def exAheadBody : Ast := .seq [star (.cap 1 none (.alt [.lit (ch 'a'), .lit (ch 'b')])), .lit (ch 'c')]

def exAhead : Regex := ⟨.look .ahead exAheadBody, []⟩

theorem exAhead_ok : exAhead.Ok .randomAccess := Regex.ok_of_okb (by decide)

theorem exAheadBody_ok (s : List Byte) : Ok (exAhead.env .randomAccess s) 0 exAheadBody := by
  cases exAhead_ok s with | ahead h => exact h

example (s : List Byte) := C13_lookahead (E := exAhead.env .randomAccess s) exAheadBody (exAheadBody_ok s) (by decide) _ (Nat.le_refl _)
example (s : List Byte) := C13_negative_lookahead (E := exAhead.env .randomAccess s) exAheadBody (exAheadBody_ok s) (by decide) _
  (Nat.le_refl _)

example : exAhead.matchPrefix [ch 'a', ch 'b', ch 'c'] = some ⟨[some (0, 0), some (1, 1)], true⟩ := by decide
example : exAhead.matchPrefix [ch 'a', ch 'b', ch 'd'] = some ⟨[some (0, 0), some (1, 1)], false⟩ := by decide

/-! ## C14 -/

theorem behind_zeroWidth {X : Ast} (hok : Ok E 0 (.look .behind X)) (hb : noBackref X = true) {fuel : Nat}
    (hf : fuelFor (.look .behind X) E.inp ≤ fuel) :
    ZeroWidth E (fun p => ∃ q, q ∈ ends E.flags E.inp X false true p) (mtch E fuel (.look .behind X) 0) := by
  obtain ⟨k, rfl⟩ : ∃ k, fuel = k + 1 := ⟨fuel - 1, by simp only [fuelFor] at hf; omega⟩
  have hcat : E.cat ≠ .forward := by cases hok <;> assumption
  unfold mtch
  dsimp only
  split
  · next ht =>
    refine (pureTest_assert (b := fun p => !(oneChar E.inp false (accepts E.flags X) p).isEmpty)
      (fun p hp => ?_) (fun p hp => ?_)).zeroWidth
    · rw [lookbehindTriv_eq hcat]
      exact oneChar_isEmpty rfl hp
    · rw [← (ends_triv ht E.flags E.inp false true p).isEmpty]
      exact isEmpty_not_iff
  · next ht =>
    cases hok with
    | behindTriv _ ht' => exact absurd ht' ht
    | behind _ hok =>
      refine lookMatch_zeroWidth (v := fun p => (ends E.flags E.inp X false true p).head?) (fun p c hp hc => ?_)
        (fun p hp => ends_ne_nil)
      have := (mtch_den (I := fun c => c.length = E.names.length) (fun _ h => h) k (invert X) 1 hok
        (by rw [noBackref_invert]; exact hb) (by rw [depth_invert]; simp only [fuelFor, depth] at hf; omega) capStable_len).success hp hc
      rw [ends_invert] at this
      exact this

/-- **C14, partial** (bodies without anchors whose nested lookarounds have palindromic bodies; for the other ones it is false, see below).
`(?<=X)` consumes nothing and succeeds exactly where `X` matches some text that ends there. -/
theorem C14_lookbehind_partial (X : Ast) (hok : Ok E 0 (.look .behind X)) (hd : declarative (.look .behind X) = true)
    (fuel : Nat) (hf : fuelFor (.look .behind X) E.inp ≤ fuel) :
    ZeroWidth E (fun p => ∃ q, Matches E.flags E.inp X q p) (mtch E fuel (.look .behind X) 0) := by
  obtain ⟨h1, h2, h3⟩ := declarative_iff.1 hd
  intro p c k hp hc
  have := behind_zeroWidth hok h1 hf p c k hp hc
  have hw := wf_of_ok hok
  simp only [wf] at hw
  have he : ∀ q, q ∈ ends E.flags E.inp X false true p ↔ Matches E.flags E.inp X q p :=
    fun q => ends_iff (fwd := false) (inv := true) hw h1 h2 (.inr (.inl ⟨rfl, rfl, h3⟩)) hp
  simp only [he] at this
  exact this

/-- **C14, partial**: `(?<!X)` is the complement. -/
theorem C14_negative_lookbehind_partial (X : Ast) (hok : Ok E 0 (.look .behind X))
    (hd : declarative (.look .behind X) = true) (fuel : Nat) (hf : fuelFor (.neg (.look .behind X)) E.inp ≤ fuel) :
    ZeroWidth E (fun p => ¬ ∃ q, Matches E.flags E.inp X q p) (mtch E fuel (.neg (.look .behind X)) 0) := by
  obtain ⟨k, rfl⟩ : ∃ k, fuel = k + 1 := ⟨fuel - 1, by simp only [fuelFor] at hf; omega⟩
  exact negAssertMatch_zeroWidth (C14_lookbehind_partial X hok hd k (by simp only [fuelFor, depth] at hf ⊢; omega))

/-- `(?<=a(b|c)*)` -/
def exBehindBody : Ast := .seq [.lit (ch 'a'), star (.cap 1 none (.alt [.lit (ch 'b'), .lit (ch 'c')]))]
def exBehind : Regex := ⟨.seq [.look .behind exBehindBody, .eoi], []⟩
theorem exBehind_ok : exBehind.Ok .randomAccess := Regex.ok_of_okb (by decide)

example (s : List Byte) := C14_lookbehind_partial (E := exBehind.env .randomAccess s) exBehindBody
  (by cases exBehind_ok s with | seq _ h => exact h _ (by simp)) (by decide) _ (Nat.le_refl _)
example : exBehind.search [ch 'a', ch 'b', ch 'c'] = some ⟨[some (3, 3), some (1, 1)], true⟩ := by decide
example : exBehind.search [ch 'b', ch 'b', ch 'c'] = some ⟨[none, some (0, 0)], false⟩ := by decide

/-- **C14** is false for bodies with anchors: mirroring leaves them alone, so `(?<=^a)b` finds nothing in "ab" although `^a` matches the text
that ends at 1. -/
theorem C14_anchor_false : ∃ (X : Ast) (s : List Byte) (i : Nat), Ok ((Regex.mk (.look .behind X) []).env .randomAccess s) 0 (.look .behind X) ∧
    Matches {} s X 0 i ∧
    ∃ q c, mtch ((Regex.mk (.look .behind X) []).env .randomAccess s) 20 (.look .behind X) 0 i [none] success = .ok ⟨q, false⟩ c := by
  refine ⟨.seq [.bol, .lit (ch 'a')], [ch 'a', ch 'b'], 1,
    (Regex.ok_of_okb (by decide) : (Regex.mk (.look .behind (.seq [.bol, .lit (ch 'a')])) []).Ok .randomAccess) _, ?_, 1, [none], by decide⟩
  simp only [Matches, MatchesAll]
  exact ⟨0, ⟨rfl, .inl trivial⟩, 1, ⟨rfl, ch 'a', rfl, .inl rfl⟩, rfl⟩

/-- **C14** is false for bodies with nested lookarounds: mirroring turns `(?=bc)` into `(?<=bc)` without mirroring `bc` along with it
correctly, so `(?<=a(?=bc))` does not succeed after "a" in "abc". -/
theorem C14_nested_ahead_false : ∃ (X : Ast) (s : List Byte) (i : Nat), Ok ((Regex.mk (.look .behind X) []).env .randomAccess s) 0 (.look .behind X) ∧
    Matches {} s X 0 i ∧
    ∃ q c, mtch ((Regex.mk (.look .behind X) []).env .randomAccess s) 20 (.look .behind X) 0 i [none] success = .ok ⟨q, false⟩ c := by
  refine ⟨.seq [.lit (ch 'a'), .look .ahead (.seq [.lit (ch 'b'), .lit (ch 'c')])], [ch 'a', ch 'b', ch 'c'], 1,
    (Regex.ok_of_okb (by decide) : (Regex.mk (.look .behind (.seq [.lit (ch 'a'), .look .ahead (.seq [.lit (ch 'b'), .lit (ch 'c')])])) []).Ok .randomAccess) _, ?_, 1, [none], by decide⟩
  simp only [Matches, MatchesAll]
  exact ⟨1, ⟨rfl, ch 'a', rfl, .inl rfl⟩, 1, ⟨rfl, 3, by decide, 2, ⟨rfl, ch 'b', rfl, .inl rfl⟩, 3, ⟨rfl, ch 'c', rfl, .inl rfl⟩, rfl⟩, rfl⟩

/-- Same for a lookbehind in a lookbehind: `(?<=(?<=ab)c)` does not succeed at the end of "abc". -/
theorem C14_nested_behind_false : ∃ (X : Ast) (s : List Byte) (i : Nat), Ok ((Regex.mk (.look .behind X) []).env .randomAccess s) 0 (.look .behind X) ∧
    (∃ t, Matches {} s X t i) ∧
    ∃ q c, mtch ((Regex.mk (.look .behind X) []).env .randomAccess s) 20 (.look .behind X) 0 i [none] success = .ok ⟨q, false⟩ c := by
  refine ⟨.seq [.look .behind (.seq [.lit (ch 'a'), .lit (ch 'b')]), .lit (ch 'c')], [ch 'a', ch 'b', ch 'c'], 3,
    (Regex.ok_of_okb (by decide) : (Regex.mk (.look .behind (.seq [.look .behind (.seq [.lit (ch 'a'), .lit (ch 'b')]), .lit (ch 'c')])) []).Ok .randomAccess) _, ⟨2, ?_⟩, 3, [none], by decide⟩
  simp only [Matches, MatchesAll]
  exact ⟨2, ⟨rfl, 0, by decide, 1, ⟨rfl, ch 'a', rfl, .inl rfl⟩, 2, ⟨rfl, ch 'b', rfl, .inl rfl⟩, rfl⟩, 3, ⟨rfl, ch 'c', rfl, .inl rfl⟩, rfl⟩

/-! ## C15 -/

theorem Commits.onMatch {m : Matcher} {v : Nat → Option Nat}
    (h : ∀ p c, p ≤ E.inp.length → c.length = E.names.length →
      View (fun c => c.length = E.names.length) (m p c success) (v p)) :
    Commits E v (fun p c cont => (m p c success).onMatch cont (fun c' => nonMatch p c')) := by
  intro p c k hp hc
  rcases (h p c hp hc).elim with ⟨q, c', h1, h2, h3⟩ | ⟨q, c', h1, h2, h3⟩
  · dsimp only
    rw [h1, h2]
    exact ⟨fun q' hq => ⟨c', h3, by cases hq; rfl⟩, fun hn => (by cases hn)⟩
  · dsimp only
    rw [h1, h2]
    exact ⟨fun q' hq => (by cases hq), fun _ => ⟨p, c', h3, rfl⟩⟩

theorem commits_triv (a : Ast) :
    Commits E (fun p => (oneChar E.inp true (accepts E.flags a) p).head?) (trivMatch E 0 a) := by
  intro p c k hp hc
  dsimp only
  by_cases h0 : E.remaining 0 p = 0
  · unfold trivMatch
    rw [if_pos ((Env.atEnd_iff hp).2 h0), oneChar_end (r := 0) (fwd := true) rfl hp h0]
    exact ⟨fun q hq => (by cases hq), fun _ => ⟨_, c, hc, rfl⟩⟩
  · unfold trivMatch
    rw [if_neg (by rw [Env.atEnd_iff hp]; exact h0)]
    obtain ⟨x, hx⟩ := Env.deref_some hp h0
    rw [hx, oneChar_next (r := 0) (fwd := true) rfl hp h0 hx]
    dsimp only
    rw [matchOne_eq_accepts]
    split
    · next h => exact ⟨fun q hq => ⟨c, hc, by cases hq; rfl⟩, fun hn => (by cases hn)⟩
    · exact ⟨fun q hq => (by cases hq), fun _ => ⟨_, c, hc, rfl⟩⟩

/-- **C15.** `(?>X)` has at most one way to match: the preferred match of `X` at the position (the first element of the ordered list of the ends of `X`).
The rest of the regex is run from there, once; if it fails, nothing else is tried. -/
theorem C15_atomic (X : Ast) (hok : Ok E 0 X) (hb : noBackref X = true) (fuel : Nat) (hf : fuelFor (atomic X) E.inp ≤ fuel) :
    Commits E (fun p => (ends E.flags E.inp X true false p).head?) (mtch E fuel (atomic X) 0) := by
  obtain ⟨k, rfl⟩ : ∃ k, fuel = k + 1 := ⟨fuel - 1, by simp only [fuelFor] at hf; omega⟩
  have hk : fuelFor X E.inp ≤ k := by simp only [fuelFor, atomic, depth] at hf ⊢; omega
  have e : mtch E (k + 1) (atomic X) 0 = if triv X = false then
      (fun p c cont => (mtch E k X 0 p c success).onMatch cont (fun c' => nonMatch p c')) else mtch E k X 0 := by
    rw [atomic, mtch]
    simp [repMatch, fixedMatch]
  rw [e]
  split
  · exact Commits.onMatch (fun p c hp hc => attempt_view (fun _ h => h) hok hb hk capStable_len hp hc)
  · next ht =>
    have ht : triv X = true := by simpa using ht
    rw [mtch_triv ht (by simp only [fuelFor] at hk; omega)]
    intro p c k hp hc
    have := commits_triv (E := E) X p c k hp hc
    dsimp only at this ⊢
    rw [← (ends_triv ht E.flags E.inp true false p).head?] at this
    exact this

/-- `(?>(a|ab))` -/
def exAtomicBody : Ast := .cap 1 none (.alt [.lit (ch 'a'), .seq [.lit (ch 'a'), .lit (ch 'b')]])
def exAtomic : Regex := ⟨.seq [atomic exAtomicBody, .lit (ch 'c')], []⟩
theorem exAtomic_ok : exAtomic.Ok .randomAccess := Regex.ok_of_okb (by decide)

example (s : List Byte) := C15_atomic (E := exAtomic.env .randomAccess s) exAtomicBody
  (by cases exAtomic_ok s with | seq _ h => cases h (atomic exAtomicBody) (by simp) with | repFin _ h => exact h) (by decide) _ (Nat.le_refl _)
example : ∃ res, exAtomic.match [ch 'a', ch 'b', ch 'c'] = some res ∧ res.matched = false := ⟨⟨[some (0, 1), some (0, 1)], false⟩, by decide⟩
example : ∃ res, exAtomic.match [ch 'a', ch 'c'] = some res ∧ res.matched = true := ⟨⟨[some (0, 2), some (0, 1)], true⟩, by decide⟩

/-! ## C16 -/

/-- **C16, partial** (unless the flag `ungreedy` is set, or the body of an unbounded quantifier can match the empty text; then it is
false, see below).  `X{n,m}+` does exactly what `(?>X{n,m})` does: from every position, with every capture state, and whatever comes next,
the same positions and captures are handed over and the same result comes out. -/
theorem C16_possessive_partial (X : Ast) (lo : Nat) (hi : Bound) (hu : E.flags.ungreedy = false) (hz : hi = .inf → zlm X = false)
    (r fuel : Nat) (hf : X.depth ≤ fuel) (p : Nat) (c : Ctx) (k : Cont) :
    mtch E (fuel + 1) (.rep .possessive lo hi X) r p c k = mtch E (fuel + 2) (atomic (.rep .greedy lo hi X)) r p c k := by
  by_cases h : expandable lo hi X = true
  · rw [mtch_atomic_greedy E hu h hf]
    rfl
  · have h1 : lo = 1 ∧ hi = .fin 1 := by
      cases hi with
      | inf => simp [expandable, hz rfl] at h
      | fin m => simpa [expandable] using h
    obtain ⟨rfl, rfl⟩ := h1
    have e : mtch E (fuel + 1) (.rep .greedy 1 (.fin 1) X) r = mtch E fuel X r := by
      rw [mtch]
      simp [repMatch, fixedMatch]
    have ht : triv (.rep .greedy 1 (.fin 1) X) = triv X := by simp [triv]
    rw [atomic, mtch, mtch]
    simp [repMatch, fixedMatch, e, ht]

/-- **C16, partial**: replacing every such quantifier by an atomic group changes no verdict and no group of any method, wherever in the
regex the quantifiers are. -/
theorem C16_expand_partial (R : Regex) (cat : Cat) (hR : R.Ok cat) (hu : RegexFlag.ungreedy ∉ R.flags) (M : Method) (s : List Byte) :
    (Regex.mk (expandPossessive R.ast) R.flags).invoke M cat s = R.invoke M cat s := by
  let R' : Regex := ⟨expandPossessive R.ast, R.flags⟩
  have hn : R'.names = R.names := by simp only [Regex.names, R', nameSpec_expand]
  have hE : R'.env cat s = R.env cat s := by unfold Regex.env; rw [hn]
  have hok := hR s
  have hok' : Ok (R.env cat s) 0 R'.ast := ok_expand hok
  have hug : (R.env cat s).flags.ungreedy = false := by
    simp only [Regex.env, Flags.ofList, List.any_eq_false, beq_iff_eq]
    exact fun x hx h => hu (h ▸ hx)
  obtain ⟨res, c', _, hres⟩ := C01_total R cat hR M s 0 (Nat.zero_le _) (initCtx R.names) (length_init _)
  let N := 2 * fuelFor R.ast s + fuelFor R'.ast s
  have hle := invokeWith_le M s.length (mtch_expand (R.env cat s) hug (fuelFor R.ast s) R.ast 0 N
    (by simp only [N, R', fuelFor]; omega)) 0 (initCtx R.names)
  have e1 := invoke_eq_with (E := R.env cat s) M (fuelFor R.ast s) R.ast 0 (initCtx R.names)
  have e2 := invoke_eq_with (E := R.env cat s) M N R'.ast 0 (initCtx R.names)
  have e3 := invoke_fuel hok' M (Nat.zero_le _) (c := initCtx R.names) (length_init _) (fuel := N)
    (by show fuelFor R'.ast s ≤ N; simp only [N]; omega)
  have h1 := hres _ (Nat.le_refl _)
  have h2 : M.invoke (R.env cat s) (fuelFor R'.ast s) R'.ast 0 (initCtx R.names) = .ok res c' := by
    refine e3.symm.trans (e2.trans ?_)
    rcases hle with h | h
    · rw [e1] at h1; cases h.symm.trans h1
    · exact h.symm.trans (e1.symm.trans h1)
  show R'.invoke M cat s = R.invoke M cat s
  simp only [Regex.invoke, hn, hE, h1, h2]

/-- `(a|bc)*+d{2,3}+(c)\1{0,2}+` -/
def exPoss : Regex :=
  ⟨.seq [.rep .possessive 0 .inf (.alt [.lit (ch 'a'), .seq [.lit (ch 'b'), .lit (ch 'c')]]),
    .rep .possessive 2 (.fin 3) (.lit (ch 'd')), .cap 1 none (.lit (ch 'c')), .rep .possessive 0 (.fin 2) (.backref 1)], []⟩
theorem exPoss_ok : exPoss.Ok .randomAccess := Regex.ok_of_okb (by decide)

example : expandPossessive exPoss.ast =
    .seq [atomic (star (.alt [.lit (ch 'a'), .seq [.lit (ch 'b'), .lit (ch 'c')]])),
      atomic (.rep .greedy 2 (.fin 3) (.lit (ch 'd'))), .cap 1 none (.lit (ch 'c')), atomic (.rep .greedy 0 (.fin 2) (.backref 1))] := by
  simp [exPoss, expandPossessive, expandPossessiveAll, expandable, star, zlm, zlmAny, zlmAll]
example (M : Method) (s : List Byte) := C16_expand_partial exPoss .randomAccess exPoss_ok (by decide) M s
example : exPoss.match [ch 'a', ch 'b', ch 'c', ch 'd', ch 'd', ch 'c', ch 'c'] = some ⟨[some (0, 7), some (5, 6)], true⟩ := by decide

/-- **C16** is false for unbounded quantifiers whose body can match the empty text: `(?:|a)*+a` matches "a", `(?>(?:|a)*)a` does not. -/
theorem C16_empty_body_false : ∃ (X Y : Ast) (s : List Byte),
    (Regex.mk (.seq [.rep .possessive 0 .inf X, Y]) []).Ok .randomAccess ∧
    (∃ res, (Regex.mk (.seq [.rep .possessive 0 .inf X, Y]) []).match s = some res ∧ res.matched = true) ∧
    (∃ res, (Regex.mk (.seq [atomic (star X), Y]) []).match s = some res ∧ res.matched = false) :=
  ⟨.alt [.empty, .lit (ch 'a')], .lit (ch 'a'), [ch 'a'], Regex.ok_of_okb (by decide), ⟨⟨[some (0, 1)], true⟩, by decide⟩,
    ⟨⟨[some (0, 1)], false⟩, by decide⟩⟩

/-- **C16** is false with the flag `ungreedy`, which makes the quantifier in the atomic group lazy but leaves the possessive one alone. -/
theorem C16_ungreedy_false : ∃ (X : Ast) (s : List Byte),
    (Regex.mk (.rep .possessive 0 (.fin 1) X) [.ungreedy]).Ok .randomAccess ∧
    (∃ res, (Regex.mk (.rep .possessive 0 (.fin 1) X) [.ungreedy]).match s = some res ∧ res.matched = true) ∧
    (∃ res, (Regex.mk (atomic (optional X)) [.ungreedy]).match s = some res ∧ res.matched = false) :=
  ⟨.lit (ch 'a'), [ch 'a'], Regex.ok_of_okb (by decide), ⟨⟨[some (0, 1)], true⟩, by decide⟩, ⟨⟨[some (0, 0)], false⟩, by decide⟩⟩

/-! ## C17 -/

/-- **C17.** `\A` holds exactly at the start of the input. -/
theorem C17_input_start (fuel : Nat) : PureTest E (fun p => p = 0) (mtch E (fuel + 1) .boi 0) :=
  pureTest_assert (fun p hp => beginPred_eq (r := 0) (fwd := true) rfl (fun h => (by cases h)) hp)
    (fun p hp => by simp [atStart])

/-- **C17.** `\Z` holds exactly at the end of the input. -/
theorem C17_input_end (fuel : Nat) : PureTest E (fun p => p = E.inp.length) (mtch E (fuel + 1) .eoi 0) :=
  pureTest_assert (fun p hp => endPred_eq (r := 0) (fwd := true) rfl hp) (fun p hp => by simp [atStop, atStart])

/-- **C17.** `^` holds exactly at the start of the input, with the flag `multiline` also after a line break.  (`Ok` excludes `multiline` with
merely forward iterators, see C01.) -/
theorem C17_line_start (hok : Ok E 0 .bol) (fuel : Nat) :
    PureTest E (fun p => p = 0 ∨ (E.flags.multiline = true ∧ CharBefore E.inp p LineBreak)) (mtch E (fuel + 1) .bol 0) :=
  pureTest_assert (fun p hp => beginPred_eq (r := 0) (fwd := true) rfl (fun _ => by cases hok; assumption) hp)
    (fun p hp => by simp [atStart, charBefore_iff isBreakAt_iff])

/-- **C17.** `$` holds exactly at the end of the input, with the flag `multiline` also before a line break. -/
theorem C17_line_end (fuel : Nat) :
    PureTest E (fun p => p = E.inp.length ∨ (E.flags.multiline = true ∧ CharAt E.inp p LineBreak)) (mtch E (fuel + 1) .eol 0) :=
  pureTest_assert (fun p hp => endPred_eq (r := 0) (fwd := true) rfl hp) (fun p hp => by simp [atStop, atStart, isBreakAt_iff])

example : (Regex.mk (.seq [.bol, .lit (ch 'b'), .eol]) [.multiline]).search [ch 'a', 10#8, ch 'b', 13#8, ch 'c'] =
    some ⟨[some (2, 3)], true⟩ := by decide
example : (Regex.mk (.seq [.bol, .lit (ch 'b'), .eol]) []).search [ch 'a', 10#8, ch 'b', 13#8, ch 'c'] = some ⟨[none], false⟩ := by decide
example (s : List Byte) (fuel : Nat) := C17_line_start (E := (Regex.mk .bol [.multiline]).env .randomAccess s)
  ((Regex.ok_of_okb (by decide) : (Regex.mk .bol [.multiline]).Ok .randomAccess) s) fuel

/-! ## C18 -/

/-- **C18.** `\b` holds at a position iff exactly one of the neighbouring characters exists and is a word character. -/
theorem C18_word_boundary (r : Nat) (hok : Ok E r .wordB) (fuel : Nat) :
    PureTest E (fun p => (CharBefore E.inp p WordChar ∧ ¬ CharAt E.inp p WordChar) ∨ (¬ CharBefore E.inp p WordChar ∧ CharAt E.inp p WordChar))
      (mtch E (fuel + 1) .wordB r) :=
  pureTest_assert (fun p hp => wordBoundaryPred_eq (by cases hok; assumption) hp) (fun p hp => by
    rw [← charBefore_iff isWordAt_iff, ← isWordAt_iff]
    cases before (isWordAt E.inp) p <;> cases isWordAt E.inp p <;> simp)

/-- **C18.** `\B` is the complement. -/
theorem C18_not_word_boundary (r : Nat) (hok : Ok E r .wordB) (fuel : Nat) :
    PureTest E (fun p => (CharBefore E.inp p WordChar ↔ CharAt E.inp p WordChar)) (mtch E (fuel + 2) (.neg .wordB) r) := by
  intro p c k hp
  have h := C18_word_boundary r hok fuel p c success hp
  have e : mtch E (fuel + 2) (.neg .wordB) r p c k =
      (mtch E (fuel + 1) .wordB r p c success).onMatch (fun _ c' => nonMatch p c') (fun c' => k p c') := rfl
  rw [e]
  dsimp only at h ⊢
  refine ⟨fun hw => ?_, fun hw => ?_⟩
  · rw [h.2 (by by_cases h1 : CharBefore E.inp p WordChar <;> by_cases h2 : CharAt E.inp p WordChar <;> simp_all)]
    rfl
  · rw [h.1 (by by_cases h1 : CharBefore E.inp p WordChar <;> by_cases h2 : CharAt E.inp p WordChar <;> simp_all)]
    rfl

example : (Regex.mk (.seq [.wordB, .lit (ch 'b'), .wordB]) []).search [ch 'a', ch 'b', ch ' ', ch 'b'] = some ⟨[some (3, 4)], true⟩ := by decide
example : (Regex.mk (.seq [.neg .wordB, .lit (ch 'b'), .wordB]) []).search [ch 'a', ch 'b', ch ' ', ch 'b'] = some ⟨[some (1, 2)], true⟩ := by decide
example (s : List Byte) (fuel : Nat) := C18_not_word_boundary (E := (Regex.mk .wordB []).env .randomAccess s) 0
  ((Regex.ok_of_okb (by decide) : (Regex.mk .wordB []).Ok .randomAccess) s) fuel

end
end Mregex
