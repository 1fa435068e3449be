import Verif.Proof.Frame
import Verif.Proof.Outcome
import Verif.Proof.FrameProc
import Verif.Proof.FramePaths
import Verif.Props.Spelled
import Verif.Props.Anchored
import Verif.Proof.OkCheck

/-!
# C90: when parts of patterns may be exchanged
-/

namespace Mregex
open Ast Spec

/-- The call reports the same verdict and, in case of success, the same range. -/
def SameMatch (o o' : Option Result) : Prop :=
  ∃ res res', o = some res ∧ o' = some res' ∧ res.matched = res'.matched ∧ (res.matched = true → res.group 0 = res'.group 0)

/-- In every surrounding expression without references, `X` and `Y` give the same results. -/
def Interchangeable (fl : List RegexFlag) (cat : Cat) (X Y : Ast) : Prop :=
  ∀ C : Frame, noBackref (C.fill X) = true → noBackref (C.fill Y) = true → (Regex.mk (C.fill X) fl).Ok cat → (Regex.mk (C.fill Y) fl).Ok cat →
    ∀ M s, SameMatch ((Regex.mk (C.fill X) fl).invoke M cat s) ((Regex.mk (C.fill Y) fl).invoke M cat s)

variable {fl : List RegexFlag} {cat : Cat} {X Y : Ast}

/-- **C90.** If `X` and `Y` always make the same choices, they are interchangeable: groups may be around them and in them, also lookarounds and possessive
quantifiers. -/
theorem C90_sound (h : ∀ fwd inv, Readings cat fwd inv → SameChoices (Flags.ofList fl) fwd inv X Y) : Interchangeable fl cat X Y := by
  intro C hX hY oX oY M s
  have he : ∀ p, p ≤ s.length → FEq (ends (Flags.ofList fl) s (C.fill X) true false p) (ends (Flags.ofList fl) s (C.fill Y) true false p) :=
    choices_fill (E := (Regex.mk (C.fill X) fl).env cat s) h s C true false 0 (.inr ⟨rfl, rfl⟩) (fun _ => oX s)
  obtain ⟨res, h1, h2, h3⟩ := invoke_outcome _ cat oX hX M s
  obtain ⟨res', h1', h2', h3'⟩ := invoke_outcome _ cat oY hY M s
  have ho : outcome M s.length (ends (Flags.ofList fl) s (C.fill X) true false) = outcome M s.length (ends (Flags.ofList fl) s (C.fill Y) true false) := by
    cases M with
    | «match» => simp only [outcome, (he 0 (Nat.zero_le _)).mem]
    | matchPrefix => simp only [outcome, (he 0 (Nat.zero_le _)).head?]
    | search =>
      simp only [outcome]
      have : ∀ k i, i + k ≤ s.length + 1 → firstFrom (ends (Flags.ofList fl) s (C.fill X) true false) k i =
          firstFrom (ends (Flags.ofList fl) s (C.fill Y) true false) k i := by
        intro k
        induction k with
        | zero => exact fun _ _ => rfl
        | succ k ih => intro i hi; simp only [firstFrom, (he i (by omega)).head?, ih (i + 1) (by omega)]
      exact this _ 0 (by omega)
  simp only [Regex.fl] at h2 h2' h3 h3'
  refine ⟨res, res', h1, h1', by rw [h2, h2', ho], fun h => ?_⟩
  rw [h3 h, h3' (by rw [h2', ← ho, ← h2]; exact h), ho]

/-- One that fits only if `X` prefers the end `q`. -/
theorem search_watcher (oX : (Regex.mk X fl).Ok cat) (hX : closed X = true) {fwd inv : Bool} (hr : Readings cat fwd inv) {s : List Byte} {p q : Nat}
    (hp : p ≤ s.length) (hq : q ≤ s.length) {A : Nat → Bool} (hA : A q = true) :
    let C := lead fwd inv (watcher s fwd inv p A q)
    noBackref (C.fill X) = true ∧ groupIds (C.fill X) = [] ∧ (Regex.mk (C.fill X) fl).Ok cat ∧
      (s ∈ accepted ⟨C.fill X, fl⟩ .search cat ↔ (ends (Flags.ofList fl) s X fwd inv p).find? A = some q) := by
  simp only [closed, Bool.and_eq_true, List.isEmpty_iff] at hX
  have hb : noBackref ((lead fwd inv (watcher s fwd inv p A q)).fill X) = true := by
    have h1 : noBackref (isOneOf s fwd inv A) = true := by
      simp only [isOneOf, noBackref, noBackrefAll_eq, List.all_eq_true]
      intro a ha
      obtain ⟨k, _, rfl⟩ := List.mem_map.1 ha
      rfl
    cases fwd <;> cases inv <;> simpa [lead, watcher, between, Frame.fill, noBackref, noBackrefAll, hX.2, isAt, remaining, anyChar] using h1
  have hg : groupIds ((lead fwd inv (watcher s fwd inv p A q)).fill X) = [] := by
    have h1 : groupIds (isOneOf s fwd inv A) = [] := by
      simp only [isOneOf, groupIds]
      refine List.eq_nil_iff_forall_not_mem.2 (fun k hk => ?_)
      obtain ⟨a, ha, hk⟩ := groupIdsAll_mem.1 hk
      obtain ⟨k, _, rfl⟩ := List.mem_map.1 ha
      cases hk
    cases fwd <;> cases inv <;> simpa [lead, watcher, between, Frame.fill, groupIds, groupIdsAll, hX.1, isAt, remaining, anyChar] using h1
  have hn : nameSpec ((lead fwd inv (watcher s fwd inv p A q)).fill X) = [] := by
    rw [← List.length_eq_zero_iff, length_nameSpec, ← length_groupIds, hg]; rfl
  have hnX : nameSpec X = [] := by
    rw [← List.length_eq_zero_iff, length_nameSpec, ← length_groupIds, hX.1]; rfl
  have hok : (Regex.mk ((lead fwd inv (watcher s fwd inv p A q)).fill X) fl).Ok cat := by
    intro t
    have := ok_lead_watcher (E := (Regex.mk X fl).env cat t) s fwd inv p A q (oX t) hX.1 hr hq hA
    rw [show (Regex.mk ((lead fwd inv (watcher s fwd inv p A q)).fill X) fl).env cat t = (Regex.mk X fl).env cat t by simp only [Regex.env, Regex.names, hn, hnX]]
    exact this
  refine ⟨hb, hg, hok, ?_⟩
  rw [accepted_search hok hb]
  constructor
  · rintro ⟨i, hi, h⟩
    exact ((ends_watcher _ s fwd inv hp A hq X hi).1 ((ends_lead _ s fwd inv _ X i).1 h)).2
  · intro h
    exact ⟨p, hp, (ends_lead _ s fwd inv _ X p).2 ((ends_watcher _ s fwd inv hp A hq X hp).2 ⟨rfl, h⟩)⟩

/-- **C90.** Without groups and references in them, `X` and `Y` are interchangeable if and only if they always make the same choices. -/
theorem C90_interchangeable (oX : (Regex.mk X fl).Ok cat) (oY : (Regex.mk Y fl).Ok cat) (hX : closed X = true) (hY : closed Y = true) :
    Interchangeable fl cat X Y ↔ ∀ fwd inv, Readings cat fwd inv → SameChoices (Flags.ofList fl) fwd inv X Y := by
  refine ⟨fun h fwd inv hr s p hp A => ?_, C90_sound⟩
  have key : ∀ q, (ends (Flags.ofList fl) s X fwd inv p).find? A = some q ↔ (ends (Flags.ofList fl) s Y fwd inv p).find? A = some q := by
    intro q
    by_cases hA : A q = true
    · by_cases hq : q ≤ s.length
      · obtain ⟨h1, _, h2, h3⟩ := search_watcher oX hX hr hp hq hA
        obtain ⟨h4, _, h5, h6⟩ := search_watcher oY hY hr hp hq hA
        obtain ⟨res, res', e1, e2, e3, _⟩ := h _ h1 h4 h2 h5 .search s
        rw [← h3, ← h6, accepted_iff e1, accepted_iff e2, e3]
      · constructor <;> intro h <;> exact absurd (ends_within hp (List.mem_of_find?_eq_some h)) hq
    · constructor <;> intro h <;> exact absurd (List.find?_some h) hA
  cases h1 : (ends (Flags.ofList fl) s X fwd inv p).find? A with
  | some q => exact ((key q).1 h1).symm
  | none =>
    cases h2 : (ends (Flags.ofList fl) s Y fwd inv p).find? A with
    | some q => rw [(key q).2 h2] at h1; cases h1
    | none => rfl

/-- **C90.** If two such parts are not interchangeable, then a call of `search` with one expression around them tells them apart by its verdict, and the expression
has no groups either. -/
theorem C90_witness (oX : (Regex.mk X fl).Ok cat) (oY : (Regex.mk Y fl).Ok cat) (hX : closed X = true) (hY : closed Y = true)
    (h : ¬Interchangeable fl cat X Y) :
    ∃ C : Frame, groupIds (C.fill X) = [] ∧ groupIds (C.fill Y) = [] ∧ (Regex.mk (C.fill X) fl).Ok cat ∧ (Regex.mk (C.fill Y) fl).Ok cat ∧
      ∃ s res res', (Regex.mk (C.fill X) fl).search s cat = some res ∧ (Regex.mk (C.fill Y) fl).search s cat = some res' ∧ res.matched ≠ res'.matched := by
  apply Classical.byContradiction
  intro hn
  apply h
  rw [C90_interchangeable oX oY hX hY]
  intro fwd inv hr s p hp A
  have key : ∀ q, (ends (Flags.ofList fl) s X fwd inv p).find? A = some q ↔ (ends (Flags.ofList fl) s Y fwd inv p).find? A = some q := by
    intro q
    by_cases hA : A q = true
    · by_cases hq : q ≤ s.length
      · obtain ⟨h1, g1, h2, h3⟩ := search_watcher oX hX hr hp hq hA
        obtain ⟨h4, g2, h5, h6⟩ := search_watcher oY hY hr hp hq hA
        obtain ⟨res, e1⟩ := C01_methods_return _ cat h2 .search s
        obtain ⟨res', e2⟩ := C01_methods_return _ cat h5 .search s
        rw [← h3, ← h6, accepted_iff e1, accepted_iff e2]
        have : res.matched = res'.matched := Classical.byContradiction fun hm => hn ⟨_, g1, g2, h2, h5, s, res, res', e1, e2, hm⟩
        rw [this]
      · constructor <;> intro h <;> exact absurd (ends_within hp (List.mem_of_find?_eq_some h)) hq
    · constructor <;> intro h <;> exact absurd (List.find?_some h) hA
  cases h1 : (ends (Flags.ofList fl) s X fwd inv p).find? A with
  | some q => exact ((key q).1 h1).symm
  | none =>
    cases h2 : (ends (Flags.ofList fl) s Y fwd inv p).find? A with
    | some q => rw [(key q).2 h2] at h1; cases h1
    | none => rfl

/-- **C90.** With groups and references around them (but not inside lookarounds and possessive quantifiers) also the groups hold the same texts. -/
theorem C90_groups (h : ∀ fwd inv, Readings cat fwd inv → SameChoices (Flags.ofList fl) fwd inv X Y) (hX : closed X = true) (hY : closed Y = true)
    (C : Frame) (oX : (Regex.mk (C.fill X) fl).Ok cat) (oY : (Regex.mk (C.fill Y) fl).Ok cat) (tX : traceable (C.fill X) = true) (tY : traceable (C.fill Y) = true)
    (M : Method) (s : List Byte) :
    ∃ res res', (Regex.mk (C.fill X) fl).invoke M cat s = some res ∧ (Regex.mk (C.fill Y) fl).invoke M cat s = some res' ∧
      res.matched = res'.matched ∧ (res.matched = true → res.group 0 = res'.group 0) ∧
      ∀ k g g', k ≠ 0 → visitedOnce k (C.fill X) = true → visitedOnce k (C.fill Y) = true → res.groups[k]? = some g → res'.groups[k]? = some g' →
        heldText s g = heldText s g' := by
  have he : methodPath (Flags.ofList fl) s (C.fill X) M = methodPath (Flags.ofList fl) s (C.fill Y) M := methodPath_fill (E := (Regex.mk (C.fill X) fl).env cat s) h hX hY s C (fun _ => oX s) M
  have e : ∀ {g : Cap}, NoText g → heldText s g = [] := by
    intro g hg
    rcases g with _ | ⟨b, e⟩
    · rfl
    · have : b = e := hg
      simp [heldText, this]
  obtain ⟨res, h1, h2⟩ := method_paths (s := s) oX tX M
  obtain ⟨res', h1', h2'⟩ := method_paths (s := s) oY tY M
  refine ⟨res, res', h1, h1', ?_⟩
  rcases h2 with ⟨i, y, a1, a2, a3, a4⟩ | ⟨a1, a2, a3⟩ <;> rcases h2' with ⟨i', y', b1, b2, b3, b4⟩ | ⟨b1, b2, b3⟩ <;>
    cases (show methodPath (Flags.ofList fl) s (C.fill X) M = _ from a1).symm.trans (he.trans b1)
  · refine ⟨by rw [a2, b2], fun _ => by rw [a3, b3], fun k g g' hk v v' hg hg' => ?_⟩
    have r1 := a4 k g hk hg
    have r2 := b4 k g' hk hg'
    cases hh : held k y.2 with
    | none => rw [hh] at r1 r2; rw [e r1, e r2]
    | some w =>
      rw [hh] at r1 r2
      simp only [v, v', Bool.true_eq_false, false_and, or_false] at r1 r2
      rw [r1, r2]
  · exact ⟨by rw [a2, b2], fun hm => (by rw [a2] at hm; cases hm), fun k g g' hk _ _ hg hg' => by rw [e (a3 k g hk hg), e (b3 k g' hk hg')]⟩

/-- **C90.** Whatever is around them, parts may be exchanged without any effect if they do the same step by step, and both are single characters or none is. -/
theorem C90_steps (hc : character X = character Y) (h : ∀ s ν r inv p, p ≤ s.length → proc (Flags.ofList fl) s ν X r inv p = proc (Flags.ofList fl) s ν Y r inv p)
    (hn : nameSpec X = nameSpec Y) (C : Frame) (oX : (Regex.mk (C.fill X) fl).Ok cat) (oY : (Regex.mk (C.fill Y) fl).Ok cat) (M : Method) (s : List Byte) :
    SameCall ((Regex.mk (C.fill X) fl).invoke M cat s) ((Regex.mk (C.fill Y) fl).invoke M cat s) :=
  sameCall_of_carryOut oX oY (by simp only [Regex.names, nameSpec_fill hn C])
    (fun ν => carryOut_on (fun p hp => (steps_fill hc h C s ν 0 false p hp).symm) (Nat.zero_le _) _ M)

/-! ## Examples -/

def lt (c : Char) : Ast := .lit (ch c)

/-- `a|ab` and `ab|a` match the same texts but are not interchangeable: not even `match_prefix` gives the same. -/
theorem C90_order_matters (cat : Cat) : ¬Interchangeable [] cat (.alt [lt 'a', .seq [lt 'a', lt 'b']]) (.alt [.seq [lt 'a', lt 'b'], lt 'a']) := by
  intro h
  have h1 := (C90_interchangeable (fl := []) (by cases cat <;> exact Regex.ok_of_okb (by decide)) (by cases cat <;> exact Regex.ok_of_okb (by decide))
    (by decide) (by decide)).1 h true false (.inr ⟨rfl, rfl⟩) (txt "ab") 0 (by decide) (fun _ => true)
  revert h1
  decide

/-- `a|ba` and `ba|a` are interchangeable for forward iterators ... -/
theorem C90_forward : Interchangeable [] .forward (.alt [lt 'a', .seq [lt 'b', lt 'a']]) (.alt [.seq [lt 'b', lt 'a'], lt 'a']) := by
  refine C90_sound (fun fwd inv hr s p hp A => ?_)
  rcases hr with hr | ⟨rfl, rfl⟩
  · exact absurd rfl hr
  · have e : ∀ c p, ends (Flags.ofList []) s (lt c) true false p = if s[p]? = some (ch c) then [p + 1] else [] := by
      intro c p
      simp only [lt, ends, oneChar, readChar, if_true]
      cases h : s[p]? with
      | none => simp
      | some x => by_cases hx : x = ch c <;> simp [accepts, Flags.ofList, hx, eq_comm (a := ch c)]
    simp only [ends, endsAny, endsAll, Bool.false_eq_true, if_false, e]
    by_cases h1 : s[p]? = some (ch 'a')
    · rw [if_pos h1, if_neg (show ¬(s[p]? = some (ch 'b')) by rw [h1]; decide)]
      simp
    · rw [if_neg h1]
      simp

/-- ... but not for others: read backwards, the order matters. -/
theorem C90_backward : ¬Interchangeable [] .randomAccess (.alt [lt 'a', .seq [lt 'b', lt 'a']]) (.alt [.seq [lt 'b', lt 'a'], lt 'a']) := by
  intro h
  have h1 := (C90_interchangeable (fl := []) (Regex.ok_of_okb (by decide)) (Regex.ok_of_okb (by decide))
    (by decide) (by decide)).1 h false true (.inl (by decide)) (txt "ba") 2 (by decide) (fun _ => true)
  revert h1
  decide

/-- `ab|ab` and `ab` are interchangeable in all surroundings without references. -/
theorem C90_twice (fl : List RegexFlag) (cat : Cat) : Interchangeable fl cat (.alt [.seq [lt 'a', lt 'b'], .seq [lt 'a', lt 'b']]) (.seq [lt 'a', lt 'b']) := by
  refine C90_sound (fun fwd inv _ s p hp A => ?_)
  have : ∀ l : List Nat, (l ++ (l ++ [])).find? A = l.find? A := by
    intro l
    rw [List.append_nil, List.find?_append]
    cases l.find? A <;> rfl
  simp only [ends, endsAny]
  exact this _

/-- With references it makes a difference how often a part offers the same position: `(?:ab|ab)(?:\1c|(?=(x))z)` finds `abxc`, `(?:ab)(?:\1c|(?=(x))z)` does
not, because a group in a lookahead keeps its text after the lookahead was abandoned. -/
theorem C90_references_differ :
    ∃ C : Frame, (Regex.mk (C.fill (.alt [.seq [lt 'a', lt 'b'], .seq [lt 'a', lt 'b']])) []).Ok .randomAccess ∧
      (Regex.mk (C.fill (.seq [lt 'a', lt 'b'])) []).Ok .randomAccess ∧
      (∃ res, (Regex.mk (C.fill (.alt [.seq [lt 'a', lt 'b'], .seq [lt 'a', lt 'b']])) []).match (txt "abxc") .randomAccess = some res ∧ res.matched = true) ∧
      ∃ res, (Regex.mk (C.fill (.seq [lt 'a', lt 'b'])) []).match (txt "abxc") .randomAccess = some res ∧ res.matched = false :=
  ⟨.seq [] .gap [.alt [.seq [.backref 1, lt 'c'], .seq [.look .ahead (.cap 1 none (lt 'x')), lt 'z']]],
    Regex.ok_of_okb (by decide), Regex.ok_of_okb (by decide), ⟨_, rfl, by decide⟩, ⟨_, rfl, by decide⟩⟩

example : parse (txt "(?:ab|ab)(?:\\1c|(?=(x))z)") = .result ((Frame.seq [] .gap [.alt [.seq [.backref 1, lt 'c'],
    .seq [.look .ahead (.cap 1 none (lt 'x')), lt 'z']]]).fill (.alt [.seq [lt 'a', lt 'b'], .seq [lt 'a', lt 'b']])) .success := rfl

/-- `(X)\1` with `ab|ab` or `ab` for `X`. -/
example (cat : Cat) (hc : cat ≠ .forward) (M : Method) (s : List Byte) :=
  C90_groups (fl := []) (cat := cat) (X := .alt [.seq [lt 'a', lt 'b'], .seq [lt 'a', lt 'b']]) (Y := .seq [lt 'a', lt 'b'])
    (fun fwd inv hr => (C90_interchangeable (fl := []) (by cases cat <;> exact Regex.ok_of_okb (by decide)) (by cases cat <;> exact Regex.ok_of_okb (by decide))
      (by decide) (by decide)).1 (C90_twice [] cat) fwd inv hr) (by decide) (by decide) (.seq [] (.cap 1 none .gap) [.backref 1])
    (by cases cat <;> first | exact absurd rfl hc | exact Regex.ok_of_okb (by decide)) (by cases cat <;> first | exact absurd rfl hc | exact Regex.ok_of_okb (by decide))
    (by decide) (by decide) M s

/-- `(?:X)` and `X`. -/
example (X : Ast) (fl : List RegexFlag) (cat : Cat) (hX : character X = character (.seq [X])) (C : Frame) (oX : (Regex.mk (C.fill (.seq [X])) fl).Ok cat)
    (oY : (Regex.mk (C.fill X) fl).Ok cat) (M : Method) (s : List Byte) :
    SameCall ((Regex.mk (C.fill (.seq [X])) fl).invoke M cat s) ((Regex.mk (C.fill X) fl).invoke M cat s) :=
  C90_steps hX.symm (fun s ν r inv p _ => by rw [proc, procAll_one]) (by simp [nameSpec, nameSpecAll]) C oX oY M s

end Mregex
