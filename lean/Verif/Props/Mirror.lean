import Verif.Proof.Mirror
import Verif.Proof.Usable
import Verif.Props.Proc
import Verif.Props.Assertions

/-!
# C75: a lookbehind is a lookahead in the reversed text
-/

namespace Mregex
open Ast Spec

/-! ### Usability -/

theorem ok_shallow {E : Env} {r : Nat} {a : Ast} (h : Ok E (r + 1) a) : Ok E r a := by
  generalize hr : r + 1 = r' at h
  induction h generalizing r with
  | empty => exact .empty
  | lit => exact .lit
  | range h => exact .range h
  | wildcard => exact .wildcard
  | set h _ ih => exact .set h (fun a ha => ih a ha hr)
  | neg h _ ih => exact .neg h (ih hr)
  | seq h _ ih => exact .seq h (fun a ha => ih a ha hr)
  | alt h _ ih => exact .alt h (fun a ha => ih a ha hr)
  | cap h1 h2 _ ih => exact .cap h1 (by omega) (ih hr)
  | repFin h _ ih => exact .repFin h (ih hr)
  | repInf _ ih => exact .repInf (ih hr)
  | ahead _ ih => exact .ahead (ih hr)
  | behindTriv h1 h2 _ ih => exact .behindTriv h1 h2 (ih hr)
  | behind h1 _ ih => exact .behind h1 (ih (by omega))
  | bol h => exact .bol h
  | boi => exact .boi
  | eol => exact .eol
  | eoi => exact .eoi
  | wordB h => exact .wordB h
  | backref h1 h2 => exact .backref h1 h2
  | namedBackref h1 h2 => exact .namedBackref h1 h2

theorem ok_elsewhere {E : Env} {r : Nat} {a : Ast} (s : List Byte) (h : Ok E r a) : Ok { E with inp := s } r a := by
  induction h with
  | empty => exact .empty
  | lit => exact .lit
  | range h => exact .range h
  | wildcard => exact .wildcard
  | set h _ ih => exact .set h ih
  | neg h _ ih => exact .neg h ih
  | seq h _ ih => exact .seq h ih
  | alt h _ ih => exact .alt h ih
  | cap h1 h2 _ ih => exact .cap h1 h2 ih
  | repFin h _ ih => exact .repFin h ih
  | repInf _ ih => exact .repInf ih
  | ahead _ ih => exact .ahead ih
  | behindTriv h1 h2 _ ih => exact .behindTriv h1 h2 ih
  | behind h1 _ ih => exact .behind h1 ih
  | bol h => exact .bol h
  | boi => exact .boi
  | eol => exact .eol
  | eoi => exact .eoi
  | wordB h => exact .wordB h
  | backref h1 h2 => exact .backref h1 h2
  | namedBackref h1 h2 => exact .namedBackref h1 h2

theorem ok_lookOn {E : Env} {positive : Bool} {X : Ast} (h : Ok E 0 (lookBack positive X)) (s : List Byte) :
    Ok { E with inp := s } 0 (lookOn positive (invert X)) := by
  cases positive with
  | true => exact .ahead (ok_elsewhere s (ok_shallow (ok_behind.1 h).2))
  | false =>
    cases h with
    | neg _ h => exact .neg (.inr rfl) (.ahead (ok_elsewhere s (ok_shallow (ok_behind.1 h).2)))

theorem proc_lookBack {f : Flags} {s : List Byte} {ν : List Byte → Nat} (positive : Bool) {X : Ast} (hx : refsNear true X = true) {p : Nat} (hp : p ≤ s.length) :
    Mirrored s.length (proc f s ν (lookBack positive X) 0 false p) (proc f s.reverse ν (lookOn positive (invert X)) 0 false (s.length - p)) := by
  have h := mirrored_commit (proc_mirror f ν X 0 true (.inl ⟨rfl, hx⟩) p hp) 
    (g := fun _ => .only p) (g' := fun _ => .only (s.length - p)) (fun _ _ => mirrored_only hp) .done
  have e1 : proc f s ν (.look .behind X) 0 false p = (proc f s ν X (0 + 1) true p).commit (fun _ => .only p) .done := by
    rw [proc, if_neg (by decide)]
  have e2 : proc f s.reverse ν (.look .ahead (invert X)) 0 false (s.length - p) =
      (proc f s.reverse ν X 0 true (s.length - p)).commit (fun _ => .only (s.length - p)) .done := by
    rw [proc, if_pos (by decide), proc_invert]
    rfl
  rw [← e1, ← e2] at h
  cases positive with
  | true => exact h
  | false =>
    simp only [lookBack, lookOn, Bool.false_eq_true, if_false]
    have e3 : ∀ d (s : List Byte) (X : Ast) p, proc f s ν (.neg (.look d X)) 0 false p = (proc f s ν (.look d X) 0 false p).commit (fun _ => .done) (.only p) := fun d s X p => by
      rw [proc, if_pos (show assertion (look d X) = true from rfl)]
    rw [e3, e3]
    exact mirrored_commit h (fun _ _ => .done) (mirrored_only hp)

theorem depth_lookOn (positive : Bool) (X : Ast) : (lookOn positive (invert X)).depth = (lookBack positive X).depth := by
  cases positive <;> simp only [lookOn, lookBack, if_true, Bool.false_eq_true, if_false, depth, depth_invert]

/-! ## C75 -/

/-- **C75**: `match_prefix` with `(?<=X)` or `(?<!X)` at the position `p` of a text does what `match_prefix` with `(?=X')` or `(?!X')` does at the
corresponding position of the reversed text, where `X'` is `X` with its sequences reversed and the direction of its lookarounds changed: it gives
the same verdict, and after it the groups hold the mirror images of the ranges, with the reversed text (or empty ranges on both sides).  `E` stands for the names and flags of any regex. -/
theorem C75_call (E : Env) (positive : Bool) (X : Ast) (hok : Ok E 0 (lookBack positive X)) (hx : refsNear true X = true) (p : Nat)
    (hp : p ≤ E.inp.length) :
    ∃ q q' b c c',
      Method.matchPrefix.invoke E (fuelFor (lookBack positive X) E.inp) (lookBack positive X) p (initCtx E.names) = .ok ⟨q, b⟩ c ∧
      Method.matchPrefix.invoke { E with inp := E.inp.reverse } (fuelFor (lookBack positive X) E.inp) (lookOn positive (invert X)) (E.inp.length - p) (initCtx E.names) =
        .ok ⟨q', b⟩ c' ∧
      (b = true → q = p ∧ q' = E.inp.length - p) ∧ c.length = E.names.length ∧ c'.length = E.names.length ∧
      ∀ k, k ≠ 0 → k < E.names.length → ∃ v v', c[k]? = some v ∧ c'[k]? = some v' ∧ Opposite E.inp.length v v' ∧ heldText E.inp.reverse v' = (heldText E.inp v).reverse := by
  have hν : ∀ n id, nameIndex E.names n = some id → (fun n => (nameIndex E.names n).getD 0) n = id := fun n id h => by
    simp only [h]; rfl
  obtain ⟨q, c, h1, h2, h3, h4⟩ := invoke_follow (E := E) hok hν .matchPrefix (Nat.le_refl _) hp (fun _ => none)
  obtain ⟨q', c', h1', h2', h3', h4'⟩ := invoke_follow (E := { E with inp := E.inp.reverse }) (ok_lookOn hok E.inp.reverse) hν .matchPrefix
    (Nat.le_refl _) (cur := E.inp.length - p) (by show _ ≤ E.inp.reverse.length; rw [List.length_reverse]; omega) (fun _ => none)
  have hm := proc_lookBack (f := E.flags) (ν := fun n => (nameIndex E.names n).getD 0) positive hx hp
  obtain ⟨hf1, hf2⟩ := follow_mirror hm (h := fun _ => none) (h' := fun _ => none) (fun _ => trivial)
  simp only [carryOut, ← ctxOf_init] at h1 h1' h3 h3' h4 h4'
  rw [show (lookOn positive (invert X)).depth + List.length E.inp.reverse + 1 = fuelFor (lookBack positive X) E.inp by
    rw [depth_lookOn, List.length_reverse]; rfl] at h1'
  rw [hf1] at h1' h3'
  simp only [Option.isSome_map] at h1 h1'
  have hself : ∀ x, ((proc E.flags E.inp (fun n => (nameIndex E.names n).getD 0) (lookBack positive X) 0 false p).follow (fun _ => true) (fun _ => none)).1 = some x → x = p := by
    intro x hx
    have := proc_moves E.flags E.inp (fun n => (nameIndex E.names n).getD 0) (lookBack positive X) 0 false p
    have hall : Proc.All (· = p) (proc E.flags E.inp (fun n => (nameIndex E.names n).getD 0) (lookBack positive X) 0 false p) := by
      cases positive
      · simp only [lookBack, Bool.false_eq_true, if_false, proc, assertion, if_true]
        exact all_commit (all_true _) (fun _ _ => trivial) (all_only rfl)
      · simp only [lookBack, if_true, proc]
        split <;> exact all_commit (all_true _) (fun _ _ => all_only rfl) trivial
    have key : ∀ (P : Proc) (h : Notes), Proc.All (· = p) P → (P.follow (fun _ => true) h).1 = some x → x = p := by
      intro P
      induction P with
      | done => intro h _ e; cases e
      | note k b e P ih => intro h ha e; exact ih _ ha e
      | cross k P ih => intro h ha e; exact ih _ ha e
      | offer q P ih =>
        intro h ha e
        simp only [Proc.follow, if_true, Option.some.injEq] at e
        rw [← e]; exact ha.1
      | recall k f ih => intro h ha e; exact ih _ _ (ha _) e
    exact key _ _ hall hx
  refine ⟨q, q', _, c, c', h1, h1', fun hb => ?_, h2, h2', fun k hk hk' => ?_⟩
  · obtain ⟨x, hx'⟩ := Option.isSome_iff_exists.1 hb
    have := hself x hx'
    subst this
    rw [hx'] at h3 h3'
    exact ⟨(h3 _ _ rfl).1, (h3' _ _ rfl).1⟩
  · refine ⟨_, _, ?_, ?_, hf2 k, heldText_mirror (hf2 k)⟩
    · rw [h4 k hk, getElem?_ctxOf, if_pos hk']
    · rw [h4' k hk, getElem?_ctxOf, if_pos hk']

/-- **C75** for the positions that a generator gets to, if the mirror image is a regex in its own right (its groups are in the reversed order, so it
may only use names if the list of names stays the same). -/
theorem C75_generators (R R' : Regex) (cat : Cat) (hR : R.Ok cat) (positive : Bool) (X : Ast) (ha : R.ast = lookBack positive X)
    (ha' : R'.ast = lookOn positive (invert X)) (hf : R'.flags = R.flags) (hn : R'.names = R.names) (hx : refsNear true X = true)
    (s : List Byte) (p : Nat) (hp : p ≤ s.length) :
    ∃ res res' g g', genNext R .matchPrefix cat s ⟨p, true⟩ = some (res, g) ∧ genNext R' .matchPrefix cat s.reverse ⟨s.length - p, true⟩ = some (res', g') ∧
      res.matched = res'.matched ∧
      ∀ k, k ≠ 0 → k ≤ captureCount R.ast → ∃ v v', res.group k = some v ∧ res'.group k = some v' ∧ Opposite s.length v v' ∧ heldText s.reverse v' = (heldText s v).reverse := by
  have hok := hR s
  rw [ha] at hok
  obtain ⟨q, q', b, c, c', h1, h2, h3, h4, h5, h6⟩ := C75_call (R.env cat s) positive X hok hx p hp
  have e : ({ R.env cat s with inp := (R.env cat s).inp.reverse } : Env) = R'.env cat s.reverse := by
    simp only [Regex.env, hf, hn]
  have ef : fuelFor (lookOn positive (invert X)) s.reverse = fuelFor (lookBack positive X) s := by
    unfold fuelFor; rw [depth_lookOn, List.length_reverse]
  rw [e] at h2
  unfold genNext
  simp only [Bool.not_true, Bool.false_eq_true, if_false, ha, ha', ef, hn]
  rw [show Method.matchPrefix.invoke (R.env cat s) (fuelFor (lookBack positive X) s) (lookBack positive X) p (initCtx R.names) = _ from h1]
  rw [show Method.matchPrefix.invoke (R'.env cat s.reverse) (fuelFor (lookBack positive X) s) (lookOn positive (invert X)) (s.length - p) (initCtx R.names) = _ from h2]
  refine ⟨_, _, _, _, rfl, rfl, rfl, fun k hk hk' => ?_⟩
  refine h6 k hk ?_
  show k < R.names.length
  rw [Regex.names, List.length_cons, length_nameSpec, ha]
  omega

/-- **C75**: where `(?<=X)` succeeds, for all bodies that have a declarative meaning in the other direction: exactly where `X'` matches some text of
the reversed input that starts there.  Bodies with anchors are not excluded. -/
theorem C75_lookbehind (E : Env) (X : Ast) (hok : Ok E 0 (.look .behind X)) (hd : declarative (invert X) = true) (fuel : Nat)
    (hf : fuelFor (.look .behind X) E.inp ≤ fuel) :
    ZeroWidth E (fun p => ∃ q, Matches E.flags E.inp.reverse (invert X) (E.inp.length - p) q) (mtch E fuel (.look .behind X) 0) := by
  obtain ⟨hb, _, _⟩ := declarative_iff.1 hd
  rw [noBackref_invert] at hb
  have hz := behind_zeroWidth hok hb hf
  have hnear : ∀ (a : Ast) inv, noBackref a = true → refsNear inv a = true := by
    intro a
    have hall : ∀ (l : List Ast) inv, (∀ a ∈ l, ∀ inv, noBackref a = true → refsNear inv a = true) → noBackrefAll l = true → refsNearAll inv l = true := by
      intro l inv
      induction l with
      | nil => intros; rfl
      | cons a l ih =>
        intro h hn
        simp only [noBackrefAll, Bool.and_eq_true] at hn
        simp only [refsNearAll, Bool.and_eq_true]
        exact ⟨h a (by simp) inv hn.1, ih (fun b hb => h b (List.mem_cons_of_mem _ hb)) hn.2⟩
    induction a using ind with
    | seq l ih => intro inv h; simp only [refsNear, noBackref] at h ⊢; exact hall l inv ih h
    | alt l ih => intro inv h; simp only [refsNear, noBackref] at h ⊢; exact hall l inv ih h
    | neg a ih => intro inv h; simp only [refsNear, noBackref] at h ⊢; exact ih inv h
    | cap id n a ih => intro inv h; simp only [refsNear, noBackref] at h ⊢; exact ih inv h
    | rep m lo hi a ih => intro inv h; simp only [refsNear, noBackref] at h ⊢; exact ih inv h
    | look d a ih =>
      intro inv h
      simp only [refsNear, noBackref] at h ⊢
      split
      · exact ih false h
      · exact h
    | _ => intro inv h; rfl
  have hok' : Ok { E with inp := E.inp.reverse } 0 (invert X) := by
    cases ok_lookOn (positive := true) hok E.inp.reverse with | ahead h => exact h
  have key : ∀ p, p ≤ E.inp.length → ((∃ q, q ∈ ends E.flags E.inp X false true p) ↔ ∃ q, Matches E.flags E.inp.reverse (invert X) (E.inp.length - p) q) := by
    intro p hp
    obtain ⟨q, q', b, c, c', h1, h2, h3, _, _, _⟩ := C75_call E true X hok (hnear X true hb) p hp
    have z1 := behind_zeroWidth hok hb (Nat.le_refl _) p (initCtx E.names) success hp (length_init _)
    have z2 := C13_lookahead (E := { E with inp := E.inp.reverse }) (invert X) hok' hd _ (Nat.le_refl _) (E.inp.length - p) (initCtx E.names) success
      (by show _ ≤ E.inp.reverse.length; rw [List.length_reverse]; omega) (length_init _)
    rw [show fuelFor (.look .ahead (invert X)) ({ E with inp := E.inp.reverse } : Env).inp = fuelFor (.look .behind X) E.inp by
      unfold fuelFor; simp only [depth, depth_invert, List.length_reverse]] at z2
    simp only [lookBack, lookOn, if_true, Method.invoke] at h1 h2
    simp only [prefixMethod] at h1 h2
    constructor
    · intro hP
      refine Classical.byContradiction fun hn => ?_
      obtain ⟨_, _, e1⟩ := z1.1 hP
      obtain ⟨_, _, e2⟩ := z2.2 hn
      rw [e1] at h1
      rw [e2] at h2
      simp only [setGroup0, success, nonMatch, Out.ok.injEq, MR.mk.injEq] at h1 h2
      rw [← h1.1.2] at h2
      cases h2.1.2
    · intro hP
      refine Classical.byContradiction fun hn => ?_
      obtain ⟨_, _, e1⟩ := z1.2 hn
      obtain ⟨_, _, e2⟩ := z2.1 hP
      rw [e1] at h1
      rw [e2] at h2
      simp only [setGroup0, success, nonMatch, Out.ok.injEq, MR.mk.injEq] at h1 h2
      rw [← h1.1.2] at h2
      cases h2.1.2
  intro p c k hp hc
  have := hz p c k hp hc
  simp only [key p hp] at this
  exact this

/-- `$\1(a|b)`. -/
def exMirrorBody : Ast := .seq [.eol, .backref 1, .cap 1 none (.alt [.lit (ch 'a'), .lit (ch 'b')])]
/-- `(?<=$\1(a|b))`: succeeds behind two equal characters at the *start* of the text. -/
def exMirror : Regex := ⟨lookBack true exMirrorBody, []⟩
/-- `(?=(a|b)\1$)`. -/
def exMirror' : Regex := ⟨lookOn true (invert exMirrorBody), []⟩

example : exMirror.Ok .randomAccess ∧ exMirror'.names = exMirror.names ∧ refsNear true exMirrorBody = true ∧
    genNext exMirror .matchPrefix .randomAccess (txt "bba") ⟨2, true⟩ = some (⟨[some (2, 2), some (1, 2)], true⟩, ⟨2, false⟩) ∧
    genNext exMirror' .matchPrefix .randomAccess (txt "abb") ⟨1, true⟩ = some (⟨[some (1, 1), some (1, 2)], true⟩, ⟨1, false⟩) ∧
    (genNext exMirror .matchPrefix .randomAccess (txt "bba") ⟨3, true⟩).map (·.1) = some ⟨[some (3, 3), some (2, 2)], false⟩ ∧
    (genNext exMirror' .matchPrefix .randomAccess (txt "abb") ⟨0, true⟩).map (·.1) = some ⟨[some (0, 0), some (0, 0)], false⟩ :=
  ⟨Regex.ok_of_okb (by decide), by decide, by decide, by decide +kernel, by decide +kernel, by decide +kernel, by decide +kernel⟩

/-- `(?<=$a)`. -/
example : declarative (invert (.seq [.eol, .lit (ch 'a')])) = true ∧ (∃ q, Matches {} (txt "ab").reverse (invert (.seq [.eol, .lit (ch 'a')])) (2 - 1) q) ∧
    (genNext ⟨.look .behind (.seq [.eol, .lit (ch 'a')]), []⟩ .matchPrefix .randomAccess (txt "ab") ⟨1, true⟩).map (·.1.matched) = some true := by
  refine ⟨by decide, ⟨2, ?_⟩, by decide +kernel⟩
  simp only [invert, invertAll, List.nil_append, List.cons_append, Matches, MatchesAll]
  exact ⟨2, ⟨rfl, ch 'a', rfl, .inl rfl⟩, 2, ⟨rfl, .inl rfl⟩, rfl⟩

/-- For references in two lookbehinds it is false: the library reads forwards there, but takes the characters of the group in reverse order.
`(?<=(?=\1)(ab))` fails at the end of "ab", whereas `(?=(ba)(?<=\1))` succeeds at the start of "ba". -/
example : ∃ (R R' : Regex) (X : Ast) (s : List Byte) (p : Nat), R.Ok .randomAccess ∧ R'.Ok .randomAccess ∧ R = ⟨.look .behind X, []⟩ ∧ R' = ⟨.look .ahead (invert X), []⟩ ∧
    R'.names = R.names ∧ (genNext R .matchPrefix .randomAccess s ⟨p, true⟩).map (·.1.matched) = some false ∧
    (genNext R' .matchPrefix .randomAccess s.reverse ⟨s.length - p, true⟩).map (·.1.matched) = some true :=
  ⟨_, _, .seq [.look .ahead (.backref 1), .cap 1 none (.seq [.lit (ch 'a'), .lit (ch 'b')])], txt "ab", 2, Regex.ok_of_okb (by decide), Regex.ok_of_okb (by decide),
    rfl, rfl, by decide, by decide +kernel, by decide +kernel⟩

end Mregex
