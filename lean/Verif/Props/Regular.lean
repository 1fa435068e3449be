import Verif.Proof.Machine
import Verif.Proof.Automata
import Verif.Spec.Regular
import Verif.Props.Kleene
import Verif.Props.Writable
import Verif.Props.Captures

/-!
# C73 and C74: regexes without references accept exactly the regular languages
-/

namespace Mregex
open Ast Spec
open scoped Computability

theorem accepted_iff {R : Regex} {M : Method} {cat : Cat} {s : List Byte} {res : Result} (h : R.invoke M cat s = some res) :
    s ∈ accepted R M cat ↔ res.matched = true :=
  ⟨fun ⟨_, h1, h2⟩ => Option.some.inj (h1.symm.trans h) ▸ h2, fun h1 => ⟨res, h, h1⟩⟩

/-! ## C73 -/

theorem accepted_match {R : Regex} {cat : Cat} (hR : R.Ok cat) (hb : noBackref R.ast = true) (s : List Byte) :
    s ∈ accepted R .match cat ↔ s.length ∈ ends R.fl s R.ast true false 0 := by
  obtain ⟨res, c', h1, h2, _⟩ := C06_match R cat hR hb s 0 (Nat.zero_le _) (initCtx R.names) (by simp [initCtx])
  rw [← h2]
  exact accepted_iff (res := ⟨c', res.matched⟩) (by simp only [Regex.invoke, h1])

theorem accepted_matchPrefix {R : Regex} {cat : Cat} (hR : R.Ok cat) (hb : noBackref R.ast = true) (s : List Byte) :
    s ∈ accepted R .matchPrefix cat ↔ ends R.fl s R.ast true false 0 ≠ [] := by
  obtain ⟨res, c', h1, h2⟩ := C06_matchPrefix R cat hR hb s 0 (Nat.zero_le _) (initCtx R.names) (by simp [initCtx])
  rw [accepted_iff (res := ⟨c', res.matched⟩) (by simp only [Regex.invoke, h1])]
  cases hl : ends R.fl s R.ast true false 0 <;> cases hm : res.matched <;> simp_all

theorem accepted_search {R : Regex} {cat : Cat} (hR : R.Ok cat) (hb : noBackref R.ast = true) (s : List Byte) :
    s ∈ accepted R .search cat ↔ ∃ i, i ≤ s.length ∧ ends R.fl s R.ast true false i ≠ [] := by
  obtain ⟨res, c', h1, h2, h3⟩ := C06_search R cat hR hb s 0 (Nat.zero_le _) (initCtx R.names) (by simp [initCtx])
  rw [accepted_iff (res := ⟨c', res.matched⟩) (by simp only [Regex.invoke, h1])]
  constructor
  · intro hm
    obtain ⟨i, _, hi, _, h4, _⟩ := h2 hm
    exact ⟨i, hi, fun e => by simp [e] at h4⟩
  · rintro ⟨i, hi, h4⟩
    cases hm : res.matched with
    | true => rfl
    | false => exact absurd (h3 hm i (Nat.zero_le _) hi) h4

/-- Whether a text is accepted is determined by a number of classes that can be read off the regex. -/
theorem accepted_recog {R : Regex} {cat : Cat} (hR : R.Ok cat) (hb : noBackref R.ast = true) (M : Method) :
    ∃ T : List Byte → Nat → Prop, Recog (classesFor R.ast M) T ∧ ∀ s, s ∈ accepted R M cat ↔ T s 0 := by
  have hm := machine R.fl R.ast true false
  cases M with
  | «match» =>
    have h1 := hm.answer (X := Unit) (x := 1) (by simp) (K := fun s _ p => if p == s.length then some () else none)
      (recog_last.map fun b _ => if b then some () else none) false
    refine ⟨_, h1.map fun x => x.isSome = true, fun s => ?_⟩
    refine (accepted_match hR hb s).trans ?_
    show _ ↔ (ask (ends R.fl s R.ast true false 0) (fun _ p => if p == s.length then some () else none) false 0).isSome = true
    rw [ask, List.isSome_findSome?, List.any_eq_true]
    constructor
    · intro h; exact ⟨_, h, by simp⟩
    · rintro ⟨j, hj, h⟩
      by_cases he : j = s.length
      · exact he ▸ hj
      · simp [he] at h
  | matchPrefix =>
    refine ⟨_, hm.dead.map fun x => x = false, fun s => ?_⟩
    refine (accepted_matchPrefix hR hb s).trans ?_
    show _ ↔ (ends R.fl s R.ast true false 0).isEmpty = false
    simp
  | search =>
    have h1 := Recog.flow (fun (b e : Bool) => !b || e) false (e := 2) (by simp) hm.dead true
    refine ⟨_, h1.map fun x => x = true, fun s => ?_⟩
    refine (accepted_search hR hb s).trans ?_
    show _ ↔ flow (fun (b e : Bool) => !b || e) false (fun p => (ends R.fl s R.ast true false p).isEmpty) (conv true s) (conv true s 0) = true
    have key : ∀ r ≤ s.length, flow (fun (b e : Bool) => !b || e) false (fun p => (ends R.fl s R.ast true false p).isEmpty) (conv true s) r = true ↔
        ∃ i, s.length - r ≤ i ∧ i ≤ s.length ∧ ends R.fl s R.ast true false i ≠ [] := by
      intro r
      induction r with
      | zero =>
        intro _
        simp only [flow, Bool.or_false, Bool.not_eq_true', List.isEmpty_eq_false_iff, conv, if_true]
        exact ⟨fun h => ⟨_, Nat.le_refl _, by omega, h⟩, fun ⟨i, h1, h2, h3⟩ => by rwa [show s.length - 0 = i by omega]⟩
      | succ r ih =>
        intro hr
        simp only [flow, Bool.or_eq_true, Bool.not_eq_true', List.isEmpty_eq_false_iff, ih (by omega)]
        simp only [conv, if_true]
        constructor
        · rintro (h | ⟨i, h1, h2, h3⟩)
          · exact ⟨_, Nat.le_refl _, by omega, h⟩
          · exact ⟨i, by omega, h2, h3⟩
        · rintro ⟨i, h1, h2, h3⟩
          by_cases he : i = s.length - (r + 1)
          · exact .inl (he ▸ h3)
          · exact .inr ⟨i, by omega, h2, h3⟩
    rw [show conv true s 0 = s.length from by simp [conv], key s.length (Nat.le_refl _)]
    exact ⟨fun ⟨i, h1, h2⟩ => ⟨i, by omega, h1, h2⟩, fun ⟨i, _, h1, h2⟩ => ⟨i, h1, h2⟩⟩

/-- **C73.** The texts that a regex without references accepts are a regular language, whatever the method and whatever else the regex
contains: lazy and possessive quantifiers, atomic groups, anchors, lookaheads and lookbehinds, nested in any way. -/
theorem C73_regular (R : Regex) (cat : Cat) (hR : R.Ok cat) (hb : noBackref R.ast = true) (M : Method) : (accepted R M cat).IsRegular := by
  obtain ⟨T, h1, h2⟩ := accepted_recog hR hb M
  exact (congrArg Language.IsRegular (Set.ext h2)).mpr h1.isRegular

/-- `(?<=^a*+)(?>b|bc)+?(?!\w)` has a regular language. -/
def exRegular : Regex := ⟨.seq [.look .behind (.seq [.bol, .rep .possessive 0 .inf (.lit (ch 'a'))]),
  .rep .lazy 1 .inf (atomic (.alt [.lit (ch 'b'), .seq [.lit (ch 'b'), .lit (ch 'c')]])), .neg (.look .ahead (.range (ch 'a') (ch 'z')))], []⟩

example : (accepted exRegular .search .randomAccess).IsRegular :=
  C73_regular _ _ (Regex.ok_of_okb (by decide)) (by decide) _

/-- Squares, in the alphabet of bytes. -/
def squares : Language Byte := {s | ∃ w, s = w ++ w}

theorem squares_not_regular : ¬squares.IsRegular := by
  intro h
  have hfin := h.finite_range_leftQuotient
  let g : Nat → List Byte := fun n => List.replicate n (ch 'a') ++ [ch 'b']
  have hinj : Function.Injective fun n => squares.leftQuotient (g n) := by
    intro n m he
    have h1 : g n ∈ squares.leftQuotient (g n) := ⟨g n, rfl⟩
    rw [show squares.leftQuotient (g n) = squares.leftQuotient (g m) from he] at h1
    obtain ⟨w, hw⟩ := h1
    have hlen := congrArg List.length hw
    simp only [g, List.length_append, List.length_replicate, List.length_singleton] at hlen
    obtain ⟨k, hk⟩ : ∃ k, w.length = k + 1 := ⟨w.length - 1, by omega⟩
    have hb1 : (g m ++ g n)[n + m + 1]? = some (ch 'b') := by
      rw [List.getElem?_append_right (by simp [g])]
      simp only [g, List.length_append, List.length_replicate, List.length_singleton]
      rw [show n + m + 1 - (m + 1) = n by omega, List.getElem?_append_right (by simp)]
      simp
    have hb2 : (g m ++ g n)[k]? = some (ch 'b') := by
      rw [hw, show n + m + 1 = w.length + k by omega, List.getElem?_append_right (by omega)] at hb1
      rw [hw, List.getElem?_append_left (by omega), ← hb1]
      congr 1; omega
    have hkm : ¬k < m := by
      intro hlt
      rw [List.getElem?_append_left (by simp [g]; omega)] at hb2
      simp only [g] at hb2
      rw [List.getElem?_append_left (by simpa using hlt), List.getElem?_replicate, if_pos hlt] at hb2
      exact absurd hb2 (by decide)
    have hkn : ¬(m < k ∧ k < n + m + 1) := by
      rintro ⟨h1, h2⟩
      rw [List.getElem?_append_right (by simp [g]; omega)] at hb2
      simp only [g, List.length_append, List.length_replicate, List.length_singleton] at hb2
      rw [List.getElem?_append_left (by simp; omega), List.getElem?_replicate, if_pos (by omega)] at hb2
      exact absurd hb2 (by decide)
    omega
  exact Set.infinite_range_of_injective hinj (hfin.subset (by rintro _ ⟨n, rfl⟩; exact ⟨g n, rfl⟩))

/-- `(.*)\1` with `dotall`. -/
def exSquares : Regex := ⟨.seq [.cap 1 none (star .wildcard), .backref 1], [.dotall]⟩

theorem exSquares_ok : exSquares.Ok .randomAccess := Regex.ok_of_okb (by decide)

/-- **C73.** With a reference that is not so. -/
theorem C73_references : (∀ s, s ∈ accepted exSquares .match .randomAccess ↔ ∃ w, s = w ++ w) ∧
    ¬(accepted exSquares .match .randomAccess).IsRegular := by
  have h : ∀ s, s ∈ accepted exSquares .match .randomAccess ↔ ∃ w, s = w ++ w := by
    intro s
    obtain ⟨res, h1, h2⟩ := C28_exact_squares (star .wildcard) [.dotall] .randomAccess (by decide) (by decide) (by decide) exSquares_ok (by decide) s
    rw [show s ∈ accepted exSquares .match .randomAccess ↔ _ from accepted_iff (R := exSquares) h1, h2]
    refine exists_congr fun w => ⟨fun h => h.1, fun h => ⟨h, ?_⟩⟩
    obtain ⟨res', h3, h4⟩ := C54_match ⟨star .wildcard, [.dotall]⟩ .randomAccess (Regex.ok_of_okb (by decide)) (by decide) (by decide) w
    refine ⟨res', h3, h4.2 ?_⟩
    have : (oneOf fun x => (Flags.ofList [.dotall]).dotall = true ∨ ¬LineBreak x) = oneOf fun _ => True := by
      congr 1; funext x; exact propext ⟨fun _ => trivial, fun _ => .inl rfl⟩
    show w ∈ denote (Flags.ofList [.dotall]) (.rep .greedy 0 .inf .wildcard)
    simp only [denote, pow_zero, one_mul]
    rw [this]
    exact mem_all w
  refine ⟨h, fun hr => squares_not_regular ?_⟩
  rwa [show accepted exSquares .match .randomAccess = squares from Set.ext h] at hr

/-! ## C74 -/

theorem selfContained_ofExpression (P : RegularExpression Byte) : selfContained (ofExpression P) = true ∧ noPossessive (ofExpression P) = true := by
  induction P with
  | zero => exact ⟨rfl, rfl⟩
  | epsilon => exact ⟨rfl, rfl⟩
  | char => exact ⟨rfl, rfl⟩
  | plus P Q h1 h2 => simp [ofExpression, selfContained, selfContainedAll, noPossessive, noPossessiveAll, h1, h2]
  | comp P Q h1 h2 => simp [ofExpression, selfContained, selfContainedAll, noPossessive, noPossessiveAll, h1, h2]
  | star P h => simp [ofExpression, selfContained, noPossessive, h]

theorem ok_ofExpression (E : Env) (r : Nat) (P : RegularExpression Byte) : Ok E r (ofExpression P) := by
  induction P with
  | zero => exact .set (by simp) (by simp)
  | epsilon => exact .empty
  | char => exact .lit
  | plus P Q h1 h2 => exact .alt (by simp) (by simp [h1, h2])
  | comp P Q h1 h2 => exact .seq (by simp) (by simp [h1, h2])
  | star P h => exact .repInf h

theorem writable_ofExpression (P : RegularExpression Byte) : Writable (ofExpression P) ∧ captureCount (ofExpression P) = 0 := by
  induction P with
  | zero => exact ⟨.set (by simp), rfl⟩
  | epsilon => exact ⟨.empty, rfl⟩
  | char c => exact ⟨.lit c, rfl⟩
  | plus P Q h1 h2 => exact ⟨.alt (by simp [h1, h2]), by simp [ofExpression, captureCount, captureCountAll, h1, h2]⟩
  | comp P Q h1 h2 => exact ⟨.seq (by simp [h1, h2]), by simp [ofExpression, captureCount, captureCountAll, h1, h2]⟩
  | star P h => exact ⟨.rep (by decide) (by rintro _ ⟨⟩) h.1, by simp [ofExpression, captureCount, h]⟩

theorem denote_ofExpression {f : Flags} (hf : f.icase = false) (P : RegularExpression Byte) : denote f (ofExpression P) = P.matches' := by
  induction P with
  | zero => simp only [ofExpression, denote, denoteAny]; ext w; exact ⟨fun h => h.2, fun h => h.elim⟩
  | epsilon => rfl
  | char c =>
    ext w
    simp only [ofExpression, denote, RegularExpression.matches'_char]
    constructor
    · rintro ⟨x, rfl, h⟩
      simp only [CharEq, hf, Bool.false_eq_true, false_and, or_false] at h
      subst h; rfl
    · intro h
      exact ⟨c, h, .inl rfl⟩
  | plus P Q h1 h2 => simp only [ofExpression, denote, denoteAny, h1, h2, add_zero]; rfl
  | comp P Q h1 h2 => simp only [ofExpression, denote, denoteAll, h1, h2, mul_one]; rfl
  | star P h => simp only [ofExpression, denote, h, pow_zero, one_mul]; rfl

/-- `\A(?:P)\Z`. -/
def wholeText (P : RegularExpression Byte) : Ast := .seq [.boi, ofExpression P, .eoi]

theorem matches_wholeText {f : Flags} (hf : f.icase = false) (P : RegularExpression Byte) (s : List Byte) (i j : Nat) :
    Matches f s (wholeText P) i j ↔ i = 0 ∧ j = s.length ∧ s ∈ P.matches' := by
  rw [← denote_ofExpression hf P, mem_denote (selfContained_ofExpression P).1]
  simp only [wholeText, Matches, MatchesAll]
  constructor
  · rintro ⟨_, ⟨rfl, rfl⟩, t, h1, _, ⟨rfl, rfl⟩, rfl⟩
    exact ⟨rfl, rfl, h1⟩
  · rintro ⟨rfl, rfl, h⟩
    exact ⟨0, ⟨rfl, rfl⟩, _, h, _, ⟨rfl, rfl⟩, rfl⟩

theorem ok_wholeText (P : RegularExpression Byte) (cat : Cat) : (Regex.mk (wholeText P) []).Ok cat :=
  fun _ => .seq (by simp) (by simp [Ok.boi, Ok.eoi, ok_ofExpression])

theorem declarative_wholeText (P : RegularExpression Byte) : declarative (wholeText P) = true := by
  have hP := selfContained_ofExpression P
  have := declarative_iff.1 (selfContained_declarative hP.1 hP.2)
  simp [declarative_iff, wholeText, noBackref, noBackrefAll, noPossessive, noPossessiveAll, behindOk, behindOkAll, this]

theorem accepted_wholeText (P : RegularExpression Byte) (cat : Cat) (M : Method) : accepted ⟨wholeText P, []⟩ M cat = P.matches' := by
  have hR := ok_wholeText P cat
  have hd : declarative (Regex.mk (wholeText P) []).ast = true := declarative_wholeText P
  ext s
  have hm : ∀ i j, Matches (Regex.mk (wholeText P) []).fl s (wholeText P) i j ↔ i = 0 ∧ j = s.length ∧ s ∈ P.matches' :=
    matches_wholeText rfl P s
  cases M with
  | «match» =>
    obtain ⟨res0, h7, h8⟩ := C02_match_language _ cat hR hd s
    rw [accepted_iff h7, h8, hm]; simp
  | matchPrefix =>
    obtain ⟨res0, h7, h8, _⟩ := C03_matchPrefix_language _ cat hR hd s
    rw [accepted_iff h7, h8]
    exact ⟨fun ⟨j, hj⟩ => ((hm 0 j).1 hj).2.2, fun h => ⟨s.length, (hm 0 _).2 ⟨rfl, rfl, h⟩⟩⟩
  | search =>
    obtain ⟨res0, h7, h8, _⟩ := C04_search_leftmost _ cat hR hd s
    rw [accepted_iff h7, h8]
    exact ⟨fun ⟨i, j, _, hj⟩ => ((hm i j).1 hj).2.2, fun h => ⟨0, s.length, Nat.zero_le _, (hm 0 _).2 ⟨rfl, rfl, h⟩⟩⟩

/-- **C74.** For every regular expression of the theory of formal languages there is a pattern that the library accepts and that can be
used with all iterators; each of the three methods then reports a match for exactly the texts that the expression denotes. -/
theorem C74_expression (P : RegularExpression Byte) (cat : Cat) :
    ∃ w b, parse w = .result b .success ∧ (Regex.mk b []).Ok cat ∧ ∀ M, accepted ⟨b, []⟩ M cat = P.matches' := by
  have hW := writable_ofExpression P
  have hw : Writable (wholeText P) := .seq (by simp [hW.1, Writable.boi, Writable.eoi])
  have hc : captureCount (wholeText P) = 0 := by simp [wholeText, captureCount, captureCountAll, hW.2]
  obtain ⟨w, b, h1, h2, _, h3, _⟩ := C60_pattern (ok_wholeText P cat) hw (index_none 1 _ hc)
  refine ⟨w, b, h1, h2, fun M => ?_⟩
  rw [← accepted_wholeText P cat M]
  ext s
  obtain ⟨res, res', h4, h5, h6, _⟩ := h3 M s
  rw [accepted_iff h4, accepted_iff h5, h6]

/-- `(ab)*` as an expression, and the tree that stands for it. -/
example : ([ch 'a', ch 'b', ch 'a', ch 'b'] : List Byte) ∈ (RegularExpression.star (.char (ch 'a') * .char (ch 'b'))).matches' ∧
    (Regex.mk (wholeText (RegularExpression.star (.comp (.char (ch 'a')) (.char (ch 'b'))))) []).search [ch 'a', ch 'b', ch 'a', ch 'b'] =
      some ⟨[some (0, 4)], true⟩ ∧
    ((Regex.mk (wholeText (RegularExpression.star (.comp (.char (ch 'a')) (.char (ch 'b'))))) []).search [ch 'a', ch 'b', ch 'a']).map
      (·.matched) = some false := by
  refine ⟨?_, by decide, by decide⟩
  rw [RegularExpression.matches'_star, Language.mem_kstar]
  refine ⟨[[ch 'a', ch 'b'], [ch 'a', ch 'b']], rfl, ?_⟩
  intro y hy
  simp only [List.mem_cons, List.not_mem_nil, or_false, or_self] at hy
  subst hy
  exact Language.mem_mul.2 ⟨_, rfl, _, rfl, rfl⟩

/-- All bytes. -/
def bytes : List Byte := (List.finRange (2 ^ 8)).map BitVec.ofFin

theorem mem_bytes (x : Byte) : x ∈ bytes := List.mem_map.2 ⟨x.toFin, List.mem_finRange _, rfl⟩

/-- **C74.** For every regular language there is a pattern with that language. -/
theorem C74_language (L : Language Byte) (hL : L.IsRegular) (cat : Cat) :
    ∃ w b, parse w = .result b .success ∧ (Regex.mk b []).Ok cat ∧ ∀ M, accepted ⟨b, []⟩ M cat = L := by
  obtain ⟨P, rfl⟩ := exists_expression bytes mem_bytes hL
  exact C74_expression P cat

/-- **C74.** What regexes without references accept are the regular languages, no less and no more. -/
theorem C74_exactly (L : Language Byte) (cat : Cat) (M : Method) :
    L.IsRegular ↔ ∃ R : Regex, R.Ok cat ∧ noBackref R.ast = true ∧ accepted R M cat = L := by
  constructor
  · intro hL
    obtain ⟨P, rfl⟩ := exists_expression bytes mem_bytes hL
    exact ⟨⟨wholeText P, []⟩, ok_wholeText P cat, (declarative_iff.1 (declarative_wholeText P)).1, accepted_wholeText P cat M⟩
  · rintro ⟨R, hR, hb, rfl⟩
    exact C73_regular R cat hR hb M

end Mregex
