import Verif.Proof.Derives
import Verif.Props.Ways

/-!
# Every match has a derivation

References and possessive quantifiers restrict what is found; they never add anything.
-/

namespace Mregex
open Ast Spec

/-- The names of the groups of a regex mean their numbers. -/
def Regex.Names (R : Regex) (ν : List Byte → Nat) : Prop := ∀ n id, nameIndex R.names n = some id → ν n = id

/-- A result in which everything has a derivation: the match and the text of every group. -/
def DerivedResult (R : Regex) (ν : List Byte → Nat) (s : List Byte) (res : Result) : Prop :=
  (res.matched = true → ∃ b e, res.group 0 = some (some (b, e)) ∧ b ≤ e ∧ e ≤ s.length ∧ Derives R.fl s ν R.ast R.ast b e) ∧
  ∀ k b e, k ≠ 0 → k ≤ captureCount R.ast → res.group k = some (some (b, e)) → b ≠ e →
    b < e ∧ e ≤ s.length ∧ ∃ body, GroupBody R.ast k body ∧ Derives R.fl s ν R.ast body b e

/-- **C84**: every usable regex whose lookbehinds are read correctly, with references, possessive quantifiers, groups and lookarounds in any combination and with
any flags: every result of every call of a generator has derivations, for the match and for the texts of the groups. -/
theorem C84_generators (R : Regex) (cat : Cat) (hR : R.Ok cat) (ho : orderly R.ast = true) (ν : List Byte → Nat) (hν : R.Names ν) (M : Method) (s : List Byte)
    (g : Gen) (hg : g.current ≤ s.length) : ∃ res g', genNext R M cat s g = some (res, g') ∧ g'.current ≤ s.length ∧ DerivedResult R ν s res := by
  cases ha : g.active with
  | false =>
    refine ⟨_, g, genNext_inactive M ha, hg, fun h => (by cases h), fun k b e hk hk' h => ?_⟩
    have h : (initCtx R.names)[k]? = some (some (b, e)) := h
    rw [ctxOf_init, getElem?_ctxOf] at h
    split at h <;> cases h
  | true =>
    obtain ⟨res, g', h1, h2, h3, h4, h5⟩ := genNext_follow hR hν M s g ha hg
    obtain ⟨res', g'', i1, i2, i3, i4⟩ := genNext_active (s := s) hR M hg ha
    rw [h1] at i1
    cases i1
    have hf := carryOut_just (n := s.length) (fun p hp => just_proc (f := Flags.ofList R.flags) (ν := ν) (A := R.ast) (wf_of_ok (hR s)) (r := 0) (inv := false)
      (.inl ⟨rfl, rfl, ho⟩) (fun _ _ h => h) hp) g.current hg (fun _ => none) (fun _ _ _ e => (by cases e)) M
    refine ⟨res, g', h1, i2, fun hm => ?_, fun k b e hk hk' h hbe => ?_⟩
    · rw [h2] at hm
      obtain ⟨r, hr⟩ := Option.isSome_iff_exists.1 hm
      obtain ⟨j1, _⟩ := h3 r hr
      obtain ⟨hd, hl⟩ := hf.1 r.1 r.2 hr
      exact ⟨r.1, r.2, j1, derives_le hd, hl, hd⟩
    · rw [h5 k hk hk'] at h
      rcases hf.2 k b e (by simpa using h) with ⟨k1, k2, k3⟩ | h
      · exact ⟨by omega, k2, k3⟩
      · exact absurd h hbe

/-- **C84**: the same for the methods. -/
theorem C84_methods (R : Regex) (cat : Cat) (hR : R.Ok cat) (ho : orderly R.ast = true) (ν : List Byte → Nat) (hν : R.Names ν) (M : Method) (s : List Byte) :
    ∃ res, R.invoke M cat s = some res ∧ DerivedResult R ν s res := by
  obtain ⟨res, g', h1, _, h2⟩ := C84_generators R cat hR ho ν hν M s {} (Nat.zero_le _)
  exact ⟨res, invoke_of_genNext h1, h2⟩

/-- **C84**: if nothing in the text has a derivation, no method finds anything. -/
theorem C84_nothing (R : Regex) (cat : Cat) (hR : R.Ok cat) (ho : orderly R.ast = true) (ν : List Byte → Nat) (hν : R.Names ν) (M : Method) (s : List Byte)
    (hn : ∀ b e, e ≤ s.length → ¬ Derives R.fl s ν R.ast R.ast b e) : ∃ res, R.invoke M cat s = some res ∧ res.matched = false := by
  obtain ⟨res, h1, h2, _⟩ := C84_methods R cat hR ho ν hν M s
  refine ⟨res, h1, ?_⟩
  cases hm : res.matched with
  | false => rfl
  | true =>
    obtain ⟨b, e, _, _, h3, h4⟩ := h2 hm
    exact absurd h4 (hn b e h3)

/-- **C84**: references and possessive quantifiers never add anything: if they do not occur in negated assertions, what is found is matched by the regex read as
an ordinary one, in which references stand for any text. -/
theorem C84_language (R : Regex) (cat : Cat) (hR : R.Ok cat) (ho : orderly R.ast = true) (hp : negatesPlainly R.ast = true) (M : Method) (s : List Byte)
    (g : Gen) (hg : g.current ≤ s.length) (res : Result) (g' : Gen) (h : genNext R M cat s g = some (res, g')) (hm : res.matched = true) :
    ∃ b e, res.group 0 = some (some (b, e)) ∧ Matches R.fl s R.ast b e := by
  obtain ⟨ν, hν⟩ : ∃ ν : List Byte → Nat, R.Names ν := ⟨fun n => (nameIndex R.names n).getD 0, fun n id h => by simp only [h]; rfl⟩
  obtain ⟨res', g'', h1, _, h2, _⟩ := C84_generators R cat hR ho ν hν M s g hg
  rw [h] at h1
  cases h1
  obtain ⟨b, e, h3, h4, h5, h6⟩ := h2 hm
  exact ⟨b, e, h3, matches_of_derives h6 hp (by omega)⟩

/-- **C84**: for regexes that have a language, derivations are the usual matches. -/
theorem C84_declarative (f : Flags) (s : List Byte) (ν : List Byte → Nat) (A a : Ast) (hb : noBackref a = true) (hp : negatesPlainly a = true) (i j : Nat)
    (hi : i ≤ s.length) : Derives f s ν A a i j ↔ Matches f s a i j :=
  ⟨fun h => matches_of_derives h hp hi, derives_of_matches hb⟩

/-- **C10**, partial: with references and possessive quantifiers also inside of the groups.
Missing: lookbehinds whose bodies are mirrored incorrectly (`orderly`), see `C10_false`. -/
theorem C10_derivation_partial (R : Regex) (cat : Cat) (hR : R.Ok cat) (ho : orderly R.ast = true) (ν : List Byte → Nat) (hν : R.Names ν) (M : Method) (s : List Byte)
    (g : Gen) (hg : g.current ≤ s.length) (res : Result) (g' : Gen) (h : genNext R M cat s g = some (res, g'))
    (k b e : Nat) (hk : k ≠ 0) (hk' : k ≤ captureCount R.ast) (hv : res.group k = some (some (b, e))) (hbe : b < e) :
    ∃ body, GroupBody R.ast k body ∧ Derives R.fl s ν R.ast body b e := by
  obtain ⟨res', g'', h1, _, _, h2⟩ := C84_generators R cat hR ho ν hν M s g hg
  rw [h] at h1
  cases h1
  exact (h2 k b e hk hk' hv (Nat.ne_of_lt hbe)).2.2

/-- `(?<x>a++|b)((?<=\k<x>)c\k<x>*)(?!\2)`, ignoring case. -/
def exDerives : Regex :=
  ⟨.seq [.cap 1 (some (txt "x")) (.alt [.rep .possessive 1 .inf (.lit (ch 'a')), .lit (ch 'b')]),
    .cap 2 none (.seq [.look .behind (.namedBackref (txt "x")), .lit (ch 'c'), .rep .greedy 0 .inf (.namedBackref (txt "x"))]),
    .neg (.look .ahead (.backref 2))], [.icase]⟩

/-- The match takes `aAcaaAA`, the second group holds `caaAA`. -/
example : exDerives.Ok .bidirectional ∧ orderly exDerives.ast = true ∧ negatesPlainly exDerives.ast = false ∧ exDerives.Names (fun _ => 1) ∧
    exDerives.search (txt "xaAcaaAAac") .bidirectional = some ⟨[some (1, 8), some (1, 3), some (3, 8)], true⟩ := by
  refine ⟨Regex.ok_of_okb (by decide), by decide, by decide, fun n id h => ?_, by decide +kernel⟩
  have : exDerives.names = [none, some (txt "x"), none] := by decide
  rw [this] at h
  unfold nameIndex at h
  split at h
  · next hc =>
    have hm := List.count_pos_iff.1 (by rw [hc]; exact Nat.one_pos)
    simp only [List.mem_cons, reduceCtorEq, Option.some.injEq, List.not_mem_nil, or_false, false_or] at hm
    subst hm
    cases h
    decide
  · cases h

/-- `(a++)\1` has a derivation from 1 to 3 in `baa`, although the possessive quantifier keeps the methods from finding it; in `bb` it has none. -/
def exDerives2 : Regex := ⟨.seq [.cap 1 none (.rep .possessive 1 .inf (.lit (ch 'a'))), .backref 1], []⟩

example : exDerives2.Ok .randomAccess ∧ orderly exDerives2.ast = true ∧ negatesPlainly exDerives2.ast = true ∧
    (exDerives2.search (txt "baa") .randomAccess).map (·.matched) = some false ∧
    Derives exDerives2.fl (txt "baa") (fun _ => 0) exDerives2.ast exDerives2.ast 1 3 ∧
    ∀ b e, e ≤ (txt "bb").length → ¬ Derives exDerives2.fl (txt "bb") (fun _ => 0) exDerives2.ast exDerives2.ast b e := by
  have ha : Derives exDerives2.fl (txt "baa") (fun _ => 0) exDerives2.ast (.rep .possessive 1 .inf (.lit (ch 'a'))) 1 2 :=
    .rep (k := 1) (Nat.le_refl _) trivial (.cons (.atom rfl ⟨rfl, ch 'a', rfl, .inl rfl⟩) .nil)
  refine ⟨Regex.ok_of_okb (by decide), by decide, by decide, by decide +kernel, ?_, fun b e he h => ?_⟩
  · refine .cons (.cap ha) (.cons (.copy (.seq (.head _) .here) ha ⟨1, rfl, rfl, fun i hi => ?_⟩) .nil)
    obtain rfl : i = 0 := by omega
    exact ⟨ch 'a', ch 'a', rfl, rfl, by decide⟩
  · have h := matches_of_derives h (by decide) (Nat.le_trans (derives_le h) he)
    obtain ⟨t, ⟨k, h1, _, h2⟩, _⟩ := h
    match k, h1, h2 with
    | k + 1, _, ⟨t, ⟨_, x, hx, h3⟩, _⟩ =>
      have : x = ch 'b' := by
        match b, hx with
        | 0, hx => cases hx; rfl
        | 1, hx => cases hx; rfl
        | b + 2, hx => simp [txt] at hx
      subst this
      revert h3
      simp only [CharEq]
      decide

end Mregex
