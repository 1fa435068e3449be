import Verif.Proof.Ways
import Verif.Proof.Stay
import Verif.Props.Lengths
import Verif.Props.Layout
import Verif.Props.Captures

/-!
# The texts of groups in regexes with references and possessive quantifiers

C09 and C10 for generators, and C10 with references and possessive quantifiers outside of the group.
-/

namespace Mregex
open Ast Spec

theorem took_genNext {R : Regex} {cat : Cat} (hR : R.Ok cat) (M : Method) (s : List Byte) (g : Gen) (hg : g.current ≤ s.length) {res : Result} {g' : Gen}
    (hn : genNext R M cat s g = some (res, g')) {k b e : Nat} (hk : k ≠ 0) (hk' : k ≤ captureCount R.ast) (hv : res.group k = some (some (b, e))) :
    b ≤ e ∧ (b < e → e ≤ s.length ∧ Took R.fl s R.ast true false k b e) := by
  cases ha : g.active with
  | false =>
    rw [genNext_inactive M ha] at hn
    cases hn
    have h : (initCtx R.names)[k]? = some (some (b, e)) := hv
    rw [ctxOf_init, getElem?_ctxOf] at h
    split at h <;> cases h
  | true =>
    obtain ⟨ν, hν⟩ : ∃ ν : List Byte → Nat, ∀ n id, nameIndex R.names n = some id → ν n = id :=
      ⟨fun n => (nameIndex R.names n).getD 0, fun n id h => by simp only [h]; rfl⟩
    obtain ⟨_, _, h1, _, _, _, h5⟩ := genNext_follow hR hν M s g ha hg
    rw [hn] at h1
    cases h1
    have hf := carryOut_stay (n := s.length) (fun p hp => fit_and (fit_and (stay_proc (Flags.ofList R.flags) s ν R.ast 0 false p hp) (took_proc (Flags.ofList R.flags) s ν R.ast 0 false p))
      (fit_proc (Flags.ofList R.flags) s ν R.ast 0 false p)) g.current hg (fun _ => none) (fun _ _ _ e => (by cases e)) M
    rw [h5 k hk hk'] at hv
    rcases hf.2 k b e (by simpa using hv) with h | rfl
    · exact ⟨h.2.1, fun _ => ⟨h.1.1.2, h.1.2⟩⟩
    · exact ⟨Nat.le_refl _, fun h => absurd h (Nat.lt_irrefl _)⟩

/-- **C09**, for generators: a group that holds text holds a range inside of the input, in every result of every call. -/
theorem C09_generators (R : Regex) (cat : Cat) (hR : R.Ok cat) (M : Method) (s : List Byte) (g : Gen) (hg : g.current ≤ s.length) (res : Result) (g' : Gen)
    (hn : genNext R M cat s g = some (res, g')) (k b e : Nat) (hk : k ≠ 0) (hk' : k ≤ captureCount R.ast) (hv : res.group k = some (some (b, e))) :
    b ≤ e ∧ (b < e → e ≤ s.length) := by
  have := took_genNext hR M s g hg hn hk hk' hv
  exact ⟨this.1, fun h => (this.2 h).1⟩

/-- **C10**, partial: for every regex, with any flags, in every result of every call of a generator (and so of the methods, see `genNext_of_invoke`): the text of
a group without references is one of the ways to match its body in the direction in which it is read.  Missing: that this is a match in the usual sense, see
`C10_false` and `C10_group_partial`. -/
theorem C10_ways_partial (R : Regex) (cat : Cat) (hR : R.Ok cat) (M : Method) (s : List Byte) (g : Gen) (hg : g.current ≤ s.length) (res : Result) (g' : Gen)
    (hn : genNext R M cat s g = some (res, g')) (k b e : Nat) (hk : k ≠ 0) (hk' : k ≤ captureCount R.ast) (hv : res.group k = some (some (b, e))) (hbe : b < e) :
    ∃ body fwd inv, ReadGroup k R.ast true false body fwd inv ∧ (noBackref body = true → Taken R.fl s body fwd inv b e) :=
  ((took_genNext hR M s g hg hn hk hk' hv).2 hbe).2

/-- **C10**, partial: references and possessive quantifiers outside of a group do not matter, neither do the flags: if the bodies of the groups `k` contain
neither, then the text of the group is matched by such a body, in every result of every call of a generator.
Missing: lookbehinds whose bodies are mirrored incorrectly (`behindOk`), see `C10_false`; groups that contain references or possessive quantifiers. -/
theorem C10_group_partial (R : Regex) (cat : Cat) (hR : R.Ok cat) (hr : behindOk R.ast = true) (M : Method) (s : List Byte) (g : Gen) (hg : g.current ≤ s.length)
    (res : Result) (g' : Gen) (hn : genNext R M cat s g = some (res, g')) (k b e : Nat) (hk : k ≠ 0) (hk' : k ≤ captureCount R.ast)
    (hb : ∀ body, GroupBody R.ast k body → noBackref body = true ∧ noPossessive body = true)
    (hv : res.group k = some (some (b, e))) (hbe : b < e) :
    ∃ body, GroupBody R.ast k body ∧ Matches R.fl s body b e := by
  obtain ⟨_, h⟩ := took_genNext hR M s g hg hn hk hk' hv
  obtain ⟨hle, X, fwd, inv, h1, h2⟩ := h hbe
  obtain ⟨b1, b2⟩ := hb X h1.body
  have hX := h2 b1
  refine ⟨X, h1.body, ?_⟩
  have key := fun (p q : Nat) (hp : p ≤ s.length) => ends_iff (E := R.env cat s) (p := p) (q := q) (h1.wf (wf_of_ok (hR s))) b1 b2 (h1.readable (.inl ⟨rfl, rfl, hr⟩)) hp
  unfold Taken at hX
  cases fwd with
  | true => exact (key b e (by omega)).1 hX
  | false => exact (key e b hle).1 hX

/-- **C10**, partial: the same for the methods. -/
theorem C10_group_methods_partial (R : Regex) (cat : Cat) (hR : R.Ok cat) (hr : behindOk R.ast = true) (M : Method) (s : List Byte) (res : Result)
    (h : R.invoke M cat s = some res) (k b e : Nat) (hk : k ≠ 0) (hk' : k ≤ captureCount R.ast)
    (hb : ∀ body, GroupBody R.ast k body → noBackref body = true ∧ noPossessive body = true)
    (hv : res.group k = some (some (b, e))) (hbe : b < e) :
    ∃ body, GroupBody R.ast k body ∧ Matches R.fl s body b e := by
  obtain ⟨g, hn⟩ := genNext_of_invoke h
  exact C10_group_partial R cat hR hr M s {} (Nat.zero_le _) res g hn k b e hk hk' hb hv hbe

/-- `(a|bb)c*+(?<=(b|c))\1`, ignoring case. -/
def exWays : Regex :=
  ⟨.seq [.cap 1 none (.alt [.lit (ch 'a'), .seq [.lit (ch 'b'), .lit (ch 'b')]]), .rep .possessive 0 .inf (.lit (ch 'c')),
    .look .behind (.cap 2 none (.alt [.lit (ch 'b'), .lit (ch 'c')])), .backref 1], [.icase]⟩

theorem exWays_bodies (k : Nat) (body : Ast) (h : GroupBody exWays.ast k body) : noBackref body = true ∧ noPossessive body = true := by
  cases h with | seq hm h => ?_
  simp only [List.mem_cons, List.not_mem_nil, or_false] at hm
  rcases hm with rfl | rfl | rfl | rfl
  · cases h with
    | here => decide
    | cap h =>
      cases h with | alt hm h => ?_
      simp only [List.mem_cons, List.not_mem_nil, or_false] at hm
      rcases hm with rfl | rfl
      · cases h
      · cases h with | seq hm h => ?_
        simp only [List.mem_cons, List.not_mem_nil, or_false] at hm
        rcases hm with rfl | rfl <;> cases h
  · cases h with | rep h => cases h
  · cases h with
    | look h =>
      cases h with
      | here => decide
      | cap h =>
        cases h with | alt hm h => ?_
        simp only [List.mem_cons, List.not_mem_nil, or_false] at hm
        rcases hm with rfl | rfl <;> cases h
  · cases h

/-- The groups hold `Bb` and `C`. -/
example : exWays.Ok .bidirectional ∧ behindOk exWays.ast = true ∧ captureCount exWays.ast = 2 ∧
    (∀ k body, GroupBody exWays.ast k body → noBackref body = true ∧ noPossessive body = true) ∧
    exWays.search (txt "xBbcCbB") .bidirectional = some ⟨[some (1, 7), some (1, 3), some (4, 5)], true⟩ :=
  ⟨Regex.ok_of_okb (by decide), by decide, by decide, exWays_bodies, by decide +kernel⟩

/-- The group of `exInner` is read backwards: `abc` is a way to match `a(?=cb)bc` like this. -/
example : exInner.Ok .bidirectional ∧ exInner.search (txt "abc") .bidirectional = some ⟨[some (3, 3), some (0, 3)], true⟩ ∧
    ReadGroup 1 exInner.ast true false (.seq [.lit (ch 'a'), .look .ahead (.seq [.lit (ch 'c'), .lit (ch 'b')]), .lit (ch 'b'), .lit (ch 'c')]) false true :=
  ⟨Regex.ok_of_okb (by decide), by decide +kernel, .turn rfl .here⟩

end Mregex
