import Verif.Proof.Layout
import Verif.Props.Lengths

/-!
# How groups lie

In the result of a successful call, groups lie inside the match, a group inside another one lies inside it, and groups that are written one after the other follow each other.
All of this for texts that are not empty, and for groups outside of lookarounds and possessive parts.
-/

namespace Mregex
open Ast Spec

/-- What is true of the notes at the end of a successful call. -/
theorem held_genNext {R : Regex} {cat : Cat} (hR : R.Ok cat) (M : Method) (s : List Byte) (g : Gen) (hg : g.current ≤ s.length) {C : Notes → Notes → Prop}
    {X : Notes → Prop} {O : Nat → Nat → Notes → Prop} (hc : ∀ h, C h h) (hX : X (fun _ => none))
    (h : ∀ ν p h, X h → Proc.Hold C (O p) X (proc (Flags.ofList R.flags) s ν R.ast 0 false p) h) {res : Result} {g' : Gen}
    (hn : genNext R M cat s g = some (res, g')) (hm : res.matched = true) :
    ∃ b e N, res.group 0 = some (some (b, e)) ∧ O b e N ∧ ∀ k, k ≠ 0 → k ≤ captureCount R.ast → res.group k = some (N k) := by
  cases ha : g.active with
  | false =>
    rw [genNext_inactive M ha] at hn
    cases hn
    cases hm
  | true =>
    obtain ⟨ν, hν⟩ : ∃ ν : List Byte → Nat, ∀ n id, nameIndex R.names n = some id → ν n = id :=
      ⟨fun n => (nameIndex R.names n).getD 0, fun n id h => by simp only [h]; rfl⟩
    obtain ⟨res', g'', h1, h2, h3, h4, h5⟩ := genNext_follow hR hν M s g ha hg
    rw [h1] at hn
    cases hn
    rw [h2] at hm
    obtain ⟨r, hr⟩ := Option.isSome_iff_exists.1 hm
    exact ⟨r.1, r.2, _, (h3 r hr).1, hold_carryOut hc (h ν) g.current hX M hr, h5⟩

theorem genNext_of_invoke {R : Regex} {M : Method} {cat : Cat} {s : List Byte} {res : Result} (h : R.invoke M cat s = some res) :
    ∃ g, genNext R M cat s {} = some (res, g) := by
  unfold Regex.invoke at h
  unfold genNext
  simp only [Bool.not_true, Bool.false_eq_true, if_false]
  cases hm : M.invoke (R.env cat s) (fuelFor R.ast s) R.ast 0 (initCtx R.names) with
  | ok r c =>
    rw [hm] at h
    cases h
    exact ⟨_, rfl⟩
  | _ => rw [hm] at h; cases h

/-- **C82**: a group that is not in a lookaround or a possessive part lies inside the match, if it holds a text.  For each call of a generator. -/
theorem C82_inside_match (R : Regex) (cat : Cat) (hR : R.Ok cat) (M : Method) (s : List Byte) (g : Gen) (hg : g.current ≤ s.length) (res : Result) (g' : Gen)
    (hn : genNext R M cat s g = some (res, g')) (hm : res.matched = true) (k : Nat) (hk : k ≠ 0) (hk' : k ≤ captureCount R.ast)
    (ho : outside k R.ast = true) (b e : Nat) (hv : res.group k = some (some (b, e))) (hbe : b ≠ e) :
    ∃ b0 e0, res.group 0 = some (some (b0, e0)) ∧ b0 ≤ b ∧ b < e ∧ e ≤ e0 := by
  obtain ⟨b0, e0, N, h1, h2, h3⟩ := held_genNext (C := Fewer (· = k)) (X := fun h => NoText (h k))
    (O := fun p q h => NoText (h k) ∨ InRange p q (h k)) hR M s g hg fewer_refl trivial
    (fun ν p h hx => hold_mono (between_proc (S := (· = k)) (I := groupIds R.ast) _ s ν (fun j hj => hj ▸ ho) (fun _ h => h) p h) (fun _ _ e => e)
      (fun q h' hb => by
        rcases hb.2 k rfl with e | e | ⟨_, e⟩
        · exact .inl (e ▸ hx)
        · exact .inl e
        · exact .inr e)
      (fun h' hf => by
        rcases hf k rfl with e | e
        · exact e ▸ hx
        · exact e)) hn hm
  rw [h3 k hk hk'] at hv
  simp only [Option.some.injEq] at hv
  rw [hv] at h2
  rcases h2 with h2 | h2
  · exact absurd h2 hbe
  · exact ⟨b0, e0, h1, h2.1, by have := h2.2.1; omega, h2.2.2⟩

/-- **C82**: if a group inside of another one holds a text, the other one holds a text around it. -/
theorem C82_nested (R : Regex) (cat : Cat) (hR : R.Ok cat) (M : Method) (s : List Byte) (g : Gen) (hg : g.current ≤ s.length) (res : Result) (g' : Gen)
    (hn : genNext R M cat s g = some (res, g')) (hm : res.matched = true) (i j : Nat) (he : Encloses i j R.ast) (hi : i ≠ 0) (hi' : i ≤ captureCount R.ast)
    (hj : j ≠ 0) (hj' : j ≤ captureCount R.ast) (si : outside i R.ast = true) (sj : outside j R.ast = true)
    (b e : Nat) (hv : res.group j = some (some (b, e))) (hbe : b ≠ e) :
    ∃ b0 e0, res.group i = some (some (b0, e0)) ∧ b0 ≤ b ∧ b < e ∧ e ≤ e0 := by
  obtain ⟨_, _, N, _, h2, h3⟩ := held_genNext (C := SameTwo i j) (X := Blank i j)
    (O := fun _ _ => KeepsInside i j) hR M s g hg sameTwo_refl ⟨trivial, trivial⟩ (fun ν p h hx => keeps_inside _ s ν he si sj p h hx) hn hm
  rw [h3 j hj hj'] at hv
  simp only [Option.some.injEq] at hv
  rcases h2 with h2 | ⟨b1, e1, b2, e2, v1, v2, h4, h5, h6⟩
  · rw [hv] at h2; exact absurd h2 hbe
  · rw [v2] at hv
    cases hv
    exact ⟨b1, e1, by rw [h3 i hi hi', v1], h4, h5, h6⟩

/-- **C82**: if two groups that are written one after the other both hold a text, these follow each other. -/
theorem C82_in_order (R : Regex) (cat : Cat) (hR : R.Ok cat) (M : Method) (s : List Byte) (g : Gen) (hg : g.current ≤ s.length) (res : Result) (g' : Gen)
    (hn : genNext R M cat s g = some (res, g')) (hm : res.matched = true) (i j : Nat) (he : Precedes i j R.ast) (hi : i ≠ 0) (hi' : i ≤ captureCount R.ast)
    (hj : j ≠ 0) (hj' : j ≤ captureCount R.ast) (si : outside i R.ast = true) (sj : outside j R.ast = true)
    (b e b' e' : Nat) (hv : res.group i = some (some (b, e))) (hbe : b ≠ e) (hv' : res.group j = some (some (b', e'))) (hbe' : b' ≠ e') : e ≤ b' := by
  obtain ⟨_, _, N, _, h2, h3⟩ := held_genNext (C := SameTwo i j) (X := Blank i j)
    (O := fun _ _ => KeepsOrder i j) hR M s g hg sameTwo_refl ⟨trivial, trivial⟩ (fun ν p h hx => keeps_order _ s ν he si sj p h hx) hn hm
  rw [h3 i hi hi'] at hv
  rw [h3 j hj hj'] at hv'
  simp only [Option.some.injEq] at hv hv'
  exact h2 b e b' e' hv hv' hbe hbe'

/-- **C82**: all three for `match`, `match_prefix` and `search`. -/
theorem C82_methods (R : Regex) (cat : Cat) (hR : R.Ok cat) (M : Method) (s : List Byte) (res : Result) (h : R.invoke M cat s = some res) (hm : res.matched = true) :
    (∀ k b e, k ≠ 0 → k ≤ captureCount R.ast → outside k R.ast = true → res.group k = some (some (b, e)) → b ≠ e →
      ∃ b0 e0, res.group 0 = some (some (b0, e0)) ∧ b0 ≤ b ∧ b < e ∧ e ≤ e0) ∧
    (∀ i j b e, i ≠ 0 → i ≤ captureCount R.ast → j ≠ 0 → j ≤ captureCount R.ast → outside i R.ast = true → outside j R.ast = true → Encloses i j R.ast →
      res.group j = some (some (b, e)) → b ≠ e → ∃ b0 e0, res.group i = some (some (b0, e0)) ∧ b0 ≤ b ∧ b < e ∧ e ≤ e0) ∧
    (∀ i j b e b' e', i ≠ 0 → i ≤ captureCount R.ast → j ≠ 0 → j ≤ captureCount R.ast → outside i R.ast = true → outside j R.ast = true → Precedes i j R.ast →
      res.group i = some (some (b, e)) → b ≠ e → res.group j = some (some (b', e')) → b' ≠ e' → e ≤ b') := by
  obtain ⟨g, hg⟩ := genNext_of_invoke h
  exact ⟨fun k b e h1 h2 h3 h4 h5 => C82_inside_match R cat hR M s {} (Nat.zero_le _) res g hg hm k h1 h2 h3 b e h4 h5,
    fun i j b e h1 h2 h3 h4 h5 h6 h7 h8 h9 => C82_nested R cat hR M s {} (Nat.zero_le _) res g hg hm i j h7 h1 h2 h3 h4 h5 h6 b e h8 h9,
    fun i j b e b' e' h1 h2 h3 h4 h5 h6 h7 h8 h9 h10 h11 => C82_in_order R cat hR M s {} (Nat.zero_le _) res g hg hm i j h7 h1 h2 h3 h4 h5 h6 b e b' e' h8 h9 h10 h11⟩

/-- `((\w)\w*)=(?:(\w+)|"(.*?)")\1?`, numbered by the library: the two groups in the alternation have the same number. -/
def exLayout : Regex :=
  ⟨indexCaptures (.seq [.cap 0 none (.seq [.cap 0 none word, star word]), .lit (ch '='),
    .alt [.cap 0 none (plus word), .seq [.lit 34#8, .cap 0 none (.rep .lazy 0 .inf .wildcard), .lit 34#8]], optional (.backref 1)]), []⟩

/-- The groups 1 and 2 are nested, both come before 3. -/
example : exLayout.Ok .bidirectional ∧ Encloses 1 2 exLayout.ast ∧ Precedes 1 3 exLayout.ast ∧ Precedes 2 3 exLayout.ast ∧
    (∀ k ∈ [1, 2, 3], k ≤ captureCount exLayout.ast ∧ outside k exLayout.ast = true) ∧
    exLayout.search [32#8, ch 'a', ch 'b', ch '=', 34#8, ch 'x', 34#8, ch 'a', ch 'b'] .bidirectional =
      some ⟨[some (1, 9), some (1, 3), some (1, 2), some (5, 6), none], true⟩ := by
  refine ⟨Regex.ok_of_okb (by decide +kernel), ?_, ?_, ?_, ?_, by decide +kernel⟩
  · exact .seq (l := []) (by decide +kernel) (by decide +kernel) (.here (by decide)) (by decide +kernel) (by decide +kernel)
  · exact .here (l := [_]) (by decide +kernel) (by decide +kernel)
  · exact .here (l := [_]) (by decide +kernel) (by decide +kernel)
  · intro k hk
    simp only [List.mem_cons, List.not_mem_nil, or_false] at hk
    rcases hk with rfl | rfl | rfl <;> exact ⟨by decide +kernel, by decide +kernel⟩

/-- Iterated parts have to be excluded: in `(a(?:d|(b)))*?c`, after `abadc`, the inner group holds the `b` of an earlier round, which is before the outer group. -/
example : (Regex.mk (.seq [.rep .lazy 0 .inf (.cap 1 none (.seq [.lit (ch 'a'), .alt [.lit (ch 'd'), .cap 2 none (.lit (ch 'b'))]])), .lit (ch 'c')]) []).match
    (txt "abadc") = some ⟨[some (0, 5), some (2, 4), some (1, 2)], true⟩ := by decide +kernel

/-- The same without nesting: in `(?:(a)(?:d|(b)))*?c` the second group ends up before the first one. -/
example : (Regex.mk (.seq [.rep .lazy 0 .inf (.seq [.cap 1 none (.lit (ch 'a')), .alt [.lit (ch 'd'), .cap 2 none (.lit (ch 'b'))]]), .lit (ch 'c')]) []).match
    (txt "abadc") = some ⟨[some (0, 5), some (2, 3), some (1, 2)], true⟩ := by decide +kernel

/-- So have possessive parts: `x(?>(a))b|x` finds `x` in `xac`, and the group holds the `a` behind it. -/
example : (Regex.mk (.alt [.seq [.lit (ch 'x'), atomic (.cap 1 none (.lit (ch 'a'))), .lit (ch 'b')], .lit (ch 'x')]) []).search (txt "xac") =
    some ⟨[some (0, 1), some (1, 2)], true⟩ := by decide +kernel

/-- And lookarounds: `(?=(ab))a` on `ab`. -/
example : (Regex.mk (.seq [.look .ahead (.cap 1 none (.seq [.lit (ch 'a'), .lit (ch 'b')])), .lit (ch 'a')]) []).search (txt "ab") =
    some ⟨[some (0, 1), some (0, 2)], true⟩ := by decide +kernel

end Mregex
