import Verif.Proof.Lengths
import Verif.Props.Generators
import Verif.Props.Proc

/-!
# Lengths

Matches, and the texts of groups, have lengths that the expression allows.  In particular a text that is too short is not matched.
-/

namespace Mregex
open Ast Spec

theorem sized_genNext {R : Regex} {cat : Cat} (hR : R.Ok cat) (M : Method) (s : List Byte) (g : Gen) (hg : g.current ≤ s.length) :
    ∃ res g', genNext R M cat s g = some (res, g') ∧ SizedResult R.ast s.length res ∧ g'.current ≤ s.length := by
  cases ha : g.active with
  | false =>
    refine ⟨_, g, genNext_inactive M ha, ⟨fun h => (by cases h), fun k b e hk hk' h => ?_⟩, hg⟩
    have h : (initCtx R.names)[k]? = some (some (b, e)) := h
    rw [ctxOf_init, getElem?_ctxOf] at h
    split at h <;> cases h
  | true =>
    obtain ⟨ν, hν⟩ : ∃ ν : List Byte → Nat, ∀ n id, nameIndex R.names n = some id → ν n = id :=
      ⟨fun n => (nameIndex R.names n).getD 0, fun n id h => by simp only [h]; rfl⟩
    obtain ⟨res, g', h1, h2, h3, h4, h5⟩ := genNext_follow hR hν M s g ha hg
    obtain ⟨res', g'', i1, i2, i3, i4⟩ := genNext_active (s := s) hR M hg ha
    rw [h1] at i1
    cases i1
    have hf := carryOut_fit (n := s.length) (fit_proc (Flags.ofList R.flags) s ν R.ast 0 false) g.current (fun _ => none) (fun _ _ _ e => (by cases e)) M
    refine ⟨res, g', h1, ⟨fun hm => ?_, fun k b e hk hk' h => ?_⟩, i2⟩
    · obtain ⟨i, _, hi, _, hi0, _⟩ := i4 hm
      rw [h2] at hm
      obtain ⟨r, hr⟩ := Option.isSome_iff_exists.1 hm
      obtain ⟨j1, j2⟩ := h3 r hr
      obtain ⟨d, hd, hmn, hmx⟩ := hf.1 r.1 r.2 hr
      have hd : r.2 = r.1 + d := hd
      rw [hi0] at j1
      cases j1
      refine ⟨i, g'.current, hi0, hi, i2, ?_⟩
      rw [show g'.current - i = d from by simp only at hd; omega]
      exact ⟨hmn, hmx⟩
    · rw [h5 k hk hk'] at h
      rcases hf.2 k b e (by simpa using h) with h | rfl
      · exact ⟨h.1, .inr h.2⟩
      · exact ⟨Nat.le_refl _, .inl rfl⟩

theorem invoke_of_genNext {R : Regex} {M : Method} {cat : Cat} {s : List Byte} {res : Result} {g : Gen} (h : genNext R M cat s {} = some (res, g)) :
    R.invoke M cat s = some res := by
  unfold genNext at h
  unfold Regex.invoke
  simp only [Bool.not_true, Bool.false_eq_true, if_false] at h
  cases hm : M.invoke (R.env cat s) (fuelFor R.ast s) R.ast 0 (initCtx R.names) with
  | ok r c =>
    rw [hm] at h
    simp only [Option.some.injEq, Prod.mk.injEq] at h
    simp only [h.1]
  | _ => rw [hm] at h; cases h

/-- **C81**: whatever `match`, `match_prefix` and `search` find, the match and its groups have lengths that fit the expression. -/
theorem C81_methods (R : Regex) (cat : Cat) (hR : R.Ok cat) (M : Method) (s : List Byte) :
    ∃ res, R.invoke M cat s = some res ∧ SizedResult R.ast s.length res := by
  obtain ⟨res, g', h1, h2, _⟩ := sized_genNext hR M s {} (Nat.zero_le _)
  exact ⟨res, invoke_of_genNext h1, h2⟩

/-- **C81**: so do all results of generators. -/
theorem C81_generators (R : Regex) (cat : Cat) (hR : R.Ok cat) (M : Method) (s : List Byte) (k : Nat) :
    ∃ rs g', genCalls R M cat s k {} = some (rs, g') ∧ ∀ res ∈ rs, SizedResult R.ast s.length res := by
  suffices h : ∀ g : Gen, g.current ≤ s.length → ∃ rs g', genCalls R M cat s k g = some (rs, g') ∧ ∀ res ∈ rs, SizedResult R.ast s.length res from
    h {} (Nat.zero_le _)
  induction k with
  | zero => exact fun g _ => ⟨[], g, rfl, fun _ h => by cases h⟩
  | succ k ih =>
    intro g hg
    obtain ⟨res, g', h1, h2, h3⟩ := sized_genNext hR M s g hg
    obtain ⟨rs, g'', i1, i2⟩ := ih g' h3
    refine ⟨res :: rs, g'', by simp [genCalls, h1, i1], fun x hx => ?_⟩
    rcases List.mem_cons.1 hx with rfl | hx
    · exact h2
    · exact i2 x hx

/-- **C81**: a text that is too short is matched by no method, neither as a whole nor in part. -/
theorem C81_short (R : Regex) (cat : Cat) (hR : R.Ok cat) (M : Method) (s : List Byte) (hs : s.length < shortest R.ast) :
    ∃ res, R.invoke M cat s = some res ∧ res.matched = false := by
  obtain ⟨res, h, hz, _⟩ := C81_methods R cat hR M s
  refine ⟨res, h, ?_⟩
  cases hm : res.matched with
  | false => rfl
  | true =>
    obtain ⟨b, e, _, h1, h2, h3, _⟩ := hz hm
    omega

/-- **C81**: a text that is too long is not matched as a whole. -/
theorem C81_long (R : Regex) (cat : Cat) (hR : R.Ok cat) (s : List Byte) (m : Nat) (hm : longest R.ast = some m) (hs : m < s.length) :
    ∃ res, R.match s cat = some res ∧ res.matched = false := by
  obtain ⟨res, h, hz, _⟩ := C81_methods R cat hR .match s
  refine ⟨res, h, ?_⟩
  cases hb : res.matched with
  | false => rfl
  | true =>
    obtain ⟨b, e, h1, _, _, _, h3⟩ := hz hb
    obtain ⟨ν, hν⟩ : ∃ ν : List Byte → Nat, ∀ n id, nameIndex R.names n = some id → ν n = id :=
      ⟨fun n => (nameIndex R.names n).getD 0, fun n id h => by simp only [h]; rfl⟩
    obtain ⟨res', g', i1, i2, i3, _⟩ := genNext_follow hR hν .match s {} rfl (Nat.zero_le _)
    have := invoke_of_genNext i1
    rw [show R.invoke .match cat s = some res from h] at this
    cases this
    rw [i2] at hb
    obtain ⟨r, hr⟩ := Option.isSome_iff_exists.1 hb
    have := (i3 r hr).1
    rw [h1] at this
    cases this
    simp only [carryOut, Option.map_eq_some_iff, Prod.mk.injEq] at hr
    obtain ⟨q, hq, rfl, rfl⟩ := hr
    have he := follow_accepts hq
    have := h3 m hm
    simp only [beq_iff_eq] at he
    omega

/-- `(?=(a{2,3}))(?:b|a{2}|(cd)){1,2}`. -/
def exLengths : Regex :=
  ⟨.seq [.look .ahead (.cap 1 none (.rep .greedy 2 (.fin 3) (.lit (ch 'a')))),
    .rep .greedy 1 (.fin 2) (.alt [.lit (ch 'b'), .rep .greedy 2 (.fin 2) (.lit (ch 'a')), .cap 2 none (.seq [.lit (ch 'c'), .lit (ch 'd')])])], []⟩

/-- First the match takes four of at most four characters; then it takes two, and the first group three of at most three. -/
example : exLengths.Ok .forward ∧ shortest exLengths.ast = 1 ∧ longest exLengths.ast = some 4 ∧
    exLengths.search (txt "daacd") .forward = some ⟨[some (1, 5), some (1, 3), some (3, 5)], true⟩ ∧
    exLengths.search (txt "daaab") .forward = some ⟨[some (1, 3), some (1, 4), none], true⟩ ∧
    GroupBody exLengths.ast 1 (.rep .greedy 2 (.fin 3) (.lit (ch 'a'))) ∧
    GroupBody exLengths.ast 2 (.seq [.lit (ch 'c'), .lit (ch 'd')]) ∧ Fits (.rep .greedy 2 (.fin 3) (.lit (ch 'a'))) 3 := by
  refine ⟨?_, by decide +kernel, by decide +kernel, by decide +kernel, by decide +kernel, ?_, ?_, by decide +kernel, fun m h => ?_⟩
  · exact Regex.ok_of_okb (by decide +kernel)
  · exact .seq (.head _) (.look .here)
  · exact .seq (.tail _ (.head _)) (.rep (.alt (.tail _ (.tail _ (.head _))) .here))
  · simp only [longest, limitRounds] at h; cases h; decide

/-- Too short and too long. -/
example : (exLengths.search [] .forward).map (·.matched) = some false ∧
    (exLengths.match (txt "aaaaa") .forward).map (·.matched) = some false := by decide +kernel

end Mregex
