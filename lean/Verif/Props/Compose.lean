import Verif.Proof.Outcome
import Verif.Proof.Flatten
import Verif.Model.Build
import Verif.Model.Xpr

/-!
# Composition: end anchors and expression templates
-/

namespace Mregex
open Ast Spec

/-! ## C50 -/

/-- `\Z` after everything is the continuation of `match`. -/
theorem mtch_eoi (E : Env) (fuel : Nat) : (fun q c => mtch E (fuel + 1) .eoi 0 q c success) = equals E.inp.length := by
  funext q c
  simp only [mtch, assertMatch, endPred, Env.atEnd, equals, success, nonMatch]
  cases q == E.inp.length <;> simp

theorem nameSpecAll_append (l l' : List Ast) : nameSpecAll (l ++ l') = nameSpecAll l ++ nameSpecAll l' := by
  induction l with
  | nil => rfl
  | cons a l ih => simp [nameSpecAll, ih]

/-- The regex `R\Z`, as the parser builds it. -/
def Regex.withEndAnchor (R : Regex) : Regex := ⟨makeSequence .eoi R.ast, R.flags⟩

theorem Regex.withEndAnchor_names (R : Regex) : R.withEndAnchor.names = R.names := by
  simp only [Regex.names, Regex.withEndAnchor]
  cases R.ast <;> simp [makeSequence, nameSpec, nameSpecAll, nameSpecAll_append]

theorem Regex.withEndAnchor_ok {R : Regex} {cat : Cat} (h : R.Ok cat) : R.withEndAnchor.Ok cat := by
  intro s
  have hE : R.withEndAnchor.env cat s = R.env cat s := by
    simp only [Regex.env, Regex.withEndAnchor_names]; rfl
  rw [hE]
  have := h s
  show Mregex.Ok _ 0 (makeSequence .eoi R.ast)
  cases ha : R.ast with
  | seq l =>
    rw [ha] at this
    cases this with
    | seq hl hok =>
      refine .seq (by simp) (fun a h => ?_)
      rcases List.mem_append.1 h with h | h
      · exact hok a h
      · rw [List.mem_singleton.1 h]; exact .eoi
  | _ =>
    rw [ha] at this
    refine .seq (by simp) (fun a h => ?_)
    rcases List.mem_cons.1 h with rfl | h
    · exact this
    · rw [List.mem_singleton.1 h]; exact .eoi

theorem sameResult_end {E : Env} {a : Ast} (hok : Ok E 0 a) (hok' : Ok E 0 (makeSequence .eoi a)) {c : Ctx}
    (hc : c.length = E.names.length) :
    SameResult (Method.match.invoke E (fuelFor a E.inp) a 0 c)
      (Method.matchPrefix.invoke E (fuelFor (makeSequence .eoi a) E.inp) (makeSequence .eoi a) 0 c) := by
  have key : ∀ K, fuelFor a E.inp ≤ K → ∃ K₁ K₂, fuelFor a E.inp ≤ K₁ ∧ K ≤ K₂ ∧
      Sim E.inp.length (mtch E K₁ a 0 0 c (equals E.inp.length)) (mtch E K₂ (makeSequence .eoi a) 0 0 c success) := by
    intro K hK
    have hone : (∀ l, a ≠ .seq l) → ∃ K₁ K₂, fuelFor a E.inp ≤ K₁ ∧ K ≤ K₂ ∧
        Sim E.inp.length (mtch E K₁ a 0 0 c (equals E.inp.length)) (mtch E K₂ (makeSequence .eoi a) 0 0 c success) := by
      intro hne
      have hmk : makeSequence .eoi a = .seq [a, .eoi] := by
        cases a <;> first | rfl | exact absurd rfl (hne _)
      refine ⟨K + 1, K + 2, by omega, by omega, ?_⟩
      have hnt : areTriv [a, .eoi] = false := by simp [areTriv, triv]
      rw [hmk]
      have : mtch E (K + 2) (.seq [a, .eoi]) 0 0 c success = mtch E (K + 1) a 0 0 c (equals E.inp.length) := by
        rw [mtch]
        simp only [seqMatch, hnt, Bool.false_eq_true, if_false]
        rw [← mtch_eoi E K]
      rw [this]
      exact msim_self hok (by simp only [fuelFor] at hK; omega) 0 c _ _ (Nat.zero_le _) (.equals _ _)
    cases a with
    | seq l =>
      cases hok with
      | seq hl hok =>
        refine ⟨K + 2, K + 2, by omega, by omega, ?_⟩
        have hf : ∀ a ∈ l, a.depth + E.inp.length + 1 ≤ K + 1 := by
          intro a ha
          have := depth_le_all ha
          simp only [fuelFor, depth] at hK
          omega
        have h1 := msim_seq (fuel := K + 1) hl hok hf 0 c _ _ (Nat.zero_le _) (CSim.equals E.inp.length E.inp.length)
        have h2 := msim_seq (E := E) (fuel := K + 1) (r := 0) (l := l ++ [.eoi]) (by simp)
          (fun a ha => by
            rcases List.mem_append.1 ha with ha | ha
            · exact hok a ha
            · rw [List.mem_singleton.1 ha]; exact .eoi)
          (fun a ha => by
            rcases List.mem_append.1 ha with ha | ha
            · exact hf a ha
            · rw [List.mem_singleton.1 ha]; simp only [fuelFor] at hK; simp only [depth] at hK ⊢; omega)
          0 c _ _ (Nat.zero_le _) (CSim.success E.inp.length)
        rw [List.map_append, chain_append] at h2
        have h3 : (fun q c' => chain (List.map (fun a => mtch E (K + 1) a 0) [.eoi]) q c' success) =
            equals E.inp.length := by
          rw [← mtch_eoi E K]; rfl
        rw [h3] at h2
        exact h1.trans h2.symm
    | _ => exact hone (by intro l h; cases h)
  obtain ⟨K₁, K₂, h1, h2, h3⟩ := key (fuelFor a E.inp + fuelFor (makeSequence .eoi a) E.inp) (by omega)
  rw [← invoke_fuel hok .match (Nat.zero_le _) hc h1, ← invoke_fuel hok' .matchPrefix (Nat.zero_le _) hc (by omega : _ ≤ K₂)]
  exact h3.setGroup0

/-- **C50.** `match` of `R` and `match_prefix` of `R\Z` give the same verdict, on success the same groups, and on
failure the same groups except group 0.  Missing from the full statement (`same verdict and same groups`): group 0 of a
*failed* call, for which it is false, see `C50_failed_group0_false`. -/
theorem C50_match_is_prefix_with_end_partial (R : Regex) (cat : Cat) (hR : R.Ok cat) (s : List Byte) :
    ∃ res res', R.match s cat = some res ∧ R.withEndAnchor.matchPrefix s cat = some res' ∧ res.matched = res'.matched ∧
      (res.matched = true → res.groups = res'.groups) ∧ res.groups.tail = res'.groups.tail := by
  have hR' := Regex.withEndAnchor_ok hR
  obtain ⟨res, hr⟩ := C01_methods_return R cat hR .match s
  obtain ⟨res', hr'⟩ := C01_methods_return R.withEndAnchor cat hR' .matchPrefix s
  refine sameCall_of hr hr' ?_
  have hE : R.withEndAnchor.env cat s = R.env cat s := by
    simp only [Regex.env, Regex.withEndAnchor_names]; rfl
  have hokR := hR s
  have hokR' := hR' s
  rw [hE] at hokR' ⊢
  rw [Regex.withEndAnchor_names]
  exact sameResult_end hokR hokR' (length_init _)

/-- `(a|ab)\1*` -/
def exEnd : Regex :=
  ⟨.seq [.cap 1 none (.alt [.lit (ch 'a'), .seq [.lit (ch 'a'), .lit (ch 'b')]]), star (.backref 1)], []⟩

example : ∃ res res', exEnd.match [ch 'a', ch 'b', ch 'a', ch 'b'] = some res ∧
    exEnd.withEndAnchor.matchPrefix [ch 'a', ch 'b', ch 'a', ch 'b'] = some res' ∧ res.matched = res'.matched ∧
      (res.matched = true → res.groups = res'.groups) ∧ res.groups.tail = res'.groups.tail :=
  C50_match_is_prefix_with_end_partial exEnd _ (Regex.ok_of_okb (by decide)) _

example : exEnd.withEndAnchor.matchPrefix [ch 'a', ch 'b', ch 'a', ch 'b'] = some ⟨[some (0, 4), some (0, 2)], true⟩ := by
  decide

/-- On failure group 0 differs: `ab` and `ab\Z` on "a". -/
theorem C50_failed_group0_false : ∃ (R : Regex) (s : List Byte) (res res' : Result), R.Ok .randomAccess ∧
    R.match s = some res ∧ R.withEndAnchor.matchPrefix s = some res' ∧ res.groups ≠ res'.groups := by
  refine ⟨⟨.seq [.lit (ch 'a'), .lit (ch 'b')], []⟩, [ch 'a'], ⟨[some (0, 0)], false⟩, ⟨[some (0, 1)], false⟩,
    Regex.ok_of_okb (by decide), by decide, by decide, by decide⟩

/-! ## C46 -/

/-- The parts of a sequence. -/
def seqParts : Ast → List Ast
  | .seq l => l
  | a => [a]

/-- The branches of an alternation. -/
def altParts : Ast → List Ast
  | .alt l => l
  | a => [a]

theorem flattenSeq_eq (a b : Ast) : Xpr.flattenSeq a b = .seq (seqParts a ++ seqParts b) := by
  cases a <;> cases b <;> rfl

theorem flattenAlt_eq (a b : Ast) : Xpr.flattenAlt a b = .alt (altParts a ++ altParts b) := by
  cases a <;> cases b <;> rfl

theorem concat_eq : ∀ (a b : Ast) (l : List Ast), Xpr.concat (a :: b :: l) = some (.seq ((a :: b :: l).flatMap seqParts)) := by
  intro a b l
  induction l generalizing a b with
  | nil => simp [Xpr.concat, Xpr.flatWrap, flattenSeq_eq]
  | cons x l ih =>
    have : Xpr.concat (a :: b :: x :: l) = Xpr.concat (Xpr.flattenSeq a b :: x :: l) := by
      simp only [Xpr.concat]; rw [Xpr.flatWrap]
    rw [this, ih, flattenSeq_eq]
    simp [seqParts]

theorem either_eq : ∀ (a b : Ast) (l : List Ast), Xpr.either (a :: b :: l) = some (.alt ((a :: b :: l).flatMap altParts)) := by
  intro a b l
  induction l generalizing a b with
  | nil => simp [Xpr.either, Xpr.flatWrap, flattenAlt_eq]
  | cons x l ih =>
    have : Xpr.either (a :: b :: x :: l) = Xpr.either (Xpr.flattenAlt a b :: x :: l) := by
      simp only [Xpr.either]; rw [Xpr.flatWrap]
    rw [this, ih, flattenAlt_eq]
    simp [altParts]

theorem nameSpecAll_flatMap {f : Ast → List Ast} (h : ∀ a, nameSpecAll (f a) = nameSpec a) (l : List Ast) :
    nameSpecAll (l.flatMap f) = nameSpecAll l := by
  induction l with
  | nil => rfl
  | cons a l ih => rw [List.flatMap_cons, nameSpecAll_append, h, ih, nameSpecAll]

theorem nameSpecAll_seqParts (a : Ast) : nameSpecAll (seqParts a) = nameSpec a := by
  cases a <;> simp [seqParts, nameSpecAll, nameSpec]

theorem nameSpecAll_altParts (a : Ast) : nameSpecAll (altParts a) = nameSpec a := by
  cases a <;> simp [altParts, nameSpecAll, nameSpec]

theorem ok_seqParts {E : Env} {r : Nat} {a : Ast} (h : Ok E r a) : seqParts a ≠ [] ∧ ∀ b ∈ seqParts a, Ok E r b := by
  have h0 := h
  cases h with
  | seq hl hok => exact ⟨hl, hok⟩
  | _ => exact ⟨by simp [seqParts], fun b hb => by rw [List.mem_singleton.1 hb]; exact h0⟩

theorem ok_altParts {E : Env} {r : Nat} {a : Ast} (h : Ok E r a) : altParts a ≠ [] ∧ ∀ b ∈ altParts a, Ok E r b := by
  have h0 := h
  cases h with
  | alt hl hok => exact ⟨hl, hok⟩
  | _ => exact ⟨by simp [altParts], fun b hb => by rw [List.mem_singleton.1 hb]; exact h0⟩

theorem depth_seqParts {a b : Ast} (h : b ∈ seqParts a) : b.depth ≤ a.depth := by
  cases a with
  | seq l => have := depth_le_all (l := l) h; simp only [depth]; omega
  | _ => rw [List.mem_singleton.1 h]; exact Nat.le_refl _

theorem chain_flatMap (l : List Ast) (f : Ast → List Ast) (m : Ast → Matcher) :
    chain ((l.flatMap f).map m) = chain (l.map (fun a => chain ((f a).map m))) := by
  induction l with
  | nil => rfl
  | cons a l ih =>
    funext p c k
    rw [List.flatMap_cons, List.map_append, chain_append, ih]
    rfl

/-- A sequence with its nested sequences dissolved, compared to the nested one. -/
theorem sameResult_flat {E : Env} {l : List Ast} (hl : l ≠ []) (hok : ∀ a ∈ l, Ok E 0 a) (M : Method) {c : Ctx}
    (hc : c.length = E.names.length)
    (hnd : M.invoke E (fuelFor (.seq (l.flatMap seqParts)) E.inp) (.seq (l.flatMap seqParts)) 0 c ≠ .diverge) :
    SameResult (M.invoke E (fuelFor (.seq (l.flatMap seqParts)) E.inp) (.seq (l.flatMap seqParts)) 0 c)
      (M.invoke E (fuelFor (.seq l) E.inp) (.seq l) 0 c) := by
  have hflat : Ok E 0 (.seq (l.flatMap seqParts)) := by
    refine .seq ?_ (fun b hb => ?_)
    · obtain ⟨a, l', rfl⟩ := List.exists_cons_of_ne_nil hl
      have := (ok_seqParts (hok a (by simp))).1
      simp [this]
    · obtain ⟨a, ha, hb⟩ := List.mem_flatMap.1 hb
      exact (ok_seqParts (hok a ha)).2 b hb
  have hseq : Ok E 0 (.seq l) := .seq hl hok
  have hflat' := hflat
  cases hflat' with
  | seq hne hparts =>
  generalize hF : fuelFor (.seq (l.flatMap seqParts)) E.inp + fuelFor (.seq l) E.inp = F
  have hfl : ∀ a ∈ l, a.depth + E.inp.length + 1 ≤ F := by
    intro a ha
    have := depth_le_all ha
    simp only [fuelFor, depth] at hF; omega
  rw [← invoke_fuel hflat M (Nat.zero_le _) hc (by omega : _ ≤ F + 1),
    ← invoke_fuel hseq M (Nat.zero_le _) hc (by omega : _ ≤ F + 2), invoke_eq_with, invoke_eq_with]
  -- the parts one after the other
  have h1 : MSim E.inp.length (mtch E (F + 1) (.seq (l.flatMap seqParts)) 0)
      (chain (l.map (fun a => chain ((seqParts a).map (fun b => mtch E F b 0))))) := by
    rw [← chain_flatMap]
    refine msim_seq hne hparts (fun b hb => ?_)
    obtain ⟨a, ha, hb⟩ := List.mem_flatMap.1 hb
    have := depth_seqParts hb
    have := hfl a ha
    omega
  -- each operand in one piece
  let g : Ast → Matcher := fun a => match a with
    | .seq l' => mtch E (F + 1) (.seq l') 0
    | a => mtch E F a 0
  have h2 : MSim E.inp.length (chain (l.map (fun a => chain ((seqParts a).map (fun b => mtch E F b 0)))))
      (chain (l.map g)) := by
    refine msim_chain l (fun a ha => ?_)
    have hoka := hok a ha
    have hfa := hfl a ha
    cases a with
    | seq l' =>
      have := ok_seqParts hoka
      exact (msim_seq this.1 this.2 (fun b hb => by have := depth_seqParts (a := .seq l') hb; omega)).symm
    | _ => exact msim_self hoka hfa
  have h3 : Matcher.Le (chain (l.map g)) (chain (l.map (fun a => mtch E (F + 1) a 0))) := by
    refine chain_le l (fun a _ => ?_)
    cases a with
    | seq l' => exact mtch_le E _ _ _ _ (Nat.le_refl _)
    | _ => exact mtch_le E _ _ _ _ (Nat.le_succ _)
  have h4 : MSim E.inp.length (mtch E (F + 2) (.seq l) 0) (chain (l.map (fun a => mtch E (F + 1) a 0))) :=
    msim_seq hl hok (fun a ha => by have := hfl a ha; omega)
  have s1 := sameResult_with M (h1.trans h2) (Nat.zero_le _) c
  have s4 := sameResult_with M h4 (Nat.zero_le _) c
  rcases invokeWith_le M E.inp.length h3 0 c with hd | he
  · exfalso
    rw [hd, ← invoke_eq_with, invoke_fuel hflat M (Nat.zero_le _) hc (by omega : _ ≤ F + 1)] at s1
    generalize M.invoke E _ _ 0 c = o at s1 hnd
    cases s1
    exact hnd rfl
  · rw [← he] at s4
    exact s1.trans s4.symm

/-- A regex obtained from another one by dissolving nested sequences at the top. -/
theorem sameCall_flat (l : List Ast) (fl : List RegexFlag) (cat : Cat) (hR : (Regex.mk (.seq l) fl).Ok cat) (M : Method)
    (s : List Byte) : (Regex.mk (.seq (l.flatMap seqParts)) fl).Ok cat ∧
      SameCall ((Regex.mk (.seq (l.flatMap seqParts)) fl).invoke M cat s) ((Regex.mk (.seq l) fl).invoke M cat s) := by
  have hn : (Regex.mk (.seq (l.flatMap seqParts)) fl).names = (Regex.mk (.seq l) fl).names := by
    simp only [Regex.names, nameSpec, nameSpecAll_flatMap nameSpecAll_seqParts]
  have hE : ∀ s, (Regex.mk (.seq (l.flatMap seqParts)) fl).env cat s = (Regex.mk (.seq l) fl).env cat s := by
    intro s; simp only [Regex.env, hn]
  have hl : l ≠ [] := by cases hR s with | seq hl _ => exact hl
  have hR' : (Regex.mk (.seq (l.flatMap seqParts)) fl).Ok cat := by
    intro s
    rw [hE]
    cases hR s with
    | seq _ hok =>
      refine .seq ?_ (fun b hb => ?_)
      · obtain ⟨a, l', rfl⟩ := List.exists_cons_of_ne_nil hl
        have := (ok_seqParts (hok a (by simp))).1
        simp [this]
      · obtain ⟨a, ha, hb⟩ := List.mem_flatMap.1 hb
        exact (ok_seqParts (hok a ha)).2 b hb
  refine ⟨hR', ?_⟩
  obtain ⟨res, hr⟩ := C01_methods_return _ cat hR' M s
  obtain ⟨res', hr'⟩ := C01_methods_return _ cat hR M s
  refine sameCall_of hr hr' ?_
  obtain ⟨q, hq⟩ := Regex.invoke_eq hr
  rw [hE, hn] at hq ⊢
  cases hR s with
  | seq _ hok => exact sameResult_flat hl hok M (length_init _) (fun h => by cases hq.symm.trans h)

theorem invoke_single (E : Env) (M : Method) (F : Nat) (a : Ast) (cur : Nat) (c : Ctx) :
    M.invoke E (F + 1) (.seq [a]) cur c = M.invoke E F a cur c := by
  rw [invoke_eq_with, invoke_eq_with]; rfl

theorem sameResult_refl (o : Out) : SameResult o o := by
  match o with
  | .ok ⟨_, true⟩ _ => exact .hit
  | .ok ⟨_, false⟩ _ => exact .miss rfl
  | .ub => exact .ub
  | .diverge => exact .diverge

/-- **C46**, concatenation: `xpr::concat` (and `>>`) of some operands, which dissolves operands that are sequences, behaves like
the plain sequence of the operands: same verdict, on success the same groups, on failure the same groups except
group 0.  Any operands, including captures and backreferences. -/
theorem C46_concat (l : List Ast) (fl : List RegexFlag) (cat : Cat) (hR : (Regex.mk (.seq l) fl).Ok cat) :
    ∃ a, Xpr.concat l = some a ∧ (Regex.mk a fl).Ok cat ∧ ∀ (M : Method) (s : List Byte),
      SameCall ((Regex.mk a fl).invoke M cat s) ((Regex.mk (.seq l) fl).invoke M cat s) := by
  match l, hR with
  | [], hR => cases hR [] with | seq hl _ => exact absurd rfl hl
  | [a], hR =>
    have hn : (Regex.mk a fl).names = (Regex.mk (.seq [a]) fl).names := by
      simp [Regex.names, nameSpec, nameSpecAll]
    have hE : ∀ s, (Regex.mk a fl).env cat s = (Regex.mk (.seq [a]) fl).env cat s := by
      intro s; simp only [Regex.env, hn]
    have hR' : (Regex.mk a fl).Ok cat := by
      intro s; rw [hE]
      cases hR s with | seq _ hok => exact hok a (by simp)
    refine ⟨a, by simp [Xpr.concat, Xpr.flatWrap], hR', fun M s => ?_⟩
    obtain ⟨res, hr⟩ := C01_methods_return _ cat hR' M s
    obtain ⟨res', hr'⟩ := C01_methods_return _ cat hR M s
    refine sameCall_of hr hr' ?_
    have e := invoke_fuel (E := (Regex.mk (.seq [a]) fl).env cat s) (c := initCtx (Regex.mk (.seq [a]) fl).names)
      (fuel := fuelFor a s + 1) (hR s) M (Nat.zero_le _) (length_init _)
      (by simp only [fuelFor, depth, depthAll]; show max a.depth 0 + 1 + s.length + 1 ≤ _; omega)
    have e' := (invoke_single ((Regex.mk (.seq [a]) fl).env cat s) M (fuelFor a s) a 0
      (initCtx (Regex.mk (.seq [a]) fl).names)).symm.trans e
    rw [hE, hn]
    exact e' ▸ sameResult_refl _
  | a :: b :: l, hR =>
    exact ⟨_, concat_eq a b l, (sameCall_flat _ fl cat hR .match []).1, fun M s => (sameCall_flat _ fl cat hR M s).2⟩

theorem matchesAll_append (f : Flags) (s : List Byte) (l l' : List Ast) (i j : Nat) :
    MatchesAll f s (l ++ l') i j ↔ ∃ t, MatchesAll f s l i t ∧ MatchesAll f s l' t j := by
  induction l generalizing i with
  | nil => simp [MatchesAll]
  | cons a l ih =>
    simp only [List.cons_append, MatchesAll, ih]
    constructor
    · rintro ⟨t, h1, u, h2, h3⟩; exact ⟨u, ⟨t, h1, h2⟩, h3⟩
    · rintro ⟨u, ⟨t, h1, h2⟩, h3⟩; exact ⟨t, h1, u, h2, h3⟩

theorem matchesAll_seqParts (f : Flags) (s : List Byte) (a : Ast) (i j : Nat) :
    MatchesAll f s (seqParts a) i j ↔ Matches f s a i j := by
  cases a <;> simp [seqParts, MatchesAll, Matches]

theorem matchesAll_flat (f : Flags) (s : List Byte) (l : List Ast) (i j : Nat) :
    MatchesAll f s (l.flatMap seqParts) i j ↔ MatchesAll f s l i j := by
  induction l generalizing i with
  | nil => rfl
  | cons a l ih => simp only [List.flatMap_cons, matchesAll_append, matchesAll_seqParts, MatchesAll, ih]

theorem matchesAny_flat (f : Flags) (s : List Byte) (l : List Ast) (i j : Nat) :
    MatchesAny f s (l.flatMap altParts) i j ↔ MatchesAny f s l i j := by
  simp only [matchesAny_iff, List.mem_flatMap]
  constructor
  · rintro ⟨b, ⟨a, ha, hb⟩, h⟩
    refine ⟨a, ha, ?_⟩
    cases a with
    | alt l' => exact matchesAny_iff.2 ⟨b, hb, h⟩
    | _ => rw [List.mem_singleton.1 hb] at h; exact h
  · rintro ⟨a, ha, h⟩
    cases a with
    | alt l' => obtain ⟨b, hb, h⟩ := matchesAny_iff.1 h; exact ⟨b, ⟨_, ha, hb⟩, h⟩
    | _ => exact ⟨_, ⟨_, ha, List.mem_singleton.2 rfl⟩, h⟩

/-- **C46**, concatenation: the language of `concat` is the concatenation of the languages. -/
theorem C46_concat_language {l : List Ast} {a : Ast} (h : Xpr.concat l = some a) (f : Flags) (s : List Byte) (i j : Nat) :
    Matches f s a i j ↔ MatchesAll f s l i j := by
  match l, h with
  | [], h => simp [Xpr.concat, Xpr.flatWrap] at h
  | [b], h =>
    simp only [Xpr.concat, Xpr.flatWrap, Option.some.injEq] at h
    subst h; simp [MatchesAll]
  | b :: b' :: l, h =>
    rw [concat_eq] at h
    cases h
    exact matchesAll_flat f s _ i j

/-- **C46**, alternation: the language of `either` is the union of the languages. -/
theorem C46_either_language {l : List Ast} {a : Ast} (h : Xpr.either l = some a) (f : Flags) (s : List Byte) (i j : Nat) :
    Matches f s a i j ↔ ∃ b ∈ l, Matches f s b i j := by
  rw [← matchesAny_iff]
  match l, h with
  | [], h => simp [Xpr.either, Xpr.flatWrap] at h
  | [b], h =>
    simp only [Xpr.either, Xpr.flatWrap, Option.some.injEq] at h
    subst h; simp [MatchesAny]
  | b :: b' :: l, h =>
    rw [either_eq] at h
    cases h
    exact matchesAny_flat f s _ i j

theorem endsAny_append (f : Flags) (s : List Byte) (l l' : List Ast) (fwd inv : Bool) (p : Nat) :
    endsAny f s (l ++ l') fwd inv p = endsAny f s l fwd inv p ++ endsAny f s l' fwd inv p := by
  induction l with
  | nil => rfl
  | cons a l ih => simp [endsAny, ih]

theorem endsAny_flat (f : Flags) (s : List Byte) (l : List Ast) (fwd inv : Bool) (p : Nat) :
    endsAny f s (l.flatMap altParts) fwd inv p = l.flatMap (fun a => ends f s a fwd inv p) := by
  induction l with
  | nil => rfl
  | cons a l ih =>
    rw [List.flatMap_cons, endsAny_append, ih, List.flatMap_cons]
    cases a <;> simp [altParts, endsAny, ends]

/-- **C46**, alternation: `either` is ordered choice, the candidates of the operands come in the order of the operands. -/
theorem C46_either_order {l : List Ast} {a : Ast} (h : Xpr.either l = some a) (f : Flags) (s : List Byte) (p : Nat) :
    ends f s a true false p = l.flatMap (fun b => ends f s b true false p) := by
  match l, h with
  | [], h => simp [Xpr.either, Xpr.flatWrap] at h
  | [b], h =>
    simp only [Xpr.either, Xpr.flatWrap, Option.some.injEq] at h
    subst h; simp
  | b :: b' :: l, h =>
    rw [either_eq] at h
    cases h
    exact endsAny_flat f s _ _ _ _

theorem either_nameSpec {l : List Ast} {a : Ast} (h : Xpr.either l = some a) : nameSpec a = nameSpecAll l := by
  match l, h with
  | [], h => simp [Xpr.either, Xpr.flatWrap] at h
  | [b], h =>
    simp only [Xpr.either, Xpr.flatWrap, Option.some.injEq] at h
    subst h; simp [nameSpecAll]
  | b :: b' :: l, h =>
    rw [either_eq] at h
    cases h
    simp only [nameSpec, nameSpecAll_flatMap nameSpecAll_altParts]

theorem either_ok {l : List Ast} {a : Ast} (h : Xpr.either l = some a) {E : Env} {r : Nat} (hok : ∀ b ∈ l, Ok E r b) : Ok E r a := by
  match l, h with
  | [], h => simp [Xpr.either, Xpr.flatWrap] at h
  | [b], h =>
    simp only [Xpr.either, Xpr.flatWrap, Option.some.injEq] at h
    subst h; exact hok b (by simp)
  | b :: b' :: l, h =>
    rw [either_eq] at h
    cases h
    refine .alt ?_ (fun x hx => ?_)
    · have := (ok_altParts (hok b (by simp))).1
      simp [this]
    · obtain ⟨a, ha, hb⟩ := List.mem_flatMap.1 hx
      exact (ok_altParts (hok a ha)).2 x hb

theorem either_noBackref {l : List Ast} {a : Ast} (h : Xpr.either l = some a) (hb : l.all noBackref = true) :
    noBackref a = true := by
  match l, h with
  | [], h => simp [Xpr.either, Xpr.flatWrap] at h
  | [b], h =>
    simp only [Xpr.either, Xpr.flatWrap, Option.some.injEq] at h
    subst h; simpa using hb
  | b :: b' :: l, h =>
    rw [either_eq] at h
    cases h
    simp only [noBackref, noBackrefAll_eq]
    rw [List.all_eq_true] at hb ⊢
    intro x hx
    obtain ⟨a, ha, hx⟩ := List.mem_flatMap.1 hx
    have := hb a ha
    cases a with
    | alt l' =>
      simp only [noBackref, noBackrefAll_eq, List.all_eq_true] at this
      exact this x hx
    | _ => rw [List.mem_singleton.1 hx]; exact this

/-- With backreferences dissolving a nested alternation can change the verdict: `(?:(?:a|a)|bc)(?:\1c|(?=(b))x)` against
`(?:a|a|bc)(?:\1c|(?=(b))x)` on "abc". -/
theorem C46_either_backref_false : ∃ (l post : List Ast) (a : Ast) (s : List Byte) (res res' : Result),
    Xpr.either l = some a ∧ (Regex.mk (.seq (.alt l :: post)) []).Ok .randomAccess ∧
    (Regex.mk (.seq (a :: post)) []).Ok .randomAccess ∧
    (Regex.mk (.seq (a :: post)) []).match s = some res ∧ (Regex.mk (.seq (.alt l :: post)) []).match s = some res' ∧
    res.matched = true ∧ res'.matched = false := by
  refine ⟨[.alt [.lit (ch 'a'), .lit (ch 'a')], .seq [.lit (ch 'b'), .lit (ch 'c')]],
    [.alt [.seq [.backref 1, .lit (ch 'c')], .seq [.look .ahead (.cap 1 none (.lit (ch 'b'))), .lit (ch 'x')]]],
    .alt [.lit (ch 'a'), .lit (ch 'a'), .seq [.lit (ch 'b'), .lit (ch 'c')]], [ch 'a', ch 'b', ch 'c'],
    ⟨[some (0, 3), some (1, 2)], true⟩, ⟨[some (0, 0), some (1, 2)], false⟩, by simp [Xpr.either, Xpr.flatWrap, Xpr.flattenAlt],
    Regex.ok_of_okb (by decide), Regex.ok_of_okb (by decide), by decide, by decide, rfl, rfl⟩

theorem matchesAll_lits (f : Flags) (s w : List Byte) (i j : Nat) :
    MatchesAll f s (w.map .lit) i j ↔
      j = i + w.length ∧ ∀ k x, w[k]? = some x → CharAt s (i + k) (CharEq f.icase x) := by
  induction w generalizing i with
  | nil => simp [MatchesAll, eq_comm]
  | cons y w ih =>
    simp only [List.map_cons, MatchesAll, Matches, ih, List.length_cons]
    constructor
    · rintro ⟨t, ⟨rfl, h1⟩, rfl, h2⟩
      refine ⟨by omega, fun k x hx => ?_⟩
      cases k with
      | zero => simp only [List.getElem?_cons_zero, Option.some.injEq] at hx; subst hx; exact h1
      | succ k =>
        have := h2 k x (by simpa using hx)
        rw [show i + 1 + k = i + (k + 1) by omega] at this
        exact this
    · rintro ⟨rfl, h⟩
      refine ⟨i + 1, ⟨rfl, h 0 y rfl⟩, by omega, fun k x hx => ?_⟩
      have := h (k + 1) x (by simpa using hx)
      rw [show i + (k + 1) = i + 1 + k by omega] at this
      exact this

theorem str_ok (w : List Byte) (hw : w ≠ []) (fl : List RegexFlag) (cat : Cat) : (Regex.mk (Xpr.str w) fl).Ok cat := by
  intro s
  refine .seq (by simpa using hw) (fun a ha => ?_)
  obtain ⟨x, _, rfl⟩ := List.mem_map.1 ha
  exact .lit

/-- **C46**, strings: `str<S>` matches exactly `S` (with `icase`: exactly the strings of the same length that agree with it
character by character up to case). -/
theorem C46_str (w : List Byte) (hw : w ≠ []) (fl : List RegexFlag) (cat : Cat) (s : List Byte) :
    ∃ res, (Regex.mk (Xpr.str w) fl).match s cat = some res ∧
      (res.matched = true ↔ s.length = w.length ∧
        ∀ (k : Nat) (x y : Byte), w[k]? = some x → s[k]? = some y → CharEq (Flags.ofList fl).icase x y) ∧
      (RegexFlag.icase ∉ fl → (res.matched = true ↔ s = w)) := by
  have hd : declarative (Xpr.str w) = true := by
    simp [declarative, Xpr.str, noBackref, noPossessive, behindOk, noBackrefAll_eq, noPossessiveAll_eq, behindOkAll_eq,
      List.all_map, List.all_eq_true]
  obtain ⟨res, h1, h2⟩ := C02_match_language (Regex.mk (Xpr.str w) fl) cat (str_ok w hw fl cat) hd s
  have h3 : res.matched = true ↔ s.length = w.length ∧
      ∀ (k : Nat) (x y : Byte), w[k]? = some x → s[k]? = some y → CharEq (Flags.ofList fl).icase x y := by
    rw [h2]
    show MatchesAll _ s (w.map .lit) 0 s.length ↔ _
    rw [matchesAll_lits, Nat.zero_add]
    refine and_congr_right fun hl => ⟨fun h k x y hx hy => ?_, fun h k x hx => ?_⟩
    · obtain ⟨y', hy', h⟩ := h k x hx
      rw [Nat.zero_add, hy] at hy'
      cases hy'
      exact h
    · have hk : k < s.length := by rw [hl]; exact (List.getElem?_eq_some_iff.1 hx).1
      rw [Nat.zero_add]
      exact ⟨s[k], List.getElem?_eq_getElem hk, h k x _ hx (List.getElem?_eq_getElem hk)⟩
  refine ⟨res, h1, h3, fun hi => h3.trans ?_⟩
  have hic : (Flags.ofList fl).icase = false := by
    simp only [Flags.ofList, List.any_eq_false, beq_iff_eq]
    exact fun x hx h => hi (h ▸ hx)
  constructor
  · rintro ⟨hl, h⟩
    refine List.ext_getElem hl (fun k h1 h2 => ?_)
    have := h k _ _ (List.getElem?_eq_getElem h2) (List.getElem?_eq_getElem h1)
    rw [hic] at this
    rcases this with h | h
    · exact h.symm
    · exact absurd h.1 (by decide)
  · rintro rfl
    refine ⟨rfl, fun k x y hx hy => .inl ?_⟩
    rw [hx] at hy; cases hy; rfl

/-! Examples. -/

/-- `str<"ab"> >> (capture<1>(maybe(chr<'c'>)) >> group<1>)`: both operands are dissolved. -/
def exOperands : List Ast :=
  [Xpr.str [ch 'a', ch 'b'], .seq [Xpr.capture 1 none [Xpr.maybe .greedy [Xpr.chr (ch 'c')]], Xpr.group 1]]

example : Xpr.concat exOperands = some (.seq [.lit (ch 'a'), .lit (ch 'b'),
    .cap 1 none (.rep .greedy 0 (.fin 1) (.lit (ch 'c'))), .backref 1]) := by
  simp [Xpr.concat, Xpr.flatWrap, exOperands, Xpr.flattenSeq, Xpr.str, Xpr.capture, Xpr.maybe, Xpr.chr, Xpr.group, Xpr.pack,
    Xpr.between]

example := C46_concat exOperands [] .randomAccess (Regex.ok_of_okb (by decide))

example : (Regex.mk (.seq exOperands) []).match [ch 'a', ch 'b', ch 'c', ch 'c'] = some ⟨[some (0, 4), some (2, 3)], true⟩ := by
  decide


example := C46_str [ch 'a', ch 'B'] (by decide) [.icase] .forward [ch 'A', ch 'b']
example : (Regex.mk (Xpr.str [ch 'a', ch 'B']) [.icase]).match [ch 'A', ch 'b'] .forward = some ⟨[some (0, 2)], true⟩ := by
  decide

end Mregex
