import Verif.Props.Language
import Verif.Proof.Congr
import Verif.Proof.Flatten

/-!
# Flags: case, dotall, ungreedy, unroll, flag lists, iterator categories
-/

namespace Mregex
open Ast Spec

/-- Whether one character is accepted depends on `icase` and, for line breaks, on `dotall` only. -/
theorem matchOne_flags {f f' : Flags} {x : Byte} (h1 : f.icase = f'.icase) (h2 : f.dotall = f'.dotall ∨ ¬ LineBreak x)
    (a : Ast) : matchOne f a x = matchOne f' a x := by
  induction a using ind with
  | lit c => simp only [matchOne, h1]
  | range a b => simp only [matchOne, h1]
  | wildcard =>
    simp only [matchOne]
    rcases h2 with h2 | h2
    · rw [h2]
    · have : (x == 10#8 || x == 13#8) = false := by simpa [LineBreak] using h2
      cases f.dotall <;> cases f'.dotall <;> simp [this]
  | set l ih => simp only [matchOne, matchAny_eq]; exact any_congr' ih
  | alt l ih => simp only [matchOne, matchAny_eq]; exact any_congr' ih
  | neg a ih => simp only [matchOne, ih]
  | seq l ih => simp only [matchOne, matchSingle_eq]; exact congrArg _ (any_congr' ih)
  | rep m lo hi a ih => simp only [matchOne, ih]
  | _ => rfl

/-- With `icase`, letters that differ in case only are accepted alike. -/
theorem matchOne_flip {f : Flags} {x : Byte} (hi : f.icase = true) (hx : isAlpha x = true) (a : Ast) :
    matchOne f a (flipLowercaseBit x) = matchOne f a x := by
  have hl : asciiLower (flipLowercaseBit x) = asciiLower x := asciiLower_flip x hx
  induction a using ind with
  | lit c => rw [← lit_accepts, ← lit_accepts]
             simp only [accepts, hi, Bool.true_and]
             rw [Bool.eq_iff_iff]
             simp only [Bool.or_eq_true, beq_iff_eq]
             constructor
             · rintro (rfl | h)
               · exact .inr hl
               · exact .inr (h.trans hl)
             · rintro (rfl | h)
               · exact .inr hl.symm
               · exact .inr (h.trans hl.symm)
  | range a b =>
    rw [← range_accepts, ← range_accepts]
    simp only [accepts, hi, Bool.true_and]
    rw [range_fold, range_fold, isAlpha_flip, hx, flip_flip, Bool.true_and, Bool.true_and, Bool.or_comm]
  | wildcard =>
    have hne : ∀ y : Byte, isAlpha y = true → (y == 10#8 || y == 13#8) = false := by decide +kernel
    simp only [matchOne, hne x hx, hne (flipLowercaseBit x) (by rw [isAlpha_flip]; exact hx)]
  | set l ih => simp only [matchOne, matchAny_eq]; exact any_congr' ih
  | alt l ih => simp only [matchOne, matchAny_eq]; exact any_congr' ih
  | neg a ih => simp only [matchOne, ih]
  | seq l ih => simp only [matchOne, matchSingle_eq]; exact congrArg _ (any_congr' ih)
  | rep m lo hi a ih => simp only [matchOne, ih]
  | _ => rfl

theorem matchOne_icase {f : Flags} {x x' : Byte} (hi : f.icase = true) (h : CharEq true x x') (a : Ast) :
    matchOne f a x = matchOne f a x' := by
  rcases h with rfl | ⟨_, h⟩
  · rfl
  · rcases (asciiLower_eq_iff x x').1 h with rfl | ⟨ha, rfl⟩
    · rfl
    · exact (matchOne_flip hi ha a).symm

theorem backrefEquals_iff (icase : Bool) (x y : Byte) : backrefEquals icase x y = true ↔ CharEq icase x y := by
  rw [charEq_iff]
  simp only [backrefEquals, invertCase]
  cases icase with
  | false => simp
  | true =>
    cases h : isAlpha x with
    | false => simp
    | true => simp

theorem charEq_trans {icase : Bool} {x y z : Byte} (h : CharEq icase x y) (h' : CharEq icase y z) : CharEq icase x z := by
  rcases h with rfl | ⟨hi, h⟩
  · exact h'
  · rcases h' with rfl | ⟨_, h'⟩
    · exact .inr ⟨hi, h⟩
    · exact .inr ⟨hi, h.trans h'⟩

theorem linebreak_charEq {x y : Byte} (h : CharEq true x y) : isLinebreak x = isLinebreak y := by
  have hne : ∀ y : Byte, isAlpha y = true → isLinebreak y = false := by decide +kernel
  rcases h with rfl | ⟨_, h⟩
  · rfl
  · rcases (asciiLower_eq_iff x y).1 h with rfl | ⟨ha, rfl⟩
    · rfl
    · rw [hne x ha, hne _ (by rw [isAlpha_flip]; exact ha)]

/-! ## C19 -/

/-- The inputs differ in the case of letters only. -/
def CaseEquivalent (s s' : List Byte) : Prop :=
  s.length = s'.length ∧ ∀ (i : Nat) x x', s[i]? = some x → s'[i]? = some x' → asciiLower x = asciiLower x'

/-- **C19.** With `icase` the whole result (verdict and every group) of every method is the same for inputs that differ in
the case of letters only. -/
theorem C19_icase (R : Regex) (hi : .icase ∈ R.flags) (cat : Cat) (M : Method) (s s' : List Byte)
    (h : CaseEquivalent s s') : R.invoke M cat s' = R.invoke M cat s := by
  have hic : (Flags.ofList R.flags).icase = true := by
    simp only [Flags.ofList, List.any_eq_true, beq_iff_eq]; exact ⟨_, hi, rfl⟩
  refine invoke_envEq (b := false) ?_ (swapGreed_false _).symm M
  refine ⟨h.1, rfl, rfl, rfl, by simp [Regex.env], ?_, ?_, ?_⟩
  · intro i x x' h1 h2 a
    exact matchOne_icase hic (.inr ⟨rfl, h.2 i x x' h1 h2⟩) a
  · intro i x x' h1 h2
    exact linebreak_charEq (.inr ⟨rfl, h.2 i x x' h1 h2⟩)
  · intro i j x y x' y' h1 h2 h3 h4
    have e1 : CharEq true x x' := .inr ⟨rfl, h.2 i x x' h1 h3⟩
    have e2 : CharEq true y y' := .inr ⟨rfl, h.2 j y y' h2 h4⟩
    show backrefEquals (Flags.ofList R.flags).icase x y = backrefEquals (Flags.ofList R.flags).icase x' y'
    rw [hic, Bool.eq_iff_iff, backrefEquals_iff, backrefEquals_iff]
    exact ⟨fun h => charEq_trans (charEq_symm e1) (charEq_trans h e2),
      fun h => charEq_trans e1 (charEq_trans h (charEq_symm e2))⟩

/-- `([a-k]+)\1[^x]` with icase. -/
def exCase : Regex :=
  ⟨.seq [.cap 1 none (plus (.range (ch 'a') (ch 'k'))), .backref 1, .neg (.set [.lit (ch 'x')])], [.icase]⟩

example : exCase.invoke .search .randomAccess [ch 'x', ch 'A', ch 'b', ch 'a', ch 'B', ch 'Y'] =
    exCase.invoke .search .randomAccess [ch 'X', ch 'a', ch 'B', ch 'A', ch 'b', ch 'y'] := by
  refine C19_icase exCase (by decide) _ _ _ _ ⟨rfl, ?_⟩
  intro i x x' h1 h2
  match i with
  | 0 | 1 | 2 | 3 | 4 | 5 => cases h1; cases h2; decide
  | _ + 6 => cases h1

example : exCase.search [ch 'x', ch 'A', ch 'b', ch 'a', ch 'B', ch 'Y'] =
    some ⟨[some (1, 6), some (1, 3)], true⟩ := by decide

/-! ## C20 -/

/-- **C20.** `.` accepts one byte: any with `dotall`, otherwise any but `\n` and `\r`. -/
theorem C20_wildcard (fl : List RegexFlag) (cat : Cat) (x : Byte) :
    ∃ res, (Regex.mk .wildcard fl).match [x] cat = some res ∧
      (res.matched = true ↔ (.dotall ∈ fl ∨ (x ≠ 10#8 ∧ x ≠ 13#8))) := by
  have hok : (Regex.mk .wildcard fl).Ok cat := fun s => .wildcard
  obtain ⟨res, h1, h2⟩ := C02_match_language _ cat hok (by rfl) [x]
  refine ⟨res, h1, h2.trans ?_⟩
  have hd : (Flags.ofList fl).dotall = true ↔ .dotall ∈ fl := by
    simp [Flags.ofList, List.any_eq_true]
  simp only [Matches, Regex.fl, CharAt, LineBreak, hd, List.length_singleton]
  constructor
  · rintro ⟨_, y, hy, h⟩
    cases hy
    rcases h with h | h
    · exact .inl h
    · exact .inr ⟨fun e => h (.inl e), fun e => h (.inr e)⟩
  · rintro h
    refine ⟨trivial, x, rfl, ?_⟩
    rcases h with h | h
    · exact .inl h
    · exact .inr (fun e => e.elim h.1 h.2)

/-- **C20.** On inputs without line breaks `dotall` is irrelevant for every regex and method: removing it from (or
adding it to) the flags does not change the result. -/
theorem C20_dotall_irrelevant (R R' : Regex) (ha : R'.ast = R.ast)
    (hf : ∀ f, f ≠ .dotall → (f ∈ R'.flags ↔ f ∈ R.flags)) (cat : Cat) (M : Method) (s : List Byte)
    (hs : ∀ x ∈ s, x ≠ 10#8 ∧ x ≠ 13#8) : R'.invoke M cat s = R.invoke M cat s := by
  have hany : ∀ f, f ≠ .dotall → R.flags.any (· == f) = R'.flags.any (· == f) := by
    intro f hne
    rw [Bool.eq_iff_iff]
    simpa [List.any_eq_true] using (hf f hne).symm
  refine invoke_envEq (b := false) ?_ (by rw [swapGreed_false, ha]) M
  refine ⟨rfl, by simp only [Regex.env, Regex.names, ha], rfl, hany .multiline (by decide), ?_, ?_, ?_, ?_⟩
  · simpa [Regex.env, Flags.ofList] using (hany .ungreedy (by decide)).symm
  · intro i x x' h1 h2 a
    obtain rfl : x = x' := Option.some.inj (h1.symm.trans h2)
    have hx := hs x (List.mem_of_getElem? h1)
    exact matchOne_flags (hany .icase (by decide)) (.inr (fun e => e.elim hx.1 hx.2)) a
  · intro i x x' h1 h2
    obtain rfl : x = x' := Option.some.inj (h1.symm.trans h2)
    rfl
  · intro i j x y x' y' h1 h2 h3 h4
    obtain rfl : x = x' := Option.some.inj (h1.symm.trans h3)
    obtain rfl : y = y' := Option.some.inj (h2.symm.trans h4)
    exact congrArg (fun b => backrefEquals b x y) (hany .icase (by decide))

example : (Regex.mk (star .wildcard) [.dotall, .icase]).match [ch 'a', ch 'b'] =
    (Regex.mk (star .wildcard) [.icase]).match [ch 'a', ch 'b'] :=
  C20_dotall_irrelevant ⟨star .wildcard, [.icase]⟩ ⟨star .wildcard, [.dotall, .icase]⟩ rfl
    (fun f hf => by cases f <;> simp_all) _ .match _ (by decide)

/-- The restriction is needed. -/
example : (Regex.mk (star .wildcard) [.dotall]).match [10#8] ≠ (Regex.mk (star .wildcard) []).match [10#8] := by decide

/-! ## C21 -/

theorem env_flags_eq (l l' : List RegexFlag) (h : ∀ f, f ∈ l' ↔ f ∈ l) : Flags.ofList l' = Flags.ofList l := by
  have hany : ∀ f, l'.any (· == f) = l.any (· == f) := by
    intro f
    rw [Bool.eq_iff_iff]
    simpa [List.any_eq_true] using h f
  simp only [Flags.ofList, hany]

/-- **C21.** `ungreedy` means: greedy and lazy are exchanged everywhere, possessive quantifiers stay.  The results (verdict
and all groups) of every method are those of the exchanged regex without the flag. -/
theorem C21_ungreedy_swaps (R R' : Regex) (hu : .ungreedy ∈ R.flags) (hu' : .ungreedy ∉ R'.flags)
    (hf : ∀ f, f ≠ .ungreedy → (f ∈ R'.flags ↔ f ∈ R.flags)) (ha : R'.ast = swapGreed true R.ast) (cat : Cat)
    (M : Method) (s : List Byte) : R'.invoke M cat s = R.invoke M cat s := by
  have hany : ∀ f, f ≠ .ungreedy → R.flags.any (· == f) = R'.flags.any (· == f) := by
    intro f hne
    rw [Bool.eq_iff_iff]
    simpa [List.any_eq_true] using (hf f hne).symm
  have h1 : R.flags.any (· == .ungreedy) = true := by simpa [List.any_eq_true] using hu
  have h2 : R'.flags.any (· == .ungreedy) = false := by
    rw [List.any_eq_false]
    intro x hx he
    rw [beq_iff_eq] at he
    subst he
    exact hu' hx
  refine invoke_envEq (b := true) ?_ ha M
  refine ⟨rfl, by simp only [Regex.env, Regex.names, ha, nameSpec_swap], rfl, hany .multiline (by decide), ?_, ?_, ?_, ?_⟩
  · simp [Regex.env, Flags.ofList, h1, h2]
  · intro i x x' h1 h2 a
    obtain rfl : x = x' := Option.some.inj (h1.symm.trans h2)
    exact matchOne_flags (hany .icase (by decide)) (.inl (hany .dotall (by decide))) a
  · intro i x x' h1 h2
    obtain rfl : x = x' := Option.some.inj (h1.symm.trans h2)
    rfl
  · intro i j x y x' y' h1 h2 h3 h4
    obtain rfl : x = x' := Option.some.inj (h1.symm.trans h3)
    obtain rfl : y = y' := Option.some.inj (h2.symm.trans h4)
    exact congrArg (fun b => backrefEquals b x y) (hany .icase (by decide))

/-- **C21.** The flag never changes the verdict of a method for regexes with a declarative language. -/
theorem C21_ungreedy_verdict (R R' : Regex) (ha : R'.ast = R.ast) (hf : ∀ f, f ≠ .ungreedy → (f ∈ R'.flags ↔ f ∈ R.flags))
    (cat : Cat) (hR : R.Ok cat) (hR' : R'.Ok cat) (hd : declarative R.ast = true) (M : Method) (s : List Byte) :
    ∃ res res', R.invoke M cat s = some res ∧ R'.invoke M cat s = some res' ∧ res.matched = res'.matched := by
  have hany : ∀ f, f ≠ .ungreedy → R.flags.any (· == f) = R'.flags.any (· == f) := by
    intro f hne
    rw [Bool.eq_iff_iff]
    simpa [List.any_eq_true] using (hf f hne).symm
  have hm : ∀ i j, Matches R'.fl s R'.ast i j ↔ Matches R.fl s R.ast i j := by
    intro i j
    rw [ha]
    rw [matches_flags (f := R'.fl) (f' := R.fl) (hany .icase (by decide)).symm (hany .dotall (by decide)).symm
      (hany .multiline (by decide)).symm]
  have hd' : declarative R'.ast = true := by rw [ha]; exact hd
  cases M with
  | «match» =>
    obtain ⟨res, h1, h2⟩ := C02_match_language R cat hR hd s
    obtain ⟨res', h1', h2'⟩ := C02_match_language R' cat hR' hd' s
    exact ⟨res, res', h1, h1', by rw [Bool.eq_iff_iff, h2, h2', hm]⟩
  | matchPrefix =>
    obtain ⟨res, h1, h2, _⟩ := C03_matchPrefix_language R cat hR hd s
    obtain ⟨res', h1', h2', _⟩ := C03_matchPrefix_language R' cat hR' hd' s
    exact ⟨res, res', h1, h1', by rw [Bool.eq_iff_iff, h2, h2']; simp only [hm]⟩
  | search =>
    obtain ⟨res, h1, h2, _⟩ := C04_search_leftmost R cat hR hd s
    obtain ⟨res', h1', h2', _⟩ := C04_search_leftmost R' cat hR' hd' s
    exact ⟨res, res', h1, h1', by rw [Bool.eq_iff_iff, h2, h2']; simp only [hm]⟩

example : (Regex.mk (.seq [.cap 1 none (star .wildcard), .lit (ch 'b')]) [.ungreedy]).search [ch 'a', ch 'b', ch 'b'] =
    (Regex.mk (.seq [.cap 1 none (.rep .lazy 0 .inf .wildcard), .lit (ch 'b')]) []).search [ch 'a', ch 'b', ch 'b'] :=
  (C21_ungreedy_swaps ⟨.seq [.cap 1 none (star .wildcard), .lit (ch 'b')], [.ungreedy]⟩
    ⟨.seq [.cap 1 none (.rep .lazy 0 .inf .wildcard), .lit (ch 'b')], []⟩ (by decide) (by decide)
    (fun f hf => by cases f <;> simp_all) (by simp [star, swapGreed, swapGreedAll, swapMode]) _ .search _).symm

/-- The flag does change which match is found. -/
example : (Regex.mk (star .wildcard) [.ungreedy]).matchPrefix [ch 'a'] ≠ (Regex.mk (star .wildcard) []).matchPrefix [ch 'a'] := by
  decide

/-! ## C22, C23 -/

/-- **C22.** `unroll` is unobservable: regexes whose flags differ in `unroll` only give the same results. -/
theorem C22_unroll (R R' : Regex) (ha : R'.ast = R.ast) (hf : ∀ f, f ≠ .unroll → (f ∈ R'.flags ↔ f ∈ R.flags))
    (cat : Cat) (M : Method) (s : List Byte) : R'.invoke M cat s = R.invoke M cat s := by
  have hany : ∀ f, f ≠ .unroll → R.flags.any (· == f) = R'.flags.any (· == f) := by
    intro f hne
    rw [Bool.eq_iff_iff]
    simpa [List.any_eq_true] using (hf f hne).symm
  refine invoke_envEq (b := false) ?_ (by rw [swapGreed_false, ha]) M
  refine ⟨rfl, by simp only [Regex.env, Regex.names, ha], rfl, hany .multiline (by decide), ?_, ?_, ?_, ?_⟩
  · simpa [Regex.env, Flags.ofList] using (hany .ungreedy (by decide)).symm
  · intro i x x' h1 h2 a
    obtain rfl : x = x' := Option.some.inj (h1.symm.trans h2)
    exact matchOne_flags (hany .icase (by decide)) (.inl (hany .dotall (by decide))) a
  · intro i x x' h1 h2
    obtain rfl : x = x' := Option.some.inj (h1.symm.trans h2)
    rfl
  · intro i j x y x' y' h1 h2 h3 h4
    obtain rfl : x = x' := Option.some.inj (h1.symm.trans h3)
    obtain rfl : y = y' := Option.some.inj (h2.symm.trans h4)
    exact congrArg (fun b => backrefEquals b x y) (hany .icase (by decide))

example : (Regex.mk (.rep .greedy 2 (.fin 2) (.cap 1 none .wildcard)) [.unroll]).match [ch 'a', ch 'b'] =
    (Regex.mk (.rep .greedy 2 (.fin 2) (.cap 1 none .wildcard)) []).match [ch 'a', ch 'b'] :=
  C22_unroll ⟨.rep .greedy 2 (.fin 2) (.cap 1 none .wildcard), []⟩ ⟨_, [.unroll]⟩ rfl (fun f hf => by cases f <;> simp_all) _
    .match _

/-- **C23.** Only the set of flags matters. -/
theorem C23_flag_set (a : Ast) (l l' : List RegexFlag) (h : ∀ f, f ∈ l' ↔ f ∈ l) (cat : Cat) (M : Method) (s : List Byte) :
    (Regex.mk a l').invoke M cat s = (Regex.mk a l).invoke M cat s := by
  simp only [Regex.invoke, Regex.env, Regex.names, env_flags_eq l l' h]

/-- **C23.** Flags may be added in any order and repeatedly. -/
theorem C23_add_flags (R : Regex) (l l' : List RegexFlag) (cat : Cat) (M : Method) (s : List Byte) :
    ((R.addFlags l).addFlags l').invoke M cat s = ((R.addFlags l').addFlags (l ++ l)).invoke M cat s :=
  C23_flag_set R.ast _ _ (fun f => by simp only [Regex.addFlags, List.mem_append]; exact ⟨fun h => by
    rcases h with (h | h) | h <;> simp [h], fun h => by rcases h with (h | h) | h | h <;> simp [h]⟩) cat M s

/-- **C23.** `clear_flags` removes all flags: the result is that of the same AST without flags. -/
theorem C23_clear_flags (R : Regex) :
    (∀ f, f ∉ R.clearFlags.flags) ∧ R.clearFlags.ast = R.ast ∧
      ∀ cat M s, R.clearFlags.invoke M cat s = (Regex.mk R.ast []).invoke M cat s :=
  ⟨fun f h => (by cases h), rfl, fun _ _ _ => rfl⟩

example : (Regex.mk (star .wildcard) [.icase, .dotall, .icase]).match [10#8] =
    (Regex.mk (star .wildcard) [.dotall, .icase]).match [10#8] :=
  C23_flag_set _ _ _ (fun f => by cases f <;> simp) _ .match _

example : (Regex.mk .wildcard [.dotall]).clearFlags.match [10#8] ≠ (Regex.mk .wildcard [.dotall]).match [10#8] := by decide

/-! ## C24 -/

/-- **C24.** For a regex that may be used with both iterator categories every method gives the same verdict, on success the
same groups, and on failure the same groups except group 0. -/
theorem C24_category (R : Regex) (cat cat' : Cat) (h1 : R.Ok cat) (h2 : R.Ok cat') (M : Method) (s : List Byte) :
    ∃ res res', R.invoke M cat s = some res ∧ R.invoke M cat' s = some res' ∧ res.matched = res'.matched ∧
      (res.matched = true → res.groups = res'.groups) ∧ res.groups.tail = res'.groups.tail := by
  obtain ⟨res, hr⟩ := C01_methods_return R cat h1 M s
  obtain ⟨res', hr'⟩ := C01_methods_return R cat' h2 M s
  refine sameCall_of hr hr' ?_
  rw [invoke_eq_with, invoke_eq_with]
  have hm : MSim s.length (mtch (R.env cat s) (fuelFor R.ast s) R.ast 0) (mtch (R.env cat' s) (fuelFor R.ast s) R.ast 0) :=
    msim_mtch (E := R.env cat s) (cat' := cat') _ R.ast 0 (h1 s) (h2 s) (Nat.le_refl _)
  exact sameResult_with M hm (Nat.zero_le _) (initCtx R.names)

/-- `(?:ab)*(a{2}).*?c` -/
def exCat : Regex :=
  ⟨.seq [star (.seq [.lit (ch 'a'), .lit (ch 'b')]), .cap 1 none (.rep .greedy 2 (.fin 2) (.lit (ch 'a'))),
    .rep .lazy 0 .inf .wildcard, .lit (ch 'c')], []⟩

example : ∃ res res', exCat.invoke .search .forward [ch 'a', ch 'b', ch 'a', ch 'a', ch 'c'] = some res ∧
    exCat.invoke .search .randomAccess [ch 'a', ch 'b', ch 'a', ch 'a', ch 'c'] = some res' ∧ res.matched = res'.matched ∧
      (res.matched = true → res.groups = res'.groups) ∧ res.groups.tail = res'.groups.tail :=
  C24_category exCat _ _ (Regex.ok_of_okb (by decide)) (Regex.ok_of_okb (by decide)) .search _

example : exCat.search [ch 'a', ch 'b', ch 'a', ch 'a', ch 'c'] .forward = some ⟨[some (0, 5), some (2, 4)], true⟩ := by decide

/-- Group 0 of a failed match does depend on the category. -/
theorem C24_failed_group0_differs :
    (Regex.mk (.seq [.lit (ch 'a'), .lit (ch 'b')]) []).match [ch 'a', ch 'c'] .forward = some ⟨[some (0, 1)], false⟩ ∧
    (Regex.mk (.seq [.lit (ch 'a'), .lit (ch 'b')]) []).match [ch 'a', ch 'c'] .randomAccess = some ⟨[some (0, 0)], false⟩ := by
  decide

end Mregex
