import Verif.Proof.Ends

/-!
# `ends` lists exactly the ends of the matches of the declarative semantics
-/

namespace Mregex
open Ast Spec

/-! ### Shape requirements of `Ok` that do not mention iterators -/

mutual
def wf : Ast → Bool
  | .set l => l.all triv && wfAll l
  | .neg a => (triv a || isAssertion a) && wf a
  | .seq l => !l.isEmpty && wfAll l
  | .alt l => !l.isEmpty && wfAll l
  | .cap _ _ a => wf a
  | .rep _ lo (.fin h) a => decide (lo ≤ h) && wf a
  | .rep _ _ .inf a => wf a
  | .look _ a => wf a
  | _ => true
def wfAll : List Ast → Bool
  | [] => true
  | a :: l => wf a && wfAll l
end

theorem wfAll_eq (l : List Ast) : wfAll l = l.all wf := by
  induction l with
  | nil => rfl
  | cons a l ih => simp [wfAll, ih]

theorem all_triv_invert (l : List Ast) : (l.map invert).all triv = l.all triv := by
  rw [List.all_map]; exact all_congr' (fun a _ => triv_invert a)

theorem wf_invert (a : Ast) : wf (invert a) = wf a := by
  induction a using ind with
  | seq l ih =>
    simp only [invert, wf, wfAll_eq, invertAll_eq, List.all_reverse, List.all_map, List.isEmpty_reverse, List.isEmpty_map]
    exact congrArg _ (all_congr' ih)
  | alt l ih =>
    simp only [invert, wf, wfAll_eq, invertAll_eq, List.all_map, List.isEmpty_map]
    exact congrArg _ (all_congr' ih)
  | set l ih =>
    simp only [invert, wf, invertAll_eq, wfAll_eq, all_triv_invert]
    rw [List.all_map]
    exact congrArg _ (all_congr' ih)
  | cap id n a ih => simpa only [invert, wf] using ih
  | rep m lo hi a ih => cases hi <;> simp only [invert, wf, ih]
  | neg a ih => simp only [invert, wf, ih, triv_invert, isAssertion_invert]
  | look d a ih => cases d <;> simp only [invert, wf]
  | _ => simp only [invert, wf]

theorem wf_of_ok {E : Env} {r : Nat} {a : Ast} (h : Ok E r a) : wf a = true := by
  induction h with
  | set h1 _ ih => simpa [wf, wfAll_eq] using ⟨h1, ih⟩
  | neg h1 _ ih => simpa [wf] using ⟨h1, ih⟩
  | seq h1 _ ih => simpa [wf, wfAll_eq] using ⟨h1, ih⟩
  | alt h1 _ ih => simpa [wf, wfAll_eq] using ⟨h1, ih⟩
  | cap _ _ _ ih => simpa [wf] using ih
  | repFin h1 _ ih => simpa [wf] using ⟨h1, ih⟩
  | repInf _ ih => simpa [wf] using ih
  | ahead _ ih => simpa [wf] using ih
  | behindTriv _ _ _ ih => simpa [wf] using ih
  | behind _ _ ih => simpa [wf, wf_invert] using ih
  | _ => simp [wf]

/-! ### One-character nodes -/

theorem charEq_range (f : Flags) (a b x : Byte) :
    (∃ y : Byte, a.toNat ≤ y.toNat ∧ y.toNat ≤ b.toNat ∧ CharEq f.icase y x) ↔ accepts f (.range a b) x = true := by
  rw [range_accepts_iff]
  constructor
  · rintro ⟨y, h1, h2, rfl | ⟨hi, h⟩⟩
    · exact .inl ⟨h1, h2⟩
    · rw [asciiLower_eq_iff] at h
      rcases h with rfl | ⟨ha, rfl⟩
      · exact .inl ⟨h1, h2⟩
      · exact .inr ⟨hi, by rw [isAlpha_flip]; exact ha, by rw [flip_flip]; exact h1, by rw [flip_flip]; exact h2⟩
  · rintro (⟨h1, h2⟩ | ⟨hi, ha, h1, h2⟩)
    · exact ⟨x, h1, h2, .inl rfl⟩
    · exact ⟨_, h1, h2, .inr ⟨hi, asciiLower_flip x ha⟩⟩
where
  range_accepts_iff : accepts f (.range a b) x = true ↔ (a.toNat ≤ x.toNat ∧ x.toNat ≤ b.toNat) ∨
      (f.icase = true ∧ isAlpha x = true ∧ a.toNat ≤ (flipLowercaseBit x).toNat ∧ (flipLowercaseBit x).toNat ≤ b.toNat) := by
    have h0 : accepts f (.range a b) x =
        (inRange a b x || (f.icase && (isAlpha x && inRange a b (flipLowercaseBit x)))) := by
      simp only [accepts]
      cases f.icase with
      | false => simp
      | true => simpa using range_fold a b x
    rw [h0]
    simp [inRange]

theorem accepts_lit_iff (f : Flags) (c x : Byte) : accepts f (.lit c) x = true ↔ CharEq f.icase c x := by
  simp [accepts, CharEq]

section
variable {f : Flags} {s : List Byte}

theorem matchesAny_iff {l : List Ast} {i j : Nat} : MatchesAny f s l i j ↔ ∃ a ∈ l, Matches f s a i j := by
  induction l with
  | nil => simp [MatchesAny]
  | cons a l ih => simp [MatchesAny, ih]

theorem charAt_and {i : Nat} {P : Byte → Prop} {x : Byte} (h : s[i]? = some x) : CharAt s i P ↔ P x := by
  unfold CharAt
  constructor
  · rintro ⟨y, h1, h2⟩; rw [h] at h1; cases h1; exact h2
  · exact fun hp => ⟨x, h, hp⟩

/-- Trivially matchable nodes match exactly one byte out of a set. -/
theorem matches_triv {a : Ast} (hw : wf a = true) (ht : triv a = true) {i j : Nat} :
    Matches f s a i j ↔ j = i + 1 ∧ CharAt s i (fun x => accepts f a x = true) := by
  induction a using ind generalizing i j with
  | lit c =>
    simp only [Matches]
    rw [show (CharEq f.icase c) = (fun x => accepts f (.lit c) x = true) by
      funext x; exact propext (accepts_lit_iff f c x).symm]
  | range a b =>
    simp only [Matches]
    rw [show (fun x => ∃ y : Byte, a.toNat ≤ y.toNat ∧ y.toNat ≤ b.toNat ∧ CharEq f.icase y x) =
      (fun x => accepts f (.range a b) x = true) by funext x; exact propext (charEq_range f a b x)]
  | wildcard =>
    simp only [Matches]
    rw [show (fun x => f.dotall = true ∨ ¬ LineBreak x) = (fun x => accepts f .wildcard x = true) by
      funext x; simp [accepts, LineBreak]]
  | set l ih =>
    simp only [wf, wfAll_eq, Bool.and_eq_true, List.all_eq_true] at hw
    simp only [Matches, matchesAny_iff]
    constructor
    · rintro ⟨rfl, a, ha, h⟩
      obtain ⟨_, x, hx, hacc⟩ := (ih a ha (hw.2 a ha) (hw.1 a ha)).1 h
      refine ⟨rfl, x, hx, ?_⟩
      simp only [accepts, acceptsAny_eq, List.any_eq_true]
      exact ⟨a, ha, hacc⟩
    · rintro ⟨rfl, x, hx, hacc⟩
      simp only [accepts, acceptsAny_eq, List.any_eq_true] at hacc
      obtain ⟨a, ha, hacc⟩ := hacc
      exact ⟨rfl, a, ha, (ih a ha (hw.2 a ha) (hw.1 a ha)).2 ⟨rfl, x, hx, hacc⟩⟩
  | neg a ih =>
    simp only [triv, Bool.not_eq_true'] at ht
    simp only [wf, ht, Bool.or_false, Bool.and_eq_true] at hw
    simp only [Matches, assertion_eq, ht]
    simp only [Bool.false_eq_true, if_false]
    constructor
    · rintro ⟨rfl, hi, h⟩
      refine ⟨rfl, s[i], List.getElem?_eq_getElem hi, ?_⟩
      rw [ih hw.2 hw.1, charAt_and (List.getElem?_eq_getElem hi)] at h
      simp only [accepts]
      simpa using h
    · rintro ⟨rfl, x, hx, h⟩
      refine ⟨rfl, (List.getElem?_eq_some_iff.1 hx).1, ?_⟩
      rw [ih hw.2 hw.1, charAt_and hx]
      simp only [accepts] at h
      simpa using h
  | seq l ih =>
    match l with
    | [] => simp [triv, trivSingle] at ht
    | [a] =>
      simp only [triv, trivSingle] at ht
      simp only [wf, wfAll_eq, Bool.and_eq_true, List.all_cons] at hw
      have e : (fun x => accepts f (.seq [a]) x = true) = (fun x => accepts f a x = true) := by
        funext x; simp [accepts, acceptsOnly]
      rw [e, ← ih a (by simp) hw.2.1 ht]
      simp [Matches, MatchesAll]
    | a :: b :: l => simp [triv, trivSingle] at ht
  | alt l ih =>
    simp only [wf, wfAll_eq, Bool.and_eq_true, List.all_eq_true] at hw
    simp only [triv, trivAlt_eq, Bool.and_eq_true, List.all_eq_true] at ht
    simp only [Matches, matchesAny_iff]
    constructor
    · rintro ⟨a, ha, h⟩
      obtain ⟨rfl, x, hx, hacc⟩ := (ih a ha (hw.2 a ha) (ht.2 a ha)).1 h
      refine ⟨rfl, x, hx, ?_⟩
      simp only [accepts, acceptsAny_eq, List.any_eq_true]
      exact ⟨a, ha, hacc⟩
    · rintro ⟨rfl, x, hx, hacc⟩
      simp only [accepts, acceptsAny_eq, List.any_eq_true] at hacc
      obtain ⟨a, ha, hacc⟩ := hacc
      exact ⟨a, ha, (ih a ha (hw.2 a ha) (ht.2 a ha)).2 ⟨rfl, x, hx, hacc⟩⟩
  | rep m lo hi a ih =>
    simp only [triv, Bool.and_eq_true, beq_iff_eq] at ht
    obtain ⟨⟨rfl, rfl⟩, ht⟩ := ht
    simp only [wf, Bool.and_eq_true] at hw
    have e : (fun x => accepts f (.rep m 1 (.fin 1) a) x = true) = (fun x => accepts f a x = true) := by
      funext x; simp [accepts]
    rw [e, ← ih hw.2 ht]
    simp only [Matches]
    constructor
    · rintro ⟨k, h1, h2, h3⟩
      have : k = 1 := by simp only [AtMost] at h2; omega
      subst this
      obtain ⟨t, h3, rfl⟩ := h3
      exact h3
    · intro h
      exact ⟨1, by omega, by simp [AtMost], j, h, rfl⟩
  | look d a ih => simp [triv] at ht
  | cap id n a ih => simp [triv] at ht
  | _ => simp [triv] at ht

/-- Assertions do not consume. -/
theorem matches_assertion {a : Ast} (ha : assertion a = true) {i j : Nat} (h : Matches f s a i j) : i = j := by
  rw [assertion_eq] at ha
  induction a using ind generalizing i j with
  | neg a ih =>
    simp only [isAssertion] at ha
    simp only [Matches, assertion_eq, ha, if_true] at h
    exact h.1
  | seq l ih =>
    match l with
    | [] => simp [isAssertion] at ha
    | [a] =>
      simp only [isAssertion] at ha
      simp only [Matches, MatchesAll] at h
      obtain ⟨t, h1, h2⟩ := h
      rw [← h2]
      exact ih a (by simp) ha h1
    | a :: b :: l => simp [isAssertion] at ha
  | alt l ih =>
    match l with
    | [] => simp [isAssertion] at ha
    | [a] =>
      simp only [isAssertion] at ha
      simp only [Matches, MatchesAny, or_false] at h
      exact ih a (by simp) ha h
    | a :: b :: l => simp [isAssertion] at ha
  | rep m lo hi a ih =>
    simp only [isAssertion, Bool.and_eq_true, beq_iff_eq] at ha
    obtain ⟨⟨⟨_, rfl⟩, rfl⟩, ha⟩ := ha
    simp only [Matches] at h
    obtain ⟨k, h1, h2, h3⟩ := h
    have : k = 1 := by simp only [AtMost] at h2; omega
    subst this
    obtain ⟨t, h3, rfl⟩ := h3
    exact ih ha h3
  | look d a ih => cases d <;> (simp only [Matches] at h; exact h.1)
  | bol => simp only [Matches] at h; exact h.1
  | boi => simp only [Matches] at h; exact h.1
  | eol => simp only [Matches] at h; exact h.1
  | eoi => simp only [Matches] at h; exact h.1
  | wordB => simp only [Matches] at h; exact h.1
  | _ => simp [isAssertion] at ha

end

/-! ### Iterations -/

theorem pow_iter {R : Nat → Nat → Prop} {k p q : Nat} : Iter R k p q ↔ Pow R k p q := by
  induction k generalizing p with
  | zero => exact Iff.rfl
  | succ k ih => simp only [Iter, Pow, ih]

theorem Pow.snoc {R : Nat → Nat → Prop} {k p q t : Nat} (h : Pow R k p q) (h' : R q t) : Pow R (k + 1) p t :=
  h.comp (Pow.one.2 h')

theorem pow_flip {R : Nat → Nat → Prop} {k p q : Nat} : Pow (fun p q => R q p) k p q ↔ Pow R k q p := by
  induction k generalizing p with
  | zero => exact eq_comm
  | succ k ih =>
    constructor
    · rintro ⟨t, h1, h2⟩
      exact (ih.1 h2).snoc h1
    · intro h
      obtain ⟨t, h1, h2⟩ := Pow.split (i := k) (j := 1) h
      exact ⟨t, Pow.one.1 h2, ih.2 h1⟩

theorem pow_congr_on {R R' : Nat → Nat → Prop} {n : Nat} (h : ∀ p q, p ≤ n → (R p q ↔ R' p q))
    (hle : ∀ p q, p ≤ n → R p q → q ≤ n) {k p q : Nat} (hp : p ≤ n) : Pow R k p q ↔ Pow R' k p q := by
  induction k generalizing p with
  | zero => exact Iff.rfl
  | succ k ih =>
    constructor
    · rintro ⟨t, h1, h2⟩
      exact ⟨t, (h p t hp).1 h1, (ih (hle p t hp h1)).1 h2⟩
    · rintro ⟨t, h1, h2⟩
      have h1' := (h p t hp).2 h1
      exact ⟨t, h1', (ih (hle p t hp h1')).2 h2⟩

section
variable {E : Env} {r : Nat} {g : Nat → List Nat}

theorem mem_greedyStar (hin : Inside E r g) {k i p q : Nat} (hp : p ≤ E.inp.length) (hk : E.remaining r p < k)
    (h : Pow (Mem g) i p q) : q ∈ greedyStar g k p := by
  induction i generalizing p k with
  | zero =>
    obtain ⟨k, rfl⟩ : ∃ j, k = j + 1 := ⟨k - 1, by omega⟩
    have : p = q := h
    subst this
    simp [greedyStar]
  | succ i ih =>
    obtain ⟨t, h1, h2⟩ := h
    have hr := hin p t hp h1
    by_cases htp : t = p
    · subst htp; exact ih hp hk h2
    · obtain ⟨k, rfl⟩ : ∃ j, k = j + 1 := ⟨k - 1, by omega⟩
      have := hr.remaining_lt (fun e => htp e.symm)
      simp only [greedyStar, List.mem_append, List.mem_flatMap, List.mem_filter]
      exact .inl ⟨t, ⟨h1, by simpa using htp⟩, ih hr.right_le (by omega) h2⟩

/-- Greedy and lazy quantifiers reach the same positions: those after an admitted number of iterations. -/
theorem mem_quantified_iff (hin : Inside E r g) {m : Mode} (hm : m ≠ .possessive) {u : Bool} {lo : Nat} {hi : Bound}
    (hlo : ∀ h, hi = .fin h → lo ≤ h) {p q : Nat} (hp : p ≤ E.inp.length) :
    q ∈ quantified E.inp.length m u lo hi g p ↔ ∃ i, lo ≤ i ∧ AtMost i hi ∧ Pow (Mem g) i p q := by
  constructor
  · intro h
    obtain ⟨i, h1, h2, h3⟩ := mem_quantified h
    refine ⟨i, h1, ?_, h3⟩
    cases hi with
    | inf => trivial
    | fin b => exact h2 b rfl (hlo b rfl)
  · rintro ⟨i, h1, h2, h3⟩
    obtain ⟨j, rfl⟩ : ∃ j, i = lo + j := ⟨i - lo, by omega⟩
    obtain ⟨t, h4, h5⟩ := Pow.split h3
    have ht := (hin.exactly lo p t hp (mem_exactly.2 h4)).right_le
    have hrem := Env.remaining_le (E := E) (r := r) ht
    simp only [quantified, List.mem_flatMap]
    refine ⟨t, ?_, ?_⟩
    · cases m
      · exact mem_exactly.2 h4
      · exact mem_exactly.2 h4
      · exact absurd rfl hm
    · cases hi with
      | inf =>
        have := mem_greedyStar hin (k := E.inp.length + 1) ht (by omega) h5
        cases m <;> cases u <;> simp only [extra, mem_lazyStar] <;> first | exact this | exact absurd rfl hm
      | fin b =>
        have : q ∈ greedyUpTo g (b - lo) t := mem_greedyUpTo.2 ⟨j, by simp only [AtMost] at h2; omega, h5⟩
        cases m <;> cases u <;> simp only [extra, mem_lazyUpTo] <;> first | exact this | exact absurd rfl hm

end

/-! ### The main equivalence -/

/-- A match read in the direction `fwd` from `p` to `q`. -/
def DM (f : Flags) (s : List Byte) (fwd : Bool) (a : Ast) (p q : Nat) : Prop :=
  if fwd then Matches f s a p q else Matches f s a q p

/-- The conditions under which `ends f s a fwd inv` is right. -/
def Readable (fwd inv : Bool) (a : Ast) : Prop :=
  (fwd = true ∧ inv = false ∧ behindOk a = true) ∨ (fwd = false ∧ inv = true ∧ reversible a = true) ∨
    palindromic a = true

theorem noPossessiveAll_eq (l : List Ast) : noPossessiveAll l = l.all noPossessive := by
  induction l with
  | nil => rfl
  | cons a l ih => simp [noPossessiveAll, ih]
theorem palindromicAll_eq (l : List Ast) : palindromicAll l = l.all palindromic := by
  induction l with
  | nil => rfl
  | cons a l ih => simp [palindromicAll, ih]
theorem reversibleAll_eq (l : List Ast) : reversibleAll l = l.all reversible := by
  induction l with
  | nil => rfl
  | cons a l ih => simp [reversibleAll, ih]
theorem behindOkAll_eq (l : List Ast) : behindOkAll l = l.all behindOk := by
  induction l with
  | nil => rfl
  | cons a l ih => simp [behindOkAll, ih]

theorem Readable.alt {fwd inv : Bool} {l : List Ast} (h : Readable fwd inv (.alt l)) : ∀ a ∈ l, Readable fwd inv a := by
  intro a ha
  rcases h with ⟨h1, h2, h⟩ | ⟨h1, h2, h⟩ | h
  · simp only [behindOk, behindOkAll_eq, List.all_eq_true] at h; exact .inl ⟨h1, h2, h a ha⟩
  · simp only [reversible, reversibleAll_eq, List.all_eq_true] at h; exact .inr (.inl ⟨h1, h2, h a ha⟩)
  · simp only [palindromic, palindromicAll_eq, List.all_eq_true] at h; exact .inr (.inr (h a ha))

theorem Readable.seq {fwd inv : Bool} {l : List Ast} (h : Readable fwd inv (.seq l)) : ∀ a ∈ l, Readable fwd inv a := by
  intro a ha
  rcases h with ⟨h1, h2, h⟩ | ⟨h1, h2, h⟩ | h
  · simp only [behindOk, behindOkAll_eq, List.all_eq_true] at h; exact .inl ⟨h1, h2, h a ha⟩
  · simp only [reversible, reversibleAll_eq, List.all_eq_true] at h; exact .inr (.inl ⟨h1, h2, h a ha⟩)
  · simp only [palindromic, palindromicAll_eq, Bool.and_eq_true, List.all_eq_true] at h
    exact .inr (.inr (h.2 a ha))

theorem Readable.seq_dir {fwd inv : Bool} {l : List Ast} (h : Readable fwd inv (.seq l)) :
    fwd = !inv ∨ l.length ≤ 1 := by
  rcases h with ⟨rfl, rfl, _⟩ | ⟨rfl, rfl, _⟩ | h
  · exact .inl rfl
  · exact .inl rfl
  · simp only [palindromic, Bool.and_eq_true, decide_eq_true_eq] at h; exact .inr h.1

theorem Readable.cap {fwd inv : Bool} {id : Nat} {n : GroupName} {a : Ast} (h : Readable fwd inv (.cap id n a)) :
    Readable fwd inv a := by
  simpa only [Readable, behindOk, reversible, palindromic] using h
theorem Readable.rep {fwd inv : Bool} {m : Mode} {lo : Nat} {hi : Bound} {a : Ast}
    (h : Readable fwd inv (.rep m lo hi a)) : Readable fwd inv a := by
  simpa only [Readable, behindOk, reversible, palindromic] using h
theorem Readable.neg {fwd inv : Bool} {a : Ast} (h : Readable fwd inv (.neg a)) : Readable fwd inv a := by
  simpa only [Readable, behindOk, reversible, palindromic] using h

section
variable {f : Flags} {s : List Byte}

theorem mem_oneChar {fwd : Bool} {P : Byte → Bool} {p q : Nat} :
    q ∈ oneChar s fwd P p ↔
      if fwd then q = p + 1 ∧ CharAt s p (fun x => P x = true) else p = q + 1 ∧ CharAt s q (fun x => P x = true) := by
  unfold oneChar readChar
  cases fwd with
  | true =>
    simp only [if_true]
    cases hs : s[p]? with
    | none => simp [CharAt, hs]
    | some x =>
      simp only [Option.map_some]
      rw [charAt_and hs]
      by_cases hP : P x = true <;> simp [hP]
  | false =>
    simp only [Bool.false_eq_true, if_false]
    cases p with
    | zero => simp
    | succ k =>
      dsimp only
      cases hs : s[k]? with
      | none =>
        simp only [Option.map_none, List.not_mem_nil, false_iff, not_and]
        intro h
        have : q = k := by omega
        subst this
        simp [CharAt, hs]
      | some x =>
        simp only [Option.map_some]
        by_cases hP : P x = true
        · simp only [hP, if_true, List.mem_singleton]
          constructor
          · rintro rfl; exact ⟨rfl, x, hs, hP⟩
          · rintro ⟨h, _⟩; omega
        · simp only [hP]
          simp only [Bool.false_eq_true, if_false, List.not_mem_nil, false_iff, not_and]
          intro h
          have : q = k := by omega
          subst this
          rw [charAt_and hs]
          exact hP

theorem mem_test {b : Bool} {p q : Nat} : q ∈ test b p ↔ p = q ∧ b = true := by
  cases b <;> simp [test, eq_comm]

theorem dm_triv {a : Ast} (hw : wf a = true) (ht : triv a = true) {fwd : Bool} {p q : Nat} :
    DM f s fwd a p q ↔ q ∈ oneChar s fwd (accepts f a) p := by
  rw [mem_oneChar]
  unfold DM
  cases fwd <;> simp only [matches_triv hw ht] <;> simp

theorem charBefore_iff {P : Byte → Prop} {t : Nat → Bool} (h : ∀ i, t i = true ↔ CharAt s i P) (p : Nat) :
    before t p = true ↔ CharBefore s p P := by
  cases p with
  | zero => simp [before, CharBefore]
  | succ k => simp [before, CharBefore, h]

theorem isBreakAt_iff (i : Nat) : isBreakAt s i = true ↔ CharAt s i LineBreak := by
  unfold isBreakAt
  cases hs : s[i]? with
  | none => simp [CharAt, hs]
  | some x => rw [charAt_and hs]; simp [LineBreak]

theorem isWordAt_iff (i : Nat) : isWordAt s i = true ↔ CharAt s i WordChar := by
  unfold isWordAt
  cases hs : s[i]? with
  | none => simp [CharAt, hs]
  | some x =>
    rw [charAt_and hs]
    simp only [← word_isWord {} x, wordChar_iff]

end

section
variable {E : Env}

theorem ends_iff {a : Ast} (hw : wf a = true) (hb : noBackref a = true) (hp' : noPossessive a = true) {fwd inv : Bool}
    (hr : Readable fwd inv a) {p q : Nat} (hp : p ≤ E.inp.length) :
    q ∈ ends E.flags E.inp a fwd inv p ↔ DM E.flags E.inp fwd a p q := by
  obtain ⟨r, hf⟩ : ∃ r, fwd = (r % 2 == 0) := by
    cases fwd
    · exact ⟨1, rfl⟩
    · exact ⟨0, rfl⟩
  induction a using ind generalizing fwd inv p q r with
  | empty => simp only [ends, DM, Matches]; cases fwd <;> simp [eq_comm]
  | lit c => rw [dm_triv hw rfl]; simp only [ends]
  | range a b => rw [dm_triv hw rfl]; simp only [ends]
  | wildcard => rw [dm_triv hw rfl]; simp only [ends]
  | set l ih => rw [dm_triv hw rfl]; simp only [ends]
  | neg a ih =>
    simp only [ends]
    split
    · next ha =>
      simp only [wf, Bool.and_eq_true] at hw
      simp only [noBackref] at hb
      simp only [noPossessive] at hp'
      have key : ∀ t, t ∈ ends E.flags E.inp a fwd inv p ↔ DM E.flags E.inp fwd a p t :=
        fun t => ih hw.2 hb hp' hr.neg hp r hf
      have hDM : ∀ t, DM E.flags E.inp fwd a p t ↔ t = p ∧ Matches E.flags E.inp a p p := by
        intro t
        unfold DM
        cases fwd
        · simp only [Bool.false_eq_true, if_false]
          constructor
          · intro h; have := matches_assertion ha h; subst this; exact ⟨rfl, h⟩
          · rintro ⟨rfl, h⟩; exact h
        · simp only [if_true]
          constructor
          · intro h; have := matches_assertion ha h; subst this; exact ⟨rfl, h⟩
          · rintro ⟨rfl, h⟩; exact h
      have he : (ends E.flags E.inp a fwd inv p).isEmpty = true ↔ ¬ Matches E.flags E.inp a p p := by
        rw [List.isEmpty_iff, List.eq_nil_iff_forall_not_mem]
        constructor
        · intro h hm; exact h p ((key p).2 ((hDM p).2 ⟨rfl, hm⟩))
        · intro h t ht; exact h ((hDM t).1 ((key t).1 ht)).2
      rw [mem_test, he]
      unfold DM
      simp only [Matches, ha, if_true]
      cases fwd
      · simp only [Bool.false_eq_true, if_false]
        constructor
        · rintro ⟨rfl, h⟩; exact ⟨rfl, h⟩
        · rintro ⟨rfl, h⟩; exact ⟨rfl, h⟩
      · simp only [if_true]
    · next ha => rw [dm_triv hw (by rw [assertion_eq] at ha; simpa [triv] using ha)]
  | seq l ih =>
    simp only [ends]
    have hdir := hr.seq_dir
    have hr' := hr.seq
    simp only [wf, wfAll_eq, Bool.and_eq_true, List.all_eq_true] at hw
    simp only [noBackref, noBackrefAll_eq, List.all_eq_true] at hb
    simp only [noPossessive, noPossessiveAll_eq, List.all_eq_true] at hp'
    replace hw := hw.2
    clear hr
    suffices H : q ∈ endsAll E.flags E.inp l fwd inv p ↔
        if fwd then MatchesAll E.flags E.inp l p q else MatchesAll E.flags E.inp l q p by
      rw [H]; unfold DM; cases fwd <;> simp only [Matches]
    induction l generalizing p q with
    | nil => simp only [endsAll, MatchesAll]; cases fwd <;> simp [eq_comm]
    | cons a l ihl =>
      have iha : ∀ {p q}, p ≤ E.inp.length → (q ∈ ends E.flags E.inp a fwd inv p ↔ DM E.flags E.inp fwd a p q) :=
        fun hp => ih a (by simp) (hw a (by simp)) (hb a (by simp)) (hp' a (by simp)) (hr' a (by simp)) hp r hf
      have ihl' : ∀ {p q}, p ≤ E.inp.length → (q ∈ endsAll E.flags E.inp l fwd inv p ↔
          if fwd then MatchesAll E.flags E.inp l p q else MatchesAll E.flags E.inp l q p) :=
        fun hp => ihl (fun b hb => ih b (List.mem_cons_of_mem _ hb))
          hp (hdir.imp_right (by simp only [List.length_cons]; omega)) (fun b h => hr' b (List.mem_cons_of_mem _ h))
          (fun b h => hb b (List.mem_cons_of_mem _ h)) (fun b h => hp' b (List.mem_cons_of_mem _ h))
          (fun b h => hw b (List.mem_cons_of_mem _ h))
      by_cases hl : l = []
      · subst hl
        simp only [endsAll, MatchesAll]
        have := iha (q := q) hp
        unfold DM at this
        cases fwd <;> cases inv <;> simpa using this
      · have hfi : fwd = !inv := hdir.resolve_right (by
          have := List.length_pos_iff.2 hl
          simp; omega)
        subst hfi
        cases inv with
        | false =>
          simp only [endsAll, Bool.false_eq_true, if_false, List.mem_flatMap, Bool.not_false, if_true, MatchesAll]
          constructor
          · rintro ⟨t, h1, h2⟩
            have h3 := (ends_inside hf a false p t hp h1).right_le
            exact ⟨t, by simpa [DM] using (iha hp).1 h1, by simpa using (ihl' h3).1 h2⟩
          · rintro ⟨t, h1, h2⟩
            have h1' := (iha hp).2 (by simpa [DM] using h1)
            have h3 := (ends_inside hf a false p t hp h1').right_le
            exact ⟨t, h1', (ihl' h3).2 (by simpa using h2)⟩
        | true =>
          simp only [endsAll, Bool.false_eq_true, if_false, List.mem_flatMap, Bool.not_true, if_true, MatchesAll]
          constructor
          · rintro ⟨t, h1, h2⟩
            have h3 := (endsAll_inside hf l true p t hp h1).right_le
            exact ⟨t, by simpa [DM] using (iha h3).1 h2, by simpa using (ihl' hp).1 h1⟩
          · rintro ⟨t, h1, h2⟩
            have h2' := (ihl' hp).2 (by simpa using h2)
            have h3 := (endsAll_inside hf l true p t hp h2').right_le
            exact ⟨t, h2', (iha h3).2 (by simpa [DM] using h1)⟩
  | alt l ih =>
    simp only [ends]
    have hr' := hr.alt
    simp only [wf, wfAll_eq, Bool.and_eq_true, List.all_eq_true] at hw
    simp only [noBackref, noBackrefAll_eq, List.all_eq_true] at hb
    simp only [noPossessive, noPossessiveAll_eq, List.all_eq_true] at hp'
    replace hw := hw.2
    clear hr
    suffices H : q ∈ endsAny E.flags E.inp l fwd inv p ↔ ∃ a ∈ l, DM E.flags E.inp fwd a p q by
      rw [H]; unfold DM; cases fwd <;> simp only [Matches, matchesAny_iff] <;> simp
    induction l with
    | nil => simp [endsAny]
    | cons a l ihl =>
      simp only [endsAny, List.mem_append]
      rw [ih a (by simp) (hw a (by simp)) (hb a (by simp)) (hp' a (by simp)) (hr' a (by simp)) hp r hf,
        ihl (fun b hb => ih b (List.mem_cons_of_mem _ hb)) (fun b h => hr' b (List.mem_cons_of_mem _ h))
          (fun b h => hb b (List.mem_cons_of_mem _ h)) (fun b h => hp' b (List.mem_cons_of_mem _ h))
          (fun b h => hw b (List.mem_cons_of_mem _ h))]
      simp
  | cap id n a ih =>
    simp only [wf] at hw
    simp only [noBackref] at hb
    simp only [noPossessive] at hp'
    simp only [ends]
    rw [ih hw hb hp' hr.cap hp r hf]
    unfold DM
    simp only [Matches]
  | rep m lo hi a ih =>
    have hw2 : wf a = true ∧ ∀ h, hi = .fin h → lo ≤ h := by
      cases hi with
      | inf => simp only [wf] at hw; exact ⟨hw, by simp⟩
      | fin b =>
        simp only [wf, Bool.and_eq_true, decide_eq_true_eq] at hw
        exact ⟨hw.2, fun h e => by cases e; exact hw.1⟩
    simp only [noBackref] at hb
    have hm : m ≠ .possessive ∧ noPossessive a = true := by
      cases m <;> simp_all [noPossessive]
    simp only [ends]
    rw [mem_quantified_iff (ends_inside hf a inv) hm.1 hw2.2 hp]
    have key : ∀ p q, p ≤ E.inp.length →
        (Mem (ends E.flags E.inp a fwd inv) p q ↔ DM E.flags E.inp fwd a p q) :=
      fun p q hp => ih hw2.1 hb hm.2 hr.rep hp r hf
    have hle : ∀ p q, p ≤ E.inp.length → Mem (ends E.flags E.inp a fwd inv) p q → q ≤ E.inp.length :=
      fun p q hp h => (ends_inside hf a inv p q hp h).right_le
    unfold DM
    cases fwd with
    | true =>
      simp only [Matches, if_true, pow_iter]
      have : ∀ i, Pow (Mem (ends E.flags E.inp a true inv)) i p q ↔ Pow (Matches E.flags E.inp a) i p q :=
        fun i => pow_congr_on (fun p q hp => by simpa [DM] using key p q hp) hle hp
      simp only [this]
    | false =>
      simp only [Matches, Bool.false_eq_true, if_false, pow_iter]
      have : ∀ i, Pow (Mem (ends E.flags E.inp a false inv)) i p q ↔ Pow (Matches E.flags E.inp a) i q p := by
        intro i
        rw [← pow_flip (R := Matches E.flags E.inp a)]
        exact pow_congr_on (fun p q hp => by simpa [DM] using key p q hp) hle hp
      simp only [this]
  | look d a ih =>
    simp only [wf] at hw
    simp only [noBackref] at hb
    simp only [noPossessive] at hp'
    have hnonempty : ∀ l : List Nat, (!l.isEmpty) = true ↔ ∃ t, t ∈ l := by
      intro l; cases l <;> simp
    have h1 : ∀ inv', Readable true inv' a → ((!(ends E.flags E.inp a true inv' p).isEmpty) = true ↔
        ∃ t, p ≤ t ∧ Matches E.flags E.inp a p t) := by
      intro inv' hra
      rw [hnonempty]
      constructor
      · rintro ⟨t, ht⟩
        have hR := ends_inside (E := E) (r := 0) rfl a inv' p t hp ht
        refine ⟨t, by unfold Env.Reach at hR; omega, ?_⟩
        simpa [DM] using (ih hw hb hp' hra hp 0 rfl).1 ht
      · rintro ⟨t, _, ht⟩
        exact ⟨t, (ih hw hb hp' hra hp 0 rfl).2 (by simpa [DM] using ht)⟩
    have h2 : ∀ inv', Readable false inv' a → ((!(ends E.flags E.inp a false inv' p).isEmpty) = true ↔
        ∃ t, t ≤ p ∧ Matches E.flags E.inp a t p) := by
      intro inv' hra
      rw [hnonempty]
      constructor
      · rintro ⟨t, ht⟩
        have hR := ends_inside (E := E) (r := 1) rfl a inv' p t hp ht
        refine ⟨t, by unfold Env.Reach at hR; omega, ?_⟩
        simpa [DM] using (ih hw hb hp' hra hp 1 rfl).1 ht
      · rintro ⟨t, _, ht⟩
        exact ⟨t, (ih hw hb hp' hra hp 1 rfl).2 (by simpa [DM] using ht)⟩
    rcases hr with ⟨rfl, rfl, hr⟩ | ⟨rfl, rfl, hr⟩ | hr
    · cases d with
      | ahead =>
        simp only [behindOk] at hr
        simp only [ends, DM, Matches, if_true, beq_self_eq_true, Bool.not_false]
        rw [mem_test, h1 false (.inl ⟨rfl, rfl, hr⟩)]
      | behind =>
        simp only [behindOk] at hr
        have : ((LookDir.behind == LookDir.ahead) == !false) = false := rfl
        simp only [ends, DM, Matches, if_true, this, Bool.false_eq_true, if_false, Bool.not_true]
        rw [mem_test, h2 true (.inr (.inl ⟨rfl, rfl, hr⟩))]
    · simp only [reversible] at hr
      cases d with
      | ahead =>
        have : ((LookDir.ahead == LookDir.ahead) == !true) = false := rfl
        simp only [ends, DM, Matches, this, Bool.false_eq_true, if_false, Bool.not_false]
        rw [mem_test, h1 true (.inr (.inr hr))]
        constructor
        · rintro ⟨rfl, h⟩; exact ⟨rfl, h⟩
        · rintro ⟨rfl, h⟩; exact ⟨rfl, h⟩
      | behind =>
        have : ((LookDir.behind == LookDir.ahead) == !true) = true := rfl
        simp only [ends, DM, Matches, this, Bool.false_eq_true, if_false, if_true]
        rw [mem_test, h2 false (.inr (.inr hr))]
        constructor
        · rintro ⟨rfl, h⟩; exact ⟨rfl, h⟩
        · rintro ⟨rfl, h⟩; exact ⟨rfl, h⟩
    · simp [palindromic] at hr
  | bol =>
    rcases hr with ⟨rfl, rfl, _⟩ | ⟨_, _, h⟩ | h
    · simp only [ends, mem_test, DM, Matches, if_true, atStart, Bool.or_eq_true, Bool.and_eq_true, beq_iff_eq,
        charBefore_iff isBreakAt_iff]
    · simp [reversible] at h
    · simp [palindromic] at h
  | boi =>
    rcases hr with ⟨rfl, rfl, _⟩ | ⟨_, _, h⟩ | h
    · simp only [ends, mem_test, DM, Matches, if_true, atStart, Bool.false_and, Bool.or_false, beq_iff_eq]
    · simp [reversible] at h
    · simp [palindromic] at h
  | eol =>
    rcases hr with ⟨rfl, rfl, _⟩ | ⟨_, _, h⟩ | h
    · simp only [ends, mem_test, DM, Matches, if_true, atStop, atStart, Bool.or_eq_true, Bool.and_eq_true, beq_iff_eq,
        Bool.not_true, Bool.false_eq_true, if_false, isBreakAt_iff]
    · simp [reversible] at h
    · simp [palindromic] at h
  | eoi =>
    rcases hr with ⟨rfl, rfl, _⟩ | ⟨_, _, h⟩ | h
    · simp only [ends, mem_test, DM, Matches, if_true, atStop, atStart, Bool.false_and, Bool.or_false, beq_iff_eq,
        Bool.not_true, Bool.false_eq_true, if_false]
    · simp [reversible] at h
    · simp [palindromic] at h
  | wordB =>
    have hw : (before (isWordAt E.inp) p != isWordAt E.inp p) = true ↔
        ¬ (CharBefore E.inp p WordChar ↔ CharAt E.inp p WordChar) := by
      rw [← charBefore_iff isWordAt_iff, ← isWordAt_iff]
      cases before (isWordAt E.inp) p <;> cases isWordAt E.inp p <;> simp
    simp only [ends, mem_test, hw, DM, Matches]
    cases fwd
    · simp only [Bool.false_eq_true, if_false]
      constructor
      · rintro ⟨rfl, h⟩; exact ⟨rfl, h⟩
      · rintro ⟨rfl, h⟩; exact ⟨rfl, h⟩
    · simp only [if_true]
  | backref => simp [noBackref] at hb
  | namedBackref => simp [noBackref] at hb

end
end Mregex
