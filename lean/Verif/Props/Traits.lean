import Verif.Proof.Usable
import Verif.Props.Parsing
import Verif.Props.Safety

/-!
# C55: trivially matchable parts; C56: the number of groups; C57: which patterns can be used
-/

namespace Mregex
open Ast Spec

/-! ## C55 -/

theorem single_iff {f : Flags} {a : Ast} (hw : wf a = true) (ht : triv a = true) (x : Byte) : Matches f [x] a 0 1 ↔ matchOne f a x = true := by
  rw [matches_triv hw ht, matchOne_eq_accepts]
  simp [CharAt]

/-- **C55**, read forwards: the part takes the next character if that character alone is a match of it, and it does not match otherwise.  No other character, no
capture and no position plays a role, and there is no alternative to try if what follows fails. -/
theorem C55_forward {E : Env} {a : Ast} (hok : Ok E 0 a) (ht : triv a = true) {fuel : Nat} (hf : a.depth ≤ fuel) {p : Nat} (hp : p ≤ E.inp.length) (c : Ctx)
    (cont : Cont) :
    (∀ x, E.inp[p]? = some x → Matches E.flags [x] a 0 1 → mtch E fuel a 0 p c cont = cont (p + 1) c) ∧
    ((∀ x, E.inp[p]? = some x → ¬Matches E.flags [x] a 0 1) → mtch E fuel a 0 p c cont = .ok ⟨p, false⟩ c) := by
  rw [mtch_triv ht hf]
  have hs := single_iff (f := E.flags) (wf_of_ok hok) ht
  simp only [hs, trivMatch, Env.atEnd, Env.deref, Env.next, Nat.zero_mod, if_true, nonMatch]
  rcases Nat.lt_or_ge p E.inp.length with hlt | hge
  · have h1 : (p == E.inp.length) = false := by simp; omega
    obtain ⟨x, hx⟩ : ∃ x, E.inp[p]? = some x := ⟨_, List.getElem?_eq_getElem hlt⟩
    simp only [h1, hx, Bool.false_eq_true, if_false, Option.some.injEq, forall_eq']
    constructor <;> intro h <;> simp [h]
  · have h1 : E.inp[p]? = none := List.getElem?_eq_none hge
    have h2 : p = E.inp.length := by omega
    simp [h1, h2]

/-- **C55**, read backwards (in a lookbehind): the same with the character before the position. -/
theorem C55_backward {E : Env} {a : Ast} (hok : Ok E 1 a) (ht : triv a = true) {fuel : Nat} (hf : a.depth ≤ fuel) {p : Nat} (hp : p ≤ E.inp.length) (c : Ctx)
    (cont : Cont) :
    (∀ x, 0 < p → E.inp[p - 1]? = some x → Matches E.flags [x] a 0 1 → mtch E fuel a 1 p c cont = cont (p - 1) c) ∧
    ((∀ x, 0 < p → E.inp[p - 1]? = some x → ¬Matches E.flags [x] a 0 1) → mtch E fuel a 1 p c cont = .ok ⟨p, false⟩ c) := by
  rw [mtch_triv ht hf]
  have hs := single_iff (f := E.flags) (wf_of_ok hok) ht
  simp only [hs, trivMatch, Env.atEnd, Env.deref, Env.next, nonMatch]
  rcases Nat.eq_zero_or_pos p with rfl | hlt
  · simp
  · have h1 : (p == 0) = false := by simp; omega
    obtain ⟨x, hx⟩ : ∃ x, E.inp[p - 1]? = some x := ⟨_, List.getElem?_eq_getElem (by omega)⟩
    have h3 : p ≠ 0 := by omega
    simp only [h1, hx, hlt, h3, Nat.reduceMod, Nat.one_ne_zero, if_false, Bool.false_eq_true, true_imp_iff, Option.some.injEq, forall_eq']
    constructor <;> intro h <;> simp [h]

/-- **C55**, meaning: every match of the part is one character long, and whether a character is matched depends on nothing else. -/
theorem C55_language {E : Env} {r : Nat} {a : Ast} (hok : Ok E r a) (ht : triv a = true) (f : Flags) (s : List Byte) (i j : Nat) :
    Matches f s a i j ↔ j = i + 1 ∧ ∃ x, s[i]? = some x ∧ Matches f [x] a 0 1 := by
  rw [matches_triv (wf_of_ok hok) ht]
  simp only [single_iff (wf_of_ok hok) ht, matchOne_eq_accepts, CharAt]

/-- One character for every part of the list, from `p` on. -/
def EachFits (f : Flags) (s : List Byte) (l : List Ast) (p : Nat) : Prop :=
  ∀ i (h : i < l.length), ∃ x, s[p + i]? = some x ∧ Matches f [x] l[i] 0 1

theorem fits_cons {f : Flags} {s : List Byte} {a : Ast} {l : List Ast} {p : Nat} :
    EachFits f s (a :: l) p ↔ (∃ x, s[p]? = some x ∧ Matches f [x] a 0 1) ∧ EachFits f s l (p + 1) := by
  constructor
  · intro h
    refine ⟨h 0 (by simp), fun i hi => ?_⟩
    have := h (i + 1) (by simpa using hi)
    simpa [Nat.add_comm, Nat.add_left_comm] using this
  · rintro ⟨h1, h2⟩ i hi
    cases i with
    | zero => exact h1
    | succ i =>
      have := h2 i (by simpa using hi)
      simpa [Nat.add_comm, Nat.add_left_comm] using this

theorem fits_length {f : Flags} {s : List Byte} {l : List Ast} {p : Nat} (hp : p ≤ s.length) (h : EachFits f s l p) : l.length ≤ s.length - p := by
  cases hl : l.length with
  | zero => omega
  | succ n =>
    obtain ⟨x, hx, _⟩ := h n (by omega)
    have := (List.getElem?_eq_some_iff.1 hx).1
    omega

theorem runTriv_fits {E : Env} {l : List Ast} (hok : ∀ a ∈ l, Ok E 0 a) (ht : ∀ a ∈ l, triv a = true) {p : Nat} (hl : l.length ≤ E.inp.length - p) :
    (EachFits E.flags E.inp l p → runTriv E 0 l p = .done (p + l.length)) ∧ (¬EachFits E.flags E.inp l p → ∃ q, runTriv E 0 l p = .fail q) := by
  induction l generalizing p with
  | nil => exact ⟨fun _ => rfl, fun h => absurd (fun i hi => absurd hi (Nat.not_lt_zero i)) h⟩
  | cons a l ih =>
    simp only [List.length_cons] at hl
    obtain ⟨x, hx⟩ : ∃ x, E.inp[p]? = some x := ⟨_, List.getElem?_eq_getElem (by omega)⟩
    have hs := single_iff (f := E.flags) (wf_of_ok (hok a (by simp))) (ht a (by simp)) x
    obtain ⟨i1, i2⟩ := ih (fun b hb => hok b (List.mem_cons_of_mem _ hb)) (fun b hb => ht b (List.mem_cons_of_mem _ hb)) (p := p + 1) (by omega)
    simp only [fits_cons, hx, Option.some.injEq, exists_eq_left', hs]
    simp only [runTriv, Env.deref, Env.next, Nat.zero_mod, if_true, hx]
    constructor
    · rintro ⟨h1, h2⟩
      rw [if_pos h1, i1 h2, List.length_cons, Nat.add_assoc, Nat.add_comm 1]
    · intro h
      by_cases h1 : matchOne E.flags a x = true
      · rw [if_pos h1]
        exact i2 fun h2 => h ⟨h1, h2⟩
      · rw [if_neg h1]
        exact ⟨p, rfl⟩

/-- **C55**, several in a row: a sequence of such parts takes one character for each of them, all at once. -/
theorem C55_sequence {E : Env} {l : List Ast} (hok : ∀ a ∈ l, Ok E 0 a) (ht : ∀ a ∈ l, triv a = true) (hl : 2 ≤ l.length) (fuel : Nat) {p : Nat} (hp : p ≤ E.inp.length)
    (c : Ctx) (cont : Cont) :
    (EachFits E.flags E.inp l p → mtch E (fuel + 1) (.seq l) 0 p c cont = cont (p + l.length) c) ∧
    (¬EachFits E.flags E.inp l p → ∃ q, mtch E (fuel + 1) (.seq l) 0 p c cont = .ok ⟨q, false⟩ c) := by
  have hm : mtch E (fuel + 1) (.seq l) 0 = seqTriv E 0 l := by
    match l, hl, ht with
    | a :: b :: l, _, ht =>
      show seqMatch E 0 _ (a :: b :: l) = _
      rw [seqMatch, if_pos (show areTriv (a :: b :: l) = true from List.all_eq_true.2 ht)]
  rw [hm]
  simp only [seqTriv, Env.distanceLessThan_eq l.length hp, decide_eq_true_eq]
  have hr : E.remaining 0 p = E.inp.length - p := by simp [Env.remaining]
  rw [hr]
  by_cases hlen : E.inp.length - p < l.length
  · rw [if_pos hlen]
    exact ⟨fun h => absurd (fits_length hp h) (by omega), fun _ => ⟨p, rfl⟩⟩
  · rw [if_neg hlen]
    obtain ⟨h1, h2⟩ := runTriv_fits hok ht (p := p) (by omega)
    constructor
    · intro h; rw [h1 h]
    · intro h
      obtain ⟨q, hq⟩ := h2 h
      rw [hq]
      dsimp only
      split
      · exact ⟨p, rfl⟩
      · exact ⟨q, rfl⟩

/-- **C55**, `n` times the same part: `n` characters. -/
theorem C55_repetition {E : Env} {a : Ast} (hok : Ok E 0 a) (ht : triv a = true) {m : Mode} (hm : m ≠ .possessive) {n : Nat} (hn : 2 ≤ n) (fuel : Nat) {p : Nat}
    (hp : p ≤ E.inp.length) (c : Ctx) (cont : Cont) :
    (EachFits E.flags E.inp (List.replicate n a) p → mtch E (fuel + 1) (.rep m n (.fin n) a) 0 p c cont = cont (p + n) c) ∧
    (¬EachFits E.flags E.inp (List.replicate n a) p → ∃ q, mtch E (fuel + 1) (.rep m n (.fin n) a) 0 p c cont = .ok ⟨q, false⟩ c) := by
  have he : mtch E (fuel + 1) (.rep m n (.fin n) a) 0 = fixedTriv E 0 a n := by
    show repMatch E 0 fuel m n (.fin n) a _ = _
    simp only [repMatch, if_true, fixedMatch, show n ≠ 0 by omega, show n ≠ 1 by omega, if_false, hm, fixedBacktracking, ht]
  rw [he]
  simp only [fixedTriv, Env.distanceLessThan_eq n hp, decide_eq_true_eq]
  have hr : E.remaining 0 p = E.inp.length - p := by simp [Env.remaining]
  rw [hr]
  by_cases hlen : E.inp.length - p < n
  · rw [if_pos hlen]
    exact ⟨fun h => absurd (fits_length hp h) (by simpa using hlen), fun _ => ⟨p, rfl⟩⟩
  · rw [if_neg hlen]
    obtain ⟨h1, h2⟩ := runTriv_fits (l := List.replicate n a) (fun b hb => by rw [List.eq_of_mem_replicate hb]; exact hok)
      (fun b hb => by rw [List.eq_of_mem_replicate hb]; exact ht) (p := p) (by simpa using hlen)
    rw [List.length_replicate] at h1
    constructor
    · intro h; rw [h1 h]
    · intro h
      obtain ⟨q, hq⟩ := h2 h
      rw [hq]
      dsimp only
      split
      · exact ⟨p, rfl⟩
      · exact ⟨_, rfl⟩

/-- `ab` in `xab`. -/
example : EachFits {} [ch 'x', ch 'a', ch 'b'] [.lit (ch 'a'), .lit (ch 'b')] 1 := by
  intro i hi
  match i, hi with
  | 0, _ => exact ⟨_, rfl, by simp [Matches, CharAt, CharEq]⟩
  | 1, _ => exact ⟨_, rfl, by simp [Matches, CharAt, CharEq]⟩

/-- `[^a-c]|x` is trivially matchable. -/
example (E : Env) : Ok E 0 (.alt [.neg (.set [.range (ch 'a') (ch 'c')]), .lit (ch 'x')]) ∧ triv (.alt [.neg (.set [.range (ch 'a') (ch 'c')]), .lit (ch 'x')]) = true := by
  refine ⟨.alt (by simp) fun a ha => ?_, rfl⟩
  rcases List.mem_cons.1 ha with rfl | ha
  · refine .neg (.inl rfl) (.set (by simp [triv]) fun a ha => ?_)
    rw [List.mem_singleton] at ha
    subst ha
    exact .range (by decide)
  · rw [List.mem_singleton] at ha
    subst ha
    exact .lit

/-! ## C56 -/

/-- **C56**: every result of every method has one group for each opening parenthesis of the pattern that begins a capturing group, and group 0.
`capture_count` is the number of these parentheses. -/
theorem C56_group_count {w : List Byte} {a : Ast} (h : parse w = .result a .success) (fl : List RegexFlag) (cat : Cat) (hR : (Regex.mk a fl).Ok cat) (M : Method)
    (s : List Byte) :
    captureCount a = (openedGroups w).length ∧
    ∃ res, (Regex.mk a fl).invoke M cat s = some res ∧ res.groups.length = (openedGroups w).length + 1 := by
  have hn := (C41_order h).1
  have hc : captureCount a = (openedGroups w).length := by rw [← hn, length_nameSpec]
  refine ⟨hc, ?_⟩
  obtain ⟨res, h1⟩ := C01_methods_return _ cat hR M s
  refine ⟨res, h1, ?_⟩
  rw [(invoke_inBounds _ cat hR M s res h1).1]
  simp [Regex.env, Regex.names, hn]

example : (openedGroups (txt "(a)(?:b)(?<x>c)\\(")).length = 2 := by decide

/-! ## C57 -/

/-- `b` is a part of `a` under `k` reversals (see `Spec.Part`). -/
abbrev Within (a : Ast) (b : Ast) (k : Nat) : Prop := Part b k 0 false a

/-- **C57**: when the tree of an accepted pattern can be used for matching.  Nothing else is required. -/
theorem C57_usable {w : List Byte} {a : Ast} (h : parse w = .result a .success) (fl : List RegexFlag) (cat : Cat) :
    (Regex.mk a fl).Ok cat ↔
      (∀ k x y, Within a (.range x y) k → x.toNat ≤ y.toNat) ∧
      (∀ k m lo hi b, Within a (.rep m lo (.fin hi) b) k → lo ≤ hi) ∧
      (∀ k id, Within a (.backref id) k → id ≤ (openedGroups w).length) ∧
      (∀ k n, Within a (.namedBackref n) k → (openedGroups w).count (some n) = 1) ∧
      (∀ k id n b, Within a (.cap id n b) k → (openedGroups w)[id - 1]? = some n ∧ k ≤ 1) ∧
      (cat = .forward → ∀ k, (∀ b, ¬Within a (.look .behind b) k) ∧ ¬Within a .wordB k ∧ (∀ id, ¬Within a (.backref id) k) ∧
        (∀ n, ¬Within a (.namedBackref n) k) ∧ (RegexFlag.multiline ∈ fl → ¬Within a .bol k)) := by
  have hn := (C41_order h).1
  have hsh := normal_shaped (C36_normal h).1
  have hid : ∀ k id n b, Within a (.cap id n b) k → 1 ≤ id := by
    intro k id n b hp
    have := part_groupIds hp
    rw [← (C36_normal h).2] at this
    exact (groupIds_bounds 1 a id this).1
  have hml : (Flags.ofList fl).multiline = true ↔ RegexFlag.multiline ∈ fl := by simp [Flags.ofList]
  have key : ∀ s, Mregex.Ok ((Regex.mk a fl).env cat s) 0 a ↔ AllFine ((Regex.mk a fl).env cat s) 0 false a :=
    fun s => ok_iff_allFine (E := (Regex.mk a fl).env cat s) a (m := false) (by simp)
  have hnames : ∀ s, ((Regex.mk a fl).env cat s).names = none :: openedGroups w := fun s => by simp [Regex.env, Regex.names, hn]
  constructor
  · intro hok
    have hf := (key []).1 (hok [])
    refine ⟨fun k x y hp => hf _ _ hp, fun k m lo hi b hp => hf _ _ hp, fun k id hp => ?_, fun k n hp => ?_, fun k id n b hp => ?_, fun hc k => ?_⟩
    · have := (hf _ _ hp).2
      rw [hnames] at this
      exact Nat.le_of_lt_succ this
    · have := (hf _ _ hp).2
      rw [hnames] at this
      simpa using this
    · have h1 := hf _ _ hp
      have h2 := hid _ _ _ _ hp
      simp only [Fine, hnames] at h1
      obtain ⟨i, rfl⟩ := Nat.exists_eq_add_of_le h2
      rw [Nat.add_comm] at h1 ⊢
      simpa using h1
    · have hc' : ((Regex.mk a fl).env cat []).cat = .forward := hc
      exact ⟨fun b hp => hf _ _ hp hc', fun hp => hf _ _ hp hc', fun id hp => (hf _ _ hp).1 hc', fun n hp => (hf _ _ hp).1 hc',
        fun hm hp => hf _ _ hp (hml.2 hm) hc'⟩
  · rintro ⟨h1, h2, h3, h4, h5, h6⟩ s
    refine (key s).2 fun b k hp => ?_
    have hs := shaped_part hp hsh
    cases b with
    | range x y => exact h1 k x y hp
    | rep m lo hi b =>
      cases hi with
      | fin hi => exact h2 k m lo hi b hp
      | inf => trivial
    | backref id =>
      refine ⟨fun hc => (h6 hc k).2.2.1 id hp, ?_⟩
      rw [hnames]
      exact Nat.lt_succ_of_le (h3 k id hp)
    | namedBackref n =>
      refine ⟨fun hc => (h6 hc k).2.2.2.1 n hp, ?_⟩
      have := h4 k n hp
      rw [hnames]
      simpa using this
    | cap id n b =>
      have h7 := h5 k id n b hp
      have h8 := hid _ _ _ _ hp
      simp only [Fine, hnames]
      obtain ⟨i, rfl⟩ := Nat.exists_eq_add_of_le h8
      rw [Nat.add_comm] at h7 ⊢
      simpa using h7
    | look d b =>
      cases d with
      | ahead => trivial
      | behind => exact fun hc => (h6 hc k).1 b hp
    | wordB => exact fun hc => (h6 hc k).2.1 hp
    | bol => exact fun hm hc => (h6 hc k).2.2.2.2 (hml.1 hm) hp
    | set l =>
      simp only [shaped, Bool.and_eq_true, List.all_eq_true] at hs
      exact hs.1
    | neg b =>
      simp only [shaped, Bool.and_eq_true, Bool.or_eq_true] at hs
      exact hs.1
    | seq l =>
      simp only [shaped, Bool.and_eq_true, Bool.not_eq_true', List.isEmpty_eq_false_iff] at hs
      exact hs.1
    | alt l =>
      simp only [shaped, Bool.and_eq_true, Bool.not_eq_true', List.isEmpty_eq_false_iff] at hs
      exact hs.1
    | _ => trivial

/-- **C57**, groups: what is required of groups by number and name holds if no group has a name, and if no two branches of an alternation have groups. -/
theorem C57_groups {w : List Byte} {a : Ast} (h : parse w = .result a .success)
    (hg : (∀ n, some n ∉ openedGroups w) ∨ soloBranches a = true) (k id : Nat) (n : GroupName) (b : Ast) (hp : Within a (.cap id n b) k) :
    (openedGroups w)[id - 1]? = some n := by
  have hg' := part_nameSpec hp
  rcases hg with hg | hg
  · have hb := groupIds_bounds 1 a id (by rw [show index 1 a = a from (C36_normal h).2]; exact part_groupIds hp)
    rw [hasGroup_iff] at hg'
    have h1 := (List.of_mem_zip hg').2
    have hl : captureCount a = (openedGroups w).length := by rw [← (C41_order h).1, length_nameSpec]
    rw [(C41_order h).1] at h1
    have hn : ∀ x ∈ openedGroups w, x = none := fun x hx => by
      cases x with
      | none => rfl
      | some x => exact absurd hx (hg x)
    rw [hn n h1, List.getElem?_eq_getElem (by omega)]
    exact congrArg some (hn _ (List.getElem_mem _))
  · exact ((C41_partial h hg id n).1 hg').2

/-- `(?<=(a)b)[c-e]{2,3}\1` can be used. -/
example : ∃ a, parse (txt "(?<=(a)b)[c-e]{2,3}\\1") = .result a .success ∧ (Regex.mk a []).Ok .bidirectional := ⟨_, rfl, Regex.ok_of_okb (by decide)⟩

/-- A group in a lookahead in a lookbehind cannot, a group in a lookbehind in a lookbehind can. -/
theorem C57_nested : (∃ a, parse (txt "(?<=(?=(a)))") = .result a .success ∧ ∀ fl cat, ¬(Regex.mk a fl).Ok cat) ∧
    ∃ a, parse (txt "(?<=(?<=(a)))") = .result a .success ∧ ∀ fl, (Regex.mk a fl).Ok .randomAccess := by
  refine ⟨⟨.look .behind (.look .ahead (.cap 1 none (.lit (ch 'a')))), rfl, fun fl cat h => ?_⟩,
    .look .behind (.look .behind (.cap 1 none (.lit (ch 'a')))), rfl, fun fl s => ?_⟩
  · have := ((C57_usable (w := txt "(?<=(?=(a)))") rfl fl cat).1 h).2.2.2.2.1 2 1 none (.lit (ch 'a')) (.behind (.mirroredAhead .here))
    exact absurd this.2 (by decide)
  · exact .behind (fun h => nomatch h) (.ahead (.cap rfl (by decide) .lit))

end Mregex
