import Verif.Proof.Exchange
import Verif.Props.Frame
import Verif.Props.Decide
import Verif.Props.Meaning
import Verif.Props.Lines

/-!
# C104: whether expressions can be exchanged is decided by the texts up to a length
-/

namespace Mregex
open Ast Spec

variable {fl : List RegexFlag} {cat : Cat} {X Y : Ast}

/-- **C104**: two expressions make the same choices in all texts if and only if they have the same possible ends, in the same order, in the texts that are
shorter than a number that can be read off the expressions. -/
theorem C104_choices (f : Flags) (fwd inv : Bool) (X Y : Ast) : choicesb f fwd inv X Y = true ↔ SameChoices f fwd inv X Y := by
  have short : choicesb f fwd inv X Y = true ↔ ∀ s, s.length < choiceBound X Y → ∀ p, p ≤ s.length →
      firsts (ends f s X fwd inv p) = firsts (ends f s Y fwd inv p) := by
    simp only [choicesb, List.all_eq_true, mem_shorter, List.mem_range, beq_iff_eq]
    exact forall₂_congr fun s _ => forall_congr' fun p => ⟨fun h hp => h (by omega), fun h hp => h (by omega)⟩
  rw [short]
  constructor
  · intro h s p hp A
    have key := answers_short (f := f) (f' := f) (fwd := fwd) (inv := inv) (X := X) (Y := Y) id
      (fun s hs p hp L => by rw [← findSome?_firsts, h s hs p hp, findSome?_firsts]) s p hp
    refine Option.ext fun j => ?_
    by_cases hj : A j = true
    · rw [← find?_marks hj, ← find?_marks hj]
      have := key fun q => if q = j then some true else if A q then some false else none
      simp only [id] at this
      rw [this]
    · exact ⟨fun h => absurd (List.find?_some h) hj, fun h => absurd (List.find?_some h) hj⟩
  · intro h s _ p hp
    exact firsts_eq_iff.2 (h s p hp)

theorem exchangeableb_iff : exchangeableb fl cat X Y = true ↔ ∀ fwd inv, Readings cat fwd inv → SameChoices (Flags.ofList fl) fwd inv X Y := by
  unfold exchangeableb
  rw [List.all_eq_true]
  constructor
  · intro h fwd inv hr
    refine (C104_choices _ fwd inv X Y).1 (h (fwd, inv) ?_)
    rcases hr with hr | ⟨rfl, rfl⟩
    · cases cat <;> cases fwd <;> cases inv <;> simp_all
    · cases cat <;> simp
  · intro h r hr
    refine (C104_choices _ r.1 r.2 X Y).2 (h r.1 r.2 ?_)
    cases cat <;> simp at hr
    · exact .inr (by rw [hr]; exact ⟨rfl, rfl⟩)
    · exact .inl (by simp)
    · exact .inl (by simp)

/-- **C104.** Whether two parts of patterns can be exchanged in all surroundings without references is found out by a program. -/
theorem C104_exchangeable (oX : (Regex.mk X fl).Ok cat) (oY : (Regex.mk Y fl).Ok cat) (hX : closed X = true) (hY : closed Y = true) :
    exchangeableb fl cat X Y = true ↔ Interchangeable fl cat X Y :=
  exchangeableb_iff.trans (C90_interchangeable oX oY hX hY).symm

theorem attempt_eq {R : Regex} (hR : R.Ok cat) (hb : noBackref R.ast = true) {s : List Byte} {p : Nat} (hp : p ≤ s.length) :
    attempt R cat s p = (ends R.fl s R.ast true false p).head? := by
  obtain ⟨res, c', h1, h2⟩ := C06_matchPrefix R cat hR hb s p hp (initCtx R.names) (by simp [initCtx])
  rw [attempt, h1]
  exact h2

/-- **C104**: whether matches that begin at the same position always end at the same position, for regexes with any flags. -/
theorem C104_alike {R R' : Regex} (hR : R.Ok cat) (hR' : R'.Ok cat) (hb : noBackref R.ast = true) (hb' : noBackref R'.ast = true) :
    alikeb R R' cat = true ↔ ∀ s p, p ≤ s.length → attempt R cat s p = attempt R' cat s p := by
  have short : alikeb R R' cat = true ↔ ∀ s, s.length < choiceBound R.ast R'.ast → ∀ p, p ≤ s.length → attempt R cat s p = attempt R' cat s p := by
    simp only [alikeb, List.all_eq_true, mem_shorter, List.mem_range, beq_iff_eq]
    exact forall₂_congr fun s _ => forall_congr' fun p => ⟨fun h hp => h (by omega), fun h hp => h (by omega)⟩
  rw [short]
  refine ⟨fun h s p hp => ?_, fun h s _ p hp => h s p hp⟩
  have first : ∀ (l : List Nat) (L : Nat → Option Bool), l.findSome? (fun q => some (L q == some true)) = l.head?.map fun q => L q == some true := by
    intro l L; cases l <;> rfl
  have key := answers_short (f := R.fl) (f' := R'.fl) (fwd := true) (inv := false) (X := R.ast) (Y := R'.ast) (fun m => some (m == some true))
    (fun s hs p hp L => by rw [first, first, ← attempt_eq hR hb hp, ← attempt_eq hR' hb' hp, h s hs p hp]) s p hp
  rw [attempt_eq hR hb hp, attempt_eq hR' hb' hp]
  refine Option.ext fun j => ?_
  have := key fun q => if q = j then some true else none
  rw [first, first] at this
  have e : ∀ o : Option Nat, (o.map fun q => (if q = j then some true else none) == some true) = some true ↔ o = some j := by
    intro o
    cases o with
    | none => simp
    | some q => by_cases hq : q = j <;> simp [hq]
  rw [← e, ← e, this]

/-- **C104**: then every method but `match` reports the same, for every text. -/
theorem C104_alike_calls {R R' : Regex} (hR : R.Ok cat) (hR' : R'.Ok cat) (hb : noBackref R.ast = true) (hb' : noBackref R'.ast = true)
    (h : alikeb R R' cat = true) (M : Method) (hM : M ≠ .match) (s : List Byte) : SameMatch (R.invoke M cat s) (R'.invoke M cat s) := by
  have he : ∀ p, p ≤ s.length → (ends R.fl s R.ast true false p).head? = (ends R'.fl s R'.ast true false p).head? := fun p hp => by
    rw [← attempt_eq hR hb hp, ← attempt_eq hR' hb' hp, (C104_alike hR hR' hb hb').1 h s p hp]
  obtain ⟨res, h1, h2, h3⟩ := invoke_outcome _ cat hR hb M s
  obtain ⟨res', h1', h2', h3'⟩ := invoke_outcome _ cat hR' hb' M s
  have ho : outcome M s.length (ends R.fl s R.ast true false) = outcome M s.length (ends R'.fl s R'.ast true false) := by
    cases M with
    | «match» => exact absurd rfl hM
    | matchPrefix => simp only [outcome, he 0 (Nat.zero_le _)]
    | search =>
      simp only [outcome]
      have : ∀ k i, i + k ≤ s.length + 1 → firstFrom (ends R.fl s R.ast true false) k i = firstFrom (ends R'.fl s R'.ast true false) k i := by
        intro k
        induction k with
        | zero => exact fun _ _ => rfl
        | succ k ih => intro i hi; simp only [firstFrom, he i (by omega), ih (i + 1) (by omega)]
      exact this _ 0 (by omega)
  refine ⟨res, res', h1, h1', by rw [h2, h2', ho], fun h => ?_⟩
  rw [h3 h, h3' (by rw [h2', ← ho, ← h2]; exact h), ho]

/-- **C104**: and the loops over `tokenize` and `find_all` visit the same. -/
theorem C104_alike_loops {R R' : Regex} (hR : R.Ok cat) (hR' : R'.Ok cat) (hb : noBackref R.ast = true) (hb' : noBackref R'.ast = true)
    (h : alikeb R R' cat = true) (M : Method) (hM : M = tokenizeMethod ∨ M = findAllMethod) (s : List Byte) (k : Nat) (hk : s.length + 2 ≤ k) :
    ∃ rs rs', rangeElements R M cat s k = some (rs, true) ∧ rangeElements R' M cat s k = some (rs', true) ∧ rs.map (·.group 0) = rs'.map (·.group 0) := by
  have he : ∀ p, p ≤ s.length → (ends R.fl s R.ast true false p).head? = (ends R'.fl s R'.ast true false p).head? := fun p hp => by
    rw [← attempt_eq hR hb hp, ← attempt_eq hR' hb' hp, (C104_alike hR hR' hb hb').1 h s p hp]
  rcases hM with rfl | rfl
  · obtain ⟨rs, l, h1, h2, h3⟩ := C96_tokens R cat hR hb s k hk
    obtain ⟨rs', l', h1', h2', h3'⟩ := C96_tokens R' cat hR' hb' s k hk
    refine ⟨rs, rs', h1, h1', ?_⟩
    rw [h2, h2', takes_unique (takes_congr he (fun i j hi hj => ends_within hi (List.mem_of_mem_head? hj)) (Nat.zero_le _) h3) h3']
  · obtain ⟨rs, l, h1, h2, h3⟩ := C31_find_all_partial R cat hR hb s k hk
    obtain ⟨rs', l', h1', h2', h3'⟩ := C31_find_all_partial R' cat hR' hb' s k hk
    refine ⟨rs, rs', h1, h1', ?_⟩
    rw [h2, h2', finds_unique (finds_congr he h3) h3']

/-! ## Examples -/

/-- A difference is found in a short text: `a|ab` and `ab|a`. -/
example : exchangeableb [] .forward (.alt [lt 'a', .seq [lt 'a', lt 'b']]) (.alt [.seq [lt 'a', lt 'b'], lt 'a']) = false := by
  rw [← Bool.not_eq_true, C104_exchangeable (Regex.ok_of_okb (by decide)) (Regex.ok_of_okb (by decide)) (by decide) (by decide)]
  exact C90_order_matters _

/-- None is found for `ab|ab` and `ab`, nor, with forward iterators, for `a|ba` and `ba|a`. -/
example (fl : List RegexFlag) (h : (Regex.mk (.alt [.seq [lt 'a', lt 'b'], .seq [lt 'a', lt 'b']]) fl).Ok cat) (h' : (Regex.mk (.seq [lt 'a', lt 'b']) fl).Ok cat) :
    exchangeableb fl cat (.alt [.seq [lt 'a', lt 'b'], .seq [lt 'a', lt 'b']]) (.seq [lt 'a', lt 'b']) = true :=
  (C104_exchangeable h h' (by decide) (by decide)).2 (C90_twice fl cat)

example : exchangeableb [] .forward (.alt [lt 'a', .seq [lt 'b', lt 'a']]) (.alt [.seq [lt 'b', lt 'a'], lt 'a']) = true :=
  (C104_exchangeable (Regex.ok_of_okb (by decide)) (Regex.ok_of_okb (by decide)) (by decide) (by decide)).2 C90_forward

/-- `a*?b` and `[^b]*?b`, the latter for texts of `a` and `b` only, are not alike: the difference shows in `cb`. -/
example : alikeb ⟨.seq [.rep .lazy 0 .inf (lt 'a'), lt 'b'], []⟩ ⟨.seq [.rep .lazy 0 .inf (.neg (lt 'b')), lt 'b'], []⟩ .forward = false := by
  rw [← Bool.not_eq_true, C104_alike (Regex.ok_of_okb (by decide)) (Regex.ok_of_okb (by decide)) (by decide) (by decide)]
  intro h
  have := h (txt "cb") 0 (by decide)
  revert this
  decide

end Mregex
