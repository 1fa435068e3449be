import Verif.Spec.Frame
import Verif.Proof.Usable
import Verif.Proof.PathLemmas
import Verif.Proof.Formula

/-!
# Filling gaps
-/

namespace Mregex
open Ast Spec

/-! ## Lists in which the same elements are found -/

theorem feq_of_find {l l' : List Nat} (h : ∀ A : Nat → Bool, l.find? A = l'.find? A) : FEq l l' := by
  intro G
  have key : ∀ l : List Nat, l.findSome? G = (l.find? (fun q => (G q).isSome)).bind G := by
    intro l
    induction l with
    | nil => rfl
    | cons a l ih =>
      cases h : G a with
      | none => simp [List.findSome?_cons, List.find?_cons, h, ih]
      | some x => simp [List.findSome?_cons, List.find?_cons, h]
  rw [key, key, h]

theorem find_of_feq {l l' : List Nat} (h : FEq l l') (A : Nat → Bool) : l.find? A = l'.find? A := by
  have key : ∀ l : List Nat, l.find? A = l.findSome? (fun q => if A q then some q else none) := by
    intro l
    induction l with
    | nil => rfl
    | cons a l ih => cases h : A a <;> simp [List.findSome?_cons, List.find?_cons, h, ih]
  rw [key, key, h]

theorem FEq.flatMap_mem {l l' : List Nat} {g g' : Nat → List Nat} (h : FEq l l') (hg : ∀ q ∈ l, FEq (g q) (g' q)) :
    FEq (l.flatMap g) (l'.flatMap g') := by
  intro G
  rw [findSome?_flatMap', findSome?_flatMap', ← h]
  clear h
  induction l with
  | nil => rfl
  | cons a l ih =>
    rw [List.findSome?_cons, List.findSome?_cons, hg a (by simp) G, ih (fun q hq => hg q (by simp [hq]))]

section
variable {n : Nat} {g g' : Nat → List Nat} (hg : ∀ p, p ≤ n → FEq (g p) (g' p)) (hin : ∀ p, p ≤ n → ∀ q ∈ g p, q ≤ n)
include hg hin

theorem exactly_in (k p : Nat) (hp : p ≤ n) : FEq (exactly g k p) (exactly g' k p) ∧ ∀ q ∈ exactly g k p, q ≤ n := by
  induction k generalizing p with
  | zero => exact ⟨.refl _, fun q hq => by simp only [exactly, List.mem_singleton] at hq; omega⟩
  | succ k ih =>
    refine ⟨(hg p hp).flatMap_mem (fun q hq => (ih q (hin p hp q hq)).1), fun q hq => ?_⟩
    obtain ⟨t, ht, hq⟩ := List.mem_flatMap.1 hq
    exact (ih t (hin p hp t ht)).2 q hq

theorem greedyUpTo_in (k p : Nat) (hp : p ≤ n) : FEq (greedyUpTo g k p) (greedyUpTo g' k p) := by
  induction k generalizing p with
  | zero => exact .refl _
  | succ k ih => exact ((hg p hp).flatMap_mem (fun q hq => ih q (hin p hp q hq))).append (.refl _)

theorem lazyUpTo_in (k p : Nat) (hp : p ≤ n) : FEq (lazyUpTo g k p) (lazyUpTo g' k p) := by
  induction k generalizing p with
  | zero => exact .refl _
  | succ k ih => exact (FEq.refl _).append ((hg p hp).flatMap_mem (fun q hq => ih q (hin p hp q hq)))

theorem greedyStar_in (k p : Nat) (hp : p ≤ n) : FEq (greedyStar g k p) (greedyStar g' k p) := by
  induction k generalizing p with
  | zero => exact .refl _
  | succ k ih => exact (((hg p hp).filter _).flatMap_mem (fun q hq => ih q (hin p hp q (List.mem_filter.1 hq).1))).append (.refl _)

theorem lazyStar_in (k p : Nat) (hp : p ≤ n) : FEq (lazyStar g k p) (lazyStar g' k p) := by
  induction k generalizing p with
  | zero => exact .refl _
  | succ k ih => exact (FEq.refl _).append (((hg p hp).filter _).flatMap_mem (fun q hq => ih q (hin p hp q (List.mem_filter.1 hq).1)))

theorem possessiveUpTo_in (k p : Nat) (hp : p ≤ n) : possessiveUpTo g k p = possessiveUpTo g' k p := by
  induction k generalizing p with
  | zero => rfl
  | succ k ih =>
    have := (hg p hp).head?
    have := hin p hp
    unfold possessiveUpTo
    cases h : g p <;> cases h' : g' p <;> simp_all

theorem possessiveStar_in (k p : Nat) (hp : p ≤ n) : possessiveStar g k p = possessiveStar g' k p := by
  induction k generalizing p with
  | zero => rfl
  | succ k ih =>
    have := (hg p hp).head?
    have := hin p hp
    unfold possessiveStar
    cases h : g p <;> cases h' : g' p <;> simp_all

theorem quantified_in (N : Nat) (m : Mode) (u : Bool) (lo : Nat) (hi : Bound) (p : Nat) (hp : p ≤ n) :
    FEq (quantified N m u lo hi g p) (quantified N m u lo hi g' p) := by
  have hx : ∀ k q, q ≤ n → FEq (extra N m u g k q) (extra N m u g' k q) := by
    intro k q hq
    have h1 := fun k => greedyUpTo_in hg hin k q hq
    have h2 := fun k => lazyUpTo_in hg hin k q hq
    have h3 := fun k => greedyStar_in hg hin k q hq
    have h4 := fun k => lazyStar_in hg hin k q hq
    have h5 := fun k => FEq.of_eq (possessiveUpTo_in hg hin k q hq)
    have h6 := fun k => FEq.of_eq (possessiveStar_in hg hin k q hq)
    cases k <;> cases m <;> cases u <;> simp only [extra] <;> first | apply h1 | apply h2 | apply h3 | apply h4 | apply h5 | apply h6
  obtain ⟨h1, h2⟩ := exactly_in hg hin lo p hp
  unfold quantified
  cases m with
  | possessive => exact (FEq.of_eq h1.take_one).flatMap_mem (fun q hq => hx _ q (h2 q (List.mem_of_mem_take hq)))
  | greedy => exact h1.flatMap_mem (fun q hq => hx _ q (h2 q hq))
  | lazy => exact h1.flatMap_mem (fun q hq => hx _ q (h2 q hq))

end

theorem ends_within {f : Flags} {s : List Byte} {a : Ast} {fwd inv : Bool} {p q : Nat} (hp : p ≤ s.length) (h : q ∈ ends f s a fwd inv p) : q ≤ s.length := by
  obtain ⟨r, hf⟩ : ∃ r, fwd = (r % 2 == 0) := by
    cases fwd
    · exact ⟨1, rfl⟩
    · exact ⟨0, rfl⟩
  have := ends_inside (E := { inp := s, flags := f }) (r := r) hf a inv p q hp h
  unfold Env.Reach at this
  dsimp only at this
  omega

/-! ## What an expression offers depends on what its parts offer -/

section
variable {f : Flags} {s : List Byte}

theorem endsAll_gap {fwd inv : Bool} {a b : Ast} (h : ∀ p, p ≤ s.length → FEq (ends f s a fwd inv p) (ends f s b fwd inv p)) (pre post : List Ast)
    (p : Nat) (hp : p ≤ s.length) : FEq (endsAll f s (pre ++ a :: post) fwd inv p) (endsAll f s (pre ++ b :: post) fwd inv p) := by
  have bound : ∀ l p q, p ≤ s.length → q ∈ endsAll f s l fwd inv p → q ≤ s.length := fun l p q hp hq =>
    ends_within (a := .seq l) (f := f) (fwd := fwd) (inv := inv) hp (by simpa only [ends] using hq)
  have mid : ∀ p, p ≤ s.length → FEq (endsAll f s (a :: post) fwd inv p) (endsAll f s (b :: post) fwd inv p) := by
    intro p hp
    simp only [endsAll]
    cases inv with
    | true => exact (FEq.refl _).flatMap_mem (fun q hq => h q (bound _ _ _ hp hq))
    | false => exact (h p hp).flatMap_mem (fun q _ => .refl _)
  induction pre generalizing p with
  | nil => exact mid p hp
  | cons c pre ih =>
    simp only [List.cons_append, endsAll]
    cases inv with
    | true => exact (ih p hp).flatMap_mem (fun q _ => .refl _)
    | false => exact (FEq.refl _).flatMap_mem (fun q hq => ih q (ends_within hp hq))

theorem endsAny_gap {fwd inv : Bool} {a b : Ast} {p : Nat} (h : FEq (ends f s a fwd inv p) (ends f s b fwd inv p)) (pre post : List Ast) :
    FEq (endsAny f s (pre ++ a :: post) fwd inv p) (endsAny f s (pre ++ b :: post) fwd inv p) := by
  induction pre with
  | nil => simp only [List.nil_append, endsAny]; exact h.append (.refl _)
  | cons c pre ih => simp only [List.cons_append, endsAny]; exact (FEq.refl _).append ih

end

/-- With the same choices in the gap there are the same choices. -/
theorem choices_fill {E : Env} {X Y : Ast} (h : ∀ fwd inv, Readings E.cat fwd inv → SameChoices E.flags fwd inv X Y) (s : List Byte) :
    ∀ (C : Frame) (fwd inv : Bool) (r : Nat), Readings E.cat fwd inv → (E.cat = .forward → Ok E r (C.fill X)) → ∀ p, p ≤ s.length →
      FEq (ends E.flags s (C.fill X) fwd inv p) (ends E.flags s (C.fill Y) fwd inv p) := by
  intro C
  have looks : ∀ (d : LookDir) (C : Frame), (∀ (fwd inv : Bool) (r : Nat), Readings E.cat fwd inv → (E.cat = .forward → Ok E r (C.fill X)) → ∀ p, p ≤ s.length →
      FEq (ends E.flags s (C.fill X) fwd inv p) (ends E.flags s (C.fill Y) fwd inv p)) →
      ∀ (fwd inv : Bool) (r : Nat), Readings E.cat fwd inv → (E.cat = .forward → Ok E r (.look d (C.fill X))) → ∀ p, p ≤ s.length →
        FEq (ends E.flags s (.look d (C.fill X)) fwd inv p) (ends E.flags s (.look d (C.fill Y)) fwd inv p) := by
    intro d C ih fwd inv r hr hok p hp
    simp only [ends]
    by_cases hc : E.cat = .forward
    · rcases hr with hr | ⟨rfl, rfl⟩
      · exact absurd hc hr
      · cases d with
        | ahead =>
          simp only [show ((LookDir.ahead == LookDir.ahead) == !false) = true from rfl, if_true]
          rw [(ih true false r (.inr ⟨rfl, rfl⟩) (fun hc => by cases hok hc with | ahead h => exact h) p hp).isEmpty]; exact .refl _
        | behind => exact absurd hc (ok_behind.1 (hok hc)).1
    · have h' := fun fwd inv => (ih fwd inv r (.inl hc) (fun h => absurd h hc) p hp).isEmpty
      rw [h', h']; exact .refl _
  induction C with
  | gap => exact fun fwd inv r hr _ p hp => feq_of_find (h fwd inv hr s p hp)
  | seq pre C post ih =>
    intro fwd inv r hr hok p hp
    simp only [Frame.fill, ends] at hok ⊢
    exact endsAll_gap (fun p hp => ih fwd inv r hr (fun hc => by cases hok hc with | seq _ h => exact h _ (by simp)) p hp) pre post p hp
  | alt pre C post ih =>
    intro fwd inv r hr hok p hp
    simp only [Frame.fill, ends] at hok ⊢
    exact endsAny_gap (ih fwd inv r hr (fun hc => by cases hok hc with | alt _ h => exact h _ (by simp)) p hp) pre post
  | cap id name C ih =>
    intro fwd inv r hr hok p hp
    simp only [Frame.fill, ends] at hok ⊢
    exact ih fwd inv r hr (fun hc => by cases hok hc with | cap _ _ h => exact h) p hp
  | rep m lo hi C ih =>
    intro fwd inv r hr hok p hp
    simp only [Frame.fill, ends] at hok ⊢
    exact quantified_in (ih fwd inv r hr (fun hc => by cases hok hc with | repFin _ h => exact h | repInf h => exact h)) (fun p hp q hq => ends_within hp hq) _ _ _ _ _ p hp
  | look d C ih => exact looks d C ih
  | notLook d C ih =>
    intro fwd inv r hr hok p hp
    simp only [Frame.fill] at hok ⊢
    rw [ends, ends]
    simp only [assertion, if_true]
    rw [(looks d C ih fwd inv r hr (fun hc => by cases hok hc with | neg _ h => exact h) p hp).isEmpty]; exact .refl _

/-! ## Observers -/

/-- Any character. -/
def anyChar : Ast := .neg (.set [])

theorem ends_anyChar (f : Flags) (s : List Byte) (fwd inv : Bool) (p : Nat) : ends f s anyChar fwd inv p = oneChar s fwd (fun _ => true) p := by
  simp only [anyChar, ends, assertion]
  rfl

/-- The number of characters from `p` to the end, in the reading direction. -/
def distance (s : List Byte) (fwd : Bool) (p : Nat) : Nat := if fwd then s.length - p else p

theorem exactly_any (s : List Byte) (k p : Nat) (fwd : Bool) (hp : p ≤ s.length) :
    exactly (oneChar s fwd (fun _ => true)) k p = if k ≤ distance s fwd p then [if fwd then p + k else p - k] else [] := by
  induction k generalizing p with
  | zero => cases fwd <;> simp [exactly]
  | succ k ih =>
    cases fwd with
    | true =>
      simp only [exactly, oneChar, readChar, distance, if_true] at ih ⊢
      by_cases h : p < s.length
      · rw [List.getElem?_eq_getElem h]
        simp only [Option.map_some, if_true, List.flatMap_cons, List.flatMap_nil, List.append_nil]
        rw [ih (p + 1) h]
        by_cases h2 : k ≤ s.length - (p + 1)
        · rw [if_pos h2, if_pos (by omega)]; congr 1; omega
        · rw [if_neg h2, if_neg (by omega)]
      · rw [List.getElem?_eq_none (by omega)]
        rw [if_neg (by omega)]; rfl
    | false =>
      simp only [exactly, oneChar, readChar, distance, Bool.false_eq_true, if_false] at ih ⊢
      cases p with
      | zero => simp
      | succ p =>
        simp only [List.getElem?_eq_getElem (show p < s.length by omega), Option.map_some, if_true, List.flatMap_cons, List.flatMap_nil, List.append_nil]
        rw [ih p (by omega)]
        by_cases h2 : k ≤ p
        · rw [if_pos h2, if_pos (by omega)]; congr 1; omega
        · rw [if_neg h2, if_neg (by omega)]

/-- `(?=[^]{k}\Z)`, in the current reading direction. -/
def remaining (inv : Bool) (k : Nat) : Ast := .look (if inv then .behind else .ahead) (.seq [.rep .greedy k (.fin k) anyChar, .eoi])

theorem quantified_exactly (n : Nat) (m : Mode) (hm : m ≠ .possessive) (u : Bool) (k p : Nat) (g : Nat → List Nat) :
    quantified n m u k (.fin k) g p = exactly g k p := by
  have : ∀ q, extra n m u g (some 0) q = [q] := by
    intro q
    cases m <;> cases u <;> simp [extra, greedyUpTo, lazyUpTo, possessiveUpTo]
  unfold quantified
  simp only [Nat.sub_self]
  rw [show extra n m u g (some 0) = (fun q => [q]) from funext this]
  cases m with
  | possessive => exact absurd rfl hm
  | greedy => simp
  | lazy => simp

theorem quantified_atom (n : Nat) (u : Bool) (p : Nat) (g : Nat → List Nat) : quantified n .possessive u 1 (.fin 1) g p = (g p).take 1 := by
  have : ∀ q, extra n .possessive u g (some 0) q = [q] := by
    intro q
    cases u <;> simp [extra, possessiveUpTo]
  unfold quantified
  simp only [Nat.sub_self]
  rw [show extra n .possessive u g (some 0) = (fun q => [q]) from funext this]
  simp [exactly]

theorem ends_remaining (f : Flags) (s : List Byte) (fwd inv : Bool) (k p : Nat) (hp : p ≤ s.length) :
    ends f s (remaining inv k) fwd inv p = test (decide (distance s fwd p = k)) p := by
  have h : (!(ends f s (.seq [.rep .greedy k (.fin k) anyChar, .eoi]) fwd false p).isEmpty) = decide (distance s fwd p = k) := by
    simp only [ends, endsAll, Bool.false_eq_true, if_false, quantified_exactly _ .greedy (by simp)]
    rw [show ends f s anyChar fwd false = oneChar s fwd (fun _ => true) from funext (ends_anyChar f s fwd false), exactly_any s k p fwd hp]
    cases fwd with
    | true =>
      simp only [distance, if_true, atStop, atStart, test, Bool.not_true, Bool.false_and, Bool.or_false, Bool.false_eq_true, if_false, beq_iff_eq]
      by_cases h1 : k ≤ s.length - p
      · by_cases h2 : p + k = s.length
        · have : s.length - p = k := by omega
          simp [h1, h2, this]
        · have : ¬(s.length - p = k) := by omega
          simp [h1, h2, this]
      · have : ¬(s.length - p = k) := by omega
        simp [h1, this]
    | false =>
      simp only [distance, if_true, atStop, atStart, test, Bool.not_false, Bool.false_and, Bool.or_false, Bool.false_eq_true, if_false, beq_iff_eq]
      by_cases h1 : k ≤ p
      · by_cases h2 : p - k = 0
        · have : p = k := by omega
          simp [this]
        · have : ¬(p = k) := by omega
          simp [h1, h2, this]
      · have : ¬(p = k) := by omega
        simp [h1, this]
  cases inv with
  | true =>
    show ends f s (.look .behind _) fwd true p = _
    rw [ends, if_pos (by decide), h]
  | false =>
    show ends f s (.look .ahead _) fwd false p = _
    rw [ends, if_pos (by decide), h]

/-- A test whether the position is `q`. -/
def isAt (s : List Byte) (fwd inv : Bool) (q : Nat) : Ast := remaining inv (distance s fwd q)

theorem ends_isAt (f : Flags) (s : List Byte) (fwd inv : Bool) (q p : Nat) (hq : q ≤ s.length) (hp : p ≤ s.length) :
    ends f s (isAt s fwd inv q) fwd inv p = test (decide (p = q)) p := by
  rw [isAt, ends_remaining f s fwd inv _ p hp]
  congr 2
  cases fwd <;> simp only [distance, Bool.false_eq_true, if_true, if_false, eq_iff_iff] <;> omega

/-- A test whether the position is one for which `A` holds. -/
def isOneOf (s : List Byte) (fwd inv : Bool) (A : Nat → Bool) : Ast := .alt (((List.range (s.length + 1)).filter A).map (isAt s fwd inv))

theorem ends_isOneOf (f : Flags) (s : List Byte) (fwd inv : Bool) (A : Nat → Bool) (p : Nat) (hp : p ≤ s.length) :
    FEq (ends f s (isOneOf s fwd inv A) fwd inv p) (test (A p) p) := by
  have key : ∀ l : List Nat, (∀ q ∈ l, q ≤ s.length) → FEq (endsAny f s (l.map (isAt s fwd inv)) fwd inv p) (test (decide (p ∈ l)) p) := by
    intro l hl
    induction l with
    | nil => exact .of_eq (by simp [endsAny, test])
    | cons q l ih =>
      simp only [List.map_cons, endsAny]
      rw [ends_isAt f s fwd inv q p (hl q (by simp)) hp]
      refine ((FEq.refl _).append (ih (fun q hq => hl q (by simp [hq])))).trans ?_
      intro G
      by_cases h1 : p = q
      · by_cases h2 : p ∈ l
        · cases h3 : G p <;> simp [test, ← h1, h2, h3]
        · simp [test, ← h1, h2]
      · by_cases h2 : p ∈ l <;> simp [test, h1, h2]
  have := key ((List.range (s.length + 1)).filter A) (fun q hq => by have := List.mem_range.1 (List.mem_filter.1 hq).1; omega)
  simp only [isOneOf, ends]
  rw [show decide (p ∈ (List.range (s.length + 1)).filter A) = A p by
    cases h : A p <;> simp [h, List.mem_filter]; omega] at this
  exact this

theorem take_flatMap_test (l : List Nat) (A : Nat → Bool) : (l.flatMap (fun x => test (A x) x)).take 1 = (l.find? A).toList := by
  induction l with
  | nil => rfl
  | cons a l ih => cases h : A a <;> simp [test, List.find?_cons, h]; exact ih

/-- Put something before and after, in the reading order. -/
def between (inv : Bool) (pre : List Ast) (C : Frame) (post : List Ast) : Frame := if inv then .seq post C pre else .seq pre C post

/-- Does a match of the gap begin at `p` and is `q` its preferred end, if `A` must hold there? -/
def watcher (s : List Byte) (fwd inv : Bool) (p : Nat) (A : Nat → Bool) (q : Nat) : Frame :=
  between inv [isAt s fwd inv p] (.rep .possessive 1 (.fin 1) (between inv [] .gap [isOneOf s fwd inv A])) [isAt s fwd inv q]

theorem ends_watcher (f : Flags) (s : List Byte) (fwd inv : Bool) {p : Nat} (hp : p ≤ s.length) (A : Nat → Bool) {q : Nat} (hq : q ≤ s.length) (X : Ast)
    {i : Nat} (hi : i ≤ s.length) : ends f s ((watcher s fwd inv p A q).fill X) fwd inv i ≠ [] ↔ i = p ∧ (ends f s X fwd inv p).find? A = some q := by
  have inner : ∀ i, i ≤ s.length → ends f s ((Frame.rep .possessive 1 (.fin 1) (between inv [] .gap [isOneOf s fwd inv A])).fill X) fwd inv i =
      ((ends f s X fwd inv i).find? A).toList := by
    intro i hi
    have : FEq (ends f s ((between inv [] .gap [isOneOf s fwd inv A]).fill X) fwd inv i) ((ends f s X fwd inv i).flatMap (fun x => test (A x) x)) := by
      have e : ends f s ((between inv [] .gap [isOneOf s fwd inv A]).fill X) fwd inv i = (ends f s X fwd inv i).flatMap (ends f s (isOneOf s fwd inv A) fwd inv) := by
        cases inv <;> simp [between, Frame.fill, ends, endsAll]
      rw [e]
      exact (FEq.refl _).flatMap_mem (fun x hx => ends_isOneOf f s fwd inv A x (ends_within hi hx))
    simp only [Frame.fill, ends]
    rw [quantified_atom, this.take_one, take_flatMap_test]
  have outer : ends f s ((watcher s fwd inv p A q).fill X) fwd inv i =
      ((ends f s (isAt s fwd inv p) fwd inv i).flatMap (fun j => ((ends f s ((Frame.rep .possessive 1 (.fin 1) (between inv [] .gap [isOneOf s fwd inv A])).fill X) fwd inv j).flatMap
        (ends f s (isAt s fwd inv q) fwd inv)))) := by
    unfold watcher
    generalize Frame.rep .possessive 1 (.fin 1) (between inv [] .gap [isOneOf s fwd inv A]) = C
    cases inv <;> simp [between, Frame.fill, ends, endsAll, List.flatMap_assoc]
  rw [outer, ends_isAt f s fwd inv p i hp hi]
  by_cases h : i = p
  · subst h
    simp only [test, decide_true, if_true, List.flatMap_cons, List.flatMap_nil, List.append_nil, true_and]
    rw [inner i hi]
    cases h : (ends f s X fwd inv i).find? A with
    | none => simp
    | some x =>
      have hx : x ≤ s.length := ends_within hi (List.mem_of_find?_eq_some h)
      simp only [Option.toList, List.flatMap_cons, List.flatMap_nil, List.append_nil, ends_isAt f s fwd inv q x hq hx]
      by_cases hxq : x = q <;> simp [test, hxq]
  · simp [test, h]

/-- Bring the gap into a way of reading. -/
def lead : Bool → Bool → Frame → Frame
  | true, false, C => C
  | false, true, C => .look .behind C
  | false, false, C => .look .behind (.look .behind C)
  | true, true, C => .look .behind (.look .ahead C)

theorem ends_lead (f : Flags) (s : List Byte) (fwd inv : Bool) (C : Frame) (X : Ast) (i : Nat) :
    ends f s ((lead fwd inv C).fill X) true false i ≠ [] ↔ ends f s (C.fill X) fwd inv i ≠ [] := by
  have key : ∀ l : List Nat, test (!l.isEmpty) i ≠ [] ↔ l ≠ [] := by
    intro l; cases l <;> simp [test]
  cases fwd <;> cases inv <;> simp only [lead, Frame.fill, ends]
  · rw [if_neg (by decide), if_pos (by decide), key, key]; exact Iff.rfl
  · rw [if_neg (by decide), key]; exact Iff.rfl
  · rw [if_neg (by decide), if_neg (by decide), key, key]; exact Iff.rfl

/-! ## Observers can be used -/

/-- Can be used, however it is read. -/
def OkAny (E : Env) (a : Ast) : Prop := ∀ r m, Ok E r (turn m a)

section
variable {E : Env}

theorem part_anywhere {b a : Ast} {k r : Nat} {m : Bool} (h : Part b k r m a) (r' : Nat) (m' : Bool) : ∃ k', Part b k' r' m' a := by
  induction h generalizing r' m' with
  | here => exact ⟨_, .here⟩
  | neg _ ih => obtain ⟨k', h⟩ := ih r' m'; exact ⟨k', .neg h⟩
  | cap _ ih => obtain ⟨k', h⟩ := ih r' m'; exact ⟨k', .cap h⟩
  | rep _ ih => obtain ⟨k', h⟩ := ih r' m'; exact ⟨k', .rep h⟩
  | set hm _ ih => obtain ⟨k', h⟩ := ih r' m'; exact ⟨k', .set hm h⟩
  | seq hm _ ih => obtain ⟨k', h⟩ := ih r' m'; exact ⟨k', .seq hm h⟩
  | alt hm _ ih => obtain ⟨k', h⟩ := ih r' m'; exact ⟨k', .alt hm h⟩
  | ahead _ ih | mirroredAhead _ ih =>
    cases m' with
    | false => obtain ⟨k', h⟩ := ih r' false; exact ⟨k', .ahead h⟩
    | true => obtain ⟨k', h⟩ := ih (r' + 1) true; exact ⟨k', .mirroredAhead h⟩
  | behind _ ih | mirroredBehind _ ih =>
    cases m' with
    | false => obtain ⟨k', h⟩ := ih (r' + 1) true; exact ⟨k', .behind h⟩
    | true => obtain ⟨k', h⟩ := ih r' false; exact ⟨k', .mirroredBehind h⟩

theorem okAny_of_ok (hc : E.cat ≠ .forward) {X : Ast} (hX : Ok E 0 X) (hg : groupIds X = []) : OkAny E X := by
  intro r m
  rw [ok_iff_allFine X (fun _ => hc)]
  have h0 := (ok_iff_allFine X (m := false) (fun h => by cases h)).1 hX
  intro b k hb
  obtain ⟨k', h⟩ := part_anywhere hb 0 false
  have := h0 b k' h
  cases b with
  | cap id n b => have := part_groupIds hb; rw [hg] at this; cases this
  | rep m lo hi b => cases hi <;> exact this
  | look d b => cases d <;> exact this
  | _ => exact this

theorem okAny_seq {l : List Ast} (hne : l ≠ []) (h : ∀ a ∈ l, OkAny E a) : OkAny E (.seq l) := by
  intro r m
  cases m with
  | false => exact .seq hne (fun a ha => h a ha r false)
  | true =>
    simp only [turn, if_true, invert, invertAll_eq]
    refine .seq (by simpa using hne) (fun b hb => ?_)
    obtain ⟨a, ha, rfl⟩ := List.mem_map.1 (List.mem_reverse.1 hb)
    exact h a ha r true

theorem okAny_alt {l : List Ast} (hne : l ≠ []) (h : ∀ a ∈ l, OkAny E a) : OkAny E (.alt l) := by
  intro r m
  cases m with
  | false => exact .alt hne (fun a ha => h a ha r false)
  | true =>
    simp only [turn, if_true, invert, invertAll_eq]
    refine .alt (by simpa using hne) (fun b hb => ?_)
    obtain ⟨a, ha, rfl⟩ := List.mem_map.1 hb
    exact h a ha r true

theorem okAny_rep {md : Mode} {k : Nat} {a : Ast} (h : OkAny E a) : OkAny E (.rep md k (.fin k) a) := by
  intro r m
  cases m with
  | false => exact .repFin (Nat.le_refl _) (h r false)
  | true => exact .repFin (Nat.le_refl _) (h r true)

theorem okAny_look (hc : E.cat ≠ .forward) {d : LookDir} {a : Ast} (h : OkAny E a) : OkAny E (.look d a) := by
  intro r m
  cases d <;> cases m
  · exact .ahead (h r false)
  · show Ok E r (.look .behind a)
    rw [ok_behind]; exact ⟨hc, h _ true⟩
  · rw [turn_false, id, ok_behind]; exact ⟨hc, h _ true⟩
  · show Ok E r (.look .ahead a)
    exact .ahead (h r false)

theorem okAny_anyChar : OkAny E anyChar := by
  intro r m
  cases m <;> exact .neg (.inl rfl) (.set (fun _ h => nomatch h) (fun _ h => nomatch h))

theorem okAny_eoi : OkAny E .eoi := by
  intro r m
  cases m <;> exact .eoi

theorem okAny_remaining (hc : E.cat ≠ .forward) (inv : Bool) (k : Nat) : OkAny E (remaining inv k) := by
  refine okAny_look hc (okAny_seq (by simp) (fun a ha => ?_))
  rcases List.mem_cons.1 ha with rfl | ha
  · exact okAny_rep okAny_anyChar
  · rw [List.mem_singleton.1 ha]; exact okAny_eoi

theorem ok_remaining (r k : Nat) : Ok E r (remaining false k) := by
  refine .ahead (.seq (by simp) (fun a ha => ?_))
  rcases List.mem_cons.1 ha with rfl | ha
  · exact .repFin (Nat.le_refl _) (okAny_anyChar r false)
  · rw [List.mem_singleton.1 ha]; exact .eoi

variable (s : List Byte) (fwd inv : Bool) (p : Nat) (A : Nat → Bool) (q : Nat)

theorem positions_ne (hq : q ≤ s.length) (hA : A q = true) : (((List.range (s.length + 1)).filter A).map (isAt s fwd inv)) ≠ [] := by
  intro h
  have : q ∈ (List.range (s.length + 1)).filter A := by rw [List.mem_filter]; exact ⟨List.mem_range.2 (by omega), hA⟩
  rw [List.map_eq_nil_iff.1 h] at this
  cases this

theorem okAny_watcher (hc : E.cat ≠ .forward) {X : Ast} (hX : OkAny E X) (hq : q ≤ s.length) (hA : A q = true) :
    OkAny E ((watcher s fwd inv p A q).fill X) := by
  have h1 : OkAny E (isOneOf s fwd inv A) := by
    refine okAny_alt (positions_ne s fwd inv A q hq hA) (fun a ha => ?_)
    obtain ⟨k, _, rfl⟩ := List.mem_map.1 ha
    exact okAny_remaining hc _ _
  have h2 : OkAny E ((between inv [] .gap [isOneOf s fwd inv A]).fill X) := by
    cases inv <;> (refine okAny_seq (by simp) (fun a ha => ?_); simp only [Frame.fill, List.nil_append, List.cons_append, List.mem_cons, List.not_mem_nil, or_false] at ha;
                   rcases ha with rfl | rfl <;> assumption)
  have h3 := fun q => okAny_remaining hc (E := E) inv (distance s fwd q)
  have h4 : OkAny E ((Frame.rep .possessive 1 (.fin 1) (between inv [] .gap [isOneOf s fwd inv A])).fill X) := okAny_rep h2
  unfold watcher
  generalize Frame.rep .possessive 1 (.fin 1) (between inv [] .gap [isOneOf s fwd inv A]) = C at h4 ⊢
  cases inv <;> (refine okAny_seq (by simp) (fun a ha => ?_); simp only [List.nil_append, List.cons_append, List.mem_cons, List.not_mem_nil, or_false] at ha;
                 rcases ha with rfl | rfl | rfl <;> first | exact h4 | exact h3 _)

theorem ok_watcher {X : Ast} (hX : Ok E 0 X) (hq : q ≤ s.length) (hA : A q = true) : Ok E 0 ((watcher s true false p A q).fill X) := by
  have h1 : Ok E 0 (isOneOf s true false A) := by
    refine .alt (positions_ne s true false A q hq hA) (fun a ha => ?_)
    obtain ⟨k, _, rfl⟩ := List.mem_map.1 ha
    exact ok_remaining _ _
  have h2 : Ok E 0 ((between false [] .gap [isOneOf s true false A]).fill X) := by
    refine .seq (by simp) (fun a ha => ?_)
    simp only [Frame.fill, List.nil_append, List.mem_cons, List.not_mem_nil, or_false] at ha
    rcases ha with rfl | rfl <;> assumption
  have h4 : Ok E 0 ((Frame.rep .possessive 1 (.fin 1) (between false [] .gap [isOneOf s true false A])).fill X) := .repFin (Nat.le_refl _) h2
  refine .seq (by simp) (fun a ha => ?_)
  simp only [List.cons_append, List.nil_append, List.mem_cons, List.not_mem_nil, or_false] at ha
  rcases ha with rfl | rfl | rfl
  · exact ok_remaining _ _
  · exact h4
  · exact ok_remaining _ _

theorem ok_lead_watcher {X : Ast} (hX : Ok E 0 X) (hg : groupIds X = []) (hr : Readings E.cat fwd inv) (hq : q ≤ s.length) (hA : A q = true) :
    Ok E 0 ((lead fwd inv (watcher s fwd inv p A q)).fill X) := by
  by_cases hc : E.cat = .forward
  · rcases hr with hr | ⟨rfl, rfl⟩
    · exact absurd hc hr
    · exact ok_watcher s p A q hX hq hA
  · have h := okAny_watcher s fwd inv p A q hc (okAny_of_ok hc hX hg) hq hA
    cases fwd <;> cases inv
    · exact okAny_look hc (okAny_look hc h) 0 false
    · exact okAny_look hc h 0 false
    · exact h 0 false
    · exact okAny_look hc (okAny_look hc h) 0 false

end

end Mregex
