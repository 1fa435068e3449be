import Mathlib.Computability.MyhillNerode
import Mathlib.Data.Fintype.Pi
import Mathlib.Data.Fintype.Powerset
import Mathlib.Data.Fintype.Option
import Mathlib.Data.Finite.Prod
import Mathlib.Data.Set.Finite.Range
import Mathlib.Data.Finite.Card
import Mathlib.Data.Fintype.Pigeonhole
import Verif.Spec.Decide

/-!
# Functions of a text and a position that a finite congruence determines
-/

namespace Mregex
open Spec
variable {α : Type}

/-- The class of a concatenation is determined by the classes of the parts. -/
def Congr {κ : Type} (h : List α → κ) : Prop :=
  ∀ x x' y y', h x = h x' → h y = h y' → h (x ++ y) = h (x' ++ y')

/-- `T` at a position is determined by the classes of the text before it and after it. -/
def Respects {κ τ : Type} (h : List α → κ) (T : List α → Nat → τ) : Prop :=
  ∀ u u' w w', h u = h u' → h w = h w' → T (u ++ w) u.length = T (u' ++ w') u'.length

/-- There are at most `n` classes that determine `T`. -/
def Recog {τ : Type} (n : Nat) (T : List α → Nat → τ) : Prop :=
  ∃ (κ : Type) (_ : Finite κ) (h : List α → κ), Nat.card κ ≤ n ∧ Congr h ∧ Respects h T

namespace Recog
variable {τ σ : Type} {n m : Nat} {T : List α → Nat → τ}

/-- Only the values inside of the text matter. -/
theorem congr {T' : List α → Nat → τ} (hT : Recog n T) (h : ∀ s p, p ≤ s.length → T' s p = T s p) : Recog n T' := by
  obtain ⟨κ, hκ, g, h0, h1, h2⟩ := hT
  refine ⟨κ, hκ, g, h0, h1, fun u u' w w' hu hw => ?_⟩
  rw [h _ _ (by simp), h _ _ (by simp), h2 u u' w w' hu hw]

theorem const (t : τ) : Recog 1 fun (_ : List α) _ => t := ⟨Unit, inferInstance, fun _ => (), by simp, fun _ _ _ _ _ _ => rfl, fun _ _ _ _ _ _ => rfl⟩

theorem map (hT : Recog n T) (f : τ → σ) : Recog n fun s p => f (T s p) := by
  obtain ⟨κ, hκ, h, h0, h1, h2⟩ := hT
  exact ⟨κ, hκ, h, h0, h1, fun u u' w w' hu hw => congrArg f (h2 u u' w w' hu hw)⟩

theorem pair {T' : List α → Nat → σ} (hT : Recog n T) (hT' : Recog m T') : Recog (n * m) fun s p => (T s p, T' s p) := by
  obtain ⟨κ, hκ, h, h0, h1, h2⟩ := hT
  obtain ⟨κ', hκ', h', h0', h1', h2'⟩ := hT'
  refine ⟨κ × κ', inferInstance, fun x => (h x, h' x), by rw [Nat.card_prod]; exact Nat.mul_le_mul h0 h0', fun x x' y y' hx hy => ?_, fun u u' w w' hu hw => ?_⟩
  · simp only [Prod.mk.injEq] at hx hy ⊢
    exact ⟨h1 _ _ _ _ hx.1 hy.1, h1' _ _ _ _ hx.2 hy.2⟩
  · simp only [Prod.mk.injEq] at hu hw ⊢
    exact ⟨h2 _ _ _ _ hu.1 hw.1, h2' _ _ _ _ hu.2 hw.2⟩

/-- The character after the position. -/
theorem nextOf [Finite α] : Recog (Nat.card α + 1) fun (s : List α) p => s[p]? := by
  refine ⟨Option α, inferInstance, List.head?, Nat.le_of_eq Finite.card_option, fun x x' y y' hx hy => ?_, fun u u' w w' hu hw => ?_⟩
  · cases x <;> cases x' <;> simp_all
  · cases w <;> cases w' <;> simp_all

theorem card_byte : Nat.card Byte = 256 := by
  rw [Nat.card_congr (β := Fin (2 ^ 8)) ⟨BitVec.toFin, BitVec.ofFin, fun _ => rfl, fun _ => rfl⟩, Nat.card_fin]

instance finite_byte : Finite Byte := Nat.finite_of_card_ne_zero (by rw [card_byte]; omega)

/-- The character after the position. -/
theorem next : Recog 257 fun (s : List Byte) p => s[p]? := by
  have := nextOf (α := Byte)
  rwa [card_byte] at this

/-- What is determined by a text does not depend on further marks in it. -/
theorem comap {β : Type} (hT : Recog n T) (π : β → α) : Recog n fun s p => T (s.map π) p := by
  obtain ⟨κ, hκ, h, h0, h1, h2⟩ := hT
  refine ⟨κ, hκ, fun x => h (x.map π), h0, fun x x' y y' hx hy => ?_, fun u u' w w' hu hw => ?_⟩
  · show h ((x ++ y).map π) = h ((x' ++ y').map π)
    rw [List.map_append, List.map_append]; exact h1 _ _ _ _ hx hy
  · have := h2 _ _ _ _ hu hw
    simpa only [List.map_append, List.length_map] using this

/-- The character before the position. -/
theorem prev : Recog 257 fun (s : List Byte) p => if p = 0 then none else s[p - 1]? := by
  refine ⟨Option Byte, inferInstance, List.getLast?, by rw [Finite.card_option, card_byte], fun x x' y y' hx hy => ?_, fun u u' w w' hu hw => ?_⟩
  · rw [List.getLast?_append, List.getLast?_append, hx, hy]
  · have key : ∀ u w : List Byte, (if u.length = 0 then none else (u ++ w)[u.length - 1]?) = u.getLast? := by
      intro u w
      split
      · next h0 => rw [List.eq_nil_of_length_eq_zero h0]; rfl
      · next h0 =>
        rw [List.getElem?_append_left (by omega), List.getLast?_eq_getElem?]
    show (if u.length = 0 then none else (u ++ w)[u.length - 1]?) = (if u'.length = 0 then none else (u' ++ w')[u'.length - 1]?)
    rw [key, key, hu]

end Recog

section blocks
variable {κ D : Type} {h : List α → κ} {B : List α → List α → List α → D → D}

/-- The class of `x`, and what `x` does to values in each context. -/
noncomputable def blockClass (h : List α → κ) (B : List α → List α → List α → D → D) (x : List α) : κ × (κ → κ → Option (D → D)) :=
  (h x, fun a b => open Classical in if w : ∃ u z, h u = a ∧ h z = b then some (B w.choose x w.choose_spec.choose) else none)

theorem blockClass_card [Finite κ] [Finite D] {n d : Nat} (hn : Nat.card κ ≤ n) (hd : Nat.card D ≤ d) (d0 : D) :
    Nat.card (κ × (κ → κ → Option (D → D))) ≤ flowSize n d := by
  have : Nonempty D := ⟨d0⟩
  have hpos : 0 < Nat.card D := Nat.card_pos
  have h1 : Nat.card D ^ Nat.card D ≤ d ^ d := Nat.le_trans (Nat.pow_le_pow_left hd _) (Nat.pow_le_pow_right (by omega) hd)
  rw [Nat.card_prod, Nat.card_fun, Nat.card_fun, Finite.card_option, Nat.card_fun, flowSize]
  refine Nat.mul_le_mul hn (Nat.le_trans (Nat.pow_le_pow_left (Nat.le_trans (Nat.pow_le_pow_left (Nat.succ_le_succ h1) _)
    (Nat.pow_le_pow_right (by omega) hn)) _) (Nat.pow_le_pow_right (Nat.pow_pos (by omega)) hn))

theorem blockClass_eq (hB : ∀ u u' x z z', h u = h u' → h z = h z' → B u x z = B u' x z') {x x' : List α}
    (he : blockClass h B x = blockClass h B x') : h x = h x' ∧ ∀ u z, B u x z = B u x' z := by
  simp only [blockClass, Prod.mk.injEq] at he
  refine ⟨he.1, fun u z => ?_⟩
  have h1 := congrFun (congrFun he.2 (h u)) (h z)
  have w : ∃ u' z', h u' = h u ∧ h z' = h z := ⟨u, z, rfl, rfl⟩
  rw [dif_pos w, dif_pos w] at h1
  have h2 := w.choose_spec.choose_spec
  rw [hB u w.choose x z _ h2.1.symm h2.2.symm, Option.some.inj h1, hB u w.choose x' z _ h2.1.symm h2.2.symm]

theorem blockClass_congr (hh : Congr h) (hB : ∀ u u' x z z', h u = h u' → h z = h z' → B u x z = B u' x z')
    (happ : ∀ x x' y y', h x = h x' → h y = h y' → (∀ u z, B u x z = B u x' z) → (∀ u z, B u y z = B u y' z) →
      ∀ u z, B u (x ++ y) z = B u (x' ++ y') z) : Congr (blockClass h B) := by
  intro x x' y y' hx hy
  obtain ⟨hx1, hx2⟩ := blockClass_eq hB hx
  obtain ⟨hy1, hy2⟩ := blockClass_eq hB hy
  have := happ x x' y y' hx1 hy1 hx2 hy2
  simp only [blockClass, hh x x' y y' hx1 hy1, this]

end blocks

/-- The position with `r` characters left to read. -/
def conv (fwd : Bool) (s : List α) (r : Nat) : Nat := if fwd then s.length - r else r

theorem conv_le (fwd : Bool) (s : List α) {r : Nat} (h : r ≤ s.length) : conv fwd s r ≤ s.length := by
  unfold conv; split <;> omega

theorem conv_conv (fwd : Bool) (s : List α) {r : Nat} (h : r ≤ s.length) : conv fwd s (conv fwd s r) = r := by
  unfold conv; cases fwd <;> simp <;> omega

/-- The values that result from steps towards the starting position. -/
def flow {ι D : Type} (δ : ι → D → D) (d : D) (I : Nat → ι) (at_ : Nat → Nat) : Nat → D
  | 0 => δ (I (at_ 0)) d
  | r + 1 => δ (I (at_ (r + 1))) (flow δ d I at_ r)

section flow
variable {ι D : Type} (δ : ι → D → D) (d : D) (I : List α → Nat → ι)

/-- What the positions of `x` do to the value at its end, going back. -/
def blockF (u : List α) : List α → List α → D → D
  | [], _, e => e
  | a :: x, z, e => δ (I (u ++ (a :: x) ++ z) u.length) (blockF (u ++ [a]) x z e)

/-- What the positions of `x` do to the value at its beginning, going on. -/
def blockB (u : List α) : List α → List α → D → D
  | [], _, e => e
  | a :: x, z, e => blockB (u ++ [a]) x z (δ (I (u ++ (a :: x) ++ z) (u.length + 1)) e)

theorem blockF_append (u x y z : List α) (e : D) :
    blockF δ I u (x ++ y) z e = blockF δ I u x (y ++ z) (blockF δ I (u ++ x) y z e) := by
  induction x generalizing u with
  | nil => simp [blockF]
  | cons a x ih => simp only [List.cons_append, blockF, ih]; simp

theorem blockB_append (u x y z : List α) (e : D) :
    blockB δ I u (x ++ y) z e = blockB δ I (u ++ x) y z (blockB δ I u x (y ++ z) e) := by
  induction x generalizing u e with
  | nil => simp [blockB]
  | cons a x ih => simp only [List.cons_append, blockB, ih]; simp

variable {δ I} {κ : Type} {h : List α → κ}

theorem blockF_resp (hh : Congr h) (hI : Respects h I) (u u' x z z' : List α) (hu : h u = h u') (hz : h z = h z') :
    blockF δ I u x z = blockF δ I u' x z' := by
  funext e
  induction x generalizing u u' with
  | nil => rfl
  | cons a x ih =>
    simp only [blockF]
    rw [ih (u ++ [a]) (u' ++ [a]) (hh _ _ _ _ hu rfl), List.append_assoc, List.append_assoc,
      hI u u' _ _ hu (hh (a :: x) (a :: x) z z' rfl hz)]

theorem blockB_resp (hh : Congr h) (hI : Respects h I) (u u' x z z' : List α) (hu : h u = h u') (hz : h z = h z') :
    blockB δ I u x z = blockB δ I u' x z' := by
  funext e
  induction x generalizing u u' e with
  | nil => rfl
  | cons a x ih =>
    simp only [blockB]
    rw [ih (u ++ [a]) (u' ++ [a]) (hh _ _ _ _ hu rfl)]
    have := hI (u ++ [a]) (u' ++ [a]) (x ++ z) (x ++ z') (hh _ _ _ _ hu rfl) (hh _ _ _ _ rfl hz)
    simp only [List.append_assoc, List.singleton_append, List.length_append, List.length_singleton] at this
    simp only [List.append_assoc, List.cons_append, this]

variable (δ I)

theorem flow_forward (u w : List α) :
    flow δ d (I (u ++ w)) (conv true (u ++ w)) w.length = blockF δ I u w [] (δ (I (u ++ w) (u ++ w).length) d) := by
  induction w generalizing u with
  | nil => simp [flow, blockF, conv]
  | cons a w ih =>
    have := ih (u ++ [a])
    simp only [List.append_assoc, List.singleton_append] at this
    simp only [List.length_cons, flow, blockF, this, List.append_nil]
    congr 2
    simp only [conv, List.length_append, List.length_cons, if_true]
    omega

theorem blockB_snoc (u x z : List α) (a : α) (e : D) :
    blockB δ I u (x ++ [a]) z e = δ (I (u ++ x ++ a :: z) (u.length + x.length + 1)) (blockB δ I u x (a :: z) e) := by
  rw [blockB_append]
  simp [blockB]

theorem flow_backward (u w : List α) :
    flow δ d (I (u ++ w)) (conv false (u ++ w)) u.length = blockB δ I [] u w (δ (I (u ++ w) 0) d) := by
  have key : ∀ (v u w : List α), v.reverse = u → flow δ d (I (u ++ w)) (conv false (u ++ w)) u.length = blockB δ I [] u w (δ (I (u ++ w) 0) d) := by
    intro v
    induction v with
    | nil => rintro _ w rfl; simp [flow, blockB, conv]
    | cons a v ih =>
      rintro _ w rfl
      have := ih v.reverse (a :: w) rfl
      simp only [List.length_reverse] at this
      simp only [List.reverse_cons, List.append_assoc, List.singleton_append, List.length_append, List.length_reverse,
        List.length_singleton, flow, blockB_snoc, this, List.nil_append, List.length_nil, Nat.zero_add, conv, Bool.false_eq_true, if_false]
  exact key u.reverse u w (by simp)

/-- **Values computed step by step from what finitely many classes determine are determined by finitely many classes.** -/
theorem Recog.flow [Finite D] {n e : Nat} (he : Nat.card D ≤ e) {I : List α → Nat → ι} (hI : Recog n I) (fwd : Bool) :
    Recog (flowSize n e) fun s p => flow δ d (I s) (conv fwd s) (conv fwd s p) := by
  obtain ⟨κ, hκ, h, h0, h1, h2⟩ := hI
  cases fwd with
  | true =>
    have hB := blockF_resp (δ := δ) (I := I) h1 h2
    refine ⟨_, inferInstance, blockClass h (blockF δ I), blockClass_card h0 he d, blockClass_congr h1 hB (fun x x' y y' hx hy hx' hy' u z => ?_), fun u u' w w' hu hw => ?_⟩
    · funext e
      rw [blockF_append, blockF_append, hy', hx', hB u u x' (y ++ z) (y' ++ z) rfl (h1 _ _ _ _ hy rfl),
        hB (u ++ x) (u ++ x') y' z z (h1 _ _ _ _ rfl hx) rfl]
    · obtain ⟨hu1, _⟩ := blockClass_eq hB hu
      obtain ⟨hw1, hw2⟩ := blockClass_eq hB hw
      have hl : ∀ u w : List α, conv true (u ++ w) u.length = w.length := by intro u w; simp [conv]
      have hd := h2 (u ++ w) (u' ++ w') [] [] (h1 _ _ _ _ hu1 hw1) rfl
      simp only [List.append_nil] at hd
      beta_reduce
      rw [hl, hl, flow_forward, flow_forward, hd, hw2, hB u u' w' [] [] hu1 rfl]
  | false =>
    have hB := blockB_resp (δ := δ) (I := I) h1 h2
    refine ⟨_, inferInstance, blockClass h (blockB δ I), blockClass_card h0 he d, blockClass_congr h1 hB (fun x x' y y' hx hy hx' hy' u z => ?_), fun u u' w w' hu hw => ?_⟩
    · funext e
      rw [blockB_append, blockB_append, hy', hx', hB u u x' (y ++ z) (y' ++ z) rfl (h1 _ _ _ _ hy rfl),
        hB (u ++ x) (u ++ x') y' z z (h1 _ _ _ _ rfl hx) rfl]
    · obtain ⟨hu1, hu2⟩ := blockClass_eq hB hu
      obtain ⟨hw1, _⟩ := blockClass_eq hB hw
      have hl : ∀ u w : List α, conv false (u ++ w) u.length = u.length := by intro u w; simp [conv]
      have hd := h2 [] [] (u ++ w) (u' ++ w') rfl (h1 _ _ _ _ hu1 hw1)
      simp only [List.nil_append, List.length_nil] at hd
      beta_reduce
      rw [hl, hl, flow_backward, flow_backward, hd, hu2, hB [] [] u' w w' rfl hw1]

end flow

/-- **What finitely many classes determine at the start of the text is a regular language.** -/
theorem Recog.isRegular {n : Nat} {T : List α → Nat → Prop} (hT : Recog n T) : Language.IsRegular ({s | T s 0} : Language α) := by
  obtain ⟨κ, hκ, h, _, h1, h2⟩ := hT
  refine Language.IsRegular.of_finite_range_leftQuotient ?_
  have key : ∀ x x', h x = h x' → Language.leftQuotient ({s | T s 0} : Language α) x = Language.leftQuotient ({s | T s 0} : Language α) x' := by
    intro x x' hx
    ext y
    have := h2 [] [] (x ++ y) (x' ++ y) rfl (h1 _ _ _ _ hx rfl)
    simp only [List.nil_append, List.length_nil] at this
    show T (x ++ y) 0 ↔ T (x' ++ y) 0
    rw [this]
  refine (Set.finite_range (fun k : Set.range h => Language.leftQuotient ({s | T s 0} : Language α) k.2.choose)).subset ?_
  rintro _ ⟨x, rfl⟩
  exact ⟨⟨h x, x, rfl⟩, key _ _ (Set.mem_range_self x : ∃ y, h y = h x).choose_spec⟩

/-- The text with the part between `i` and `j` taken `k` times. -/
def pumped (s : List α) (i j k : Nat) : List α := s.take i ++ ((List.replicate k ((s.take j).drop i)).flatten ++ s.drop j)

theorem pumped_length {s : List α} {i j k : Nat} (hij : i ≤ j) (hj : j ≤ s.length) : (pumped s i j k).length = i + k * (j - i) + (s.length - j) := by
  have hr : ∀ (l : List α) k, (List.replicate k l).flatten.length = k * l.length := by
    intro l k
    induction k with
    | zero => simp
    | succ k ih => rw [List.replicate_succ, List.flatten_cons, List.length_append, ih, Nat.succ_mul, Nat.add_comm]
  simp only [pumped, List.length_append, List.length_take, hr, List.length_drop]
  rw [Nat.min_eq_left hj, Nat.min_eq_left (Nat.le_trans hij hj)]
  omega

/-- **A part near the beginning can be taken any number of times.** (It is empty if the text is short.) -/
theorem Recog.pump {n : Nat} {T : List α → Nat → Prop} (hT : Recog n T) {s : List α} (hs : T s 0) :
    ∃ i j, i < j ∧ j ≤ n ∧ ∀ k, T (pumped s i j k) 0 := by
  obtain ⟨κ, hκ, h, h0, h1, h2⟩ := hT
  have : Fintype κ := Fintype.ofFinite κ
  obtain ⟨i, j, hne, he⟩ := Fintype.exists_ne_map_eq_of_card_lt (fun i : Fin (n + 1) => h (s.take i)) (by
    rw [Fintype.card_fin, ← Nat.card_eq_fintype_card]; omega)
  have key : ∀ i j : Nat, i < j → j ≤ n → h (s.take i) = h (s.take j) → ∀ k, T (pumped s i j k) 0 := by
    intro i j hij hj he k
    have hm : ∀ k, h (s.take i ++ (List.replicate k ((s.take j).drop i)).flatten) = h (s.take i) := by
      intro k
      induction k with
      | zero => simp
      | succ k ih =>
        rw [List.replicate_succ', List.flatten_append, ← List.append_assoc]
        refine (h1 _ _ _ _ ih rfl).trans ?_
        rw [show s.take i ++ [(s.take j).drop i].flatten = s.take j from ?_, he]
        have : s.take i = (s.take j).take i := by rw [List.take_take, Nat.min_eq_left (Nat.le_of_lt hij)]
        rw [this, List.flatten_singleton, List.take_append_drop]
    have h3 := h2 [] [] (pumped s i j k) (s.take j ++ s.drop j) rfl (by
      rw [pumped, ← List.append_assoc]
      exact h1 _ _ _ _ ((hm k).trans he) rfl)
    simp only [List.nil_append, List.length_nil, List.take_append_drop] at h3
    rwa [h3]
  rcases Nat.lt_or_ge i.1 j.1 with hij | hij
  · exact ⟨i, j, hij, by omega, key i j hij (by omega) he⟩
  · have hij : j.1 < i.1 := by
      have : i.1 ≠ j.1 := fun e => hne (Fin.ext e)
      omega
    exact ⟨j, i, hij, by omega, key j i hij (by omega) he.symm⟩

/-- **If there is a text then there is one that is shorter than the number of classes.** -/
theorem Recog.short {n : Nat} {T : List α → Nat → Prop} (hT : Recog n T) : ∀ (m : Nat) {s : List α}, s.length ≤ m → T s 0 → ∃ s', s'.length < n ∧ T s' 0 := by
  intro m
  induction m with
  | zero =>
    intro s hm hs
    by_cases hn : s.length < n
    · exact ⟨s, hn, hs⟩
    · obtain ⟨i, j, hij, hj, _⟩ := hT.pump hs
      omega
  | succ m ih =>
    intro s hm hs
    by_cases hn : s.length < n
    · exact ⟨s, hn, hs⟩
    · obtain ⟨i, j, hij, hj, hk⟩ := hT.pump hs
      exact ih (by rw [pumped_length (k := 0) (Nat.le_of_lt hij) (by omega)]; omega) (hk 0)

/-- Every class has a text that is shorter than the number of classes. -/
theorem Congr.short {κ : Type} [Finite κ] {h : List α → κ} (h1 : Congr h) (x : List α) : ∃ x', x'.length < Nat.card κ ∧ h x' = h x := by
  have hT : Recog (Nat.card κ) fun (s : List α) p => h (s.drop p) = h x :=
    ⟨κ, inferInstance, h, Nat.le_refl _, h1, fun u u' w w' _ hw => by simp only [List.drop_left, hw]⟩
  obtain ⟨x', h2, h3⟩ := hT.short x.length (Nat.le_refl _) (by simp)
  exact ⟨x', h2, by simpa using h3⟩

/-- **If there are a text and a position in it, then there are such that there is less before and after it than the number of classes.** -/
theorem Recog.around {n : Nat} {T : List α → Nat → Prop} (hT : Recog n T) {s : List α} {p : Nat} (hp : p ≤ s.length) (hs : T s p) :
    ∃ s' p', p' ≤ s'.length ∧ s'.length < 2 * n ∧ T s' p' := by
  obtain ⟨κ, hκ, h, h0, h1, h2⟩ := hT
  obtain ⟨u, hu, hu'⟩ := h1.short (s.take p)
  obtain ⟨w, hw, hw'⟩ := h1.short (s.drop p)
  have := h2 _ _ _ _ hu' hw'
  rw [List.take_append_drop, List.length_take, Nat.min_eq_left hp] at this
  exact ⟨u ++ w, u.length, by simp, by simp only [List.length_append]; omega, this ▸ hs⟩

/-- **If there is a text that is not shorter than the number of classes, then there is one that is shorter than twice that number.** -/
theorem Recog.medium {n : Nat} {T : List α → Nat → Prop} (hT : Recog n T) : ∀ (m : Nat) {s : List α}, s.length ≤ m → n ≤ s.length → T s 0 →
    ∃ s', n ≤ s'.length ∧ s'.length < 2 * n ∧ T s' 0 := by
  intro m
  induction m with
  | zero =>
    intro s hm hn hs
    obtain ⟨i, j, hij, hj, _⟩ := hT.pump hs
    omega
  | succ m ih =>
    intro s hm hn hs
    by_cases h2 : s.length < 2 * n
    · exact ⟨s, hn, h2, hs⟩
    · obtain ⟨i, j, hij, hj, hk⟩ := hT.pump hs
      have hl := pumped_length (s := s) (k := 0) (Nat.le_of_lt hij) (by omega)
      exact ih (by omega) (by omega) (hk 0)

end Mregex
