import Verif.Proof.Moves
import Verif.Proof.Passed
import Verif.Spec.Lines

/-!
# Texts inside of texts
-/

namespace Mregex
open Ast Spec

/-- Inside a text of length `n`. -/
def CapIn (n : Nat) (v : Cap) : Prop := ∀ x, v = some x → x.1 ≤ n ∧ x.2 ≤ n

/-- The same procedure, `d` characters further on, as long as all positions are between `0` and `n`. -/
inductive Window (n d : Nat) : Proc → Proc → Prop
  | done : Window n d .done .done
  | note {k b e : Nat} {P P' : Proc} : b ≤ n → e ≤ n → Window n d P P' → Window n d (.note k b e P) (.note k (b + d) (e + d) P')
  | cross {k : Nat} {P P' : Proc} : Window n d P P' → Window n d (.cross k P) (.cross k P')
  | offer {q : Nat} {P P' : Proc} : q ≤ n → Window n d P P' → Window n d (.offer q P) (.offer (q + d) P')
  | recall {k : Nat} {f f' : Cap → Proc} : (∀ v, CapIn n v → Window n d (f v) (f' (shiftCap d v))) → Window n d (.recall k f) (.recall k f')

section
variable {n d : Nat}

theorem window_andThen {P P' Q Q' : Proc} (h : Window n d P P') (h' : Window n d Q Q') : Window n d (P.andThen Q) (P'.andThen Q') := by
  induction h with
  | done => exact h'
  | note hb he _ ih => exact .note hb he ih
  | cross _ ih => exact .cross ih
  | offer hq _ ih => exact .offer hq ih
  | recall _ ih => exact .recall ih

theorem window_proceed {P P' : Proc} {g g' : Nat → Proc} (h : Window n d P P') (hg : ∀ q, q ≤ n → Window n d (g q) (g' (q + d))) :
    Window n d (P.proceed g) (P'.proceed g') := by
  induction h with
  | done => exact .done
  | note hb he _ ih => exact .note hb he ih
  | cross _ ih => exact .cross ih
  | offer hq _ ih => exact window_andThen (hg _ hq) ih
  | recall _ ih => exact .recall ih

theorem window_commit {P P' Q Q' : Proc} {g g' : Nat → Proc} (h : Window n d P P') (hg : ∀ q, q ≤ n → Window n d (g q) (g' (q + d))) (h' : Window n d Q Q') :
    Window n d (P.commit g Q) (P'.commit g' Q') := by
  induction h with
  | done => exact h'
  | note hb he _ ih => exact .note hb he ih
  | cross _ ih => exact .cross ih
  | offer hq _ ih => exact hg _ hq
  | recall _ ih => exact .recall ih

theorem window_except {P P' : Proc} (p : Nat) (h : Window n d P P') : Window n d (P.except p) (P'.except (p + d)) := by
  induction h with
  | done => exact .done
  | note hb he _ ih => exact .note hb he ih
  | cross _ ih => exact .cross ih
  | @offer q _ _ hn _ ih =>
    simp only [Proc.except]
    by_cases hq : q = p
    · rw [if_pos hq, if_pos (by omega)]; exact ih
    · rw [if_neg hq, if_neg (by omega)]; exact .offer hn ih
  | recall _ ih => exact .recall ih

theorem window_only {q : Nat} (hq : q ≤ n) : Window n d (.only q) (.only (q + d)) := .offer hq .done

theorem window_offers {l l' : List Nat} (h : l' = l.map (· + d)) (hl : ∀ q ∈ l, q ≤ n) : Window n d (.offers l) (.offers l') := by
  subst h
  induction l with
  | nil => exact .done
  | cons q l ih => exact .offer (hl q (by simp)) (ih fun q hq => hl q (by simp [hq]))

section
variable {g g' : Nat → Proc} (hg : ∀ q, q ≤ n → Window n d (g q) (g' (q + d)))
include hg

theorem window_times (k p : Nat) (hp : p ≤ n) : Window n d (Proc.times g k p) (Proc.times g' k (p + d)) := by
  induction k generalizing p with
  | zero => exact window_only hp
  | succ k ih => exact window_proceed (hg p hp) ih

theorem window_greedyUpTo (k p : Nat) (hp : p ≤ n) : Window n d (Proc.greedyUpTo g k p) (Proc.greedyUpTo g' k (p + d)) := by
  induction k generalizing p with
  | zero => exact window_only hp
  | succ k ih => exact window_andThen (window_proceed (hg p hp) ih) (window_only hp)

theorem window_lazyUpTo (k p : Nat) (hp : p ≤ n) : Window n d (Proc.lazyUpTo g k p) (Proc.lazyUpTo g' k (p + d)) := by
  induction k generalizing p with
  | zero => exact window_only hp
  | succ k ih => exact .offer hp (window_proceed (hg p hp) ih)

theorem window_possessiveUpTo (k p : Nat) (hp : p ≤ n) : Window n d (Proc.possessiveUpTo g k p) (Proc.possessiveUpTo g' k (p + d)) := by
  induction k generalizing p with
  | zero => exact window_only hp
  | succ k ih => exact window_commit (hg p hp) ih (window_only hp)

theorem window_greedyStar (k p : Nat) (hp : p ≤ n) : Window n d (Proc.greedyStar g k p) (Proc.greedyStar g' k (p + d)) := by
  induction k generalizing p with
  | zero => exact .done
  | succ k ih => exact window_andThen (window_proceed (window_except p (hg p hp)) ih) (window_only hp)

theorem window_lazyStar (k p : Nat) (hp : p ≤ n) : Window n d (Proc.lazyStar g k p) (Proc.lazyStar g' k (p + d)) := by
  induction k generalizing p with
  | zero => exact .done
  | succ k ih => exact .offer hp (window_proceed (window_except p (hg p hp)) ih)

theorem window_possessiveStar (k p : Nat) (hp : p ≤ n) : Window n d (Proc.possessiveStar g k p) (Proc.possessiveStar g' k (p + d)) := by
  induction k generalizing p with
  | zero => exact .done
  | succ k ih =>
    refine window_commit (hg p hp) (fun q hq' => ?_) (window_only hp)
    by_cases hq : q = p
    · rw [if_pos hq, if_pos (by omega)]; exact window_only hp
    · rw [if_neg hq, if_neg (by omega)]; exact ih q hq'

theorem window_extra {N : Nat} (hN : n ≤ N) {fwd : Bool} (hm : ∀ q, Proc.All (Moves n fwd false q) (g q)) (m : Mode) (u : Bool) (k : Option Nat) (p : Nat)
    (hp : p ≤ n) : Window n d (Proc.extra n m u g k p) (Proc.extra N m u g' k (p + d)) := by
  have hr : room n fwd p < n + 1 := by unfold room; split <;> (try split) <;> omega
  have hr' : room n fwd p < N + 1 := by omega
  have h1 := greedyStar_fuel hm (N + 1) (n + 1) p hr' hr ▸ window_greedyStar hg (N + 1) p hp
  have h2 := lazyStar_fuel hm (N + 1) (n + 1) p hr' hr ▸ window_lazyStar hg (N + 1) p hp
  have h3 := possessiveStar_fuel hm (N + 1) (n + 1) p hr' hr ▸ window_possessiveStar hg (N + 1) p hp
  cases k <;> cases m <;> cases u <;>
    first
      | exact window_possessiveUpTo hg _ _ hp | exact h3 | exact window_greedyUpTo hg _ _ hp | exact h1 | exact window_lazyUpTo hg _ _ hp | exact h2

theorem window_quantified {N : Nat} (hN : n ≤ N) {fwd : Bool} (hm : ∀ q, Proc.All (Moves n fwd false q) (g q)) (m : Mode) (u : Bool) (lo : Nat) (hi : Bound)
    (p : Nat) (hp : p ≤ n) : Window n d (Proc.quantified n m u lo hi g p) (Proc.quantified N m u lo hi g' (p + d)) := by
  unfold Proc.quantified
  refine window_proceed ?_ (fun q hq => window_extra hg hN hm m u _ q hq)
  cases m
  · exact window_times hg lo p hp
  · exact window_times hg lo p hp
  · exact window_commit (window_times hg lo p hp) (fun q hq => window_only hq) .done

end
end

/-! ### Reading between separators -/

theorem rejects_iff {f : Flags} {seps : List Byte} {a : Ast} : rejects f seps a = true ↔ ∀ x ∈ seps, accepts f a x = false := by
  simp [rejects, List.all_eq_true]

section
variable (t w v : List Byte)

theorem getElem?_window {p : Nat} (hp : p < w.length) : (t ++ (w ++ v))[p + t.length]? = w[p]? := by
  rw [getElem?_passed, List.getElem?_append_left hp]

theorem getElem?_behind : (t ++ (w ++ v))[w.length + t.length]? = v.head? := by
  rw [getElem?_passed, List.getElem?_append_right (Nat.le_refl _), Nat.sub_self]
  cases v <;> rfl

theorem getElem?_front (k : Nat) (hk : t.length = k + 1) : (t ++ (w ++ v))[k]? = t.getLast? := by
  rw [List.getElem?_append_left (by omega), List.getLast?_eq_getElem?]
  congr 1
  omega

variable {seps : List Byte} (hf : ∀ x, t.getLast? = some x → x ∈ seps) (hb : ∀ x, v.head? = some x → x ∈ seps)
include hf hb

theorem oneChar_window {P : Byte → Bool} (hP : ∀ x ∈ seps, P x = false) (fwd : Bool) {p : Nat} (hp : p ≤ w.length) :
    oneChar (t ++ (w ++ v)) fwd P (p + t.length) = (oneChar w fwd P p).map (· + t.length) ∧ ∀ q ∈ oneChar w fwd P p, q ≤ w.length := by
  unfold oneChar readChar
  cases fwd with
  | true =>
    simp only [if_true]
    by_cases h : p < w.length
    · rw [getElem?_window t w v h, List.getElem?_eq_getElem h]
      simp only [Option.map_some]
      split
      · refine ⟨by simp; omega, fun q hq => ?_⟩
        rw [List.mem_singleton.1 hq]; omega
      · exact ⟨rfl, fun _ hq => nomatch hq⟩
    · obtain rfl : p = w.length := by omega
      rw [getElem?_behind, List.getElem?_eq_none (Nat.le_refl _)]
      refine ⟨?_, fun _ hq => nomatch hq⟩
      cases hv : v.head? with
      | none => rfl
      | some x => simp [hP x (hb x hv)]
  | false =>
    simp only [Bool.false_eq_true, if_false]
    match p, hp with
    | 0, _ =>
      refine ⟨?_, fun _ hq => nomatch hq⟩
      simp only [Nat.zero_add]
      match hk : t.length with
      | 0 => rfl
      | k + 1 =>
        simp only
        rw [getElem?_front t w v k hk]
        cases ht : t.getLast? with
        | none => rfl
        | some x => simp [hP x (hf x ht)]
    | p + 1, hp =>
      rw [show p + 1 + t.length = (p + t.length) + 1 by omega]
      simp only
      rw [getElem?_window t w v (by omega : p < w.length), List.getElem?_eq_getElem (show p < w.length by omega)]
      simp only [Option.map_some]
      split
      · refine ⟨rfl, fun q hq => ?_⟩
        rw [List.mem_singleton.1 hq]; omega
      · exact ⟨rfl, fun _ hq => nomatch hq⟩

theorem copies_window (ic : Bool) {u : List Byte} (hu : ∀ y ∈ u, ∀ x ∈ seps, sameChar ic y x = false) (fwd : Bool) {p : Nat} (hp : p ≤ w.length) :
    copies ic (t ++ (w ++ v)) fwd u (p + t.length) = (copies ic w fwd u p).map (· + t.length) ∧ ∀ q ∈ copies ic w fwd u p, q ≤ w.length := by
  induction u generalizing p with
  | nil => exact ⟨rfl, fun q hq => by rw [List.mem_singleton.1 hq]; exact hp⟩
  | cons y u ih =>
    obtain ⟨h1, h2⟩ := oneChar_window t w v hf hb (hu y (by simp)) fwd hp
    have ih := fun {p} => @ih (fun y hy => hu y (by simp [hy])) p
    simp only [copies, h1, List.flatMap_map, List.map_flatMap]
    constructor
    · have : ∀ l : List Nat, (∀ q ∈ l, q ≤ w.length) → l.flatMap (fun a => copies ic (t ++ (w ++ v)) fwd u (a + t.length)) =
          l.flatMap fun a => List.map (fun x => x + t.length) (copies ic w fwd u a) := by
        intro l hl
        induction l with
        | nil => rfl
        | cons q l ihl =>
          simp only [List.flatMap_cons]
          rw [(ih (hl q (by simp))).1, ihl fun q hq => hl q (by simp [hq])]
      exact this _ h2
    · intro q hq
      obtain ⟨q', h3, h4⟩ := List.mem_flatMap.1 hq
      exact (ih (h2 q' h3)).2 q h4

theorem atStart_window (hs : ∀ x ∈ seps, x = 10#8 ∨ x = 13#8) (fwd : Bool) {p : Nat} (hp : p ≤ w.length) :
    atStart (t ++ (w ++ v)) fwd true (p + t.length) = atStart w fwd true p := by
  have hbr : ∀ {q}, q < w.length → isBreakAt (t ++ (w ++ v)) (q + t.length) = isBreakAt w q := fun {q} hq => by
    unfold isBreakAt; rw [getElem?_window t w v hq]
  have hsep : ∀ x ∈ seps, (x == 10#8 || x == 13#8) = true := fun x hx => by
    rcases hs x hx with rfl | rfl <;> rfl
  unfold atStart
  cases fwd with
  | true =>
    simp only [if_true, Bool.true_and]
    match p, hp with
    | 0, _ =>
      simp only [Nat.zero_add, before, beq_self_eq_true, Bool.true_or]
      match hk : t.length with
      | 0 => rfl
      | k + 1 =>
        simp only [before, isBreakAt]
        rw [getElem?_front t w v k hk]
        cases ht : t.getLast? with
        | none =>
          rw [List.getLast?_eq_none_iff] at ht
          subst ht
          cases hk
        | some x => simp only [hsep x (hf x ht), Bool.or_true]
    | p + 1, hp =>
      rw [show p + 1 + t.length = (p + t.length) + 1 by omega]
      simp only [before]
      rw [hbr (by omega)]
      rfl
  | false =>
    simp only [Bool.false_eq_true, if_false, Bool.true_and, List.length_append]
    by_cases h : p < w.length
    · rw [hbr h]
      congr 1
      rw [Bool.eq_iff_iff]
      simp only [beq_iff_eq]
      omega
    · obtain rfl : p = w.length := by omega
      simp only [beq_self_eq_true, Bool.true_or, isBreakAt]
      rw [getElem?_behind]
      cases hv : v.head? with
      | none =>
        rw [List.head?_eq_none_iff] at hv
        subst hv
        simp [Nat.add_comm]
      | some x => simp only [hsep x (hb x hv), Bool.or_true]

theorem word_window (hs : ∀ x ∈ seps, isWordAt [x] 0 = false) {p : Nat} (hp : p ≤ w.length) :
    (before (isWordAt (t ++ (w ++ v))) (p + t.length) != isWordAt (t ++ (w ++ v)) (p + t.length)) = (before (isWordAt w) p != isWordAt w p) := by
  have hw : ∀ {q}, q < w.length → isWordAt (t ++ (w ++ v)) (q + t.length) = isWordAt w q := fun {q} hq => by
    unfold isWordAt; rw [getElem?_window t w v hq]
  have h1 : isWordAt (t ++ (w ++ v)) (p + t.length) = isWordAt w p := by
    by_cases h : p < w.length
    · exact hw h
    · obtain rfl : p = w.length := by omega
      unfold isWordAt
      rw [getElem?_behind, List.getElem?_eq_none (Nat.le_refl _)]
      cases hv : v.head? with
      | none => rfl
      | some x => exact hs x (hb x hv)
  have h2 : before (isWordAt (t ++ (w ++ v))) (p + t.length) = before (isWordAt w) p := by
    match p, hp with
    | 0, _ =>
      simp only [Nat.zero_add, before]
      match hk : t.length with
      | 0 => rfl
      | k + 1 =>
        simp only [before]
        unfold isWordAt
        rw [getElem?_front t w v k hk]
        cases ht : t.getLast? with
        | none => rfl
        | some x => exact hs x (hf x ht)
    | p + 1, hp =>
      rw [show p + 1 + t.length = (p + t.length) + 1 by omega]
      simp only [before]
      exact hw (by omega)
  rw [h1, h2]

omit hf hb in
theorem heldText_window {c : Cap} (hc : CapIn w.length c) : heldText (t ++ (w ++ v)) (shiftCap t.length c) = heldText w c := by
  rw [heldText_passed]
  cases c with
  | none => rfl
  | some x =>
    obtain ⟨b, e⟩ := x
    obtain ⟨h1, h2⟩ := hc _ rfl
    simp only [heldText]
    rw [List.drop_append_of_le_length h1, List.take_append_of_le_length (by simp only [List.length_drop]; omega)]

omit hf hb in
theorem heldText_mem {c : Cap} {y : Byte} (hy : y ∈ heldText w c) : y ∈ w := by
  cases c with
  | none => cases hy
  | some x => exact List.mem_of_mem_drop (List.mem_of_mem_take hy)

theorem reference_window (f : Flags) (hi : f.icase = true → ∀ x ∈ seps, asciiLower x = x ∧ asciiUpper x = x) (hw : ∀ y ∈ w, y ∉ seps) (k r : Nat) {p : Nat}
    (hp : p ≤ w.length) : Window w.length t.length (reference f w k r p) (reference f (t ++ (w ++ v)) k r (p + t.length)) := by
  refine .recall fun c hc => ?_
  rw [heldText_window t w v hc]
  have hlow : ∀ y : Byte, asciiLower y = y ∨ asciiUpper (asciiLower y) ≠ asciiLower y := by decide +kernel
  have hu : ∀ y ∈ (if r = 0 then heldText w c else (heldText w c).reverse), ∀ x ∈ seps, sameChar f.icase y x = false := by
    intro y hy x hx
    have hyw : y ∈ w := by
      split at hy
      · exact heldText_mem w hy
      · exact heldText_mem w (List.mem_reverse.1 hy)
    have hne : y ≠ x := fun e => hw y hyw (e ▸ hx)
    cases hic : f.icase with
    | false => simp [sameChar, hne]
    | true =>
      obtain ⟨h1, h2⟩ := hi hic x hx
      have : asciiLower y ≠ asciiLower x := by
        rw [h1]
        intro e
        rcases hlow y with h | h
        · exact hne (h ▸ e)
        · rw [e] at h; exact h h2
      simp [sameChar, hne, this]
  obtain ⟨h1, h2⟩ := copies_window t w v hf hb f.icase hu (r % 2 == 0) hp
  exact window_offers h1 h2

omit hf hb in
theorem test_window (b : Bool) {p : Nat} (hp : p ≤ w.length) : ∀ q ∈ Spec.test b p, q ≤ w.length := by
  intro q hq
  cases b with
  | false => cases hq
  | true => rw [List.mem_singleton.1 hq]; exact hp

omit hf hb in
/-- What stays between separators rejects them, if it is one character. -/
theorem accepts_stays {f : Flags} {a : Ast} (hc : character a = true) (ha : stays f seps a = true) {x : Byte} (hx : x ∈ seps) : accepts f a x = false := by
  induction a using ind with
  | lit | range | wildcard | set => exact rejects_iff.1 ha x hx
  | neg a ih =>
    simp only [character, Bool.not_eq_true'] at hc
    simp only [stays, hc, Bool.false_eq_true, if_false] at ha
    exact rejects_iff.1 ha x hx
  | seq l ih =>
    match l, hc, ha with
    | [a], hc, ha =>
      simp only [stays, staysAll, Bool.and_true] at ha
      exact ih a (by simp) hc ha
  | alt l ih =>
    simp only [character, Bool.and_eq_true] at hc
    simp only [stays] at ha
    replace hc := hc.2
    simp only [accepts]
    induction l with
    | nil => rfl
    | cons a l ihl =>
      simp only [characters, staysAll, Bool.and_eq_true] at hc ha
      simp only [acceptsAny, ih a (by simp) hc.1 ha.1, ihl (fun b hb => ih b (by simp [hb])) ha.2 hc.2, Bool.or_false]
  | rep m lo hi a ih =>
    match lo, hi, hc with
    | 1, .fin 1, hc => exact ih hc ha
  | _ => cases hc

omit hf hb in
theorem acceptsAny_stays {f : Flags} {l : List Ast} (hc : characters l = true) (ha : staysAll f seps l = true) {x : Byte} (hx : x ∈ seps) :
    acceptsAny f l x = false := by
  induction l with
  | nil => rfl
  | cons a l ih =>
    simp only [characters, staysAll, Bool.and_eq_true] at hc ha
    simp only [acceptsAny, accepts_stays hc.1 ha.1 hx, ih hc.2 ha.2, Bool.or_false]

/-- Between separators, the procedure is that for the piece alone. -/
theorem proc_window (f : Flags) (ν : List Byte → Nat) (hw : ∀ y ∈ w, y ∉ seps) (a : Ast) (ha : stays f seps a = true) (r : Nat) (inv : Bool) {p : Nat}
    (hp : p ≤ w.length) : Window w.length t.length (proc f w ν a r inv p) (proc f (t ++ (w ++ v)) ν a r inv (p + t.length)) := by
  have hone : ∀ {P : Byte → Bool}, (∀ x ∈ seps, P x = false) → ∀ (r : Nat) {p : Nat}, p ≤ w.length →
      Window w.length t.length (.offers (oneChar w (r % 2 == 0) P p)) (.offers (oneChar (t ++ (w ++ v)) (r % 2 == 0) P (p + t.length))) :=
    fun {P} hP r {p} hp => window_offers (oneChar_window t w v hf hb hP _ hp).1 (oneChar_window t w v hf hb hP _ hp).2
  induction a using ind generalizing r inv p with
  | neg a ih =>
    simp only [stays] at ha
    simp only [proc]
    split
    · next h =>
      rw [if_pos h] at ha
      exact window_commit (ih ha r inv hp) (fun _ _ => .done) (window_only hp)
    · next h =>
      rw [if_neg h] at ha
      exact hone (rejects_iff.1 ha) r hp
  | seq l ih =>
    simp only [proc]
    simp only [stays] at ha
    induction l generalizing p with
    | nil => exact window_only hp
    | cons a l ihl =>
      simp only [staysAll, Bool.and_eq_true] at ha
      have ihl := fun {p} => @ihl (fun b hb => ih b (List.mem_cons_of_mem _ hb)) ha.2 p
      simp only [procAll]
      split
      · exact window_proceed (ihl hp) fun q hq => ih a (by simp) ha.1 r inv hq
      · exact window_proceed (ih a (by simp) ha.1 r inv hp) fun q hq => ihl hq
  | alt l ih =>
    simp only [proc]
    simp only [stays] at ha
    induction l with
    | nil => exact .done
    | cons a l ihl =>
      simp only [procAny]
      split
      · next h => exact hone (fun x hx => acceptsAny_stays h ha hx) r hp
      · simp only [staysAll, Bool.and_eq_true] at ha
        exact window_andThen (ih a (by simp) ha.1 r inv hp) (ihl (fun b hb => ih b (List.mem_cons_of_mem _ hb)) ha.2)
  | cap id n a ih =>
    simp only [proc]
    refine window_andThen (window_proceed (ih ha r inv hp) fun q hq => ?_) (.cross .done)
    split
    · exact .note hp hq (window_only hq)
    · exact .note hq hp (window_only hq)
  | rep m lo hi a ih =>
    simp only [proc]
    exact window_quantified (fun q hq => ih ha r inv hq) (by simp only [List.length_append]; omega)
      (fun q => all_mono (proc_moves f w ν a r inv q) fun q' hq' => hq'.weaken (by simp)) m _ lo hi p hp
  | look d a ih =>
    simp only [proc]
    split
    · exact window_commit (ih ha _ _ hp) (fun _ _ => window_only hp) .done
    · exact window_commit (ih ha _ _ hp) (fun _ _ => window_only hp) .done
  | backref k =>
    simp only [stays, Bool.or_eq_true, Bool.not_eq_true', List.all_eq_true, Bool.and_eq_true, beq_iff_eq] at ha
    exact reference_window t w v hf hb f (fun hi => ha.resolve_left (by simp [hi])) hw k r hp
  | namedBackref k =>
    simp only [stays, Bool.or_eq_true, Bool.not_eq_true', List.all_eq_true, Bool.and_eq_true, beq_iff_eq] at ha
    exact reference_window t w v hf hb f (fun hi => ha.resolve_left (by simp [hi])) hw (ν k) r hp
  | empty => exact window_only hp
  | lit | range | wildcard | set =>
    simp only [proc, ends]
    exact hone (rejects_iff.1 ha) r hp
  | bol | eol =>
    simp only [stays, Bool.and_eq_true, List.all_eq_true, Bool.or_eq_true, beq_iff_eq] at ha
    simp only [proc, ends, atStop, ha.1]
    refine window_offers ?_ (test_window w _ hp)
    rw [atStart_window t w v hf hb ha.2 _ hp, test_passed]
  | boi | eoi => cases ha
  | wordB =>
    simp only [stays, List.all_eq_true, Bool.not_eq_true'] at ha
    simp only [proc, ends]
    refine window_offers ?_ (test_window w _ hp)
    rw [word_window t w v hf hb ha hp, test_passed]

end

/-! ### Carrying them out -/

section
variable {n d : Nat}

theorem CapIn.put {h : Notes} (hn : ∀ k, CapIn n (h k)) {j : Nat} {c : Cap} (hc : CapIn n c) (k : Nat) : CapIn n (h.put j c k) := by
  unfold Notes.put
  split
  · exact hc
  · exact hn k

theorem follow_window {P P' : Proc} (hP : Window n d P P') {acc acc' : Nat → Bool} (ha : ∀ q, q ≤ n → acc' (q + d) = acc q) {h h' : Notes}
    (hn : ∀ k, CapIn n (h k)) (hh : ∀ k, h' k = shiftCap d (h k)) :
    (P'.follow acc' h').1 = (P.follow acc h).1.map (· + d) ∧ (∀ k, (P'.follow acc' h').2 k = shiftCap d ((P.follow acc h).2 k)) ∧
      (∀ k, CapIn n ((P.follow acc h).2 k)) ∧ ∀ q, (P.follow acc h).1 = some q → q ≤ n := by
  induction hP generalizing h h' with
  | done => exact ⟨rfl, hh, hn, fun _ hq => nomatch hq⟩
  | @note k b e P P' hb he _ ih =>
    exact ih (fun j => CapIn.put hn (fun x hx => by cases hx; exact ⟨hb, he⟩) j) (put_passed hh k (some (b, e)))
  | @cross k P P' _ ih =>
    simp only [Proc.follow]
    refine ih (fun j => CapIn.put hn (fun x hx => ?_) j) (fun j => ?_)
    · obtain ⟨y, hy, rfl⟩ := Option.map_eq_some_iff.1 hx
      exact ⟨(hn k y hy).1, (hn k y hy).1⟩
    · rw [hh k, ← put_passed hh k ((h k).map (fun x => (x.1, x.1))) j]
      have : Option.map (fun x => (x.1, x.1)) (shiftCap d (h k)) = shiftCap d ((h k).map (fun x => (x.1, x.1))) := by cases h k <;> rfl
      rw [this]
  | @offer q P P' hq _ ih =>
    simp only [Proc.follow, ha q hq]
    split
    · exact ⟨rfl, hh, hn, fun q' e => by cases e; exact hq⟩
    · exact ih hn hh
  | @recall k f f' _ ih =>
    simp only [Proc.follow, hh k]
    exact ih (h k) (hn k) hn hh

end
end Mregex
