import Verif.Proof.Moves
import Verif.Spec.Passed

/-!
# The text that has been passed does not matter
-/

namespace Mregex
open Ast Spec

/-- The same procedure, `d` characters further on. -/
inductive Shifted (d : Nat) : Proc → Proc → Prop
  | done : Shifted d .done .done
  | note {k b e : Nat} {P P' : Proc} : Shifted d P P' → Shifted d (.note k b e P) (.note k (b + d) (e + d) P')
  | cross {k : Nat} {P P' : Proc} : Shifted d P P' → Shifted d (.cross k P) (.cross k P')
  | offer {q : Nat} {P P' : Proc} : Shifted d P P' → Shifted d (.offer q P) (.offer (q + d) P')
  | recall {k : Nat} {f f' : Cap → Proc} : (∀ v, Shifted d (f v) (f' (shiftCap d v))) → Shifted d (.recall k f) (.recall k f')

section
variable {d : Nat}

theorem shifted_andThen {P P' Q Q' : Proc} (h : Shifted d P P') (h' : Shifted d Q Q') : Shifted d (P.andThen Q) (P'.andThen Q') := by
  induction h with
  | done => exact h'
  | note _ ih => exact .note ih
  | cross _ ih => exact .cross ih
  | offer _ ih => exact .offer ih
  | recall _ ih => exact .recall ih

theorem shifted_proceed {P P' : Proc} {g g' : Nat → Proc} (h : Shifted d P P') (hg : ∀ q, Shifted d (g q) (g' (q + d))) :
    Shifted d (P.proceed g) (P'.proceed g') := by
  induction h with
  | done => exact .done
  | note _ ih => exact .note ih
  | cross _ ih => exact .cross ih
  | offer _ ih => exact shifted_andThen (hg _) ih
  | recall _ ih => exact .recall ih

theorem shifted_commit {P P' Q Q' : Proc} {g g' : Nat → Proc} (h : Shifted d P P') (hg : ∀ q, Shifted d (g q) (g' (q + d))) (h' : Shifted d Q Q') :
    Shifted d (P.commit g Q) (P'.commit g' Q') := by
  induction h with
  | done => exact h'
  | note _ ih => exact .note ih
  | cross _ ih => exact .cross ih
  | offer _ ih => exact hg _
  | recall _ ih => exact .recall ih

theorem shifted_except {P P' : Proc} (p : Nat) (h : Shifted d P P') : Shifted d (P.except p) (P'.except (p + d)) := by
  induction h with
  | done => exact .done
  | note _ ih => exact .note ih
  | cross _ ih => exact .cross ih
  | @offer q _ _ _ ih =>
    simp only [Proc.except]
    by_cases hq : q = p
    · rw [if_pos hq, if_pos (by omega)]; exact ih
    · rw [if_neg hq, if_neg (by omega)]; exact .offer ih
  | recall _ ih => exact .recall ih

theorem shifted_only (q : Nat) : Shifted d (.only q) (.only (q + d)) := .offer .done

theorem shifted_offers {l l' : List Nat} (h : l' = l.map (· + d)) : Shifted d (.offers l) (.offers l') := by
  subst h
  induction l with
  | nil => exact .done
  | cons q l ih => exact .offer ih

section
variable {g g' : Nat → Proc} (hg : ∀ q, Shifted d (g q) (g' (q + d)))
include hg

theorem shifted_times (k p : Nat) : Shifted d (Proc.times g k p) (Proc.times g' k (p + d)) := by
  induction k generalizing p with
  | zero => exact shifted_only p
  | succ k ih => exact shifted_proceed (hg p) ih

theorem shifted_greedyUpTo (k p : Nat) : Shifted d (Proc.greedyUpTo g k p) (Proc.greedyUpTo g' k (p + d)) := by
  induction k generalizing p with
  | zero => exact shifted_only p
  | succ k ih => exact shifted_andThen (shifted_proceed (hg p) ih) (shifted_only p)

theorem shifted_lazyUpTo (k p : Nat) : Shifted d (Proc.lazyUpTo g k p) (Proc.lazyUpTo g' k (p + d)) := by
  induction k generalizing p with
  | zero => exact shifted_only p
  | succ k ih => exact .offer (shifted_proceed (hg p) ih)

theorem shifted_possessiveUpTo (k p : Nat) : Shifted d (Proc.possessiveUpTo g k p) (Proc.possessiveUpTo g' k (p + d)) := by
  induction k generalizing p with
  | zero => exact shifted_only p
  | succ k ih => exact shifted_commit (hg p) ih (shifted_only p)

theorem shifted_greedyStar (k p : Nat) : Shifted d (Proc.greedyStar g k p) (Proc.greedyStar g' k (p + d)) := by
  induction k generalizing p with
  | zero => exact .done
  | succ k ih => exact shifted_andThen (shifted_proceed (shifted_except p (hg p)) ih) (shifted_only p)

theorem shifted_lazyStar (k p : Nat) : Shifted d (Proc.lazyStar g k p) (Proc.lazyStar g' k (p + d)) := by
  induction k generalizing p with
  | zero => exact .done
  | succ k ih => exact .offer (shifted_proceed (shifted_except p (hg p)) ih)

theorem shifted_possessiveStar (k p : Nat) : Shifted d (Proc.possessiveStar g k p) (Proc.possessiveStar g' k (p + d)) := by
  induction k generalizing p with
  | zero => exact .done
  | succ k ih =>
    refine shifted_commit (hg p) (fun q => ?_) (shifted_only p)
    by_cases hq : q = p
    · rw [if_pos hq, if_pos (by omega)]; exact shifted_only p
    · rw [if_neg hq, if_neg (by omega)]; exact ih q

theorem shifted_extra {n : Nat} (hm : ∀ q, Proc.All (Moves (n + d) true false q) (g' q)) (m : Mode) (u : Bool) (k : Option Nat) (p : Nat) :
    Shifted d (Proc.extra n m u g k p) (Proc.extra (n + d) m u g' k (p + d)) := by
  have hr : room (n + d) true (p + d) < n + 1 := by simp only [room, if_true]; omega
  have hr' : room (n + d) true (p + d) < n + d + 1 := by simp only [room, if_true]; omega
  have h1 := greedyStar_fuel hm (n + 1) (n + d + 1) (p + d) hr hr' ▸ shifted_greedyStar hg (n + 1) p
  have h2 := lazyStar_fuel hm (n + 1) (n + d + 1) (p + d) hr hr' ▸ shifted_lazyStar hg (n + 1) p
  have h3 := possessiveStar_fuel hm (n + 1) (n + d + 1) (p + d) hr hr' ▸ shifted_possessiveStar hg (n + 1) p
  cases k <;> cases m <;> cases u <;>
    first
      | exact shifted_possessiveUpTo hg _ _ | exact h3 | exact shifted_greedyUpTo hg _ _ | exact h1 | exact shifted_lazyUpTo hg _ _ | exact h2

theorem shifted_quantified {n : Nat} (hm : ∀ q, Proc.All (Moves (n + d) true false q) (g' q)) (m : Mode) (u : Bool) (lo : Nat) (hi : Bound) (p : Nat) :
    Shifted d (Proc.quantified n m u lo hi g p) (Proc.quantified (n + d) m u lo hi g' (p + d)) := by
  unfold Proc.quantified
  refine shifted_proceed ?_ (fun q => shifted_extra hg hm m u _ q)
  cases m
  · exact shifted_times hg lo p
  · exact shifted_times hg lo p
  · exact shifted_commit (shifted_times hg lo p) shifted_only .done

end
end

section
variable (t u : List Byte)

theorem getElem?_passed (p : Nat) : (t ++ u)[p + t.length]? = u[p]? := by
  rw [List.getElem?_append_right (by omega)]
  congr 1
  omega

theorem oneChar_passed (acc : Byte → Bool) (p : Nat) : oneChar (t ++ u) true acc (p + t.length) = (oneChar u true acc p).map (· + t.length) := by
  unfold oneChar readChar
  simp only [if_true, getElem?_passed]
  cases u[p]? with
  | none => rfl
  | some x =>
    simp only [Option.map_some]
    split
    · simp only [List.map_cons, List.map_nil]; congr 1; omega
    · rfl

theorem copies_passed (ic : Bool) (w : List Byte) (p : Nat) : copies ic (t ++ u) true w (p + t.length) = (copies ic u true w p).map (· + t.length) := by
  induction w generalizing p with
  | nil => rfl
  | cons x w ih =>
    simp only [copies, oneChar_passed, List.flatMap_map, List.map_flatMap]
    congr 1
    funext q
    exact ih q

theorem heldText_passed (v : Cap) : heldText (t ++ u) (shiftCap t.length v) = heldText u v := by
  cases v with
  | none => rfl
  | some x =>
    obtain ⟨b, e⟩ := x
    simp only [heldText, shiftCap, Option.map_some]
    rw [show e + t.length - (b + t.length) = e - b by omega, List.drop_append, List.drop_eq_nil_of_le (by omega), List.nil_append,
      show b + t.length - t.length = b by omega]

theorem atStop_passed (multi : Bool) (p : Nat) : atStop (t ++ u) true multi (p + t.length) = atStop u true multi p := by
  unfold atStop atStart isBreakAt
  simp only [Bool.not_true, Bool.false_eq_true, if_false, getElem?_passed, List.length_append]
  congr 1
  rw [Bool.eq_iff_iff]
  simp only [beq_iff_eq]
  omega

theorem test_passed (b : Bool) (p : Nat) : Spec.test b (p + t.length) = (Spec.test b p).map (· + t.length) := by
  cases b <;> rfl

/-- Further on in a longer text, the procedure is the same. -/
theorem proc_passed (f : Flags) (ν : List Byte → Nat) (a : Ast) (ha : aheadOnly a = true) (p : Nat) :
    Shifted t.length (proc f u ν a 0 false p) (proc f (t ++ u) ν a 0 false (p + t.length)) := by
  induction a using ind generalizing p with
  | neg a ih =>
    simp only [proc]
    split
    · exact shifted_commit (ih ha p) (fun _ => .done) (shifted_only p)
    · exact shifted_offers (oneChar_passed t u _ p)
  | seq l ih =>
    simp only [proc]
    simp only [aheadOnly] at ha
    induction l generalizing p with
    | nil => exact shifted_only p
    | cons a l ihl =>
      simp only [aheadOnlyAll, Bool.and_eq_true] at ha
      have ihl := ihl (fun b hb => ih b (List.mem_cons_of_mem _ hb)) ha.2
      simp only [procAll, Bool.false_eq_true, if_false]
      exact shifted_proceed (ih a (by simp) ha.1 p) ihl
  | alt l ih =>
    simp only [proc]
    simp only [aheadOnly] at ha
    induction l with
    | nil => exact .done
    | cons a l ihl =>
      simp only [aheadOnlyAll, Bool.and_eq_true] at ha
      have ihl := ihl (fun b hb => ih b (List.mem_cons_of_mem _ hb)) ha.2
      simp only [procAny]
      split
      · exact shifted_offers (oneChar_passed t u _ p)
      · exact shifted_andThen (ih a (by simp) ha.1 p) ihl
  | cap id n a ih =>
    simp only [proc, Nat.zero_mod, if_true]
    exact shifted_andThen (shifted_proceed (ih ha p) (fun q => .note (shifted_only q))) (.cross .done)
  | rep m lo hi a ih =>
    simp only [proc, List.length_append]
    rw [Nat.add_comm t.length u.length]
    refine shifted_quantified (ih ha) (fun q => ?_) m _ lo hi p
    have := proc_moves f (t ++ u) ν a 0 false q
    rw [List.length_append, Nat.add_comm t.length u.length] at this
    exact all_mono this (fun q' hq' => hq'.weaken (by simp))
  | look d a ih =>
    simp only [aheadOnly, Bool.and_eq_true] at ha
    simp only [proc, ha.1, Bool.not_false, beq_self_eq_true, if_true]
    exact shifted_commit (ih ha.2 p) (fun _ => shifted_only p) .done
  | backref k =>
    simp only [proc, reference, if_true]
    refine .recall (fun v => shifted_offers ?_)
    rw [heldText_passed]
    exact copies_passed t u _ _ p
  | namedBackref k =>
    simp only [proc, reference, if_true]
    refine .recall (fun v => shifted_offers ?_)
    rw [heldText_passed]
    exact copies_passed t u _ _ p
  | empty => exact shifted_only p
  | lit | range | wildcard | set =>
    simp only [proc, ends]
    exact shifted_offers (oneChar_passed t u _ p)
  | eol | eoi =>
    simp only [proc, ends]
    refine shifted_offers ?_
    rw [show (0 % 2 == 0) = true from rfl, atStop_passed, test_passed]
  | bol | boi | wordB => simp [aheadOnly] at ha

end

/-! ### Carrying them out -/

section
variable {d : Nat}

theorem put_passed {h h' : Notes} (hh : ∀ k, h' k = shiftCap d (h k)) (j : Nat) (v : Cap) (k : Nat) :
    h'.put j (shiftCap d v) k = shiftCap d (h.put j v k) := by
  unfold Notes.put
  split
  · rfl
  · exact hh k

theorem follow_passed {P P' : Proc} (hP : Shifted d P P') {acc acc' : Nat → Bool} (ha : ∀ q, acc' (q + d) = acc q) {h h' : Notes}
    (hh : ∀ k, h' k = shiftCap d (h k)) :
    (P'.follow acc' h').1 = (P.follow acc h).1.map (· + d) ∧ ∀ k, (P'.follow acc' h').2 k = shiftCap d ((P.follow acc h).2 k) := by
  induction hP generalizing h h' with
  | done => exact ⟨rfl, hh⟩
  | @note k b e P P' _ ih => exact ih (put_passed hh k (some (b, e)))
  | @cross k P P' _ ih =>
    simp only [Proc.follow]
    refine ih (fun j => ?_)
    rw [hh k, ← put_passed hh k ((h k).map (fun x => (x.1, x.1))) j]
    have : Option.map (fun x => (x.1, x.1)) (shiftCap d (h k)) = shiftCap d ((h k).map (fun x => (x.1, x.1))) := by cases h k <;> rfl
    rw [this]
  | @offer q P P' _ ih =>
    simp only [Proc.follow, ha q]
    split
    · exact ⟨rfl, hh⟩
    · exact ih hh
  | @recall k f f' _ ih =>
    simp only [Proc.follow, hh k]
    exact ih (h k) hh

theorem tryFrom_passed {g g' : Nat → Proc} (hg : ∀ q, Shifted d (g q) (g' (q + d))) (l : List Nat) {h h' : Notes} (hh : ∀ k, h' k = shiftCap d (h k)) :
    (tryFrom g' (l.map (· + d)) h').1 = (tryFrom g l h).1.map (fun x => (x.1 + d, x.2 + d)) ∧
      ∀ k, (tryFrom g' (l.map (· + d)) h').2 k = shiftCap d ((tryFrom g l h).2 k) := by
  induction l generalizing h h' with
  | nil => exact ⟨rfl, hh⟩
  | cons j l ih =>
    obtain ⟨h1, h2⟩ := follow_passed (hg j) (acc := fun _ => true) (acc' := fun _ => true) (fun _ => rfl) hh
    simp only [List.map_cons, tryFrom]
    generalize (g' (j + d)).follow (fun _ => true) h' = x' at h1 h2 ⊢
    generalize (g j).follow (fun _ => true) h = x at h1 h2 ⊢
    obtain ⟨q', n'⟩ := x'
    obtain ⟨q, n⟩ := x
    simp only at h1 h2
    subst h1
    cases q with
    | none => exact ih h2
    | some q => exact ⟨rfl, h2⟩

theorem carryOut_passed {g g' : Nat → Proc} (hg : ∀ q, Shifted d (g q) (g' (q + d))) (n cur : Nat) (M : Method) {h h' : Notes} (hh : ∀ k, h' k = shiftCap d (h k)) :
    (carryOut (n + d) g' (cur + d) h' M).1 = (carryOut n g cur h M).1.map (fun x => (x.1 + d, x.2 + d)) ∧
      ∀ k, (carryOut (n + d) g' (cur + d) h' M).2 k = shiftCap d ((carryOut n g cur h M).2 k) := by
  cases M with
  | «match» =>
    obtain ⟨h1, h2⟩ := follow_passed (hg cur) (acc := (· == n)) (acc' := (· == n + d)) (fun q => by rw [Bool.eq_iff_iff]; simp only [beq_iff_eq]; omega) hh
    simp only [carryOut]
    refine ⟨?_, h2⟩
    rw [h1]
    cases ((g cur).follow (· == n) h).1 <;> rfl
  | matchPrefix =>
    obtain ⟨h1, h2⟩ := follow_passed (hg cur) (acc := fun _ => true) (acc' := fun _ => true) (fun _ => rfl) hh
    simp only [carryOut]
    refine ⟨?_, h2⟩
    rw [h1]
    cases ((g cur).follow (fun _ => true) h).1 <;> rfl
  | search =>
    have : List.range' (cur + d) (n + d + 1 - (cur + d)) = (List.range' cur (n + 1 - cur)).map (· + d) := by
      rw [show n + d + 1 - (cur + d) = n + 1 - cur by omega, show (· + d) = (d + ·) from funext fun x => Nat.add_comm x d, List.map_add_range', Nat.add_comm cur d]
    simp only [carryOut]
    rw [this]
    exact tryFrom_passed hg _ hh

end
end Mregex
