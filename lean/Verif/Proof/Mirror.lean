import Verif.Proof.Moves
import Verif.Proof.Local
import Verif.Spec.Mirror

/-!
# Lookbehinds are lookaheads in the reversed text
-/

namespace Mregex
open Ast Spec

/-- The same procedure in the reversed text. -/
inductive Mirrored (n : Nat) : Proc → Proc → Prop
  | done : Mirrored n .done .done
  | note {k b e : Nat} {P P' : Proc} : b ≤ n → e ≤ n → Mirrored n P P' → Mirrored n (.note k b e P) (.note k (n - e) (n - b) P')
  | cross {k : Nat} {P P' : Proc} : Mirrored n P P' → Mirrored n (.cross k P) (.cross k P')
  | offer {q : Nat} {P P' : Proc} : q ≤ n → Mirrored n P P' → Mirrored n (.offer q P) (.offer (n - q) P')
  | recall {k : Nat} {f f' : Cap → Proc} : (∀ v v', Opposite n v v' → Mirrored n (f v) (f' v')) → Mirrored n (.recall k f) (.recall k f')

section
variable {n : Nat}

theorem mirrored_andThen {P P' Q Q' : Proc} (h : Mirrored n P P') (h' : Mirrored n Q Q') : Mirrored n (P.andThen Q) (P'.andThen Q') := by
  induction h with
  | done => exact h'
  | note hb he _ ih => exact .note hb he ih
  | cross _ ih => exact .cross ih
  | offer hq _ ih => exact .offer hq ih
  | recall _ ih => exact .recall ih

theorem mirrored_proceed {P P' : Proc} {g g' : Nat → Proc} (h : Mirrored n P P') (hg : ∀ q, q ≤ n → Mirrored n (g q) (g' (n - q))) :
    Mirrored n (P.proceed g) (P'.proceed g') := by
  induction h with
  | done => exact .done
  | note hb he _ ih => exact .note hb he ih
  | cross _ ih => exact .cross ih
  | offer hq _ ih => exact mirrored_andThen (hg _ hq) ih
  | recall _ ih => exact .recall ih

theorem mirrored_commit {P P' Q Q' : Proc} {g g' : Nat → Proc} (h : Mirrored n P P') (hg : ∀ q, q ≤ n → Mirrored n (g q) (g' (n - q)))
    (h' : Mirrored n Q Q') : Mirrored n (P.commit g Q) (P'.commit g' Q') := by
  induction h with
  | done => exact h'
  | note hb he _ ih => exact .note hb he ih
  | cross _ ih => exact .cross ih
  | offer hq _ ih => exact hg _ hq
  | recall _ ih => exact .recall ih

theorem mirrored_except {P P' : Proc} {p : Nat} (hp : p ≤ n) (h : Mirrored n P P') : Mirrored n (P.except p) (P'.except (n - p)) := by
  induction h with
  | done => exact .done
  | note hb he _ ih => exact .note hb he ih
  | cross _ ih => exact .cross ih
  | @offer q _ _ hq' _ ih =>
    simp only [Proc.except]
    by_cases hq : q = p
    · rw [if_pos hq, if_pos (by omega)]; exact ih
    · rw [if_neg hq, if_neg (by omega)]; exact .offer hq' ih
  | recall _ ih => exact .recall ih

theorem mirrored_only {q : Nat} (hq : q ≤ n) : Mirrored n (.only q) (.only (n - q)) := .offer hq .done

theorem mirrored_offers {l l' : List Nat} (h : l' = l.map (n - ·)) (hl : ∀ q ∈ l, q ≤ n) : Mirrored n (.offers l) (.offers l') := by
  subst h
  induction l with
  | nil => exact .done
  | cons q l ih => exact .offer (hl q (by simp)) (ih (fun q hq => hl q (List.mem_cons_of_mem _ hq)))

section
variable {g g' : Nat → Proc} (hg : ∀ q, q ≤ n → Mirrored n (g q) (g' (n - q)))
include hg

theorem mirrored_times (k p : Nat) (hp : p ≤ n) : Mirrored n (Proc.times g k p) (Proc.times g' k (n - p)) := by
  induction k generalizing p with
  | zero => exact mirrored_only hp
  | succ k ih => exact mirrored_proceed (hg p hp) ih

theorem mirrored_greedyUpTo (k p : Nat) (hp : p ≤ n) : Mirrored n (Proc.greedyUpTo g k p) (Proc.greedyUpTo g' k (n - p)) := by
  induction k generalizing p with
  | zero => exact mirrored_only hp
  | succ k ih => exact mirrored_andThen (mirrored_proceed (hg p hp) ih) (mirrored_only hp)

theorem mirrored_lazyUpTo (k p : Nat) (hp : p ≤ n) : Mirrored n (Proc.lazyUpTo g k p) (Proc.lazyUpTo g' k (n - p)) := by
  induction k generalizing p with
  | zero => exact mirrored_only hp
  | succ k ih => exact .offer hp (mirrored_proceed (hg p hp) ih)

theorem mirrored_possessiveUpTo (k p : Nat) (hp : p ≤ n) : Mirrored n (Proc.possessiveUpTo g k p) (Proc.possessiveUpTo g' k (n - p)) := by
  induction k generalizing p with
  | zero => exact mirrored_only hp
  | succ k ih => exact mirrored_commit (hg p hp) ih (mirrored_only hp)

theorem mirrored_greedyStar (k p : Nat) (hp : p ≤ n) : Mirrored n (Proc.greedyStar g k p) (Proc.greedyStar g' k (n - p)) := by
  induction k generalizing p with
  | zero => exact .done
  | succ k ih => exact mirrored_andThen (mirrored_proceed (mirrored_except hp (hg p hp)) ih) (mirrored_only hp)

theorem mirrored_lazyStar (k p : Nat) (hp : p ≤ n) : Mirrored n (Proc.lazyStar g k p) (Proc.lazyStar g' k (n - p)) := by
  induction k generalizing p with
  | zero => exact .done
  | succ k ih => exact .offer hp (mirrored_proceed (mirrored_except hp (hg p hp)) ih)

theorem mirrored_possessiveStar (k p : Nat) (hp : p ≤ n) : Mirrored n (Proc.possessiveStar g k p) (Proc.possessiveStar g' k (n - p)) := by
  induction k generalizing p with
  | zero => exact .done
  | succ k ih =>
    refine mirrored_commit (hg p hp) (fun q hq' => ?_) (mirrored_only hp)
    by_cases hq : q = p
    · rw [if_pos hq, if_pos (by omega)]; exact mirrored_only hp
    · rw [if_neg hq, if_neg (by omega)]; exact ih q hq'

theorem mirrored_extra (l : Nat) (m : Mode) (u : Bool) (k : Option Nat) (p : Nat) (hp : p ≤ n) :
    Mirrored n (Proc.extra l m u g k p) (Proc.extra l m u g' k (n - p)) := by
  cases k <;> cases m <;> cases u <;>
    first
      | exact mirrored_possessiveUpTo hg _ _ hp | exact mirrored_possessiveStar hg _ _ hp | exact mirrored_greedyUpTo hg _ _ hp
      | exact mirrored_greedyStar hg _ _ hp | exact mirrored_lazyUpTo hg _ _ hp | exact mirrored_lazyStar hg _ _ hp

theorem mirrored_quantified (l : Nat) (m : Mode) (u : Bool) (lo : Nat) (hi : Bound) (p : Nat) (hp : p ≤ n) :
    Mirrored n (Proc.quantified l m u lo hi g p) (Proc.quantified l m u lo hi g' (n - p)) := by
  unfold Proc.quantified
  refine mirrored_proceed ?_ (fun q hq => mirrored_extra hg l m u _ q hq)
  cases m
  · exact mirrored_times hg lo p hp
  · exact mirrored_times hg lo p hp
  · exact mirrored_commit (mirrored_times hg lo p hp) (fun _ hq => mirrored_only hq) .done

end
end

section
variable {s : List Byte}

theorem oneChar_mirror (fwd : Bool) (acc : Byte → Bool) {p : Nat} (hp : p ≤ s.length) :
    oneChar s.reverse fwd acc (s.length - p) = (oneChar s (!fwd) acc p).map (s.length - ·) ∧ ∀ q ∈ oneChar s (!fwd) acc p, q ≤ s.length := by
  unfold oneChar readChar
  cases fwd with
  | true =>
    simp only [Bool.not_true, if_true, Bool.false_eq_true, if_false]
    cases p with
    | zero =>
      rw [List.getElem?_eq_none (by simp)]
      exact ⟨rfl, fun q h => nomatch h⟩
    | succ k =>
      rw [reverse_get (j := k) (by omega)]
      dsimp only
      cases s[k]? with
      | none => exact ⟨rfl, fun q h => nomatch h⟩
      | some x =>
        simp only [Option.map_some]
        split
        · refine ⟨?_, fun q h => ?_⟩
          · simp only [List.map_cons, List.map_nil]; congr 1; omega
          · simp only [List.mem_singleton] at h; omega
        · exact ⟨rfl, fun q h => nomatch h⟩
  | false =>
    simp only [Bool.not_false, if_true, Bool.false_eq_true, if_false]
    by_cases he : p = s.length
    · subst he
      rw [List.getElem?_eq_none (l := s) (by simp), Nat.sub_self]
      exact ⟨rfl, fun q h => nomatch h⟩
    · obtain ⟨k, hk⟩ : ∃ k, s.length - p = k + 1 := ⟨s.length - p - 1, by omega⟩
      rw [hk]
      dsimp only
      rw [reverse_get (j := p) (by omega)]
      cases s[p]? with
      | none => exact ⟨rfl, fun q h => nomatch h⟩
      | some x =>
        simp only [Option.map_some]
        split
        · refine ⟨?_, fun q h => ?_⟩
          · simp only [List.map_cons, List.map_nil]; congr 1; omega
          · simp only [List.mem_singleton] at h; omega
        · exact ⟨rfl, fun q h => nomatch h⟩

theorem copies_mirror (ic fwd : Bool) (w : List Byte) {p : Nat} (hp : p ≤ s.length) :
    copies ic s.reverse fwd w (s.length - p) = (copies ic s (!fwd) w p).map (s.length - ·) ∧ ∀ q ∈ copies ic s (!fwd) w p, q ≤ s.length := by
  induction w generalizing p with
  | nil => exact ⟨rfl, fun q h => by simp only [copies, List.mem_singleton] at h; omega⟩
  | cons x w ih =>
    obtain ⟨h1, h2⟩ := oneChar_mirror fwd (sameChar ic x) hp
    simp only [copies, h1]
    generalize oneChar s (!fwd) (sameChar ic x) p = l at h2
    induction l with
    | nil => exact ⟨rfl, fun q h => nomatch h⟩
    | cons q l ihl =>
      obtain ⟨h3, h4⟩ := ihl (fun q hq => h2 q (List.mem_cons_of_mem _ hq))
      obtain ⟨h5, h6⟩ := ih (h2 q (by simp))
      simp only [List.map_cons, List.flatMap_cons, List.map_append]
      refine ⟨by rw [h5, h3], fun q hq => ?_⟩
      rcases List.mem_append.1 hq with hq | hq
      · exact h6 q hq
      · exact h4 q hq

theorem heldText_mirror {v v' : Cap} (h : Opposite s.length v v') : heldText s.reverse v' = (heldText s v).reverse := by
  cases v with
  | none =>
    cases v' with
    | none => rfl
    | some _ => exact h.elim
  | some x =>
    cases v' with
    | none => exact h.elim
    | some y =>
      obtain ⟨b, e⟩ := x
      obtain ⟨b', e'⟩ := y
      simp only [heldText]
      rcases h with ⟨hb, he, rfl, rfl⟩ | ⟨rfl, rfl⟩
      · rw [show s.length - b - (s.length - e) = e - b by omega, List.drop_reverse, List.take_reverse, List.length_take,
          show s.length - (s.length - e) = e by omega, List.drop_take]
        congr 1
        by_cases hbe : b ≤ e
        · rw [show min e s.length - (e - b) = b by omega]
        · rw [show e - b = 0 by omega, List.take_zero, show e - (min e s.length - 0) = 0 by omega, List.take_zero]
      · simp

theorem before_isBreak_mirror {p : Nat} (hp : p ≤ s.length) (w : Byte → Bool) :
    before (fun k => match s.reverse[k]? with | none => false | some x => w x) (s.length - p) = (match s[p]? with | none => false | some x => w x) := by
  by_cases he : p = s.length
  · subst he
    rw [List.getElem?_eq_none (l := s) (by simp), Nat.sub_self]
    rfl
  · obtain ⟨k, hk⟩ : ∃ k, s.length - p = k + 1 := ⟨s.length - p - 1, by omega⟩
    rw [hk]
    simp only [before]
    rw [reverse_get (j := p) (by omega)]

theorem at_mirror {p : Nat} (hp : p ≤ s.length) (w : Byte → Bool) :
    (match s.reverse[s.length - p]? with | none => false | some x => w x) = before (fun k => match s[k]? with | none => false | some x => w x) p := by
  cases p with
  | zero =>
    rw [List.getElem?_eq_none (by simp)]
    rfl
  | succ k =>
    rw [reverse_get (j := k) (by omega)]
    rfl

theorem atStart_mirror (fwd multi : Bool) {p : Nat} (hp : p ≤ s.length) : atStart s.reverse fwd multi (s.length - p) = atStart s (!fwd) multi p := by
  cases fwd
  · simp only [atStart, Bool.not_false, if_true, Bool.false_eq_true, if_false, List.length_reverse]
    congr 1
    · rw [Bool.eq_iff_iff]; simp only [beq_iff_eq]; omega
    · congr 1
      exact at_mirror hp (fun x => x == 10#8 || x == 13#8)
  · simp only [atStart, Bool.not_true, if_true, Bool.false_eq_true, if_false]
    congr 1
    · rw [Bool.eq_iff_iff]; simp only [beq_iff_eq]; omega
    · congr 1
      exact before_isBreak_mirror hp (fun x => x == 10#8 || x == 13#8)

theorem wordB_mirror {p : Nat} (hp : p ≤ s.length) :
    (before (isWordAt s.reverse) (s.length - p) != isWordAt s.reverse (s.length - p)) = (before (isWordAt s) p != isWordAt s p) := by
  have h1 : before (isWordAt s.reverse) (s.length - p) = isWordAt s p := before_isBreak_mirror hp (fun x => inRange 48#8 57#8 x || inRange 65#8 90#8 x || x == 95#8 || inRange 97#8 122#8 x)
  have h2 : isWordAt s.reverse (s.length - p) = before (isWordAt s) p := at_mirror hp (fun x => inRange 48#8 57#8 x || inRange 65#8 90#8 x || x == 95#8 || inRange 97#8 122#8 x)
  rw [h1, h2]
  cases isWordAt s p <;> cases before (isWordAt s) p <;> rfl

theorem mirrored_test {b b' : Bool} (h : b' = b) {n p : Nat} (hp : p ≤ n) : Mirrored n (.offers (Spec.test b p)) (.offers (Spec.test b' (n - p))) := by
  subst h
  cases b'
  · exact .done
  · exact mirrored_only hp

theorem mirrored_oneChar (r : Nat) (acc : Byte → Bool) {p : Nat} (hp : p ≤ s.length) :
    Mirrored s.length (.offers (oneChar s ((r + 1) % 2 == 0) acc p)) (.offers (oneChar s.reverse (r % 2 == 0) acc (s.length - p))) := by
  have hr : ((r + 1) % 2 == 0) = !(r % 2 == 0) := by
    rcases Nat.mod_two_eq_zero_or_one r with h | h <;> simp [Nat.add_mod, h]
  rw [hr]
  exact mirrored_offers (oneChar_mirror _ _ hp).1 (oneChar_mirror _ _ hp).2

theorem mirrored_reference (f : Flags) (k : Nat) {p : Nat} (hp : p ≤ s.length) :
    Mirrored s.length (reference f s k 1 p) (reference f s.reverse k 0 (s.length - p)) := by
  refine .recall (fun v v' hv => ?_)
  simp only [Nat.one_ne_zero, if_false, if_true]
  rw [heldText_mirror hv]
  exact mirrored_offers (copies_mirror f.icase true (heldText s v).reverse hp).1 (copies_mirror f.icase true (heldText s v).reverse hp).2

/-- One lookbehind further in, the procedure is the same in the reversed text. -/
theorem proc_mirror (f : Flags) (ν : List Byte → Nat) (a : Ast) (r : Nat) (inv : Bool) (ha : (r = 0 ∧ refsNear inv a = true) ∨ noBackref a = true)
    (p : Nat) (hp : p ≤ s.length) :
    Mirrored s.length (proc f s ν a (r + 1) inv p) (proc f s.reverse ν a r inv (s.length - p)) := by
  have hr : ((r + 1) % 2 == 0) = !(r % 2 == 0) := by
    rcases Nat.mod_two_eq_zero_or_one r with h | h <;> simp [Nat.add_mod, h]
  induction a using ind generalizing r inv p with
  | neg a ih =>
    simp only [proc]
    split
    · exact mirrored_commit (ih r inv ha p hp hr) (fun _ _ => .done) (mirrored_only hp)
    · exact mirrored_oneChar r _ hp
  | seq l ih =>
    simp only [proc]
    simp only [refsNear, noBackref] at ha
    induction l generalizing p with
    | nil => exact mirrored_only hp
    | cons a l ihl =>
      simp only [refsNearAll, noBackrefAll, Bool.and_eq_true] at ha
      have h1 := ih a (by simp) r inv (ha.imp (fun h => ⟨h.1, h.2.1⟩) (·.1))
      have h2 := ihl (fun b hb => ih b (List.mem_cons_of_mem _ hb)) (ha := ha.imp (fun h => ⟨h.1, h.2.2⟩) (·.2))
      simp only [procAll]
      cases inv
      · exact mirrored_proceed (h1 p hp hr) h2
      · exact mirrored_proceed (h2 p hp) (fun q hq => h1 q hq hr)
  | alt l ih =>
    simp only [proc]
    simp only [refsNear, noBackref] at ha
    induction l with
    | nil => exact .done
    | cons a l ihl =>
      simp only [refsNearAll, noBackrefAll, Bool.and_eq_true] at ha
      have h1 := ih a (by simp) r inv (ha.imp (fun h => ⟨h.1, h.2.1⟩) (·.1))
      have h2 := ihl (fun b hb => ih b (List.mem_cons_of_mem _ hb)) (ha.imp (fun h => ⟨h.1, h.2.2⟩) (·.2))
      simp only [procAny]
      split
      · exact mirrored_oneChar r _ hp
      · exact mirrored_andThen (h1 p hp hr) h2
  | cap id n a ih =>
    simp only [proc]
    refine mirrored_andThen (mirrored_proceed (ih r inv ha p hp hr) (fun q hq => ?_)) (.cross .done)
    rcases Nat.mod_two_eq_zero_or_one r with h | h
    · rw [if_neg (by omega), if_pos h]
      exact .note hq hp (mirrored_only hq)
    · rw [if_pos (by omega), if_neg (by omega)]
      exact .note hp hq (mirrored_only hq)
  | rep m lo hi a ih =>
    simp only [proc, List.length_reverse]
    exact mirrored_quantified (fun q hq => ih r inv ha q hq hr) _ m _ lo hi p hp
  | look d a ih =>
    simp only [refsNear, noBackref] at ha
    simp only [proc]
    split
    · next h =>
      rw [if_pos h] at ha
      exact mirrored_commit (ih r false ha p hp hr) (fun _ _ => mirrored_only hp) .done
    · next h =>
      rw [if_neg h] at ha
      exact mirrored_commit (ih (r + 1) true (.inr (ha.elim (·.2) (fun h => h))) p hp
        (by rcases Nat.mod_two_eq_zero_or_one r with h | h <;> simp [Nat.add_mod, h])) (fun _ _ => mirrored_only hp) .done
  | backref k =>
    rcases ha with ⟨rfl, _⟩ | h
    · exact mirrored_reference f k hp
    · cases h
  | namedBackref k =>
    rcases ha with ⟨rfl, _⟩ | h
    · exact mirrored_reference f (ν k) hp
    · cases h
  | empty => exact mirrored_only hp
  | lit | range | wildcard | set =>
    simp only [proc, ends]
    exact mirrored_oneChar r _ hp
  | bol | boi =>
    simp only [proc, ends, hr]
    exact mirrored_test (atStart_mirror _ _ hp) hp
  | eol | eoi =>
    simp only [proc, ends, hr, atStop]
    exact mirrored_test (atStart_mirror _ _ hp) hp
  | wordB =>
    simp only [proc, ends]
    exact mirrored_test (wordB_mirror hp) hp

end

/-! ### Carrying them out -/

section
variable {n : Nat}

theorem put_mirror {h h' : Notes} (hh : ∀ k, Opposite n (h k) (h' k)) (j : Nat) {v v' : Cap} (hv : Opposite n v v') (k : Nat) :
    Opposite n (h.put j v k) (h'.put j v' k) := by
  unfold Notes.put
  split
  · exact hv
  · exact hh k

theorem opposite_crossed {v v' : Cap} (h : Opposite n v v') : Opposite n (v.map (fun x => (x.1, x.1))) (v'.map (fun x => (x.1, x.1))) := by
  cases v <;> cases v'
  · trivial
  · exact h.elim
  · exact h.elim
  · exact .inr ⟨rfl, rfl⟩

theorem follow_mirror {P P' : Proc} (hP : Mirrored n P P') {h h' : Notes} (hh : ∀ k, Opposite n (h k) (h' k)) :
    (P'.follow (fun _ => true) h').1 = (P.follow (fun _ => true) h).1.map (n - ·) ∧
      ∀ k, Opposite n ((P.follow (fun _ => true) h).2 k) ((P'.follow (fun _ => true) h').2 k) := by
  induction hP generalizing h h' with
  | done => exact ⟨rfl, hh⟩
  | @note k b e P P' hb he _ ih => exact ih (put_mirror hh k (.inl ⟨hb, he, rfl, rfl⟩))
  | @cross k P P' _ ih => exact ih (put_mirror hh k (opposite_crossed (hh k)))
  | @offer q P P' _ _ ih => exact ⟨rfl, hh⟩
  | @recall k f f' _ ih => exact ih _ _ (hh k) hh

end
end Mregex
