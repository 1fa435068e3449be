import Verif.Spec.Watch
import Verif.Proof.Moves
import Verif.Proof.ProcMethods

/-!
# Procedures that ask for the characters
-/

namespace Mregex
open Ast Spec

/-! ### Answering all questions -/

/-- The procedure for the text `s`. -/
def settle (s : List Byte) : Watch → Proc
  | .done => .done
  | .note k b e P => .note k b e (settle s P)
  | .cross k P => .cross k (settle s P)
  | .offer q P => .offer q (settle s P)
  | .recall k f => .recall k (fun v => settle s (f v))
  | .look t f => settle s (f s[t]?)

/-- The same, but the questions are kept, in disguise. -/
def mark (s : List Byte) : Watch → Proc
  | .done => .done
  | .note k b e P => .note k b e (mark s P)
  | .cross k P => .cross k (mark s P)
  | .offer q P => .offer q (mark s P)
  | .recall k f => .recall (2 * k) (fun v => mark s (f v))
  | .look t f => .recall (2 * t + 1) (fun _ => mark s (f s[t]?))

theorem all_mark (s : List Byte) (Q : Nat → Prop) (W : Watch) : Proc.All Q (mark s W) ↔ Proc.All Q (settle s W) := by
  induction W with
  | done => exact Iff.rfl
  | note _ _ _ P ih => exact ih
  | cross _ P ih => exact ih
  | offer q P ih => exact and_congr Iff.rfl ih
  | recall k f ih => exact forall_congr' ih
  | look t f ih => exact ⟨fun h => (ih _).1 (h none), fun h _ => (ih _).2 h⟩

section
variable (s : List Byte)

theorem settle_andThen (P Q : Watch) : settle s (P.andThen Q) = (settle s P).andThen (settle s Q) := by
  induction P with
  | done => rfl
  | note _ _ _ P ih => simp only [Watch.andThen, settle, Proc.andThen, ih]
  | cross _ P ih => simp only [Watch.andThen, settle, Proc.andThen, ih]
  | offer q P ih => simp only [Watch.andThen, settle, Proc.andThen, ih]
  | recall k f ih => simp only [Watch.andThen, settle, Proc.andThen, ih]
  | look t f ih => simp only [Watch.andThen, settle, ih]

theorem settle_proceed (g : Nat → Watch) (P : Watch) : settle s (P.proceed g) = (settle s P).proceed (fun q => settle s (g q)) := by
  induction P with
  | done => rfl
  | note _ _ _ P ih => simp only [Watch.proceed, settle, Proc.proceed, ih]
  | cross _ P ih => simp only [Watch.proceed, settle, Proc.proceed, ih]
  | offer q P ih => simp only [Watch.proceed, settle, Proc.proceed, settle_andThen, ih]
  | recall k f ih => simp only [Watch.proceed, settle, Proc.proceed, ih]
  | look t f ih => simp only [Watch.proceed, settle, ih]

theorem settle_commit (g : Nat → Watch) (P Q : Watch) : settle s (P.commit g Q) = (settle s P).commit (fun q => settle s (g q)) (settle s Q) := by
  induction P with
  | done => rfl
  | note _ _ _ P ih => simp only [Watch.commit, settle, Proc.commit, ih]
  | cross _ P ih => simp only [Watch.commit, settle, Proc.commit, ih]
  | offer q P ih => simp only [Watch.commit, settle, Proc.commit]
  | recall k f ih => simp only [Watch.commit, settle, Proc.commit, ih]
  | look t f ih => simp only [Watch.commit, settle, ih]

theorem settle_except (p : Nat) (P : Watch) : settle s (P.except p) = (settle s P).except p := by
  induction P with
  | done => rfl
  | note _ _ _ P ih => simp only [Watch.except, settle, Proc.except, ih]
  | cross _ P ih => simp only [Watch.except, settle, Proc.except, ih]
  | offer q P ih => simp only [Watch.except, settle, Proc.except]; split <;> simp only [settle, ih]
  | recall k f ih => simp only [Watch.except, settle, Proc.except, ih]
  | look t f ih => simp only [Watch.except, settle, ih]

theorem mark_andThen (P Q : Watch) : mark s (P.andThen Q) = (mark s P).andThen (mark s Q) := by
  induction P with
  | done => rfl
  | note _ _ _ P ih => simp only [Watch.andThen, mark, Proc.andThen, ih]
  | cross _ P ih => simp only [Watch.andThen, mark, Proc.andThen, ih]
  | offer q P ih => simp only [Watch.andThen, mark, Proc.andThen, ih]
  | recall k f ih => simp only [Watch.andThen, mark, Proc.andThen, ih]
  | look t f ih => simp only [Watch.andThen, mark, Proc.andThen, ih]

theorem mark_proceed (g : Nat → Watch) (P : Watch) : mark s (P.proceed g) = (mark s P).proceed (fun q => mark s (g q)) := by
  induction P with
  | done => rfl
  | note _ _ _ P ih => simp only [Watch.proceed, mark, Proc.proceed, ih]
  | cross _ P ih => simp only [Watch.proceed, mark, Proc.proceed, ih]
  | offer q P ih => simp only [Watch.proceed, mark, Proc.proceed, mark_andThen, ih]
  | recall k f ih => simp only [Watch.proceed, mark, Proc.proceed, ih]
  | look t f ih => simp only [Watch.proceed, mark, Proc.proceed, ih]

theorem mark_commit (g : Nat → Watch) (P Q : Watch) : mark s (P.commit g Q) = (mark s P).commit (fun q => mark s (g q)) (mark s Q) := by
  induction P with
  | done => rfl
  | note _ _ _ P ih => simp only [Watch.commit, mark, Proc.commit, ih]
  | cross _ P ih => simp only [Watch.commit, mark, Proc.commit, ih]
  | offer q P ih => simp only [Watch.commit, mark, Proc.commit]
  | recall k f ih => simp only [Watch.commit, mark, Proc.commit, ih]
  | look t f ih => simp only [Watch.commit, mark, Proc.commit, ih]

theorem mark_except (p : Nat) (P : Watch) : mark s (P.except p) = (mark s P).except p := by
  induction P with
  | done => rfl
  | note _ _ _ P ih => simp only [Watch.except, mark, Proc.except, ih]
  | cross _ P ih => simp only [Watch.except, mark, Proc.except, ih]
  | offer q P ih => simp only [Watch.except, mark, Proc.except]; split <;> simp only [mark, ih]
  | recall k f ih => simp only [Watch.except, mark, Proc.except, ih]
  | look t f ih => simp only [Watch.except, mark, Proc.except, ih]

end

/-! ### Translations that respect the operations -/

/-- A translation of procedures that ask, compatible with everything they are made of. -/
structure Translates (T : Watch → Proc) : Prop where
  done : T .done = .done
  only : ∀ q, T (.only q) = .only q
  offer : ∀ q P, T (.offer q P) = .offer q (T P)
  note : ∀ k b e P, T (.note k b e P) = .note k b e (T P)
  cross : ∀ k P, T (.cross k P) = .cross k (T P)
  andThen : ∀ P Q, T (P.andThen Q) = (T P).andThen (T Q)
  proceed : ∀ g P, T (.proceed g P) = (T P).proceed (fun q => T (g q))
  commit : ∀ g P Q, T (.commit g P Q) = (T P).commit (fun q => T (g q)) (T Q)
  except : ∀ p P, T (.except p P) = (T P).except p

theorem settle_respects (s : List Byte) : Translates (settle s) :=
  ⟨rfl, fun _ => rfl, fun _ _ => rfl, fun _ _ _ _ => rfl, fun _ _ => rfl, settle_andThen s, settle_proceed s, settle_commit s, settle_except s⟩

theorem mark_respects (s : List Byte) : Translates (mark s) :=
  ⟨rfl, fun _ => rfl, fun _ _ => rfl, fun _ _ _ _ => rfl, fun _ _ => rfl, mark_andThen s, mark_proceed s, mark_commit s, mark_except s⟩

section
variable {T : Watch → Proc} (hT : Translates T) (g : Nat → Watch)
include hT

theorem Translates.times (k p : Nat) : T (Watch.times g k p) = Proc.times (fun q => T (g q)) k p := by
  induction k generalizing p with
  | zero => exact hT.only p
  | succ k ih => simp only [Watch.times, Proc.times, hT.proceed, ih]

theorem Translates.greedyUpTo (k p : Nat) : T (Watch.greedyUpTo g k p) = Proc.greedyUpTo (fun q => T (g q)) k p := by
  induction k generalizing p with
  | zero => exact hT.only p
  | succ k ih => simp only [Watch.greedyUpTo, Proc.greedyUpTo, hT.andThen, hT.proceed, hT.only, ih]

theorem Translates.lazyUpTo (k p : Nat) : T (Watch.lazyUpTo g k p) = Proc.lazyUpTo (fun q => T (g q)) k p := by
  induction k generalizing p with
  | zero => exact hT.only p
  | succ k ih => simp only [Watch.lazyUpTo, Proc.lazyUpTo, hT.offer, hT.proceed, ih]

theorem Translates.possessiveUpTo (k p : Nat) : T (Watch.possessiveUpTo g k p) = Proc.possessiveUpTo (fun q => T (g q)) k p := by
  induction k generalizing p with
  | zero => exact hT.only p
  | succ k ih => simp only [Watch.possessiveUpTo, Proc.possessiveUpTo, hT.commit, hT.only, ih]

theorem Translates.greedyStar (k p : Nat) : T (Watch.greedyStar g k p) = Proc.greedyStar (fun q => T (g q)) k p := by
  induction k generalizing p with
  | zero => exact hT.done
  | succ k ih => simp only [Watch.greedyStar, Proc.greedyStar, hT.andThen, hT.proceed, hT.except, hT.only, ih]

theorem Translates.lazyStar (k p : Nat) : T (Watch.lazyStar g k p) = Proc.lazyStar (fun q => T (g q)) k p := by
  induction k generalizing p with
  | zero => exact hT.done
  | succ k ih => simp only [Watch.lazyStar, Proc.lazyStar, hT.offer, hT.proceed, hT.except, ih]

theorem Translates.possessiveStar (k p : Nat) : T (Watch.possessiveStar g k p) = Proc.possessiveStar (fun q => T (g q)) k p := by
  induction k generalizing p with
  | zero => exact hT.done
  | succ k ih =>
    simp only [Watch.possessiveStar, Proc.possessiveStar, hT.commit, hT.only]
    congr 1
    funext q
    split
    · exact hT.only p
    · exact ih q

theorem Translates.extra (N : Nat) (m : Mode) (u : Bool) (k : Option Nat) (p : Nat) : T (Watch.extra N m u g k p) = Proc.extra N m u (fun q => T (g q)) k p := by
  cases k <;> cases m <;> cases u <;>
    first
      | exact hT.possessiveUpTo g _ _ | exact hT.possessiveStar g _ _ | exact hT.greedyUpTo g _ _ | exact hT.greedyStar g _ _ | exact hT.lazyUpTo g _ _ | exact hT.lazyStar g _ _

theorem Translates.quantified (N : Nat) (m : Mode) (u : Bool) (lo : Nat) (hi : Bound) (p : Nat) :
    T (Watch.quantified N m u lo hi g p) = Proc.quantified N m u lo hi (fun q => T (g q)) p := by
  unfold Watch.quantified Proc.quantified
  rw [hT.proceed]
  rw [show (fun q => T (Watch.extra N m u g _ q)) = Proc.extra N m u (fun q => T (g q)) _ from funext fun q => hT.extra g N m u _ q]
  congr 1
  cases m
  · exact hT.times g lo p
  · exact hT.times g lo p
  · simp only [hT.commit, hT.times, hT.only, hT.done]

end

/-- The limit of rounds does not matter. -/
theorem quantified_limit {n : Nat} {fwd : Bool} {g : Nat → Proc} (hg : ∀ p, Proc.All (Moves n fwd false p) (g p)) {N N' : Nat} (hN : n ≤ N) (hN' : n ≤ N')
    (m : Mode) (u : Bool) (lo : Nat) (hi : Bound) (p : Nat) : Proc.quantified N m u lo hi g p = Proc.quantified N' m u lo hi g p := by
  have he : ∀ k q, Proc.extra N m u g k q = Proc.extra N' m u g k q := by
    intro k q
    have hr := room_le n fwd q
    have h1 := greedyStar_fuel hg (N + 1) (N' + 1) q (by omega) (by omega)
    have h2 := lazyStar_fuel hg (N + 1) (N' + 1) q (by omega) (by omega)
    have h3 := possessiveStar_fuel hg (N + 1) (N' + 1) q (by omega) (by omega)
    cases k <;> cases m <;> cases u <;> first | rfl | exact h1 | exact h2 | exact h3
  unfold Proc.quantified
  rw [funext (he _)]

/-! ### The answers -/

section
variable (s : List Byte)

theorem settle_offerIf (b : Bool) (q : Nat) : settle s (offerIf b q) = .offers (if b then [q] else []) := by cases b <;> rfl

theorem settle_askChar (fwd : Bool) (P : Byte → Bool) (p : Nat) : settle s (askChar fwd P p) = .offers (oneChar s fwd P p) := by
  unfold askChar oneChar readChar
  cases fwd
  · simp only [Bool.false_eq_true, if_false]
    cases p with
    | zero => rfl
    | succ k =>
      simp only [settle]
      cases s[k]? with
      | none => rfl
      | some x => exact settle_offerIf s _ _
  · simp only [if_true, settle]
    cases s[p]? with
    | none => rfl
    | some x => exact settle_offerIf s _ _

theorem breakChar_at (p : Nat) : breakChar s[p]? = isBreakAt s p := by unfold breakChar isBreakAt; cases s[p]? <;> rfl
theorem wordChar_at (p : Nat) : wordChar s[p]? = isWordAt s p := by unfold wordChar isWordAt; cases s[p]? <;> rfl

theorem settle_askStart (multi : Bool) (p : Nat) : settle s (askStart multi p) = .offers (Spec.test (atStart s true multi p) p) := by
  unfold askStart atStart Spec.test
  cases p with
  | zero => rfl
  | succ k =>
    cases multi
    · rfl
    · simp only [Nat.succ_ne_zero, if_false, if_true, askBefore, settle, breakChar_at, settle_offerIf, before]
      rfl

theorem settle_askStop (multi : Bool) (p : Nat) : settle s (askStop multi p) = .offers (Spec.test (atStop s true multi p) p) := by
  unfold askStop atStop atStart Spec.test
  simp only [settle, Bool.not_true, Bool.false_eq_true, if_false]
  cases h : s[p]? with
  | some x =>
    obtain ⟨hp, _⟩ := List.getElem?_eq_some_iff.1 h
    have h1 : (p == s.length) = false := by simp; omega
    rw [h1, ← breakChar_at, h]
    exact settle_offerIf s _ _
  | none =>
    have hp := List.getElem?_eq_none_iff.1 h
    have hb : isBreakAt s p = false := by rw [← breakChar_at, h]; rfl
    rw [hb]
    cases p with
    | zero =>
      have : s.length = 0 := by omega
      simp [this, Watch.only, settle, Proc.offers]
    | succ k =>
      simp only [Nat.succ_ne_zero, if_false, askBefore, settle, settle_offerIf]
      by_cases hk : k < s.length
      · have : k + 1 = s.length := by omega
        simp [List.getElem?_eq_getElem hk, this]
      · have : k + 1 ≠ s.length := by omega
        simp [List.getElem?_eq_none_iff.2 (by omega : s.length ≤ k), this]

theorem settle_askBoundary (p : Nat) : settle s (askBoundary p) = .offers (Spec.test (before (isWordAt s) p != isWordAt s p) p) := by
  unfold askBoundary Spec.test
  cases p with
  | zero => simp only [askBefore, settle, wordChar_at, settle_offerIf, before]; rfl
  | succ k => simp only [askBefore, settle, wordChar_at, settle_offerIf, before]; rfl

theorem settle_askText (b c : Nat) (k : List Byte → Watch) : settle s (askText b c k) = settle s (k ((s.drop b).take c)) := by
  induction c generalizing b k with
  | zero => simp [askText]
  | succ c ih =>
    simp only [askText, settle]
    cases h : s[b]? with
    | none => rw [List.drop_eq_nil_of_le (List.getElem?_eq_none_iff.1 h)]; simp
    | some x =>
      obtain ⟨hb, rfl⟩ := List.getElem?_eq_some_iff.1 h
      simp only [ih]
      rw [List.drop_eq_getElem_cons hb, List.take_succ_cons]

theorem offers_proceed (l : List Nat) (e : Nat → List Nat) : (Proc.offers l).proceed (fun q => .offers (e q)) = .offers (l.flatMap e) := by
  induction l with
  | nil => rfl
  | cons q l ih =>
    simp only [Proc.offers, Proc.proceed, ih, List.flatMap_cons]
    generalize e q = l'
    induction l' with
    | nil => rfl
    | cons q l' ih => simp only [Proc.offers, Proc.andThen, ih, List.cons_append]

theorem settle_askCopies (ic fwd : Bool) (w : List Byte) (p : Nat) : settle s (askCopies ic fwd w p) = .offers (copies ic s fwd w p) := by
  induction w generalizing p with
  | nil => rfl
  | cons x w ih =>
    simp only [askCopies, copies, settle_proceed, settle_askChar, ih]
    exact offers_proceed _ _

theorem settle_askReference (f : Flags) (k r p : Nat) : settle s (askReference f k r p) = reference f s k r p := by
  unfold askReference reference
  simp only [settle]
  congr 1
  funext v
  cases v with
  | none => simp [heldText, copies, Watch.only, settle, Proc.offers]
  | some v => simp only [settle_askText, settle_askCopies, heldText]

theorem settle_watch {N : Nat} (hN : s.length ≤ N) (f : Flags) (ν : List Byte → Nat) (a : Ast) (r : Nat) (inv : Bool) (p : Nat) :
    settle s (watch N f ν a r inv p) = proc f s ν a r inv p := by
  induction a using ind generalizing r inv p with
  | neg a ih =>
    simp only [watch, proc]
    split
    · rw [settle_commit, ih]; rfl
    · exact settle_askChar s _ _ p
  | seq l ih =>
    simp only [watch, proc]
    have hl : ∀ l', (∀ b ∈ l', b ∈ l) → ∀ p, settle s (watchAll N f ν l' r inv p) = procAll f s ν l' r inv p := by
      intro l'
      induction l' with
      | nil => exact fun _ p => rfl
      | cons a l' ihl =>
        intro hb p
        have ihl := ihl (fun b h => hb b (List.mem_cons_of_mem _ h))
        have iha := fun q => ih a (hb a (by simp)) r inv q
        simp only [watchAll, procAll]
        split
        · rw [settle_proceed, ihl]; exact congrArg (fun g => Proc.proceed g _) (funext iha)
        · rw [settle_proceed, iha]; exact congrArg (fun g => Proc.proceed g _) (funext ihl)
    exact hl l (fun _ h => h) p
  | alt l ih =>
    simp only [watch, proc]
    have hl : ∀ l', (∀ b ∈ l', b ∈ l) → settle s (watchAny N f ν l' r inv p) = procAny f s ν l' r inv p := by
      intro l'
      induction l' with
      | nil => exact fun _ => rfl
      | cons a l' ihl =>
        intro hb
        simp only [watchAny, procAny]
        split
        · exact settle_askChar s _ _ p
        · rw [settle_andThen, ih a (hb a (by simp)), ihl (fun b h => hb b (List.mem_cons_of_mem _ h))]
    exact hl l (fun _ h => h)
  | cap id n a ih =>
    simp only [watch, proc]
    rw [settle_andThen, settle_proceed, ih]
    congr 2
    funext q
    split <;> rfl
  | rep m lo hi a ih =>
    simp only [watch, proc]
    rw [(settle_respects s).quantified, show (fun q => settle s (watch N f ν a r inv q)) = proc f s ν a r inv from funext (ih r inv)]
    exact quantified_limit (fun q => all_mono (proc_moves f s ν a r inv q) (fun t ht => ht.imp (fun h => ⟨h.1, rfl⟩) id)) hN (Nat.le_refl _) _ _ _ _ _
  | look d a ih =>
    simp only [watch, proc]
    split
    · rw [settle_commit, ih]; rfl
    · rw [settle_commit, ih]; rfl
  | backref k => exact settle_askReference s f k r p
  | namedBackref k => exact settle_askReference s f _ r p
  | empty => rfl
  | lit | range | wildcard | set => exact settle_askChar s _ _ p
  | bol | boi =>
    simp only [watch, proc, ends]
    cases r % 2 == 0
    · exact settle_askStop s _ p
    · exact settle_askStart s _ p
  | eol | eoi =>
    simp only [watch, proc, ends, atStop]
    cases r % 2 == 0
    · exact settle_askStart s _ p
    · exact settle_askStop s _ p
  | wordB => exact settle_askBoundary s p

/-- Questions included, the limit of rounds does not matter. -/
theorem mark_watch {N N' : Nat} (hN : s.length ≤ N) (hN' : s.length ≤ N') (f : Flags) (ν : List Byte → Nat) (a : Ast) (r : Nat) (inv : Bool) (p : Nat) :
    mark s (watch N f ν a r inv p) = mark s (watch N' f ν a r inv p) := by
  induction a using ind generalizing r inv p with
  | neg a ih =>
    simp only [watch]
    split
    · rw [mark_commit, mark_commit, ih]
    · rfl
  | seq l ih =>
    simp only [watch]
    have hl : ∀ l', (∀ b ∈ l', b ∈ l) → ∀ p, mark s (watchAll N f ν l' r inv p) = mark s (watchAll N' f ν l' r inv p) := by
      intro l'
      induction l' with
      | nil => exact fun _ p => rfl
      | cons a l' ihl =>
        intro hb p
        have ihl := ihl (fun b h => hb b (List.mem_cons_of_mem _ h))
        have iha := fun q => ih a (hb a (by simp)) r inv q
        simp only [watchAll]
        split
        · rw [mark_proceed, mark_proceed, ihl]; exact congrArg (fun g => Proc.proceed g _) (funext iha)
        · rw [mark_proceed, mark_proceed, iha]; exact congrArg (fun g => Proc.proceed g _) (funext ihl)
    exact hl l (fun _ h => h) p
  | alt l ih =>
    simp only [watch]
    have hl : ∀ l', (∀ b ∈ l', b ∈ l) → mark s (watchAny N f ν l' r inv p) = mark s (watchAny N' f ν l' r inv p) := by
      intro l'
      induction l' with
      | nil => exact fun _ => rfl
      | cons a l' ihl =>
        intro hb
        simp only [watchAny]
        split
        · rfl
        · rw [mark_andThen, mark_andThen, ih a (hb a (by simp)), ihl (fun b h => hb b (List.mem_cons_of_mem _ h))]
    exact hl l (fun _ h => h)
  | cap id n a ih =>
    simp only [watch]
    rw [mark_andThen, mark_andThen, mark_proceed, mark_proceed, ih]
  | rep m lo hi a ih =>
    simp only [watch]
    rw [(mark_respects s).quantified, (mark_respects s).quantified,
      show (fun q => mark s (watch N f ν a r inv q)) = fun q => mark s (watch N' f ν a r inv q) from funext (ih r inv)]
    refine quantified_limit (n := s.length) (fwd := r % 2 == 0) (fun q => ?_) hN hN' _ _ _ _ _
    rw [all_mark, settle_watch s hN']
    exact all_mono (proc_moves f s ν a r inv q) (fun t ht => ht.imp (fun h => ⟨h.1, rfl⟩) id)
  | look d a ih =>
    simp only [watch]
    split
    · rw [mark_commit, mark_commit, ih]
    · rw [mark_commit, mark_commit, ih]
  | _ => rfl

end

/-! ### Carrying out -/

/-- `Watch.run` in disguise. -/
def runMarked : Proc → Notes → Witnessed Nat
  | .done, h => ⟨none, h, []⟩
  | .note k b e P, h => runMarked P (h.put k (some (b, e)))
  | .cross k P, h => runMarked P (h.put k ((h k).map (fun x => (x.1, x.1))))
  | .offer q _, h => ⟨some q, h, []⟩
  | .recall k f, h =>
    if k % 2 = 0 then runMarked (f (h (k / 2))) h
    else let o := runMarked (f none) h; ⟨o.found, o.notes, (k / 2) :: o.asked⟩

theorem run_marked (s : List Byte) (W : Watch) (h : Notes) : W.run s h = runMarked (mark s W) h := by
  induction W generalizing h with
  | done => rfl
  | note _ _ _ P ih => exact ih _
  | cross _ P ih => exact ih _
  | offer q P ih => rfl
  | recall k f ih =>
    simp only [Watch.run, mark, runMarked]
    rw [if_pos (by omega), show 2 * k / 2 = k by omega]
    exact ih _ h
  | look t f ih =>
    simp only [Watch.run, mark, runMarked]
    rw [if_neg (by omega), show (2 * t + 1) / 2 = t by omega, ih]

/-- What is found and noted is what the procedure for the text gives. -/
theorem run_answers (s : List Byte) (W : Watch) (h : Notes) : ((W.run s h).found, (W.run s h).notes) = (settle s W).follow (fun _ => true) h := by
  induction W generalizing h with
  | done => rfl
  | note _ _ _ P ih => exact ih _
  | cross _ P ih => exact ih _
  | offer q P ih => rfl
  | recall k f ih => exact ih _ h
  | look t f ih => exact ih _ h

/-- Another text with the same answers. -/
theorem run_agree {s s' : List Byte} {W : Watch} {h : Notes} (hs : ∀ t ∈ (W.run s h).asked, s'[t]? = s[t]?) : W.run s' h = W.run s h := by
  induction W generalizing h with
  | done => rfl
  | note _ _ _ P ih => exact ih hs
  | cross _ P ih => exact ih hs
  | offer q P ih => rfl
  | recall k f ih => exact ih _ hs
  | look t f ih =>
    simp only [Watch.run] at hs ⊢
    rw [hs t (by simp), ih _ (fun t' h' => hs t' (by simp [h']))]

theorem hunt_agree {s s' : List Byte} {g : Nat → Watch} {k j : Nat} {h : Notes} (hs : ∀ t ∈ (hunt s g k j h).asked, s'[t]? = s[t]?) :
    hunt s' g k j h = hunt s g k j h := by
  induction k generalizing j h with
  | zero => rfl
  | succ k ih =>
    simp only [hunt] at hs ⊢
    cases ho : ((g j).run s h).found with
    | some q =>
      rw [ho] at hs
      rw [run_agree hs, ho]
    | none =>
      rw [ho] at hs
      cases hj : s[j]? with
      | none =>
        rw [hj] at hs
        rw [run_agree (fun t ht => hs t (by simp [ht])), ho, hs j (by simp), hj]
      | some x =>
        rw [hj] at hs
        rw [run_agree (fun t ht => hs t (by simp [ht])), ho, hs j (by simp), hj]
        dsimp only
        rw [ih (fun t ht => hs t (by simp [ht]))]

theorem hunt_marked {s : List Byte} {g g' : Nat → Watch} (hg : ∀ q, mark s (g q) = mark s (g' q)) (k j : Nat) (h : Notes) : hunt s g k j h = hunt s g' k j h := by
  induction k generalizing j h with
  | zero => rfl
  | succ k ih => simp only [hunt, run_marked, hg, ih]

/-- More positions to try do not matter. -/
theorem hunt_limit {s : List Byte} {g : Nat → Watch} {k k' j : Nat} (h : Notes) (hj : j ≤ s.length) (hk : s.length - j < k) (hk' : s.length - j < k') :
    hunt s g k j h = hunt s g k' j h := by
  induction k generalizing k' j h with
  | zero => omega
  | succ k ih =>
    match k', hk' with
    | k' + 1, hk' =>
      simp only [hunt]
      cases ((g j).run s h).found with
      | some q => rfl
      | none =>
        cases hj' : s[j]? with
        | none => rfl
        | some x =>
          obtain ⟨hl, _⟩ := List.getElem?_eq_some_iff.1 hj'
          dsimp only
          rw [ih (k' := k') _ (by omega) (by omega) (by omega)]

/-- What the search finds. -/
theorem hunt_settle {s : List Byte} {g : Nat → Watch} {j : Nat} (h : Notes) (hj : j ≤ s.length) :
    ((hunt s g (s.length + 1 - j) j h).found, (hunt s g (s.length + 1 - j) j h).notes) =
      tryFrom (fun q => settle s (g q)) (List.range' j (s.length + 1 - j)) h := by
  generalize hk : s.length - j = k
  induction k generalizing j h with
  | zero =>
    have hr := run_answers s (g j) h
    rw [show s.length + 1 - j = 1 by omega]
    simp only [hunt, List.range', tryFrom, ← hr]
    cases ((g j).run s h).found with
    | some q => rfl
    | none => rw [List.getElem?_eq_none_iff.2 (by omega : s.length ≤ j)]
  | succ k ih =>
    have hr := run_answers s (g j) h
    rw [show s.length + 1 - j = (s.length + 1 - (j + 1)) + 1 by omega]
    simp only [hunt, List.range', tryFrom, ← hr]
    cases ((g j).run s h).found with
    | some q => rfl
    | none =>
      rw [List.getElem?_eq_getElem (by omega : j < s.length)]
      exact ih _ (by omega) (by omega)

/-- A whole match ends where the text ends. -/
theorem follow_stop (s : List Byte) (P : Proc) (h : Notes) :
    (P.proceed (fun q => settle s (askStop false q))).follow (fun _ => true) h = P.follow (· == s.length) h := by
  induction P generalizing h with
  | done => rfl
  | note _ _ _ P ih => exact ih _
  | cross _ P ih => exact ih _
  | offer q P ih =>
    simp only [Proc.proceed, Proc.follow]
    rw [settle_askStop]
    simp only [atStop, atStart, Bool.not_true, Bool.false_eq_true, if_false, Bool.false_and, Bool.or_false]
    by_cases hq : (q == s.length) = true
    · rw [if_pos hq, hq]; rfl
    · rw [if_neg hq]
      simp only [Bool.not_eq_true] at hq
      rw [hq]
      exact ih h
  | recall k f ih => exact ih _ h

section
variable {s : List Byte} {N : Nat} (hN : s.length ≤ N) (f : Flags) (ν : List Byte → Nat) (a : Ast) {cur : Nat} (hc : cur ≤ s.length) (h : Notes) (M : Method)
include hN hc

/-- What is found and noted is what carrying out the procedure for the text gives. -/
theorem watchOut_settle : ((watchOut N s (watch N f ν a 0 false) cur h M).found, (watchOut N s (watch N f ν a 0 false) cur h M).notes) =
    carryOut s.length (proc f s ν a 0 false) cur h M := by
  cases M with
  | «match» =>
    have := run_answers s ((watch N f ν a 0 false cur).proceed (askStop false)) h
    rw [settle_proceed, settle_watch s hN, follow_stop] at this
    simp only [watchOut, carryOut, ← this]
  | matchPrefix =>
    have := run_answers s (watch N f ν a 0 false cur) h
    rw [settle_watch s hN] at this
    simp only [watchOut, carryOut, ← this]
  | search =>
    simp only [watchOut, carryOut]
    rw [hunt_limit (k' := s.length + 1 - cur) h hc (by omega) (by omega), hunt_settle h hc]
    rw [show (fun q => settle s (watch N f ν a 0 false q)) = proc f s ν a 0 false from funext fun q => settle_watch s hN f ν a 0 false q]

/-- The limits do not matter. -/
theorem watchOut_limit : watchOut N s (watch N f ν a 0 false) cur h M = watchOut s.length s (watch s.length f ν a 0 false) cur h M := by
  have hm := fun q => mark_watch s hN (Nat.le_refl _) f ν a 0 false q
  cases M with
  | «match» => simp only [watchOut, run_marked, mark_proceed, hm]
  | matchPrefix => simp only [watchOut, run_marked, hm]
  | search =>
    simp only [watchOut]
    rw [hunt_marked hm, hunt_limit (k' := s.length + 1 - cur) h hc (by omega) (by omega)]

end

theorem watchOut_agree {s s' : List Byte} {N : Nat} {g : Nat → Watch} {cur : Nat} {h : Notes} {M : Method}
    (hs : ∀ t ∈ (watchOut N s g cur h M).asked, s'[t]? = s[t]?) : watchOut N s' g cur h M = watchOut N s g cur h M := by
  cases M with
  | «match» => simp only [watchOut] at hs ⊢; rw [run_agree hs]
  | matchPrefix => simp only [watchOut] at hs ⊢; rw [run_agree hs]
  | search => exact hunt_agree hs

/-- The same is found and noted in every text with the same answers. -/
theorem carryOut_agree {s s' : List Byte} {R : Regex} {ν : List Byte → Nat} {M : Method} {cur : Nat} (hc : cur ≤ s.length) (hc' : cur ≤ s'.length)
    (hs : ∀ t ∈ looked R ν M s cur, s'[t]? = s[t]?) :
    carryOut s'.length (proc (Flags.ofList R.flags) s' ν R.ast 0 false) cur (fun _ => none) M =
      carryOut s.length (proc (Flags.ofList R.flags) s ν R.ast 0 false) cur (fun _ => none) M ∧ looked R ν M s' cur = looked R ν M s cur := by
  have h1 : s.length ≤ max s.length s'.length := Nat.le_max_left _ _
  have h2 : s'.length ≤ max s.length s'.length := Nat.le_max_right _ _
  unfold looked at hs ⊢
  rw [← watchOut_limit h1 _ ν _ hc] at hs ⊢
  rw [← watchOut_limit h2 _ ν _ hc']
  have h3 := watchOut_agree hs
  rw [← watchOut_settle h1 _ ν _ hc, ← watchOut_settle h2 _ ν _ hc', h3]
  exact ⟨rfl, rfl⟩

end Mregex
