import Verif.Spec.Told
import Verif.Proof.Moves
import Verif.Proof.Unfold
import Verif.Proof.Named
import Verif.Proof.Variants
import Verif.Proof.Watch
import Verif.Proof.Edges

/-!
# References that follow their group at once
-/

namespace Mregex
open Ast Spec

/-- The second procedure does without recalling a group that has just been noted. -/
inductive Recalls : Proc → Proc → Prop
  | done : Recalls .done .done
  | offer {q P P'} : Recalls P P' → Recalls (.offer q P) (.offer q P')
  | note {k b e P P'} : Recalls P P' → Recalls (.note k b e P) (.note k b e P')
  | cross {k P P'} : Recalls P P' → Recalls (.cross k P) (.cross k P')
  | recall {k f f'} : (∀ v, Recalls (f v) (f' v)) → Recalls (.recall k f) (.recall k f')
  | known {k b e} {f : Cap → Proc} {P'} : Recalls (f (some (b, e))) P' → Recalls (.note k b e (.recall k f)) (.note k b e P')

namespace Recalls

theorem refl (P : Proc) : Recalls P P := by
  induction P with
  | done => exact .done
  | note _ _ _ _ ih => exact .note ih
  | cross _ _ ih => exact .cross ih
  | offer _ _ ih => exact .offer ih
  | recall _ _ ih => exact .recall ih

theorem andThen {P P' Q Q' : Proc} (h : Recalls P P') (hq : Recalls Q Q') : Recalls (P.andThen Q) (P'.andThen Q') := by
  induction h with
  | done => exact hq
  | offer _ ih => exact .offer ih
  | note _ ih => exact .note ih
  | cross _ ih => exact .cross ih
  | recall _ ih => exact .recall ih
  | known _ ih => exact .known ih

theorem proceed {P P' : Proc} (h : Recalls P P') {g g' : Nat → Proc} (hg : ∀ q, Recalls (g q) (g' q)) : Recalls (P.proceed g) (P'.proceed g') := by
  induction h with
  | done => exact .done
  | offer _ ih => exact (hg _).andThen ih
  | note _ ih => exact .note ih
  | cross _ ih => exact .cross ih
  | recall _ ih => exact .recall ih
  | known _ ih => exact .known ih

theorem commit {P P' Q Q' : Proc} (h : Recalls P P') {g g' : Nat → Proc} (hg : ∀ q, Recalls (g q) (g' q)) (hq : Recalls Q Q') :
    Recalls (P.commit g Q) (P'.commit g' Q') := by
  induction h with
  | done => exact hq
  | offer _ ih => exact hg _
  | note _ ih => exact .note ih
  | cross _ ih => exact .cross ih
  | recall _ ih => exact .recall ih
  | known _ ih => exact .known ih

theorem except {P P' : Proc} (h : Recalls P P') (p : Nat) : Recalls (P.except p) (P'.except p) := by
  induction h with
  | done => exact .done
  | @offer q P P' _ ih =>
    simp only [Proc.except]
    split
    · exact ih
    · exact .offer ih
  | note _ ih => exact .note ih
  | cross _ ih => exact .cross ih
  | recall _ ih => exact .recall ih
  | known _ ih => exact .known ih

theorem only (q : Nat) : Recalls (.only q) (.only q) := refl _

section
variable {g g' : Nat → Proc} (hg : ∀ q, Recalls (g q) (g' q))
include hg

theorem times (k p : Nat) : Recalls (Proc.times g k p) (Proc.times g' k p) := by
  induction k generalizing p with
  | zero => exact only p
  | succ k ih => exact (hg p).proceed ih

theorem greedyUpTo (k p : Nat) : Recalls (Proc.greedyUpTo g k p) (Proc.greedyUpTo g' k p) := by
  induction k generalizing p with
  | zero => exact only p
  | succ k ih => exact ((hg p).proceed ih).andThen (only p)

theorem lazyUpTo (k p : Nat) : Recalls (Proc.lazyUpTo g k p) (Proc.lazyUpTo g' k p) := by
  induction k generalizing p with
  | zero => exact only p
  | succ k ih => exact .offer ((hg p).proceed ih)

theorem possessiveUpTo (k p : Nat) : Recalls (Proc.possessiveUpTo g k p) (Proc.possessiveUpTo g' k p) := by
  induction k generalizing p with
  | zero => exact only p
  | succ k ih => exact (hg p).commit ih (only p)

theorem greedyStar (k p : Nat) : Recalls (Proc.greedyStar g k p) (Proc.greedyStar g' k p) := by
  induction k generalizing p with
  | zero => exact .done
  | succ k ih => exact (((hg p).except p).proceed ih).andThen (only p)

theorem lazyStar (k p : Nat) : Recalls (Proc.lazyStar g k p) (Proc.lazyStar g' k p) := by
  induction k generalizing p with
  | zero => exact .done
  | succ k ih => exact .offer (((hg p).except p).proceed ih)

theorem possessiveStar (k p : Nat) : Recalls (Proc.possessiveStar g k p) (Proc.possessiveStar g' k p) := by
  induction k generalizing p with
  | zero => exact .done
  | succ k ih =>
    refine (hg p).commit (fun q => ?_) (only p)
    split
    · exact only p
    · exact ih q

theorem extra (n : Nat) (m : Mode) (u : Bool) (k : Option Nat) (p : Nat) : Recalls (Proc.extra n m u g k p) (Proc.extra n m u g' k p) := by
  cases k <;> cases m <;> cases u <;>
    first
      | exact possessiveUpTo hg _ _ | exact possessiveStar hg _ _ | exact greedyUpTo hg _ _ | exact greedyStar hg _ _ | exact lazyUpTo hg _ _
      | exact lazyStar hg _ _

theorem quantified (n : Nat) (m : Mode) (u : Bool) (lo : Nat) (hi : Bound) (p : Nat) :
    Recalls (Proc.quantified n m u lo hi g p) (Proc.quantified n m u lo hi g' p) := by
  unfold Proc.quantified
  refine proceed ?_ (fun q => extra hg n m u _ q)
  cases m
  · exact times hg lo p
  · exact times hg lo p
  · exact (times hg lo p).commit only .done

end

theorem follow {P P' : Proc} (hP : Recalls P P') (acc : Nat → Bool) (h : Notes) : P'.follow acc h = P.follow acc h := by
  induction hP generalizing h with
  | done => rfl
  | @offer q P P' _ ih => simp only [Proc.follow, ih]
  | note _ ih => exact ih _
  | cross _ ih => exact ih _
  | recall _ ih => exact ih _ _
  | @known k b e f P' _ ih =>
    simp only [Proc.follow, ih]
    simp only [Notes.put, if_true]

theorem tryFrom {g g' : Nat → Proc} (hg : ∀ q, Recalls (g q) (g' q)) (l : List Nat) (h : Notes) : Spec.tryFrom g' l h = Spec.tryFrom g l h := by
  induction l generalizing h with
  | nil => rfl
  | cons i l ih => simp only [Spec.tryFrom, (hg i).follow, ih]

theorem carryOut {g g' : Nat → Proc} (hg : ∀ q, Recalls (g q) (g' q)) (n cur : Nat) (M : Method) (h : Notes) :
    Spec.carryOut n g' cur h M = Spec.carryOut n g cur h M := by
  cases M with
  | «match» => simp only [Spec.carryOut, (hg cur).follow]
  | matchPrefix => simp only [Spec.carryOut, (hg cur).follow]
  | search => exact tryFrom hg _ h

end Recalls

/-! ### Copies of what is there -/

theorem copies_here (ic : Bool) (s : List Byte) {p q : Nat} (hpq : p ≤ q) (hq : q = p ∨ q ≤ s.length) :
    copies ic s true ((s.drop p).take (q - p)) p = [q] := by
  obtain ⟨d, rfl⟩ := Nat.exists_eq_add_of_le hpq
  simp only [Nat.add_sub_cancel_left]
  clear hpq
  induction d generalizing p with
  | zero => simp [copies]
  | succ d ih =>
    have hp : p < s.length := by omega
    rw [List.drop_eq_getElem_cons hp, List.take_succ_cons]
    have e : oneChar s true (sameChar ic s[p]) p = [p + 1] := by
      simp [oneChar, readChar, hp, sameChar]
    simp only [copies, e, List.flatMap_cons, List.flatMap_nil, List.append_nil]
    rw [ih (p := p + 1) (by omega)]
    simp only [List.cons.injEq, and_true]
    omega

theorem sameChar_trans {ic : Bool} {x y z : Byte} (h : sameChar ic x y = true) : sameChar ic y z = sameChar ic x z := by
  simp only [sameChar, Bool.or_eq_true, beq_iff_eq, Bool.and_eq_true] at h
  rcases h with rfl | ⟨rfl, h⟩
  · rfl
  · simp only [sameChar, Bool.true_and, h]
    cases h1 : (asciiLower y == asciiLower z) with
    | true => simp
    | false =>
      have h2 : (y == z) = false := by
        cases h2 : (y == z) with
        | false => rfl
        | true => rw [beq_iff_eq.1 h2] at h1; simp at h1
      have h3 : (x == z) = false := by
        cases h3 : (x == z) with
        | false => rfl
        | true => rw [← beq_iff_eq.1 h3, h] at h1; simp at h1
      rw [h2, h3]

/-- A copy of a copy. -/
theorem copies_copy {ic : Bool} {s w : List Byte} {p q : Nat} (h : q ∈ copies ic s true w p) (i : Nat) :
    copies ic s true ((s.drop p).take (q - p)) i = copies ic s true w i := by
  induction w generalizing p i with
  | nil =>
    simp only [copies, List.mem_singleton] at h
    subst h
    simp [copies]
  | cons x w ih =>
    simp only [copies, List.mem_flatMap] at h
    obtain ⟨p', h1, h2⟩ := h
    by_cases hp : p < s.length
    · simp only [oneChar, readChar, if_true, List.getElem?_eq_getElem hp, Option.map_some] at h1
      split at h1
      · next hx =>
        obtain rfl := List.mem_singleton.1 h1
        have hge : p + 1 ≤ q := copies_ge h2
        rw [List.drop_eq_getElem_cons hp, show q - p = (q - (p + 1)) + 1 by omega, List.take_succ_cons]
        simp only [copies]
        rw [show sameChar ic s[p] = sameChar ic x from funext (fun z => sameChar_trans hx)]
        rw [show copies ic s true ((s.drop (p + 1)).take (q - (p + 1))) = _ from funext (fun j => ih h2 j)]
      · cases h1
    · simp [oneChar, readChar, List.getElem?_eq_none (Nat.le_of_not_lt hp)] at h1

theorem procAll_lits (f : Flags) (s : List Byte) (ν : List Byte → Nat) (w : List Byte) (p : Nat) :
    procAll f s ν (w.map .lit) 0 false p = .offers (copies f.icase s true w p) := by
  induction w generalizing p with
  | nil => rfl
  | cons x w ih =>
    simp only [List.map_cons, procAll, Bool.false_eq_true, if_false, proc, copies]
    rw [show procAll f s ν (w.map .lit) 0 false = _ from funext ih, offers_proceed]
    rfl

theorem proc_reads {w : List Byte} {B : Ast} (h : IsText w B) (f : Flags) (s : List Byte) (ν : List Byte → Nat) (p : Nat) :
    proc f s ν B 0 false p = .offers (copies f.icase s true w p) := by
  cases h with
  | word => simp only [proc]; exact procAll_lits f s ν w p
  | letter c =>
    have := procAll_lits f s ν [c] p
    rwa [List.map_cons, List.map_nil, procAll_one] at this

/-! ### The two laws -/

section
variable {f : Flags} {s : List Byte} {ν : List Byte → Nat} {k : Nat} {G : Nat → Proc}

theorem reference_known {i : Nat} : (reference f s k 0 i).proceed G =
    .recall k (fun v => (Proc.offers (copies f.icase s true (heldText s v) i)).proceed G) := rfl

theorem recalls_atomic {p : Nat} (P : Proc) (h : Proc.All (fun q => p ≤ q ∧ (q = p ∨ q ≤ s.length)) P) :
    Recalls ((((P.proceed (fun q => .note k p q (.only q))).andThen (.cross k .done)).commit (fun _ => .only p) .done).proceed
        (fun q => (reference f s k 0 q).proceed G))
      ((((P.proceed (fun q => .note k p q (.only q))).andThen (.cross k .done)).commit .only .done).proceed G) := by
  induction P with
  | done => exact .cross .done
  | note _ _ _ P ih => exact .note (ih h)
  | cross _ P ih => exact .cross (ih h)
  | recall _ g ih => exact .recall (fun v => ih v (h v))
  | offer q P _ =>
    refine .known ?_
    simp only [heldText, Nat.zero_mod, beq_self_eq_true, if_true, copies_here f.icase s h.1.1 h.1.2]
    show Recalls (((G q).andThen Proc.done).andThen Proc.done) ((G q).andThen Proc.done)
    rw [andThen_done]
    exact .refl _

theorem recalls_word {w : List Byte} {p : Nat} (l : List Nat) (h : ∀ q ∈ l, q ∈ copies f.icase s true w p) :
    Recalls ((((Proc.offers l).proceed (fun q => .note k p q (.only q))).andThen (.cross k .done)).proceed (fun q => (reference f s k 0 q).proceed G))
      ((((Proc.offers l).proceed (fun q => .note k p q (.only q))).andThen (.cross k .done)).proceed
        (fun q => (Proc.offers (copies f.icase s true w q)).proceed G)) := by
  induction l with
  | nil => exact .cross .done
  | cons q l ih =>
    refine .known ?_
    have e : heldText s (some (p, q)) = (s.drop p).take (q - p) := rfl
    simp only [e, Nat.zero_mod, beq_self_eq_true, if_true, copies_copy (h q (by simp)) q]
    exact Recalls.andThen (.refl _) (ih (fun i hi => h i (by simp [hi])))

/-- What has just been noted for the group that a reference refers to. -/
theorem proc_refersTo {n : GroupName} {ref : Ast} (h : RefersTo k n ref) (hν : ∀ m, n = some m → ref = .namedBackref m → ν m = k) (r : Nat) (inv : Bool) :
    proc f s ν ref r inv = reference f s k r := by
  funext p
  cases h with
  | number => rfl
  | name e => simp only [proc, hν _ e rfl]

theorem recalls_pre (pre : List Ast) {l l' : List Ast} (h : ∀ p, Recalls (procAll f s ν l 0 false p) (procAll f s ν l' 0 false p)) (p : Nat) :
    Recalls (procAll f s ν (pre ++ l) 0 false p) (procAll f s ν (pre ++ l') 0 false p) := by
  rw [procAll_append, procAll_append]
  exact (Recalls.refl _).proceed h

end

theorem character_told {a b : Ast} (h : Told a b) : character a = false ∧ character b = false := by
  have two : ∀ (pre : List Ast) (x y : Ast) (post : List Ast), character (.seq (pre ++ x :: y :: post)) = false := by
    intro pre x y post
    rcases pre with _ | ⟨c, _ | ⟨d, pre⟩⟩ <;> simp [character]
  have one : ∀ (pre : List Ast) (x : Ast) (post : List Ast), character x = false → character (.seq (pre ++ x :: post)) = false := by
    intro pre x post hx
    rcases pre with _ | ⟨c, _ | ⟨d, pre⟩⟩ <;> rcases post with _ | ⟨e, post⟩ <;> simp [character, hx]
  have any : ∀ (pre : List Ast) (x : Ast) (post : List Ast), character x = false → character (.alt (pre ++ x :: post)) = false := by
    intro pre x post hx
    simp [character, characters_eq, hx]
  induction h with
  | atomic pre post k n X _ => exact ⟨two _ _ _ _, one _ _ _ (by simp [character])⟩
  | word pre post k n _ _ => exact ⟨two _ _ _ _, one _ _ _ (by simp [character])⟩
  | seq pre post _ ih => exact ⟨one _ _ _ ih.1, one _ _ _ ih.2⟩
  | alt pre post _ ih => exact ⟨any _ _ _ ih.1, any _ _ _ ih.2⟩
  | cap => simp [character]
  | rep m lo hi _ ih =>
    simp only [character_eq, triv]
    rw [← character_eq, ← character_eq, ih.1, ih.2]
    simp
  | ahead => simp [character]
  | notAhead => simp [character, assertion]

/-- The tree without the reference has the same procedures, except that some notes are not looked up. -/
theorem recalls_told {a b : Ast} (h : Told a b) {E : Env} {ν : List Byte → Nat} (hok : Ok E 0 a) (hν : ∀ n id, nameIndex E.names n = some id → ν n = id)
    (f : Flags) (s : List Byte) (p : Nat) : Recalls (proc f s ν a 0 false p) (proc f s ν b 0 false p) := by
  have named : ∀ {k : Nat} {n : GroupName} {ref : Ast}, E.names[k]? = some n → Ok E 0 ref → ∀ m, n = some m → ref = .namedBackref m → ν m = k := by
    rintro k n ref h1 h2 m rfl rfl
    cases h2 with
    | namedBackref _ hc =>
      exact hν m k (nameIndex_eq hc h1)
  induction h generalizing p with
  | atomic pre post k n X hr =>
    rw [ok_seq] at hok
    have hl := hok.2 (.look .ahead (.cap k n X)) (by simp)
    have hr' := hok.2 _ (List.mem_append_right _ (List.mem_cons_of_mem _ (List.mem_cons_self ..)))
    have hn : E.names[k]? = some n := by cases hl with | ahead h => cases h with | cap h => exact h
    simp only [proc]
    refine recalls_pre pre (fun p => ?_) p
    simp only [procAll, Bool.false_eq_true, if_false]
    rw [proc_refersTo hr (named hn hr')]
    simp only [proc, quantified_atomic]
    refine recalls_atomic _ (all_mono (proc_moves f s ν X 0 false p) (fun q hq => ?_))
    rcases hq with ⟨rfl, _⟩ | h
    · exact ⟨Nat.le_refl _, .inl rfl⟩
    · rcases h with ⟨_, h1, h2⟩ | ⟨h1, _⟩
      · exact ⟨Nat.le_of_lt h1, .inr h2⟩
      · cases h1
  | word pre post k n hw hr =>
    rw [ok_seq] at hok
    have hl := hok.2 (.cap k n _) (List.mem_append_right _ (List.mem_cons_self ..))
    have hr' := hok.2 _ (List.mem_append_right _ (List.mem_cons_of_mem _ (List.mem_cons_self ..)))
    have hn : E.names[k]? = some n := by cases hl with | cap h => exact h
    simp only [proc]
    refine recalls_pre pre (fun p => ?_) p
    simp only [procAll, Bool.false_eq_true, if_false]
    rw [proc_refersTo hr (named hn hr')]
    rw [show procAll f s ν (_ ++ post) 0 false = _ from funext (fun q => procAll_append f s ν (List.map .lit _) post 0 false q)]
    simp only [proc, proc_reads hw, procAll_lits, Nat.zero_mod, if_true, Bool.false_eq_true, if_false]
    exact recalls_word _ (fun q hq => hq)
  | seq pre post _ ih =>
    rw [ok_seq] at hok
    simp only [proc]
    refine recalls_pre pre (fun p => ?_) p
    simp only [procAll, Bool.false_eq_true, if_false]
    exact (ih (hok.2 _ (by simp)) p).proceed (fun q => .refl _)
  | alt pre post h ih =>
    rw [ok_alt] at hok
    have ih := ih (hok.2 _ (by simp)) p
    obtain ⟨c1, c2⟩ := character_told h
    have nc : ∀ (pre : List Ast) (x : Ast), character x = false → characters (pre ++ x :: post) = false := by
      intro pre x hx
      simp [characters_eq, hx]
    simp only [proc]
    clear hok
    induction pre with
    | nil =>
      have n1 := nc [] _ c1
      have n2 := nc [] _ c2
      simp only [List.nil_append] at n1 n2 ⊢
      simp only [procAny, n1, n2, Bool.false_eq_true, if_false]
      exact ih.andThen (.refl _)
    | cons c pre ih' =>
      have n1 := nc (c :: pre) _ c1
      have n2 := nc (c :: pre) _ c2
      simp only [List.cons_append] at n1 n2 ⊢
      simp only [procAny, n1, n2, Bool.false_eq_true, if_false]
      exact (Recalls.refl _).andThen ih'
  | cap k n _ ih =>
    cases hok with
    | cap _ _ hok =>
      simp only [proc]
      exact ((ih hok p).proceed (fun q => .refl _)).andThen (.refl _)
  | rep m lo hi _ ih =>
    rw [ok_rep] at hok
    simp only [proc]
    exact Recalls.quantified (fun q => ih hok.2 q) ..
  | ahead _ ih =>
    cases hok with
    | ahead hok =>
      simp only [proc, beq_self_eq_true, Bool.not_false, if_true]
      exact (ih hok p).commit (fun q => .refl _) .done
  | notAhead _ ih =>
    cases hok with
    | neg _ hok =>
      cases hok with
      | ahead hok =>
        simp only [proc, assertion, beq_self_eq_true, Bool.not_false, if_true]
        exact ((ih hok p).commit (fun q => .refl _) .done).commit (fun q => .refl _) (.refl _)

theorem ok_told {a b : Ast} (h : Told a b) {E : Env} (hok : Ok E 0 a) : Ok E 0 b := by
  induction h with
  | atomic pre post k n X hr =>
    rw [ok_seq] at hok ⊢
    refine ⟨by simp, fun c hc => ?_⟩
    rcases List.mem_append.1 hc with h | h
    · exact hok.2 _ (by simp [h])
    · rcases List.mem_cons.1 h with rfl | h
      · have := hok.2 (.look .ahead (.cap k n X)) (by simp)
        cases this with | ahead h => exact .repFin (Nat.le_refl _) h
      · exact hok.2 _ (by simp [h])
  | word pre post k n hw hr =>
    rw [ok_seq] at hok ⊢
    refine ⟨by simp, fun c hc => ?_⟩
    rcases List.mem_append.1 hc with h | h
    · exact hok.2 _ (by simp [h])
    · rcases List.mem_cons.1 h with rfl | h
      · exact hok.2 _ (by simp)
      · rcases List.mem_append.1 h with h | h
        · obtain ⟨x, _, rfl⟩ := List.mem_map.1 h
          exact .lit
        · exact hok.2 _ (by simp [h])
  | seq pre post _ ih =>
    rw [ok_seq] at hok ⊢
    refine ⟨by simp, fun c hc => ?_⟩
    rcases List.mem_append.1 hc with h | h
    · exact hok.2 _ (by simp [h])
    · rcases List.mem_cons.1 h with rfl | h
      · exact ih (hok.2 _ (by simp))
      · exact hok.2 _ (by simp [h])
  | alt pre post _ ih =>
    rw [ok_alt] at hok ⊢
    refine ⟨by simp, fun c hc => ?_⟩
    rcases List.mem_append.1 hc with h | h
    · exact hok.2 _ (by simp [h])
    · rcases List.mem_cons.1 h with rfl | h
      · exact ih (hok.2 _ (by simp))
      · exact hok.2 _ (by simp [h])
  | cap k n _ ih => cases hok with | cap h1 h2 h => exact .cap h1 h2 (ih h)
  | rep m lo hi _ ih => rw [ok_rep] at hok ⊢; exact ⟨hok.1, ih hok.2⟩
  | ahead _ ih => cases hok with | ahead h => exact .ahead (ih h)
  | notAhead _ ih => cases hok with | neg _ h => cases h with | ahead h => exact .neg (.inr rfl) (.ahead (ih h))

theorem nameSpecAll_mid (pre : List Ast) {l l' : List Ast} (h : nameSpecAll l = nameSpecAll l') : nameSpecAll (pre ++ l) = nameSpecAll (pre ++ l') := by
  induction pre with
  | nil => exact h
  | cons a pre ih => simp only [List.cons_append, nameSpecAll, ih]

theorem nameSpec_told {a b : Ast} (h : Told a b) : nameSpec a = nameSpec b := by
  have ref0 : ∀ {k n ref}, RefersTo k n ref → nameSpec ref = [] := by
    intro k n ref h
    cases h <;> rfl
  have lits : ∀ (w : List Byte) (post : List Ast), nameSpecAll (w.map .lit ++ post) = nameSpecAll post := by
    intro w post
    induction w with
    | nil => rfl
    | cons x w ih => simpa [nameSpecAll, nameSpec] using ih
  induction h with
  | atomic pre post k n X hr =>
    simp only [nameSpec]
    refine nameSpecAll_mid pre ?_
    simp [nameSpecAll, nameSpec, ref0 hr]
  | word pre post k n hw hr =>
    simp only [nameSpec]
    refine nameSpecAll_mid pre ?_
    simp [nameSpecAll, ref0 hr, lits]
  | seq pre post _ ih | alt pre post _ ih =>
    simp only [nameSpec]
    refine nameSpecAll_mid pre ?_
    simp only [nameSpecAll, ih]
  | cap k n _ ih => simp only [nameSpec, ih]
  | rep m lo hi _ ih => simp only [nameSpec, ih]
  | ahead _ ih => simp only [nameSpec, ih]
  | notAhead _ ih => simp only [nameSpec, ih]

end Mregex
