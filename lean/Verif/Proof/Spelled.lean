import Verif.Proof.ProcMethods
import Verif.Proof.Unfold
import Verif.Spec.Spelled

/-!
# Flags written into the regex: the procedure is the same
-/

namespace Mregex
open Ast Spec

section
variable {f : Flags}

theorem spelledAll_eq (f : Flags) (inv : Bool) (l : List Ast) : spelledAll f inv l = l.map (spelled f inv) := by
  induction l with
  | nil => rfl
  | cons a l ih => simp only [spelledAll, ih, List.map_cons]

theorem accepts_spelledClass (a : Ast) : accepts {} (spelledClass f a) = accepts f a := by
  funext x
  have key : ∀ l : List Byte, acceptsAny {} (l.map .lit) x = l.contains x := by
    intro l
    induction l with
    | nil => rfl
    | cons y l ih =>
      simp only [List.map_cons, acceptsAny, accepts, Bool.false_and, Bool.or_false, ih, List.contains_cons]
      congr 1
      exact Bool.eq_iff_iff.2 (by simp only [beq_iff_eq]; exact eq_comm)
  simp only [spelledClass, accepts]
  rw [key, Bool.eq_iff_iff]
  simp only [List.contains_iff_mem, List.mem_filter, List.mem_map, List.mem_range]
  refine ⟨(·.2), fun h => ⟨⟨x.toNat, x.isLt, by simp⟩, h⟩⟩

theorem invert_spelledClass (a : Ast) : invert (spelledClass f a) = spelledClass f a := by
  have key : ∀ l : List Byte, invertAll (l.map .lit) = l.map .lit := by
    intro l
    induction l with
    | nil => rfl
    | cons y l ih => simp only [List.map_cons, invertAll, invert, ih]
  simp only [spelledClass, invert, key]

theorem spelledClass_invert (a : Ast) : spelledClass f (invert a) = spelledClass f a := by
  simp only [spelledClass, accepts_invert]

theorem assertion_spelled (inv : Bool) (a : Ast) : assertion (spelled f inv a) = assertion a := by
  induction a using ind generalizing inv with
  | neg a ih =>
    simp only [spelled, assertion]
    split
    · next h => simp only [assertion, ih]
    · next h => simp only [Bool.not_eq_true] at h; rw [h]; rfl
  | seq l ih =>
    simp only [spelled, spelledAll_eq]
    match l with
    | [] => rfl
    | [a] => simp only [List.map_cons, List.map_nil, assertion]; exact ih a (by simp) inv
    | a :: b :: l => rfl
  | alt l ih =>
    simp only [spelled, spelledAll_eq]
    match l with
    | [] => rfl
    | [a] => simp only [List.map_cons, List.map_nil, assertion]; exact ih a (by simp) inv
    | a :: b :: l => rfl
  | cap id n a ih => rfl
  | rep m lo hi a ih =>
    simp only [spelled, assertion_eq, isAssertion] at ih ⊢
    rw [ih]
    congr 3
    cases m <;> cases f.ungreedy <;> rfl
  | look d a ih => rfl
  | bol => simp only [spelled]; split <;> rfl
  | eol => simp only [spelled]; split <;> rfl
  | _ => rfl

theorem character_spelled (inv : Bool) (a : Ast) : character (spelled f inv a) = character a := by
  induction a using ind generalizing inv with
  | neg a ih =>
    simp only [spelled, character]
    split
    · next h => simp only [character, assertion_spelled]
    · next h => simp only [Bool.not_eq_true] at h; rw [h]; rfl
  | seq l ih =>
    simp only [spelled, spelledAll_eq]
    match l with
    | [] => rfl
    | [a] => simp only [List.map_cons, List.map_nil, character]; exact ih a (by simp) inv
    | a :: b :: l => rfl
  | alt l ih =>
    simp only [spelled, spelledAll_eq, character]
    congr 1
    · cases l <;> rfl
    · simp only [characters_eq, List.all_map]
      exact all_congr' (fun a ha => ih a ha inv)
  | cap id n a ih => rfl
  | rep m lo hi a ih =>
    simp only [character_eq, spelled, triv] at ih ⊢
    rw [ih]
  | look d a ih => rfl
  | bol => simp only [spelled]; split <;> rfl
  | eol => simp only [spelled]; split <;> rfl
  | _ => rfl

theorem accepts_spelled (inv : Bool) (a : Ast) (hc : character a = true) : accepts {} (spelled f inv a) = accepts f a := by
  induction a using ind generalizing inv with
  | neg a ih =>
    simp only [character, Bool.not_eq_true'] at hc
    simp only [spelled, hc, Bool.false_eq_true, if_false]
    exact accepts_spelledClass _
  | seq l ih =>
    match l, hc with
    | [a], hc =>
      simp only [character] at hc
      simp only [spelled, spelledAll]
      funext x
      simp only [accepts, acceptsOnly]
      rw [ih a (by simp) inv hc]
  | alt l ih =>
    simp only [character, Bool.and_eq_true, characters_eq, List.all_eq_true] at hc
    replace hc := hc.2
    funext x
    simp only [spelled, spelledAll_eq, accepts]
    induction l with
    | nil => rfl
    | cons a l ihl =>
      simp only [List.map_cons, acceptsAny]
      rw [ih a (by simp) inv (hc a (by simp)), ihl (fun b hb => ih b (List.mem_cons_of_mem _ hb)) (fun b hb => hc b (List.mem_cons_of_mem _ hb))]
  | rep m lo hi a ih =>
    simp only [character_eq, triv, Bool.and_eq_true, beq_iff_eq] at hc ih
    obtain ⟨⟨rfl, rfl⟩, hc⟩ := hc
    funext x
    simp only [spelled, accepts]
    rw [ih inv hc]
  | look d a ih => cases hc
  | cap id n a ih => cases hc
  | lit | range | wildcard | set => exact accepts_spelledClass _
  | _ => cases hc

theorem proc_spelledClass (s : List Byte) (ν : List Byte → Nat) (a : Ast) (r : Nat) (inv : Bool) (p : Nat) :
    proc {} s ν (spelledClass f a) r inv p = .offers (oneChar s (r % 2 == 0) (accepts f a) p) := by
  show Proc.offers (oneChar s (r % 2 == 0) (accepts {} (spelledClass f a)) p) = _
  rw [accepts_spelledClass]

theorem quantified_swap (n : Nat) (m : Mode) (u : Bool) (lo : Nat) (hi : Bound) (g : Nat → Proc) :
    Proc.quantified n (swapMode u m) false lo hi g = Proc.quantified n m u lo hi g := by
  funext p
  cases m <;> cases u <;> rfl

theorem proc_nonBreak (s : List Byte) (ν : List Byte → Nat) (r : Nat) (inv : Bool) (p : Nat) :
    proc {} s ν nonBreak r inv p = .offers (oneChar s (r % 2 == 0) (fun x => !(x == 10#8 || x == 13#8)) p) := by
  unfold nonBreak
  rw [proc, if_neg (by decide)]
  congr 2
  funext x
  simp only [accepts, acceptsAny, Bool.false_and, Bool.or_false]
  congr 2
  · exact Bool.eq_iff_iff.2 (by simp only [beq_iff_eq]; exact eq_comm)
  · exact Bool.eq_iff_iff.2 (by simp only [beq_iff_eq]; exact eq_comm)

/-- `(?<![^\n\r])` and so on. -/
theorem proc_noneBut (s : List Byte) (ν : List Byte → Nat) (r : Nat) (inv ahead : Bool) (p : Nat) :
    proc {} s ν (noneBut ahead) r inv p =
      .offers (Spec.test (oneChar s (if ahead == !inv then r % 2 == 0 else !(r % 2 == 0)) (fun x => !(x == 10#8 || x == 13#8)) p).isEmpty p) := by
  have hr : ((r + 1) % 2 == 0) = !(r % 2 == 0) := by
    rcases Nat.mod_two_eq_zero_or_one r with h | h <;> simp [Nat.add_mod, h]
  have hd : ((if ahead = true then LookDir.ahead else LookDir.behind) == LookDir.ahead) = ahead := by cases ahead <;> rfl
  have key : ∀ l : List Nat, ((Proc.offers l).commit (fun _ => Proc.only p) .done).commit (fun _ => .done) (.only p) = .offers (Spec.test l.isEmpty p) := by
    intro l
    cases l <;> rfl
  unfold noneBut
  rw [proc, if_pos (by cases ahead <;> rfl), proc, hd]
  split
  · rw [proc_nonBreak]; exact key _
  · rw [proc_nonBreak, hr]; exact key _

theorem stopChar_empty (s : List Byte) (fwd : Bool) {p : Nat} (hp : p ≤ s.length) :
    (oneChar s (!fwd) (fun x => !(x == 10#8 || x == 13#8)) p).isEmpty = atStart s fwd true p := by
  unfold oneChar readChar atStart
  cases fwd
  · simp only [Bool.not_false, if_true, Bool.true_and, Bool.false_eq_true, if_false, isBreakAt]
    by_cases he : p = s.length
    · subst he
      rw [List.getElem?_eq_none (Nat.le_refl _)]
      simp
    · rw [List.getElem?_eq_getElem (show p < s.length by omega)]
      simp only [Option.map_some, show (p == s.length) = false from beq_false_of_ne he, Bool.false_or]
      split
      · next h => simp only [Bool.not_eq_true'] at h; rw [h]; rfl
      · next h => simp only [Bool.not_eq_true', Bool.not_eq_false] at h; rw [h]; rfl
  · simp only [Bool.not_true, Bool.false_eq_true, if_false, if_true, Bool.true_and]
    cases p with
    | zero => rfl
    | succ k =>
      simp only [before, isBreakAt]
      rw [List.getElem?_eq_getElem (show k < s.length by omega)]
      simp only [Option.map_some, show (k + 1 == 0) = false from rfl, Bool.false_or]
      split
      · next h => simp only [Bool.not_eq_true'] at h; rw [h]; rfl
      · next h => simp only [Bool.not_eq_true', Bool.not_eq_false] at h; rw [h]; rfl

/-- The same procedure, which offers no position beyond `n`. -/
def Agree (n : Nat) (P P' : Proc) : Prop := P = P' ∧ Proc.All (· ≤ n) P

section
variable {n : Nat} {P P' R R' : Proc} {g g' : Nat → Proc}

theorem agree_only {q : Nat} (hq : q ≤ n) : Agree n (.only q) (.only q) := ⟨rfl, all_only hq⟩

theorem agree_andThen (h : Agree n P P') (h' : Agree n R R') : Agree n (P.andThen R) (P'.andThen R') :=
  ⟨by rw [h.1, h'.1], all_andThen h.2 h'.2⟩

theorem agree_offer {q : Nat} (hq : q ≤ n) (h : Agree n P P') : Agree n (.offer q P) (.offer q P') := ⟨by rw [h.1], hq, h.2⟩

theorem agree_except (p : Nat) (h : Agree n P P') : Agree n (P.except p) (P'.except p) :=
  ⟨by rw [h.1], all_mono (all_except h.2 p) (fun _ h => h.1)⟩

theorem agree_proceed (h : Agree n P P') (hg : ∀ q, q ≤ n → Agree n (g q) (g' q)) : Agree n (P.proceed g) (P'.proceed g') := by
  obtain ⟨rfl, h⟩ := h
  exact ⟨proceed_on h (fun q hq => (hg q hq).1), all_proceed h (fun q hq => (hg q hq).2)⟩

theorem agree_commit (h : Agree n P P') (hg : ∀ q, q ≤ n → Agree n (g q) (g' q)) (h' : Agree n R R') :
    Agree n (P.commit g R) (P'.commit g' R') := by
  obtain ⟨rfl, h⟩ := h
  obtain ⟨rfl, h'⟩ := h'
  exact ⟨commit_on h (fun q hq => (hg q hq).1), all_commit h (fun q hq => (hg q hq).2) h'⟩

variable (hg : ∀ q, q ≤ n → Agree n (g q) (g' q))
include hg

theorem agree_times (k p : Nat) (hp : p ≤ n) : Agree n (Proc.times g k p) (Proc.times g' k p) := by
  induction k generalizing p with
  | zero => exact agree_only hp
  | succ k ih => exact agree_proceed (hg p hp) ih

theorem agree_greedyUpTo (k p : Nat) (hp : p ≤ n) : Agree n (Proc.greedyUpTo g k p) (Proc.greedyUpTo g' k p) := by
  induction k generalizing p with
  | zero => exact agree_only hp
  | succ k ih => exact agree_andThen (agree_proceed (hg p hp) ih) (agree_only hp)

theorem agree_lazyUpTo (k p : Nat) (hp : p ≤ n) : Agree n (Proc.lazyUpTo g k p) (Proc.lazyUpTo g' k p) := by
  induction k generalizing p with
  | zero => exact agree_only hp
  | succ k ih => exact agree_offer hp (agree_proceed (hg p hp) ih)

theorem agree_possessiveUpTo (k p : Nat) (hp : p ≤ n) : Agree n (Proc.possessiveUpTo g k p) (Proc.possessiveUpTo g' k p) := by
  induction k generalizing p with
  | zero => exact agree_only hp
  | succ k ih => exact agree_commit (hg p hp) ih (agree_only hp)

theorem agree_greedyStar (k p : Nat) (hp : p ≤ n) : Agree n (Proc.greedyStar g k p) (Proc.greedyStar g' k p) := by
  induction k generalizing p with
  | zero => exact ⟨rfl, trivial⟩
  | succ k ih => exact agree_andThen (agree_proceed (agree_except p (hg p hp)) ih) (agree_only hp)

theorem agree_lazyStar (k p : Nat) (hp : p ≤ n) : Agree n (Proc.lazyStar g k p) (Proc.lazyStar g' k p) := by
  induction k generalizing p with
  | zero => exact ⟨rfl, trivial⟩
  | succ k ih => exact agree_offer hp (agree_proceed (agree_except p (hg p hp)) ih)

theorem agree_possessiveStar (k p : Nat) (hp : p ≤ n) : Agree n (Proc.possessiveStar g k p) (Proc.possessiveStar g' k p) := by
  induction k generalizing p with
  | zero => exact ⟨rfl, trivial⟩
  | succ k ih =>
    refine agree_commit (hg p hp) (fun q hq' => ?_) (agree_only hp)
    by_cases hq : q = p
    · rw [if_pos hq, if_pos hq]; exact agree_only hp
    · rw [if_neg hq, if_neg hq]; exact ih q hq'

theorem agree_extra (l : Nat) (m : Mode) (u : Bool) (k : Option Nat) (p : Nat) (hp : p ≤ n) :
    Agree n (Proc.extra l m u g k p) (Proc.extra l m u g' k p) := by
  cases k <;> cases m <;> cases u <;>
    first
      | exact agree_possessiveUpTo hg _ _ hp | exact agree_possessiveStar hg _ _ hp | exact agree_greedyUpTo hg _ _ hp
      | exact agree_greedyStar hg _ _ hp | exact agree_lazyUpTo hg _ _ hp | exact agree_lazyStar hg _ _ hp

theorem agree_quantified (l : Nat) (m : Mode) (u : Bool) (lo : Nat) (hi : Bound) (p : Nat) (hp : p ≤ n) :
    Agree n (Proc.quantified l m u lo hi g p) (Proc.quantified l m u lo hi g' p) := by
  unfold Proc.quantified
  refine agree_proceed ?_ (fun q hq => agree_extra hg l m u _ q hq)
  cases m
  · exact agree_times hg lo p hp
  · exact agree_times hg lo p hp
  · exact agree_commit (agree_times hg lo p hp) (fun _ hq => agree_only hq) ⟨rfl, trivial⟩

end

/-- No position offered is beyond the text. -/
theorem proc_inside (f : Flags) (s : List Byte) (ν : List Byte → Nat) (a : Ast) (r : Nat) (inv : Bool) {p : Nat} (hp : p ≤ s.length) :
    Proc.All (· ≤ s.length) (proc f s ν a r inv p) := by
  refine all_mono (proc_moves f s ν a r inv p) (fun q h => ?_)
  rcases h with ⟨rfl, _⟩ | ⟨_, h⟩ | ⟨_, h⟩ <;> omega

theorem procAll_inside (f : Flags) (s : List Byte) (ν : List Byte → Nat) (l : List Ast) (r : Nat) (inv : Bool) {p : Nat} (hp : p ≤ s.length) :
    Proc.All (· ≤ s.length) (procAll f s ν l r inv p) := by
  have := proc_inside f s ν (.seq l) r inv hp
  rwa [proc] at this

/-- The procedure with the flags is the one of the spelled regex without flags. -/
theorem proc_spelled (s : List Byte) (ν : List Byte → Nat) (a : Ast) (hb : f.icase = true → noBackref a = true) (r : Nat) (inv : Bool) (p : Nat) (hp : p ≤ s.length) :
    proc {} s ν (spelled f inv a) r inv p = proc f s ν a r inv p := by
  induction a using ind generalizing r inv p with
  | neg a ih =>
    simp only [spelled, proc]
    split
    · next h =>
      simp only [proc, assertion_spelled, h, if_true]
      rw [ih (fun h => by simpa [noBackref] using hb h) r inv p hp]
    · next h =>
      show Proc.offers (oneChar s (r % 2 == 0) (accepts {} (spelledClass f (.neg a))) p) = _
      rw [accepts_spelledClass]
  | seq l ih =>
    simp only [spelled, proc]
    induction l generalizing p with
    | nil => rfl
    | cons a l ihl =>
      have h1 := ih a (by simp) (fun h => by have := hb h; simp only [noBackref, noBackrefAll, Bool.and_eq_true] at this; exact this.1)
      have h2 := ihl (fun b hb => ih b (List.mem_cons_of_mem _ hb)) (fun h => by have := hb h; simp only [noBackref, noBackrefAll, Bool.and_eq_true] at this ⊢; exact this.2)
      simp only [spelledAll, procAll]
      cases inv
      · simp only [Bool.false_eq_true, if_false]
        rw [h1 r false p hp]
        exact proceed_on (proc_inside f s ν a r false hp) (fun q hq => h2 q hq)
      · simp only [if_true]
        rw [h2 p hp]
        exact proceed_on (procAll_inside f s ν l r true hp) (fun q hq => h1 r true q hq)
  | alt l ih =>
    simp only [spelled, proc]
    induction l with
    | nil => rfl
    | cons a l ihl =>
      have h1 := ih a (by simp) (fun h => by have := hb h; simp only [noBackref, noBackrefAll, Bool.and_eq_true] at this; exact this.1)
      have h2 := ihl (fun b hb => ih b (List.mem_cons_of_mem _ hb)) (fun h => by have := hb h; simp only [noBackref, noBackrefAll, Bool.and_eq_true] at this ⊢; exact this.2)
      have e : characters (spelledAll f inv (a :: l)) = characters (a :: l) := by
        rw [spelledAll_eq]
        simp only [characters_eq, List.all_map]
        exact all_congr' (fun a _ => character_spelled inv a)
      simp only [spelledAll] at e
      simp only [spelledAll, procAny, e]
      split
      · next h =>
        have := accepts_spelled (f := f) inv (.alt (a :: l)) (by simp only [character, h]; rfl)
        have e : acceptsAny {} (spelled f inv a :: spelledAll f inv l) = acceptsAny f (a :: l) := by
          funext x
          have := congrFun this x
          simpa only [spelled, spelledAll, accepts] using this
        rw [e]
      · rw [h1 r inv p hp, h2]
  | cap id n a ih =>
    simp only [spelled, proc]
    rw [ih (fun h => by simpa [noBackref] using hb h) r inv p hp]
  | rep m lo hi a ih =>
    simp only [spelled, proc]
    rw [quantified_swap]
    have h1 := ih (fun h => by simpa [noBackref] using hb h)
    exact (agree_quantified (fun q hq => ⟨h1 r inv q hq, by rw [h1 r inv q hq]; exact proc_inside f s ν a r inv hq⟩) _ _ _ _ _ _ hp).1
  | look d a ih =>
    simp only [spelled, proc]
    have h1 := ih (fun h => by simpa [noBackref] using hb h)
    split
    · next h => rw [h, Bool.not_true, h1 r false p hp]
    · next h => simp only [Bool.not_eq_true] at h; rw [h, Bool.not_false, h1 (r + 1) true p hp]
  | backref k =>
    have : f.icase = false := by
      cases h : f.icase
      · rfl
      · cases hb h
    simp only [spelled, proc, reference, this]
  | namedBackref k =>
    have : f.icase = false := by
      cases h : f.icase
      · rfl
      · cases hb h
    simp only [spelled, proc, reference, this]
  | bol =>
    simp only [spelled]
    split
    · next h =>
      rw [proc_noneBut]
      simp only [proc, ends, h]
      rw [show (inv == !inv) = false by cases inv <;> rfl]
      simp only [Bool.false_eq_true, if_false]
      rw [stopChar_empty s _ hp]
    · next h =>
      simp only [Bool.not_eq_true] at h
      simp only [proc, ends, h]
  | eol =>
    simp only [spelled]
    split
    · next h =>
      rw [proc_noneBut]
      simp only [proc, ends, h, atStop, beq_self_eq_true, if_true]
      rw [← stopChar_empty s _ hp, Bool.not_not]
    · next h =>
      simp only [Bool.not_eq_true] at h
      simp only [proc, ends, h]
  | lit | range | wildcard | set =>
    simp only [spelled]
    rw [proc_spelledClass]
    simp only [proc, ends]
  | empty | boi | eoi | wordB => simp only [spelled, proc, ends]

theorem nameSpec_spelledClass (a : Ast) : nameSpec (spelledClass f a) = [] := by
  have key : ∀ l : List Byte, nameSpecAll (l.map .lit) = [] := by
    intro l
    induction l with
    | nil => rfl
    | cons y l ih => simp only [List.map_cons, nameSpecAll, nameSpec, ih, List.append_nil]
  simp only [spelledClass, nameSpec, key]

theorem nameSpecAll_of {l l' : List Ast} (g : Ast → Ast) (hl : l' = l.map g) (h : ∀ a ∈ l, nameSpec (g a) = nameSpec a) : nameSpecAll l' = nameSpecAll l := by
  subst hl
  induction l with
  | nil => rfl
  | cons a l ih =>
    simp only [List.map_cons, nameSpecAll]
    rw [h a (by simp), ih (fun b hb => h b (List.mem_cons_of_mem _ hb))]

theorem nameSpecAll_nil' {l : List Ast} (h : ∀ a ∈ l, nameSpec a = []) : nameSpecAll l = [] := by
  induction l with
  | nil => rfl
  | cons a l ih => simp only [nameSpecAll, h a (by simp), ih (fun b hb => h b (List.mem_cons_of_mem _ hb)), List.append_nil]

/-- Single characters have no groups. -/
theorem nameSpec_character (a : Ast) (hw : wf a = true) (hc : character a = true) : nameSpec a = [] := by
  induction a using ind with
  | set l ih =>
    simp only [wf, wfAll_eq, Bool.and_eq_true, List.all_eq_true] at hw
    exact nameSpecAll_nil' (fun a ha => ih a ha (hw.2 a ha) (by rw [character_eq]; exact hw.1 a ha))
  | neg a ih =>
    simp only [wf, Bool.and_eq_true, Bool.or_eq_true] at hw
    simp only [character, Bool.not_eq_true', assertion_eq] at hc
    refine ih hw.2 ?_
    rw [character_eq]
    rcases hw.1 with h | h
    · exact h
    · rw [hc] at h; cases h
  | seq l ih =>
    match l, hc with
    | [a], hc =>
      simp only [wf, wfAll, Bool.and_eq_true] at hw
      simp only [nameSpec, nameSpecAll, List.append_nil]
      exact ih a (by simp) hw.2.1 hc
  | alt l ih =>
    simp only [wf, wfAll_eq, Bool.and_eq_true, List.all_eq_true] at hw
    simp only [character, Bool.and_eq_true, characters_eq, List.all_eq_true] at hc
    exact nameSpecAll_nil' (fun a ha => ih a ha (hw.2 a ha) (hc.2 a ha))
  | rep m lo hi a ih =>
    simp only [character_eq, triv, Bool.and_eq_true] at hc ih
    refine ih ?_ hc.2
    cases hi
    · simp only [wf, Bool.and_eq_true] at hw; exact hw.2
    · exact hw
  | cap => cases hc
  | look => cases hc
  | _ => rfl

/-- Spelling keeps the groups and their names. -/
theorem nameSpec_spelled (inv : Bool) (a : Ast) (hw : wf a = true) : nameSpec (spelled f inv a) = nameSpec a := by
  induction a using ind generalizing inv with
  | set l ih => simp only [spelled]; rw [nameSpec_spelledClass, nameSpec_character _ hw rfl]
  | neg a ih =>
    simp only [spelled]
    split
    · next h =>
      simp only [wf, Bool.and_eq_true] at hw
      simp only [nameSpec, ih inv hw.2]
    · next h => rw [nameSpec_spelledClass, nameSpec_character _ hw (by simp only [character]; simpa using h)]
  | seq l ih =>
    simp only [wf, wfAll_eq, Bool.and_eq_true, List.all_eq_true] at hw
    simp only [spelled, nameSpec]
    exact nameSpecAll_of _ (spelledAll_eq ..) (fun a ha => ih a ha inv (hw.2 a ha))
  | alt l ih =>
    simp only [wf, wfAll_eq, Bool.and_eq_true, List.all_eq_true] at hw
    simp only [spelled, nameSpec]
    exact nameSpecAll_of _ (spelledAll_eq ..) (fun a ha => ih a ha inv (hw.2 a ha))
  | rep m lo hi a ih =>
    simp only [spelled, nameSpec]
    refine ih inv ?_
    cases hi
    · simp only [wf, Bool.and_eq_true] at hw; exact hw.2
    · exact hw
  | cap id n a ih => simp only [spelled, nameSpec, ih inv hw]
  | look d a ih => simp only [spelled, nameSpec]; exact ih _ hw
  | bol => simp only [spelled]; split <;> rfl
  | eol => simp only [spelled]; split <;> rfl
  | lit | range | wildcard => simp only [spelled]; exact nameSpec_spelledClass _
  | _ => rfl

theorem invert_noneBut (b : Bool) : invert (noneBut b) = noneBut (!b) := by cases b <;> rfl

/-- Mirroring and spelling may be exchanged. -/
theorem invert_spelled (inv : Bool) (a : Ast) : invert (spelled f inv a) = spelled f (!inv) (invert a) := by
  induction a using ind generalizing inv with
  | neg a ih =>
    have hi : assertion (invert a) = assertion a := by simp only [assertion_eq, isAssertion_invert]
    simp only [spelled, invert, hi]
    split
    · simp only [invert, ih]
    · rw [invert_spelledClass, ← invert, spelledClass_invert]
  | seq l ih =>
    simp only [spelled, invert, spelledAll_eq, invertAll_eq, List.map_reverse, List.map_map]
    congr 2
    exact List.map_congr_left (fun a ha => ih a ha inv)
  | alt l ih =>
    simp only [spelled, invert, spelledAll_eq, invertAll_eq, List.map_map]
    congr 1
    exact List.map_congr_left (fun a ha => ih a ha inv)
  | cap id n a ih => simp only [spelled, invert, ih]
  | rep m lo hi a ih => simp only [spelled, invert, ih]
  | look d a ih =>
    cases d <;> simp only [spelled, invert] <;> congr 2 <;> cases inv <;> rfl
  | bol =>
    simp only [spelled, invert]
    split
    · exact invert_noneBut _
    · rfl
  | eol =>
    simp only [spelled, invert]
    split
    · exact invert_noneBut _
    · rfl
  | lit | range | wildcard => simp only [spelled, invert]; exact invert_spelledClass _
  | set l =>
    rw [invert]
    simp only [spelled]
    rw [invert_spelledClass, ← invert, spelledClass_invert]
  | _ => rfl

theorem ok_spelledClass {E : Env} {r : Nat} (a : Ast) : Ok E r (spelledClass f a) := by
  refine .set ?_ ?_ <;> intro b hb <;> obtain ⟨x, _, rfl⟩ := List.mem_map.1 hb
  · rfl
  · exact .lit

theorem ok_noneBut {E : Env} {r : Nat} {b : Bool} (h : b = false → E.cat ≠ .forward) : Ok E r (noneBut b) := by
  have hn : Ok E r nonBreak := .neg (.inl rfl) (.set (by simp [triv]) (by simp; exact ⟨.lit, .lit⟩))
  cases b
  · exact .neg (.inr rfl) (.behindTriv (h rfl) rfl hn)
  · exact .neg (.inr rfl) (.ahead hn)

/-- Single characters are usable, spelled either way. -/
theorem ok_spelled_character {E E' : Env} {r : Nat} (a : Ast) (h : Ok E r a) (hc : character a = true) (inv : Bool) : Ok E' r (spelled f inv a) := by
  induction a using ind with
  | neg a ih =>
    simp only [character, Bool.not_eq_true'] at hc
    simp only [spelled, hc, Bool.false_eq_true, if_false]
    exact ok_spelledClass _
  | seq l ih =>
    match l, hc with
    | [a], hc =>
      cases h with
      | seq h1 h2 =>
        refine .seq (by simp [spelledAll]) (fun b hb => ?_)
        simp only [spelledAll, List.mem_singleton] at hb
        subst hb
        exact ih a (by simp) (h2 a (by simp)) hc
  | alt l ih =>
    simp only [character, Bool.and_eq_true, characters_eq, List.all_eq_true] at hc
    cases h with
    | alt h1 h2 =>
      simp only [spelled, spelledAll_eq]
      refine .alt (by simpa using h1) (fun b hb => ?_)
      obtain ⟨a, ha, rfl⟩ := List.mem_map.1 hb
      exact ih a ha (h2 a ha) (hc.2 a ha)
  | rep m lo hi a ih =>
    simp only [character_eq, triv, Bool.and_eq_true, beq_iff_eq] at hc ih
    obtain ⟨⟨rfl, rfl⟩, hc⟩ := hc
    cases h with
    | repFin h1 h2 => exact .repFin h1 (ih h2 hc)
  | lit | range | wildcard | set => simp only [spelled]; exact ok_spelledClass _
  | _ => cases hc

/-- The spelled regex is usable as well. -/
theorem ok_spelled {E E' : Env} (hc : E'.cat = E.cat) (hn : E'.names = E.names) (hf : E'.flags = {}) {r : Nat} {a : Ast} (h : Ok E r a) :
    Ok E' r (spelled E.flags false a) := by
  induction h with
  | empty => exact .empty
  | lit | range | wildcard | set => simp only [spelled]; exact ok_spelledClass _
  | @neg r a h1 h2 ih =>
    simp only [spelled]
    split
    · next h => exact .neg (.inr (by rw [← assertion_eq, assertion_spelled]; exact h)) ih
    · exact ok_spelledClass _
  | seq h1 h2 ih =>
    simp only [spelled, spelledAll_eq]
    refine .seq (by simpa using h1) (fun b hb => ?_)
    obtain ⟨a, ha, rfl⟩ := List.mem_map.1 hb
    exact ih a ha
  | alt h1 h2 ih =>
    simp only [spelled, spelledAll_eq]
    refine .alt (by simpa using h1) (fun b hb => ?_)
    obtain ⟨a, ha, rfl⟩ := List.mem_map.1 hb
    exact ih a ha
  | cap h1 h2 _ ih => exact .cap (by rw [hn]; exact h1) h2 ih
  | repFin h1 _ ih => exact .repFin h1 ih
  | repInf _ ih => exact .repInf ih
  | ahead _ ih => exact .ahead ih
  | behindTriv h1 h2 h3 =>
    refine .behindTriv (by rw [hc]; exact h1) ?_ (ok_spelled_character _ h3 (by rw [character_eq]; exact h2) _)
    rw [← character_eq, character_spelled, character_eq]; exact h2
  | @behind r a h1 _ ih =>
    refine .behind (by rw [hc]; exact h1) ?_
    have := invert_spelled (f := E.flags) true a
    rw [show (!((LookDir.behind == .ahead) == !false)) = true from rfl, this]
    exact ih
  | bol h =>
    simp only [spelled]
    split
    · next hm => exact ok_noneBut (fun _ => by rw [hc]; exact h hm)
    · next hm => exact .bol (fun h => by rw [hf] at h; cases h)
  | eol =>
    simp only [spelled]
    split
    · exact ok_noneBut (fun h => by cases h)
    · exact .eol
  | boi => exact .boi
  | eoi => exact .eoi
  | wordB h => exact .wordB (by rw [hc]; exact h)
  | backref h h' => exact .backref (by rw [hc]; exact h) (by rw [hn]; exact h')
  | namedBackref h h' => exact .namedBackref (by rw [hc]; exact h) (by rw [hn]; exact h')

end
end Mregex
