import Verif.Proof.Script
import Verif.Proof.Sound

/-!
# The matcher follows the scripts, part two
-/

namespace Mregex
open Ast Spec

theorem proceed_append (S T : Script) (g : Nat → Script) : proceed (S ++ T) g = proceed S g ++ proceed T g := by simp [proceed]

theorem proceed_assoc (S : Script) (g h : Nat → Script) : proceed (proceed S g) h = proceed S (fun q => proceed (g q) h) := by
  induction S with
  | nil => rfl
  | cons t S ih =>
    have e : ∀ t g, proceed (t :: S) g = (match t with | .offer q => g q | t => [t]) ++ proceed S g := fun _ _ => rfl
    rw [e, e, proceed_append, ih]
    congr 1
    cases t <;> rfl

theorem scriptAll_append (f : Flags) (s : List Byte) (l l' : List Ast) (fwd inv : Bool) (p : Nat) :
    scriptAll f s (l ++ l') fwd inv p =
      if inv then proceed (scriptAll f s l' fwd inv p) (scriptAll f s l fwd inv)
      else proceed (scriptAll f s l fwd inv p) (scriptAll f s l' fwd inv) := by
  induction l generalizing p with
  | nil =>
    have e : scriptAll f s [] fwd inv = fun p => [.offer p] := by funext p; simp [scriptAll]
    cases inv
    · simp only [List.nil_append, e, Bool.false_eq_true, if_false]; simp [proceed]
    · simp only [List.nil_append, e, if_true, proceed_offer]
  | cons a l ih =>
    cases inv with
    | false =>
      simp only [List.cons_append, scriptAll, Bool.false_eq_true, if_false] at *
      rw [proceed_assoc]
      exact proceed_congr (fun q _ => ih q)
    | true =>
      simp only [List.cons_append, scriptAll, if_true] at *
      rw [ih, proceed_assoc]

theorem script_invert (f : Flags) (s : List Byte) (a : Ast) (fwd inv : Bool) : script f s (invert a) fwd inv = script f s a fwd (!inv) := by
  induction a using ind generalizing fwd inv with
  | seq l ih =>
    funext p
    simp only [invert, script, invertAll_eq]
    induction l generalizing p with
    | nil => simp [scriptAll]
    | cons a l ihl =>
      have ihl' := ihl (fun b hb => ih b (List.mem_cons_of_mem _ hb))
      have e : scriptAll f s (List.map invert l).reverse fwd inv = scriptAll f s l fwd (!inv) := funext ihl'
      simp only [List.map_cons, List.reverse_cons]
      rw [scriptAll_append]
      have e1 : scriptAll f s [invert a] fwd inv = script f s a fwd (!inv) := by
        funext q
        have e0 : scriptAll f s [] fwd inv = fun p => [.offer p] := by funext p; simp [scriptAll]
        simp only [scriptAll, e0, ih a (by simp)]
        cases inv
        · simp [proceed_offer]
        · simp [proceed]
      rw [e, e1]
      cases inv <;> simp [scriptAll]
  | alt l ih =>
    funext p
    simp only [invert, script, invertAll_eq]
    induction l with
    | nil => simp [scriptAny]
    | cons a l ihl =>
      simp only [List.map_cons, scriptAny]
      rw [ih a (by simp), ihl (fun b hb => ih b (List.mem_cons_of_mem _ hb))]
  | cap id n a ih => funext p; simp only [invert, script, ih]
  | rep m lo hi a ih => funext p; simp only [invert, script, ih]
  | neg a ih =>
    funext p
    have e : accepts f (.neg (invert a)) = accepts f (.neg a) := by
      simpa [invert] using accepts_invert f (.neg a)
    simp only [invert, script, assertion_eq, isAssertion_invert, ih, e]
  | set l ih =>
    funext p
    have e : accepts f (.set (invertAll l)) = accepts f (.set l) := by
      simpa [invert] using accepts_invert f (.set l)
    simp only [invert, script, ends, e]
  | look d a ih => funext p; cases d <;> cases inv <;> simp [invert, script]
  | _ => funext p; simp only [invert, script, ends]

section
variable {N : Nat}

theorem oneChar_orS (s : List Byte) (fwd : Bool) (P Q : Byte → Bool) (p : Nat) :
    SEq N (offers (oneChar s fwd P p) ++ offers (oneChar s fwd Q p)) (offers (oneChar s fwd (fun x => P x || Q x) p)) := by
  have key : ∀ (b b' : Bool) (q : Nat), SEq N (offers (if b then [q] else []) ++ offers (if b' then [q] else []))
      (offers (if b || b' then [q] else [])) := by
    intro b b' q
    cases b <;> cases b'
    · exact .refl _
    · exact .refl _
    · exact .refl _
    · intro k k' hk
      refine FRel.symm ?_
      exact (frel_offer (hk q)).symm.twice (run_rel (fun t _ => (hk t).symm))
  unfold oneChar
  cases readChar s fwd p with
  | none => exact .refl _
  | some xq => exact key _ _ _

/-- A trivially matchable node reads one character. -/
theorem script_triv {a : Ast} (ht : triv a = true) (f : Flags) (s : List Byte) (fwd inv : Bool) (p : Nat) :
    SEq N (script f s a fwd inv p) (offers (oneChar s fwd (accepts f a) p)) := by
  induction a using ind generalizing p with
  | lit => simp only [script, ends]; exact .refl _
  | range => simp only [script, ends]; exact .refl _
  | wildcard => simp only [script, ends]; exact .refl _
  | set => simp only [script, ends]; exact .refl _
  | neg a ih =>
    simp only [triv, Bool.not_eq_true'] at ht
    simp only [script, assertion_eq, ht]
    exact .refl _
  | seq l ih =>
    match l with
    | [] => simp [triv, trivSingle] at ht
    | [a] =>
      simp only [triv, trivSingle] at ht
      have e : accepts f (.seq [a]) = accepts f a := by funext x; simp [accepts, acceptsOnly]
      rw [e]
      refine SEq.trans (.of_eq ?_) (ih a (by simp) ht p)
      have e0 : scriptAll f s [] fwd inv = fun p => [.offer p] := by funext p; simp [scriptAll]
      simp only [script, scriptAll, e0]
      cases inv
      · simp [proceed_offer]
      · simp [proceed]
    | a :: b :: l => simp [triv, trivSingle] at ht
  | alt l ih =>
    simp only [triv, trivAlt_eq, Bool.and_eq_true] at ht
    replace ht := ht.2
    rw [show accepts f (.alt l) = acceptsAny f l by funext x; simp only [accepts]]
    simp only [script]
    induction l with
    | nil =>
      have : acceptsAny f [] = fun _ => false := by funext x; simp [acceptsAny]
      rw [this, oneChar_false]
      simp only [scriptAny]
      exact .refl _
    | cons a l ihl =>
      simp only [List.all_cons, Bool.and_eq_true] at ht
      have : acceptsAny f (a :: l) = fun x => accepts f a x || acceptsAny f l x := by
        funext x; simp [acceptsAny]
      rw [this]
      refine SEq.trans ?_ (oneChar_orS _ _ _ _ _)
      simp only [scriptAny]
      exact (ih a (by simp) ht.1 p).append (ihl (fun b hb => ih b (List.mem_cons_of_mem _ hb)) ht.2)
  | rep m lo hi a ih =>
    simp only [triv, Bool.and_eq_true, beq_iff_eq] at ht
    obtain ⟨⟨rfl, rfl⟩, ht⟩ := ht
    have e : accepts f (.rep m 1 (.fin 1) a) = accepts f a := by funext x; simp [accepts]
    rw [e]
    simp only [script, quantifiedS, Nat.sub_self, extraS_zero, proceed_offer]
    cases m with
    | possessive =>
      dsimp only
      rw [timesS_one]
      refine (SEq.commit (ih ht p) (fun _ => .refl _) (.refl _)).trans (.of_eq ?_)
      exact commit_short _ (oneChar_short ..)
    | greedy => dsimp only; rw [timesS_one]; exact ih ht p
    | lazy => dsimp only; rw [timesS_one]; exact ih ht p
  | look d a ih => simp [triv] at ht
  | cap id n a ih => simp [triv] at ht
  | _ => simp [triv] at ht

theorem charSeq_seq {f : Flags} {s : List Byte} {fwd : Bool} {l : List Ast} (hl : areTriv l = true) (p : Nat) :
    SEq N (offers (charSeq f s fwd l p)) (scriptAll f s l fwd false p) := by
  induction l generalizing p with
  | nil => simp only [charSeq, scriptAll]; exact .refl _
  | cons a l ih =>
    simp only [areTriv, List.all_cons, Bool.and_eq_true] at hl
    simp only [charSeq, scriptAll, Bool.false_eq_true, if_false]
    rw [← proceed_offers]
    exact (script_triv hl.1 f s fwd false p).symm.proceed (ih hl.2)

section
variable {E : Env} {r : Nat}

theorem script_inside {fwd : Bool} (hf : fwd = (r % 2 == 0)) (a : Ast) (inv : Bool) : InsideS E r (script E.flags E.inp a fwd inv) := by
  unfold InsideS
  rw [offs_script]
  exact ends_inside hf a inv

theorem denS_seqMatch {fwd : Bool} (hf : fwd = (r % 2 == 0)) {l : List Ast} {m : Ast → Matcher} (hne : l ≠ [])
    (h : ∀ a ∈ l, DenS N E (m a) (script E.flags E.inp a fwd false)) :
    DenS N E (seqMatch E r m l) (scriptAll E.flags E.inp l fwd false) := by
  match l with
  | [] => exact absurd rfl hne
  | a :: l =>
    induction l generalizing a with
    | nil =>
      refine (h a (by simp)).congr (fun p _ => ?_)
      have e0 : scriptAll E.flags E.inp [] fwd false = fun p => [.offer p] := by funext p; simp [scriptAll]
      simp only [scriptAll, Bool.false_eq_true, if_false, e0, proceed_offer]
    | cons b l ih =>
      unfold seqMatch
      split
      · next ht => exact (DenS.seqTriv hf _).congrE (fun p _ => charSeq_seq ht p)
      · refine ((h a (by simp)).comp (ih b (by simp) (fun x hx => h x (List.mem_cons_of_mem _ hx)))
          (fun p q hp hq => ((script_inside hf a false).reach hp hq).right_le)).congr (fun p _ => ?_)
        simp [scriptAll]

theorem denS_altMatch {fwd : Bool} (hf : fwd = (r % 2 == 0)) {l : List Ast} {m : Ast → Matcher} (hne : l ≠ [])
    (h : ∀ a ∈ l, DenS N E (m a) (script E.flags E.inp a fwd false)) :
    DenS N E (altMatch E r m l) (scriptAny E.flags E.inp l fwd false) := by
  match l with
  | [] => exact absurd rfl hne
  | a :: l =>
    induction l generalizing a with
    | nil =>
      refine (h a (by simp)).congr (fun p _ => ?_)
      simp [scriptAny]
    | cons b l ih =>
      unfold altMatch
      split
      · next ht =>
        refine (DenS.triv hf _).congrE (fun p _ => ?_)
        have e : accepts E.flags (.set (a :: b :: l)) = accepts E.flags (.alt (a :: b :: l)) := by
          funext x; simp only [accepts]
        rw [e]
        refine (script_triv (a := .alt (a :: b :: l)) ?_ E.flags E.inp fwd false p).symm.trans (.of_eq ?_)
        · simpa [triv, trivAlt_eq, areTriv] using ht
        · simp only [script]
      · refine ((h a (by simp)).orElse (ih b (by simp) (fun x hx => h x (List.mem_cons_of_mem _ hx)))).congr
          (fun p _ => ?_)
        simp only [scriptAny]

/-- A lookaround for one character. -/
theorem look_triv {a : Ast} (ht : triv a = true) (f : Flags) (s : List Byte) (fwd inv : Bool) (p : Nat) :
    SEq N (offers (test (!(oneChar s fwd (accepts f a) p).isEmpty) p)) (Spec.commit (fun _ => [.offer p]) [] (script f s a fwd inv p)) := by
  refine SEq.trans (.of_eq ?_) (SEq.commit (script_triv ht f s fwd inv p).symm (fun _ => .refl _) (.refl _))
  have := oneChar_short s fwd (accepts f a) p
  match oneChar s fwd (accepts f a) p, this with
  | [], _ => rfl
  | [q], _ => rfl

/-- The matcher carries out the script, whatever the captures are. -/
theorem mtch_script (hN : N = E.names.length) :
    ∀ fuel a r, Ok E r a → noBackref a = true → a.depth + E.inp.length + 1 ≤ fuel →
      DenS N E (mtch E fuel a r) (script E.flags E.inp a (r % 2 == 0) false) := by
  intro fuel
  induction fuel with
  | zero => intro a r _ _ h; omega
  | succ k ih =>
    intro a r hok hnb hfuel
    have hrep : ∀ m lo hi b, Ok E r b → noBackref b = true → b.depth + E.inp.length + 1 ≤ k →
        (∀ h, hi = .fin h → lo ≤ h) →
        DenS N E (repMatch E r k m lo hi b (mtch E k b r))
          (quantifiedS E.inp.length m E.flags.ungreedy lo hi (script E.flags E.inp b (r % 2 == 0) false)) := by
      intro m lo hi b hb hnb hk hlo
      have hd := ih b r hb hnb hk
      by_cases ht : triv b = true
      · have he := fun p => script_triv (N := N) ht E.flags E.inp (r % 2 == 0) false p
        have hd' := hd.congrE (fun p _ => he p)
        refine (denS_repMatch (mode := m) (lo := lo) (hi := hi) rfl hd' ?_ ?_ (fun _ => rfl)
          (by omega) hlo).congrE (fun p _ => quantifiedS_seq (fun q => (he q).symm) _ _ _ _ _ _)
        · unfold InsideS
          simp only [offs_offers]
          exact inside_oneChar rfl _
        · intro _ p q hp hq
          obtain ⟨rfl, h0⟩ := oneChar_ne rfl hp (mem_offers.1 hq)
          exact Env.next_ne hp h0
      · exact denS_repMatch rfl hd (script_inside rfl b false) (fun hz p q hp hq => ends_ne rfl hz hp (mem_script.1 hq))
          (fun h => absurd h ht) (by omega) hlo
    unfold mtch
    cases hok with
    | empty => dsimp only; exact DenS.id.congr (fun p _ => by simp only [script, ends]; rfl)
    | lit => dsimp only; exact (DenS.triv rfl _).congr (fun p _ => by simp only [script, ends])
    | range => dsimp only; exact (DenS.triv rfl _).congr (fun p _ => by simp only [script, ends])
    | wildcard => dsimp only; exact (DenS.triv rfl _).congr (fun p _ => by simp only [script, ends])
    | set => dsimp only; exact (DenS.triv rfl _).congr (fun p _ => by simp only [script, ends])
    | @neg _ b hb hok =>
      simp only [depth] at hfuel
      simp only [noBackref] at hnb
      dsimp only
      split
      · next ha =>
        have := ih b r hok hnb (by omega)
        exact this.negAssert.congr (fun p _ => by simp only [script, assertion_eq, ha, if_true])
      · next ha =>
        refine (DenS.triv rfl _).congr (fun p _ => ?_)
        simp only [script, assertion_eq]
        rw [if_neg ha]
    | @seq _ l hne hl =>
      simp only [depth] at hfuel
      simp only [noBackref, noBackrefAll_eq, List.all_eq_true] at hnb
      dsimp only
      refine (denS_seqMatch rfl hne (fun b hb => ?_)).congr (fun p _ => by simp only [script])
      have := depth_le_all hb
      exact ih b r (hl b hb) (hnb b hb) (by omega)
    | @alt _ l hne hl =>
      simp only [depth] at hfuel
      simp only [noBackref, noBackrefAll_eq, List.all_eq_true] at hnb
      dsimp only
      refine (denS_altMatch rfl hne (fun b hb => ?_)).congr (fun p _ => by simp only [script])
      have := depth_le_all hb
      exact ih b r (hl b hb) (hnb b hb) (by omega)
    | @cap _ id name b hn hr hok =>
      simp only [depth] at hfuel
      simp only [noBackref] at hnb
      dsimp only
      exact (denS_cap (ih b r hok hnb (by omega)) hN hn hr rfl).congr (fun p _ => by simp only [script])
    | @repFin _ m lo hi b hlo hok =>
      simp only [depth] at hfuel
      simp only [noBackref] at hnb
      dsimp only
      exact (hrep m lo _ b hok hnb (by omega) (fun h e => by cases e; exact hlo)).congr (fun p _ => by simp only [script])
    | @repInf _ m lo b hok =>
      simp only [depth] at hfuel
      simp only [noBackref] at hnb
      dsimp only
      exact (hrep m lo _ b hok hnb (by omega) (fun h e => by cases e)).congr (fun p _ => by simp only [script])
    | @ahead _ b hok =>
      simp only [depth] at hfuel
      simp only [noBackref] at hnb
      dsimp only
      split
      · next ht =>
        refine (DenS.assert (fun p hp => oneChar_isEmpty (E := E) (r := r) (a := b) rfl hp)).congrE (fun p _ => ?_)
        refine (look_triv ht E.flags E.inp (r % 2 == 0) false p).trans (.of_eq ?_)
        simp only [script]
        rfl
      · refine (ih b r hok hnb (by omega)).look.congr (fun p _ => ?_)
        simp only [script]
        rfl
    | @behindTriv _ b hcat ht hok =>
      dsimp only
      rw [if_pos ht]
      refine (DenS.assert (b := fun p => !(oneChar E.inp (!(r % 2 == 0)) (accepts E.flags b) p).isEmpty)
        (fun p hp => ?_)).congrE (fun p _ => ?_)
      · rw [lookbehindTriv_eq hcat]
        exact oneChar_isEmpty (fwd_succ r).symm hp
      · refine (look_triv ht E.flags E.inp (!(r % 2 == 0)) true p).trans (.of_eq ?_)
        simp only [script]
        rfl
    | @behind _ b hcat hok =>
      simp only [depth] at hfuel
      simp only [noBackref] at hnb
      dsimp only
      split
      · next ht =>
        refine (DenS.assert (b := fun p => !(oneChar E.inp (!(r % 2 == 0)) (accepts E.flags b) p).isEmpty)
          (fun p hp => ?_)).congrE (fun p _ => ?_)
        · rw [lookbehindTriv_eq hcat]
          exact oneChar_isEmpty (fwd_succ r).symm hp
        · refine (look_triv ht E.flags E.inp (!(r % 2 == 0)) true p).trans (.of_eq ?_)
          simp only [script]
          rfl
      · refine ((ih (invert b) (r + 1) hok (by rw [noBackref_invert]; exact hnb) (by rw [depth_invert]; omega)).look).congr
          (fun p _ => ?_)
        rw [script_invert, fwd_succ]
        simp only [script]
        rfl
    | bol h =>
      dsimp only
      exact (DenS.assert (fun p hp => beginPred_eq rfl (fun _ => h) hp)).congr
        (fun p _ => by simp only [script, ends, Bool.true_and])
    | boi =>
      dsimp only
      exact (DenS.assert (fun p hp => beginPred_eq rfl (by simp) hp)).congr
        (fun p _ => by simp only [script, ends, Bool.false_and])
    | eol =>
      dsimp only
      exact (DenS.assert (fun p hp => endPred_eq rfl hp)).congr
        (fun p _ => by simp only [script, ends, Bool.true_and])
    | eoi =>
      dsimp only
      exact (DenS.assert (fun p hp => endPred_eq rfl hp)).congr
        (fun p _ => by simp only [script, ends, Bool.false_and])
    | wordB h =>
      dsimp only
      exact (DenS.assert (fun p hp => wordBoundaryPred_eq h hp)).congr (fun p _ => by simp only [script, ends])
    | backref => simp [noBackref] at hnb
    | namedBackref => simp [noBackref] at hnb

end
end
end Mregex
