import Verif.Proof.Proc

/-!
# The matcher carries out the procedures
-/

namespace Mregex
open Ast Spec

/-! ### Algebra of procedures -/

theorem andThen_done (P : Proc) : P.andThen .done = P := by
  induction P with
  | done => rfl
  | note i b e P ih => simp only [Proc.andThen, ih]
  | cross i P ih => simp only [Proc.andThen, ih]
  | offer q P ih => simp only [Proc.andThen, ih]
  | recall i f ih => simp only [Proc.andThen, ih]

theorem andThen_assoc (P Q S : Proc) : (P.andThen Q).andThen S = P.andThen (Q.andThen S) := by
  induction P with
  | done => rfl
  | note i b e P ih => simp only [Proc.andThen, ih]
  | cross i P ih => simp only [Proc.andThen, ih]
  | offer q P ih => simp only [Proc.andThen, ih]
  | recall i f ih => simp only [Proc.andThen, ih]

theorem goOn_only (P : Proc) : P.proceed Proc.only = P := by
  induction P with
  | done => rfl
  | note i b e P ih => simp only [Proc.proceed, ih]
  | cross i P ih => simp only [Proc.proceed, ih]
  | offer q P ih => simp only [Proc.proceed, ih, Proc.only, Proc.andThen]
  | recall i f ih => simp only [Proc.proceed, ih]

theorem only_goOn (q : Nat) (g : Nat → Proc) : (Proc.only q).proceed g = g q := by
  simp only [Proc.only, Proc.proceed, andThen_done]

theorem goOn_andThen (P Q : Proc) (g : Nat → Proc) : (P.andThen Q).proceed g = (P.proceed g).andThen (Q.proceed g) := by
  induction P with
  | done => rfl
  | note i b e P ih => simp only [Proc.proceed, Proc.andThen, ih]
  | cross i P ih => simp only [Proc.proceed, Proc.andThen, ih]
  | offer q P ih => simp only [Proc.proceed, Proc.andThen, ih, andThen_assoc]
  | recall i f ih => simp only [Proc.proceed, Proc.andThen, ih]

theorem goOn_assoc (P : Proc) (g h : Nat → Proc) : (P.proceed g).proceed h = P.proceed (fun q => (g q).proceed h) := by
  induction P with
  | done => rfl
  | note i b e P ih => simp only [Proc.proceed, ih]
  | cross i P ih => simp only [Proc.proceed, ih]
  | offer q P ih => simp only [Proc.proceed, goOn_andThen, ih]
  | recall i f ih => simp only [Proc.proceed, ih]

theorem offers_append (l l' : List Nat) : (Proc.offers l).andThen (.offers l') = .offers (l ++ l') := by
  induction l with
  | nil => rfl
  | cons a l ih => simp only [Proc.offers, Proc.andThen, ih, List.cons_append]

theorem goOn_offers (l : List Nat) (e : Nat → List Nat) : (Proc.offers l).proceed (fun q => .offers (e q)) = .offers (l.flatMap e) := by
  induction l with
  | nil => rfl
  | cons a l ih => simp only [Proc.offers, Proc.proceed, ih, offers_append, List.flatMap_cons]

theorem settle_offers (f : Nat → List Nat) (h l : List Nat) :
    (Proc.offers l).commit (fun q => .offers (f q)) (.offers h) = .offers (match l with | [] => h | q :: _ => f q) := by
  cases l <;> rfl

theorem without_offers (p : Nat) (l : List Nat) : (Proc.offers l).except p = .offers (l.filter (· ≠ p)) := by
  induction l with
  | nil => rfl
  | cons a l ih =>
    by_cases h : a = p
    · simp [Proc.offers, Proc.except, h, ih]
    · simp [Proc.offers, Proc.except, h, ih]

theorem only_offers (q : Nat) : Proc.only q = .offers [q] := rfl

theorem settle_short (l : List Nat) (h : l.length ≤ 1) : (Proc.offers l).commit Proc.only .done = .offers l := by
  match l, h with
  | [], _ => rfl
  | [q], _ => rfl

section
variable (e : Nat → List Nat)

theorem times_offers (k p : Nat) : Proc.times (fun q => .offers (e q)) k p = .offers (exactly e k p) := by
  induction k generalizing p with
  | zero => rfl
  | succ k ih => simp only [Proc.times, exactly, funext ih, goOn_offers]

theorem greedyUpTo_offers (k p : Nat) : Proc.greedyUpTo (fun q => .offers (e q)) k p = .offers (greedyUpTo e k p) := by
  induction k generalizing p with
  | zero => rfl
  | succ k ih => simp only [Proc.greedyUpTo, greedyUpTo, funext ih, goOn_offers, only_offers, offers_append]

theorem lazyUpTo_offers (k p : Nat) : Proc.lazyUpTo (fun q => .offers (e q)) k p = .offers (lazyUpTo e k p) := by
  induction k generalizing p with
  | zero => rfl
  | succ k ih => simp only [Proc.lazyUpTo, lazyUpTo, funext ih, goOn_offers]; rfl

theorem possessiveUpTo_offers (k p : Nat) : Proc.possessiveUpTo (fun q => .offers (e q)) k p = .offers (possessiveUpTo e k p) := by
  induction k generalizing p with
  | zero => rfl
  | succ k ih =>
    simp only [Proc.possessiveUpTo, possessiveUpTo, funext ih, only_offers, settle_offers]
    cases e p <;> rfl

theorem greedyStar_offers (k p : Nat) : Proc.greedyStar (fun q => .offers (e q)) k p = .offers (greedyStar e k p) := by
  induction k generalizing p with
  | zero => rfl
  | succ k ih => simp only [Proc.greedyStar, greedyStar, funext ih, without_offers, goOn_offers, only_offers, offers_append]

theorem lazyStar_offers (k p : Nat) : Proc.lazyStar (fun q => .offers (e q)) k p = .offers (lazyStar e k p) := by
  induction k generalizing p with
  | zero => rfl
  | succ k ih => simp only [Proc.lazyStar, lazyStar, funext ih, without_offers, goOn_offers]; rfl

theorem possessiveStar_offers (k p : Nat) : Proc.possessiveStar (fun q => .offers (e q)) k p = .offers (possessiveStar e k p) := by
  induction k generalizing p with
  | zero => rfl
  | succ k ih =>
    have : (fun q => if q = p then Proc.only p else Proc.possessiveStar (fun q => .offers (e q)) k q) =
        fun q => .offers (if q = p then [p] else possessiveStar e k q) := by
      funext q; split
      · rfl
      · exact ih q
    rw [Proc.possessiveStar, this, only_offers, settle_offers, possessiveStar]
    cases e p <;> rfl

end

/-! ### Single characters -/

theorem characters_eq (l : List Ast) : characters l = l.all character := by
  induction l with
  | nil => rfl
  | cons a l ih => simp [characters, ih]

theorem character_eq (a : Ast) : character a = triv a := by
  induction a using ind with
  | neg a ih => simp [character, triv, assertion_eq]
  | seq l ih =>
    match l with
    | [] => simp [character, triv, trivSingle]
    | [a] => simpa [character, triv, trivSingle] using ih a (by simp)
    | a :: b :: l => simp [character, triv, trivSingle]
  | alt l ih =>
    simp only [character, triv, trivAlt_eq, characters_eq]
    congr 1
    rw [Bool.eq_iff_iff, List.all_eq_true, List.all_eq_true]
    exact ⟨fun h a ha => (ih a ha) ▸ h a ha, fun h a ha => (ih a ha).symm ▸ h a ha⟩
  | rep m lo hi a ih =>
    by_cases h : lo = 1 ∧ hi = .fin 1
    · obtain ⟨rfl, rfl⟩ := h
      simpa [character, triv] using ih
    · have e1 : triv (.rep m lo hi a) = false := by
        simp only [triv]
        rw [← Bool.not_eq_true]
        simp only [Bool.and_eq_true, beq_iff_eq]
        exact fun hh => h hh.1
      rw [e1]
      unfold character
      split <;> simp_all
  | _ => simp [character, triv]

theorem characters_triv (l : List Ast) : characters l = areTriv l := by
  simp only [characters_eq, areTriv]
  congr 1
  funext a
  exact character_eq a

theorem procAll_nil (f : Flags) (s : List Byte) (ν : List Byte → Nat) (r : Nat) (inv : Bool) : procAll f s ν [] r inv = Proc.only := by
  funext p; simp [procAll]

theorem procAll_one (f : Flags) (s : List Byte) (ν : List Byte → Nat) (a : Ast) (r : Nat) (inv : Bool) :
    procAll f s ν [a] r inv = proc f s ν a r inv := by
  funext p
  simp only [procAll, procAll_nil]
  cases inv
  · simp [goOn_only]
  · simp only [if_true, only_goOn]

theorem procAll_append (f : Flags) (s : List Byte) (ν : List Byte → Nat) (l l' : List Ast) (r : Nat) (inv : Bool) (p : Nat) :
    procAll f s ν (l ++ l') r inv p =
      if inv then (procAll f s ν l' r inv p).proceed (procAll f s ν l r inv)
      else (procAll f s ν l r inv p).proceed (procAll f s ν l' r inv) := by
  induction l generalizing p with
  | nil =>
    rw [procAll_nil]
    cases inv
    · simp only [List.nil_append, Bool.false_eq_true, if_false, only_goOn]
    · simp only [List.nil_append, if_true, goOn_only]
  | cons a l ih =>
    cases inv with
    | false =>
      simp only [List.cons_append, procAll, Bool.false_eq_true, if_false] at *
      rw [goOn_assoc]
      congr 1
      funext q
      exact ih q
    | true =>
      simp only [List.cons_append, procAll, if_true] at *
      rw [ih, goOn_assoc]

/-- A trivially matchable node reads one character. -/
theorem proc_triv {a : Ast} (ht : triv a = true) (f : Flags) (s : List Byte) (ν : List Byte → Nat) (r : Nat) (inv : Bool) (p : Nat) :
    proc f s ν a r inv p = .offers (oneChar s (r % 2 == 0) (accepts f a) p) := by
  induction a using ind generalizing p with
  | lit => simp only [proc, ends]
  | range => simp only [proc, ends]
  | wildcard => simp only [proc, ends]
  | set => simp only [proc, ends]
  | neg a ih =>
    simp only [triv, Bool.not_eq_true'] at ht
    simp [proc, assertion_eq, ht]
  | seq l ih =>
    match l with
    | [] => simp [triv, trivSingle] at ht
    | [a] =>
      simp only [triv, trivSingle] at ht
      have e : accepts f (.seq [a]) = accepts f a := by funext x; simp [accepts, acceptsOnly]
      rw [e]
      simp only [proc, procAll_one]
      exact ih a (by simp) ht p
    | a :: b :: l => simp [triv, trivSingle] at ht
  | alt l ih =>
    simp only [triv, trivAlt_eq, Bool.and_eq_true] at ht
    rw [show accepts f (.alt l) = acceptsAny f l by funext x; simp only [accepts]]
    simp only [proc]
    match l, ht with
    | a :: l, ht => simp only [procAny, characters_triv, areTriv, ht.2, if_true]
  | rep m lo hi a ih =>
    simp only [triv, Bool.and_eq_true, beq_iff_eq] at ht
    obtain ⟨⟨rfl, rfl⟩, ht⟩ := ht
    have e : accepts f (.rep m 1 (.fin 1) a) = accepts f a := by funext x; simp [accepts]
    have hx : Proc.extra s.length m f.ungreedy (proc f s ν a r inv) (some 0) = Proc.only := by
      funext p; cases m <;> cases f.ungreedy <;> rfl
    have ht1 : Proc.times (proc f s ν a r inv) 1 p = proc f s ν a r inv p := goOn_only _
    rw [e]
    simp only [proc, Proc.quantified, Nat.sub_self, hx, goOn_only, ht1]
    cases m with
    | possessive => dsimp only; rw [ih ht p, settle_short _ (oneChar_short ..)]
    | greedy => exact ih ht p
    | lazy => exact ih ht p
  | look d a ih => simp [triv] at ht
  | cap id n a ih => simp [triv] at ht
  | _ => simp [triv] at ht

theorem proc_invert (f : Flags) (s : List Byte) (ν : List Byte → Nat) (a : Ast) (r : Nat) (inv : Bool) :
    proc f s ν (invert a) r inv = proc f s ν a r (!inv) := by
  induction a using ind generalizing r inv with
  | seq l ih =>
    funext p
    simp only [invert, proc, invertAll_eq]
    induction l generalizing p with
    | nil => simp [procAll]
    | cons a l ihl =>
      have ihl' := ihl (fun b hb => ih b (List.mem_cons_of_mem _ hb))
      have e : procAll f s ν (List.map invert l).reverse r inv = procAll f s ν l r (!inv) := funext ihl'
      simp only [List.map_cons, List.reverse_cons]
      rw [procAll_append, procAll_one, ih a (by simp), e]
      cases inv <;> simp [procAll]
  | alt l ih =>
    funext p
    simp only [invert, proc, invertAll_eq]
    induction l with
    | nil => simp [procAny]
    | cons a l ihl =>
      have e : characters (invert a :: l.map invert) = characters (a :: l) := by
        simp only [characters_triv, areTriv, List.all_cons, List.all_map, triv_invert]
        congr 2
        funext b
        exact triv_invert b
      have e2 : acceptsAny f (invert a :: l.map invert) = acceptsAny f (a :: l) := by
        have := accepts_invert f (.alt (a :: l))
        simp only [invert, invertAll_eq, List.map_cons] at this
        funext x
        have := congrFun this x
        simpa only [accepts] using this
      simp only [List.map_cons, procAny, e, e2]
      rw [ih a (by simp), ihl (fun b hb => ih b (List.mem_cons_of_mem _ hb))]
  | cap id n a ih => funext p; simp only [invert, proc, ih]
  | rep m lo hi a ih => funext p; simp only [invert, proc, ih]
  | neg a ih =>
    funext p
    have e : accepts f (.neg (invert a)) = accepts f (.neg a) := by
      simpa [invert] using accepts_invert f (.neg a)
    simp only [invert, proc, assertion_eq, isAssertion_invert, ih, e]
  | set l ih =>
    funext p
    have e : accepts f (.set (invertAll l)) = accepts f (.set l) := by
      simpa [invert] using accepts_invert f (.set l)
    simp only [invert, proc, ends, e]
  | look d a ih => funext p; cases d <;> cases inv <;> simp [invert, proc]
  | _ => funext p; simp only [invert, proc, ends]

/-! ### Fixed numbers of iterations -/

section
variable {N : Nat} {E : Env} {r : Nat} {z : Bool} {m : Matcher} {g : Nat → Proc}

theorem times_one (g : Nat → Proc) (p : Nat) : Proc.times g 1 p = g p := goOn_only (g p)

theorem DenP.pow_nonUnrolled (h : DenP N E r z m g) (k : Nat) : DenP N E r z (nonUnrolled m (k + 1)) (Proc.times g (k + 1)) := by
  induction k with
  | zero => exact h.congr (fun p _ => (times_one g p).symm)
  | succ k ih => exact (h.comp ih).mono (by simp)

theorem DenP.pow_unrolled (h : DenP N E r z m g) (k : Nat) : DenP N E r (k == 0 || z) (unrolled m k) (Proc.times g k) := by
  match k with
  | 0 => exact DenP.id
  | k + 1 =>
    have : DenP N E r z (unrolled m (k + 1)) (Proc.times g (k + 1)) := by
      induction k with
      | zero => exact h.congr (fun p _ => (times_one g p).symm)
      | succ k ih => exact (h.comp ih).mono (by simp)
    exact this.mono (by simp)

/-- The required iterations. -/
def requiredP (mode : Mode) (g : Nat → Proc) (n p : Nat) : Proc :=
  match mode with | .possessive => (Proc.times g n p).commit Proc.only .done | _ => Proc.times g n p

theorem denP_fixedMatch {a : Ast} {mode : Mode} {n : Nat} {fwd : Bool} (hf : fwd = (r % 2 == 0)) (h : DenP N E r z m g)
    (ht : Ast.triv a = true → g = fun p => .offers (oneChar E.inp fwd (accepts E.flags a) p)) :
    DenP N E r (n == 0 || z) (fixedMatch E r mode a m n) (requiredP mode g n) := by
  have hb : n ≠ 0 → DenP N E r z (fixedBacktracking E r a m n) (Proc.times g n) := by
    intro hN
    unfold fixedBacktracking
    split
    · next hta =>
      rw [ht hta]
      exact ((DenP.fixedTriv hf a n hN).congr (fun p _ => (times_offers _ n p).symm)).mono (by simp)
    · split
      · exact (h.pow_unrolled n).mono (by simp [hN])
      · obtain ⟨k, rfl⟩ := Nat.exists_eq_succ_of_ne_zero hN
        exact h.pow_nonUnrolled k
  unfold fixedMatch
  split
  · next hN =>
    subst hN
    exact (DenP.id.congr (fun p _ => by cases mode <;> rfl)).mono (by simp)
  · next hN =>
    refine DenP.mono (z := z) ?_ (by simp_all)
    split
    · next hN1 =>
      subst hN1
      split
      · next hm =>
        obtain ⟨rfl, _⟩ := hm
        exact h.atomic.congr (fun p _ => by simp only [requiredP, times_one])
      · next hm =>
        refine h.congr (fun p _ => ?_)
        cases mode with
        | possessive =>
          have hta : Ast.triv a = true := by simpa using hm
          simp only [requiredP, times_one]
          rw [ht hta]
          exact (settle_short _ (oneChar_short ..)).symm
        | greedy => exact (times_one g p).symm
        | lazy => exact (times_one g p).symm
    · split
      · next hm => subst hm; exact (hb hN).atomic
      · next hm => cases mode <;> first | exact hb hN | exact absurd rfl hm

/-! ### Loops -/

def greedyItP (g : Nat → Proc) (inf : Bool) (k : Nat) : Nat → Proc := if inf then Proc.greedyStar g k else Proc.greedyUpTo g k
def lazyItP (g : Nat → Proc) (inf : Bool) (k : Nat) : Nat → Proc := if inf then Proc.lazyStar g k else Proc.lazyUpTo g k
def possItP (g : Nat → Proc) (inf : Bool) (k : Nat) : Nat → Proc := if inf then Proc.possessiveStar g k else Proc.possessiveUpTo g k

theorem denP_guard (h : DenP N E r z m g) {inf guard : Bool} {p : Nat} {rest : Matcher} {g' : Nat → Proc} {k k' : Cont} (hp : p ≤ E.inp.length)
    (hguard : inf = true → guard = true ∨ z = false) (hbound : inf = false → guard = false)
    (hrest : ∀ q, E.Reach r p q → (inf = true → q ≠ p) → LikeF N (fun c => rest q c k) (runP k' (g' q))) :
    LikeF N (fun c => m p c (guardCont guard p (fun q c' => rest q c' k))) (runP k' ((if inf then (g p).except p else g p).proceed g')) := by
  rw [funext (run_goOn k' _ _)]
  cases inf with
  | false =>
    have := hbound rfl
    subst this
    refine h p _ _ hp (fun q hq => ?_)
    have := hrest q hq.1 (by simp)
    show LikeF N (fun c => guardCont false p _ q c) _
    simpa [guardCont] using this
  | true =>
    simp only [if_true]
    rw [funext (run_without _ p (g p))]
    refine h p _ _ hp (fun q hq => ?_)
    by_cases hpq : q = p
    · subst hpq
      rcases hguard rfl with hg | hg
      · subst hg
        show LikeF N (fun c => guardCont true q _ q c) _
        simp only [guardCont, Bool.true_and, beq_self_eq_true, if_true]
        exact .nonMatch q 0
      · exact absurd rfl (hq.2 hg)
    · have hpq' : (p == q) = false := by simpa using fun e => hpq e.symm
      show LikeF N (fun c => guardCont guard p _ q c) _
      simp only [guardCont, hpq', Bool.and_false, Bool.false_eq_true, if_false, hpq]
      exact hrest q hq.1 (fun _ => hpq)

/-- The numbers of rounds of the matcher and of the procedure fit together. -/
def Rounds (E : Env) (r : Nat) (inf : Bool) (n j p : Nat) : Prop :=
  if inf then E.remaining r p < n ∧ E.remaining r p < j else n = j

theorem Rounds.zero {inf : Bool} {j p : Nat} (h : Rounds E r inf 0 j p) : inf = false ∧ j = 0 := by
  cases inf with
  | true => simp [Rounds] at h
  | false => simpa [Rounds, eq_comm] using h

theorem Rounds.succ {inf : Bool} {n j p : Nat} (h : Rounds E r inf (n + 1) j p) :
    ∃ i, j = i + 1 ∧ ∀ q, E.Reach r p q → (inf = true → q ≠ p) → Rounds E r inf n i q := by
  cases inf with
  | true =>
    simp only [Rounds, if_true] at h
    refine ⟨j - 1, by omega, fun q hq hne => ?_⟩
    have := hq.remaining_lt (fun e => hne rfl e.symm)
    simp only [Rounds, if_true]
    omega
  | false =>
    simp only [Rounds, Bool.false_eq_true, if_false] at h ⊢
    exact ⟨n, h.symm, fun _ _ _ => rfl⟩

section
variable {inf guard : Bool} (h : DenP N E r z m g) (hguard : inf = true → guard = true ∨ z = false) (hbound : inf = false → guard = false)
include h hguard hbound

theorem denP_greedyLoop : ∀ n j p k k', p ≤ E.inp.length → Rounds E r inf n j p → (∀ q, E.Reach r p q → LikeF N (k q) (k' q)) →
    LikeF N (fun c => greedyLoop m guard inf n p c k) (runP k' (greedyItP g inf j p)) := by
  intro n
  induction n with
  | zero =>
    intro j p k k' hp hn hk
    obtain ⟨rfl, rfl⟩ := hn.zero
    exact like_only (hk p (.refl hp))
  | succ n ih =>
    intro j p k k' hp hn hk
    obtain ⟨i, rfl, hs⟩ := hn.succ
    have e : greedyItP g inf (i + 1) p = ((if inf then (g p).except p else g p).proceed (greedyItP g inf i)).andThen (.only p) := by
      unfold greedyItP; cases inf <;> simp [Proc.greedyStar, Proc.greedyUpTo]
    rw [e, funext (run_andThen k' _ _)]
    unfold greedyLoop
    exact LikeF.orElse (denP_guard h hp hguard hbound
      (fun q hq hne => ih i q k k' hq.right_le (hs q hq hne) (fun t ht => hk t (hq.trans ht)))) (like_only (hk p (.refl hp)))

theorem denP_lazyLoop : ∀ n j p k k', p ≤ E.inp.length → Rounds E r inf n j p → (∀ q, E.Reach r p q → LikeF N (k q) (k' q)) →
    LikeF N (fun c => lazyLoop m guard inf n p c k) (runP k' (lazyItP g inf j p)) := by
  intro n
  induction n with
  | zero =>
    intro j p k k' hp hn hk
    obtain ⟨rfl, rfl⟩ := hn.zero
    exact LikeF.orElse (hk p (.refl hp)) (.nonMatch p 0)
  | succ n ih =>
    intro j p k k' hp hn hk
    obtain ⟨i, rfl, hs⟩ := hn.succ
    have e : lazyItP g inf (i + 1) p = .offer p ((if inf then (g p).except p else g p).proceed (lazyItP g inf i)) := by
      unfold lazyItP; cases inf <;> simp [Proc.lazyStar, Proc.lazyUpTo]
    rw [e]
    unfold lazyLoop
    exact LikeF.orElse (hk p (.refl hp)) (denP_guard h hp hguard hbound
      (fun q hq hne => ih i q k k' hq.right_le (hs q hq hne) (fun t ht => hk t (hq.trans ht))))

theorem denP_possLoop : ∀ n j p k k', p ≤ E.inp.length → Rounds E r inf n j p → (∀ q, E.Reach r p q → LikeF N (k q) (k' q)) →
    LikeF N (fun c => possLoop m guard inf n p c k) (runP k' (possItP g inf j p)) := by
  intro n
  induction n with
  | zero =>
    intro j p k k' hp hn hk
    obtain ⟨rfl, rfl⟩ := hn.zero
    exact like_only (hk p (.refl hp))
  | succ n ih =>
    intro j p k k' hp hn hk
    obtain ⟨i, rfl, hs⟩ := hn.succ
    have e : possItP g inf (i + 1) p = (g p).commit (fun q => if inf = true ∧ q = p then .only p else possItP g inf i q) (.only p) := by
      unfold possItP
      cases inf with
      | false => simp [Proc.possessiveUpTo]
      | true => simp [Proc.possessiveStar]
    rw [e]
    unfold possLoop
    refine h.first hp (fun q hq => ?_) (like_only (hk p (.refl hp)))
    have hrest : (inf = true → q ≠ p) → LikeF N (fun c => possLoop m guard inf n q c k) (runP k' (possItP g inf i q)) :=
      fun hne => ih i q k k' hq.1.right_le (hs q hq.1 hne) (fun t ht => hk t (hq.1.trans ht))
    by_cases hqp : q = p
    · subst hqp
      cases inf with
      | true =>
        rcases hguard rfl with hg | hg
        · subst hg
          simp only [Bool.true_and, beq_self_eq_true, if_true, and_self]
          exact like_only (hk q (.refl hp))
        · exact absurd rfl (hq.2 hg)
      | false =>
        have := hbound rfl
        subst this
        simp only [Bool.false_and, Bool.false_eq_true, if_false, false_and]
        exact hrest (by simp)
    · have h2 : (p == q) = false := by simpa using fun e => hqp e.symm
      simp only [h2, hqp, Bool.and_false, Bool.false_eq_true, if_false, and_false]
      exact hrest (fun _ => hqp)

end

section trivLoops
variable {a : Ast} {fwd : Bool}

theorem like_backTo {p : Nat} {k k' : Cont} (hk : ∀ q, E.Reach r p q → LikeF N (k q) (k' q)) :
    ∀ n q, E.Reach r p q → Env.dist r p q ≤ n → LikeF N (backOff r p k n q) (runP k' (.offers (backTo r p n q))) := by
  intro n
  induction n with
  | zero =>
    intro q hq hn
    show LikeF N (fun c => backOff r p k 0 q c) _
    unfold backOff
    have hqp : q = p := (Env.dist_eq_zero hq).1 (by omega)
    refine LikeF.orElse (hk q hq) ?_
    simp only [hqp, if_true]
    exact .nonMatch p 0
  | succ n ih =>
    intro q hq hn
    show LikeF N (fun c => backOff r p k (n + 1) q c) _
    unfold backOff
    by_cases hqp : q = p
    · subst hqp
      have e : backTo r q (n + 1) q = [q] := by simp [backTo]
      rw [e]
      refine LikeF.orElse (hk q hq) ?_
      simp only [if_true]
      exact .nonMatch q 0
    · have e : backTo r p (n + 1) q = q :: backTo r p n (Env.prev r q) := by
        rw [backTo, if_neg hqp]
      rw [e]
      refine LikeF.orElse (hk q hq) ?_
      simp only [hqp, if_false]
      have := Env.dist_prev hq hqp
      exact ih _ (Env.reach_prev hq hqp) (by omega)

theorem denP_greedyTriv (hf : fwd = (r % 2 == 0)) {inf : Bool} (n j p : Nat) (k k' : Cont) (hp : p ≤ E.inp.length) (hn : Rounds E r inf n j p)
    (hk : ∀ q, E.Reach r p q → LikeF N (k q) (k' q)) :
    LikeF N (fun c => greedyTriv E r a inf n p c k) (runP k' (.offers (greedyIter (oneChar E.inp fwd (accepts E.flags a)) inf j p))) := by
  have e : accepts E.flags a = matchOne E.flags a := by funext x; exact (matchOne_eq_accepts _ _ _).symm
  have hn1 : inf = true → E.remaining r p < n := fun hi => by simp only [Rounds, hi, if_true] at hn; exact hn.1
  have e2 : greedyIter (oneChar E.inp fwd (accepts E.flags a)) inf j p = greedyIter (oneChar E.inp fwd (accepts E.flags a)) inf n p := by
    unfold greedyIter
    cases inf with
    | true =>
      simp only [Rounds, if_true] at hn ⊢
      exact greedyStar_rounds (inside_oneChar hf _) _ _ hp hn.2 hn.1
    | false => simp only [Rounds, Bool.false_eq_true, if_false] at hn ⊢; rw [hn]
  rw [e2, e]
  unfold greedyTriv
  simp only [possTriv_eq n _ _ hp hn1]
  rw [greedyIter_oneChar hf _ n hp hn1]
  exact like_backTo hk _ _ (runEnd_reach _ n hp) (Nat.le_refl _)

theorem denP_possTriv (hf : fwd = (r % 2 == 0)) {inf : Bool} :
    ∀ n j p k k', p ≤ E.inp.length → Rounds E r inf n j p → (∀ q, E.Reach r p q → LikeF N (k q) (k' q)) →
    LikeF N (fun c => possTriv E r a inf n p c k) (runP k' (.offers (possIter (oneChar E.inp fwd (accepts E.flags a)) inf j p))) := by
  intro n
  induction n with
  | zero =>
    intro j p k k' hp hn hk
    obtain ⟨rfl, rfl⟩ := hn.zero
    exact like_only (hk p (.refl hp))
  | succ n ih =>
    intro j p k k' hp hn hk
    obtain ⟨i, rfl, hs⟩ := hn.succ
    have e : possIter (oneChar E.inp fwd (accepts E.flags a)) inf (i + 1) p =
        match oneChar E.inp fwd (accepts E.flags a) p with
        | [] => [p]
        | q :: _ => possIter (oneChar E.inp fwd (accepts E.flags a)) inf i q := by
      unfold possIter
      cases inf with
      | false =>
        simp only [possessiveUpTo, Bool.false_eq_true, if_false]
        cases oneChar E.inp fwd (accepts E.flags a) p <;> rfl
      | true =>
        simp only [possessiveStar, if_true]
        have hm : ∀ q ∈ oneChar E.inp fwd (accepts E.flags a) p, q ≠ p := by
          intro q hq
          obtain ⟨rfl, h0⟩ := oneChar_ne hf hp hq
          exact Env.next_ne hp h0
        cases hl : oneChar E.inp fwd (accepts E.flags a) p with
        | nil => rfl
        | cons q l => rw [hl] at hm; dsimp only; rw [if_neg (hm q (by simp))]
    rw [e]
    unfold possTriv
    by_cases h0 : E.remaining r p = 0
    · simp only [(Env.atEnd_iff hp).2 h0, if_true]
      rw [oneChar_end hf hp h0]
      exact like_only (hk p (.refl hp))
    · have h1 : E.atEnd r p = false := by
        rw [← Bool.not_eq_true, Env.atEnd_iff hp]; exact h0
      obtain ⟨x, hx⟩ := Env.deref_some hp h0
      rw [oneChar_next hf hp h0 hx]
      simp only [h1, hx, Bool.false_eq_true, if_false, matchOne_eq_accepts]
      cases hm : accepts E.flags a x with
      | true =>
        simp only [if_true]
        have hq := Env.reach_next hp h0
        exact ih i _ k k' hq.right_le (hs _ hq (fun _ => Env.next_ne hp h0)) (fun t ht => hk t (hq.trans ht))
      | false =>
        simp only [Bool.false_eq_true, if_false]
        exact like_only (hk p (.refl hp))

theorem denP_lazyTriv (hf : fwd = (r % 2 == 0)) {inf : Bool} :
    ∀ n j p k k', p ≤ E.inp.length → Rounds E r inf n j p → (∀ q, E.Reach r p q → LikeF N (k q) (k' q)) →
    LikeF N (fun c => lazyTriv E r a inf n p c k) (runP k' (.offers (lazyIter (oneChar E.inp fwd (accepts E.flags a)) inf j p))) := by
  intro n
  induction n with
  | zero =>
    intro j p k k' hp hn hk
    obtain ⟨rfl, rfl⟩ := hn.zero
    exact LikeF.orElse (hk p (.refl hp)) (.nonMatch p 0)
  | succ n ih =>
    intro j p k k' hp hn hk
    obtain ⟨i, rfl, hs⟩ := hn.succ
    have e : lazyIter (oneChar E.inp fwd (accepts E.flags a)) inf (i + 1) p =
        p :: (oneChar E.inp fwd (accepts E.flags a) p).flatMap (lazyIter (oneChar E.inp fwd (accepts E.flags a)) inf i) := by
      unfold lazyIter
      cases inf with
      | false => simp [lazyUpTo]
      | true =>
        simp only [lazyStar, if_true, List.singleton_append]
        congr 2
        refine List.filter_eq_self.2 (fun q hq => ?_)
        obtain ⟨rfl, h0⟩ := oneChar_ne hf hp hq
        simpa using Env.next_ne hp h0
    rw [e]
    unfold lazyTriv
    refine LikeF.orElse (hk p (.refl hp)) ?_
    by_cases h0 : E.remaining r p = 0
    · simp only [(Env.atEnd_iff hp).2 h0, if_true, oneChar_end hf hp h0]
      exact .nonMatch p 0
    · have h1 : E.atEnd r p = false := by
        rw [← Bool.not_eq_true, Env.atEnd_iff hp]; exact h0
      obtain ⟨x, hx⟩ := Env.deref_some hp h0
      rw [oneChar_next hf hp h0 hx]
      simp only [h1, hx, Bool.false_eq_true, if_false, matchOne_eq_accepts]
      cases hm : accepts E.flags a x with
      | true =>
        simp only [if_true, List.flatMap_cons, List.flatMap_nil, List.append_nil]
        have hq := Env.reach_next hp h0
        exact ih i _ k k' hq.right_le (hs _ hq (fun _ => Env.next_ne hp h0)) (fun t ht => hk t (hq.trans ht))
      | false =>
        simp only [Bool.false_eq_true, if_false]
        exact .nonMatch p 0

theorem greedyItP_offers (e : Nat → List Nat) (inf : Bool) (k p : Nat) :
    greedyItP (fun q => .offers (e q)) inf k p = .offers (greedyIter e inf k p) := by
  unfold greedyItP greedyIter; cases inf <;> simp [greedyUpTo_offers, greedyStar_offers]

theorem lazyItP_offers (e : Nat → List Nat) (inf : Bool) (k p : Nat) :
    lazyItP (fun q => .offers (e q)) inf k p = .offers (lazyIter e inf k p) := by
  unfold lazyItP lazyIter; cases inf <;> simp [lazyUpTo_offers, lazyStar_offers]

theorem possItP_offers (e : Nat → List Nat) (inf : Bool) (k p : Nat) :
    possItP (fun q => .offers (e q)) inf k p = .offers (possIter e inf k p) := by
  unfold possItP possIter; cases inf <;> simp [possessiveUpTo_offers, possessiveStar_offers]

end trivLoops

theorem denP_betweenBounds {a : Ast} {mode : Mode} {inf : Bool} {n : Nat} {fwd : Bool}
    (hf : fwd = (r % 2 == 0)) (h : DenP N E r (zlm a) m g)
    (ht : Ast.triv a = true → g = fun p => .offers (oneChar E.inp fwd (accepts E.flags a) p))
    (hn : inf = true → E.inp.length < n) :
    DenP N E r true (betweenBounds E r mode a m inf n) (Proc.extra E.inp.length mode E.flags.ungreedy g (if inf then none else some n)) := by
  intro p k k' hp hk
  replace hk : ∀ q, E.Reach r p q → LikeF N (k q) (k' q) := fun q hq => hk q ⟨hq, fun e => by cases e⟩
  have hrem := Env.remaining_le (E := E) (r := r) hp
  have hguard : inf = true → (inf && zlm a) = true ∨ zlm a = false := by
    intro hi
    cases hza : zlm a with
    | true => left; simp [hi]
    | false => exact .inr rfl
  have hbound : inf = false → (inf && zlm a) = false := by intro hi; simp [hi]
  obtain ⟨j, hj, e⟩ : ∃ j, Rounds E r inf n j p ∧ Proc.extra E.inp.length mode E.flags.ungreedy g (if inf then none else some n) p =
      if mode = .possessive then possItP g inf j p
      else if Bool.xor (mode == .greedy) E.flags.ungreedy then greedyItP g inf j p else lazyItP g inf j p := by
    cases inf with
    | false =>
      refine ⟨n, by simp [Rounds], ?_⟩
      cases mode <;> cases E.flags.ungreedy <;> simp [Proc.extra, possItP, greedyItP, lazyItP]
    | true =>
      have := hn rfl
      refine ⟨E.inp.length + 1, by simp only [Rounds, if_true]; omega, ?_⟩
      cases mode <;> cases E.flags.ungreedy <;> simp [Proc.extra, possItP, greedyItP, lazyItP]
  rw [e]
  unfold betweenBounds
  split
  · split
    · next hta =>
      rw [ht hta, possItP_offers]
      exact denP_possTriv hf n j p k k' hp hj hk
    · exact denP_possLoop h hguard hbound n j p k k' hp hj hk
  · split
    · split
      · next hta =>
        simp only [Bool.and_eq_true] at hta
        rw [ht hta.1, greedyItP_offers]
        exact denP_greedyTriv hf n j p k k' hp hj hk
      · exact denP_greedyLoop h hguard hbound n j p k k' hp hj hk
    · split
      · next hta =>
        rw [ht hta, lazyItP_offers]
        exact denP_lazyTriv hf n j p k k' hp hj hk
      · exact denP_lazyLoop h hguard hbound n j p k k' hp hj hk

theorem extraP_zero {n : Nat} {mode : Mode} {u : Bool} {g : Nat → Proc} : Proc.extra n mode u g (some 0) = Proc.only := by
  funext p
  cases mode <;> cases u <;> rfl

theorem denP_repMatch {a : Ast} {mode : Mode} {lo : Nat} {hi : Bound} {n : Nat} {fwd : Bool}
    (hf : fwd = (r % 2 == 0)) (h : DenP N E r (zlm a) m g)
    (ht : Ast.triv a = true → g = fun p => .offers (oneChar E.inp fwd (accepts E.flags a) p))
    (hn : E.inp.length < n) (hlo : ∀ h, hi = .fin h → lo ≤ h) :
    DenP N E r (lo == 0 || zlm a) (repMatch E r n mode lo hi a m) (Proc.quantified E.inp.length mode E.flags.ungreedy lo hi g) := by
  have hq : ∀ p, Proc.quantified E.inp.length mode E.flags.ungreedy lo hi g p =
      (requiredP mode g lo p).proceed (Proc.extra E.inp.length mode E.flags.ungreedy g (match hi with | .fin h => some (h - lo) | .inf => none)) := by
    intro p; cases mode <;> cases hi <;> rfl
  have h0E : ∀ p, requiredP mode g 0 p = .only p := by intro p; cases mode <;> rfl
  unfold repMatch
  split
  · next hh =>
    have hlh := hlo hh rfl
    split
    · next heq =>
      subst heq
      refine (denP_fixedMatch (mode := mode) (n := hh) hf h ht).congr (fun p hp => ?_)
      rw [hq]
      simp only [Nat.sub_self, extraP_zero, goOn_only]
    · split
      · omega
      · split
        · next h0 =>
          subst h0
          refine ((denP_betweenBounds (mode := mode) (inf := false) (n := hh) hf h ht (by simp)).congr (fun p hp => ?_)).mono (by simp)
          rw [hq, h0E, only_goOn]
          simp
        · refine (((denP_fixedMatch (mode := mode) (n := lo) hf h ht).comp
            (denP_betweenBounds (mode := mode) (inf := false) (n := hh - lo) hf h ht (by simp))).congr (fun p hp => ?_)).mono (by simp)
          rw [hq]; rfl
  · split
    · next h0 =>
      subst h0
      refine ((denP_betweenBounds (mode := mode) (inf := true) (n := n) hf h ht (fun _ => hn)).congr (fun p hp => ?_)).mono (by simp)
      rw [hq, h0E, only_goOn]
      simp
    · refine (((denP_fixedMatch (mode := mode) (n := lo) hf h ht).comp
        (denP_betweenBounds (mode := mode) (inf := true) (n := n) hf h ht (fun _ => hn))).congr (fun p hp => ?_)).mono (by simp)
      rw [hq]; rfl

/-! ### Sequences and alternations -/

variable {ν : List Byte → Nat}

theorem charSeq_procAll {f : Flags} {s : List Byte} {l : List Ast} (hl : areTriv l = true) (p : Nat) :
    .offers (charSeq f s (r % 2 == 0) l p) = procAll f s ν l r false p := by
  induction l generalizing p with
  | nil => simp only [charSeq, procAll]; rfl
  | cons a l ih =>
    simp only [areTriv, List.all_cons, Bool.and_eq_true] at hl
    simp only [charSeq, procAll, Bool.false_eq_true, if_false]
    rw [← goOn_offers, proc_triv hl.1]
    congr 1
    funext q
    exact ih hl.2 q

theorem denP_seqMatch {l : List Ast} {m : Ast → Matcher} (hne : l ≠ [])
    (h : ∀ a ∈ l, DenP N E r (zlm a) (m a) (proc E.flags E.inp ν a r false)) :
    DenP N E r (zlmAll l) (seqMatch E r m l) (procAll E.flags E.inp ν l r false) := by
  match l with
  | [] => exact absurd rfl hne
  | a :: l =>
    induction l generalizing a with
    | nil =>
      rw [procAll_one]
      exact (h a (by simp)).mono (by simp [zlmAll])
    | cons b l ih =>
      unfold seqMatch
      split
      · next ht => exact ((DenP.seqTriv rfl _).congr (fun p _ => charSeq_procAll ht p)).mono (by simp)
      · refine (((h a (by simp)).comp (ih b (by simp) (fun x hx => h x (List.mem_cons_of_mem _ hx)))).congr (fun p _ => ?_)).mono
          (by rw [zlmAll]; exact fun h => h)
        simp [procAll]

theorem denP_altMatch {l : List Ast} {m : Ast → Matcher} (hne : l ≠ [])
    (h : ∀ a ∈ l, DenP N E r (zlm a) (m a) (proc E.flags E.inp ν a r false)) :
    DenP N E r (zlmAny l) (altMatch E r m l) (procAny E.flags E.inp ν l r false) := by
  match l with
  | [] => exact absurd rfl hne
  | a :: l =>
    induction l generalizing a with
    | nil =>
      refine ((h a (by simp)).congr (fun p _ => ?_)).mono (by simp [zlmAny])
      simp only [procAny, andThen_done, characters_triv]
      split
      · next ht =>
        simp only [areTriv, List.all_cons, List.all_nil, Bool.and_true] at ht
        rw [proc_triv ht]
        congr 2
        funext x; simp [acceptsAny]
      · rfl
    | cons b l ih =>
      unfold altMatch
      split
      · next ht =>
        refine ((DenP.triv rfl _).congr (fun p _ => ?_)).mono (by simp)
        have e : accepts E.flags (.set (a :: b :: l)) = acceptsAny E.flags (a :: b :: l) := by
          funext x; simp only [accepts]
        rw [e, procAny, characters_triv, if_pos ht]
      · next ht =>
        refine (((h a (by simp)).orElse (ih b (by simp) (fun x hx => h x (List.mem_cons_of_mem _ hx)))).congr
          (fun p _ => ?_)).mono (by rw [zlmAny.eq_2 a]; exact fun h => h)
        rw [procAny.eq_2 _ _ _ _ _ _ a, characters_triv, if_neg ht]

/-- A lookaround for one character. -/
theorem look_trivP {a : Ast} (ht : triv a = true) (f : Flags) (s : List Byte) (r : Nat) (inv : Bool) (p : Nat) :
    .offers (test (!(oneChar s (r % 2 == 0) (accepts f a) p).isEmpty) p) = (proc f s ν a r inv p).commit (fun _ => .only p) .done := by
  rw [proc_triv ht]
  have := oneChar_short s (r % 2 == 0) (accepts f a) p
  match oneChar s (r % 2 == 0) (accepts f a) p, this with
  | [], _ => rfl
  | [q], _ => rfl

/-- The matcher carries out the procedure, whatever the captures are. -/
theorem mtch_proc (hN : N = E.names.length) (hν : ∀ n id, nameIndex E.names n = some id → ν n = id) :
    ∀ fuel a r, Ok E r a → a.depth + E.inp.length + 1 ≤ fuel → DenP N E r (zlm a) (mtch E fuel a r) (proc E.flags E.inp ν a r false) := by
  intro fuel
  induction fuel with
  | zero => intro a r _ h; omega
  | succ k ih =>
    intro a r hok hfuel
    have hrep : ∀ m lo hi b, Ok E r b → b.depth + E.inp.length + 1 ≤ k → (∀ h, hi = .fin h → lo ≤ h) →
        DenP N E r (lo == 0 || zlm b) (repMatch E r k m lo hi b (mtch E k b r))
          (Proc.quantified E.inp.length m E.flags.ungreedy lo hi (proc E.flags E.inp ν b r false)) := by
      intro m lo hi b hb hk hlo
      exact denP_repMatch rfl (ih b r hb hk) (fun ht => funext (proc_triv ht _ _ _ _ _)) (by omega) hlo
    unfold mtch
    cases hok with
    | empty => dsimp only; exact DenP.id.congr (fun p _ => by simp only [proc, ends]; rfl)
    | lit => dsimp only; exact ((DenP.triv rfl _).congr (fun p _ => by simp only [proc, ends])).mono (by simp)
    | range => dsimp only; exact ((DenP.triv rfl _).congr (fun p _ => by simp only [proc, ends])).mono (by simp)
    | wildcard => dsimp only; exact ((DenP.triv rfl _).congr (fun p _ => by simp only [proc, ends])).mono (by simp)
    | set => dsimp only; exact ((DenP.triv rfl _).congr (fun p _ => by simp only [proc, ends])).mono (by simp)
    | @neg _ b hb hok =>
      simp only [depth] at hfuel
      dsimp only
      split
      · next ha =>
        refine ((ih b r hok (by omega)).negAssert.congr (fun p _ => ?_)).mono (by simp [zlm, ha])
        simp only [proc, assertion_eq, ha, if_true]
      · next ha =>
        refine ((DenP.triv rfl _).congr (fun p _ => ?_)).mono (by simp)
        simp only [proc, assertion_eq]
        rw [if_neg ha]
    | @seq _ l hne hl =>
      simp only [depth] at hfuel
      dsimp only
      refine ((denP_seqMatch (ν := ν) hne (fun b hb => ?_)).congr (fun p _ => by simp only [proc])).mono (by simp [zlm])
      have := depth_le_all hb
      exact ih b r (hl b hb) (by omega)
    | @alt _ l hne hl =>
      simp only [depth] at hfuel
      dsimp only
      refine ((denP_altMatch (ν := ν) hne (fun b hb => ?_)).congr (fun p _ => by simp only [proc])).mono (by simp [zlm])
      have := depth_le_all hb
      exact ih b r (hl b hb) (by omega)
    | @cap _ id name b hn hr hok =>
      simp only [depth] at hfuel
      dsimp only
      exact ((denP_cap (ih b r hok (by omega)) hN hn hr).congr (fun p _ => by simp only [proc])).mono (by simp [zlm])
    | @repFin _ m lo hi b hlo hok =>
      simp only [depth] at hfuel
      dsimp only
      exact ((hrep m lo _ b hok (by omega) (fun h e => by cases e; exact hlo)).congr (fun p _ => by simp only [proc])).mono (by simp [zlm])
    | @repInf _ m lo b hok =>
      simp only [depth] at hfuel
      dsimp only
      exact ((hrep m lo _ b hok (by omega) (fun h e => by cases e)).congr (fun p _ => by simp only [proc])).mono (by simp [zlm])
    | @ahead _ b hok =>
      simp only [depth] at hfuel
      dsimp only
      split
      · next ht =>
        refine ((DenP.assert (fun p hp => oneChar_isEmpty (E := E) (r := r) (a := b) rfl hp)).congr (fun p _ => ?_))
        rw [look_trivP ht E.flags E.inp r false p]
        simp only [proc]
        rfl
      · refine (ih b r hok (by omega)).look.congr (fun p _ => ?_)
        simp only [proc]
        rfl
    | @behindTriv _ b hcat ht hok =>
      dsimp only
      rw [if_pos ht]
      refine (DenP.assert (b := fun p => !(oneChar E.inp ((r + 1) % 2 == 0) (accepts E.flags b) p).isEmpty)
        (fun p hp => ?_)).congr (fun p _ => ?_)
      · rw [lookbehindTriv_eq hcat]
        exact oneChar_isEmpty rfl hp
      · rw [look_trivP ht E.flags E.inp (r + 1) true p]
        simp only [proc]
        rfl
    | @behind _ b hcat hok =>
      simp only [depth] at hfuel
      dsimp only
      split
      · next ht =>
        refine (DenP.assert (b := fun p => !(oneChar E.inp ((r + 1) % 2 == 0) (accepts E.flags b) p).isEmpty)
          (fun p hp => ?_)).congr (fun p _ => ?_)
        · rw [lookbehindTriv_eq hcat]
          exact oneChar_isEmpty rfl hp
        · rw [look_trivP ht E.flags E.inp (r + 1) true p]
          simp only [proc]
          rfl
      · refine ((ih (invert b) (r + 1) hok (by rw [depth_invert]; omega)).look).congr (fun p _ => ?_)
        rw [proc_invert]
        simp only [proc]
        rfl
    | bol h =>
      dsimp only
      exact (DenP.assert (fun p hp => beginPred_eq rfl (fun _ => h) hp)).congr
        (fun p _ => by simp only [proc, ends, Bool.true_and])
    | boi =>
      dsimp only
      exact (DenP.assert (fun p hp => beginPred_eq rfl (by simp) hp)).congr
        (fun p _ => by simp only [proc, ends, Bool.false_and])
    | eol =>
      dsimp only
      exact (DenP.assert (fun p hp => endPred_eq rfl hp)).congr
        (fun p _ => by simp only [proc, ends, Bool.true_and])
    | eoi =>
      dsimp only
      exact (DenP.assert (fun p hp => endPred_eq rfl hp)).congr
        (fun p _ => by simp only [proc, ends, Bool.false_and])
    | wordB h =>
      dsimp only
      exact (DenP.assert (fun p hp => wordBoundaryPred_eq h hp)).congr (fun p _ => by simp only [proc, ends])
    | @backref _ id hcat hid =>
      dsimp only
      exact (denP_reference hcat (by rw [hN]; exact hid)).congr (fun p _ => by simp only [proc])
    | @namedBackref _ name hcat hcount =>
      dsimp only
      have hid : nameIndex E.names name = some (E.names.idxOf (some name)) := by rw [nameIndex, if_pos hcount]
      have hlt : E.names.idxOf (some name) < N := by
        rw [hN]
        refine List.idxOf_lt_length_of_mem (List.count_pos_iff.1 (by omega))
      simp only [hid]
      exact (denP_reference hcat hlt).congr (fun p _ => by simp only [proc, hν _ _ hid])

end
end Mregex
