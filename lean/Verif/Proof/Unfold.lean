import Verif.Proof.Branches
import Verif.Proof.Moves
import Verif.Proof.ProcMethods
import Verif.Proof.Usable

/-!
# Unfolding
-/

namespace Mregex
open Ast Spec

/-! ### Procedures that offer exactly once -/

/-- One offer, after which nothing is left. -/
def Proc.One : Proc → Prop
  | .done => False
  | .note _ _ _ P => Proc.One P
  | .cross _ P => Proc.One P
  | .offer _ P => P = .done
  | .recall _ f => ∀ v, Proc.One (f v)

theorem commit_commit (P h h' : Proc) (g : Nat → Proc) : (P.commit Proc.only h).commit g h' = P.commit g (h.commit g h') := by
  induction P with
  | done => rfl
  | note _ _ _ P ih => simp only [Proc.commit, ih]
  | cross _ P ih => simp only [Proc.commit, ih]
  | offer q P ih => rfl
  | recall _ f ih => simp only [Proc.commit, ih]

theorem andThen_commit (P Q h : Proc) (g : Nat → Proc) : (P.andThen Q).commit g h = P.commit g (Q.commit g h) := by
  induction P with
  | done => rfl
  | note _ _ _ P ih => simp only [Proc.andThen, Proc.commit, ih]
  | cross _ P ih => simp only [Proc.andThen, Proc.commit, ih]
  | offer q P ih => rfl
  | recall _ f ih => simp only [Proc.andThen, Proc.commit, ih]

theorem one_commit {P : Proc} (h : Proc.One P) (Q e : Proc) : (P.andThen Q).commit Proc.only e = P := by
  induction P with
  | done => exact False.elim h
  | note _ _ _ P ih => simp only [Proc.andThen, Proc.commit, ih h]
  | cross _ P ih => simp only [Proc.andThen, Proc.commit, ih h]
  | offer q P ih =>
    have h : P = .done := h
    subst h; rfl
  | recall _ f ih => simp only [Proc.andThen, Proc.commit, fun v => ih v (h v)]

theorem proceed_one {Q : Nat → Prop} {P : Proc} {g : Nat → Proc} (h : Proc.All Q P) (hg : ∀ q, Q q → Proc.One (g q)) (e : Proc) :
    (P.proceed g).commit Proc.only e = P.commit g e := by
  induction P with
  | done => rfl
  | note _ _ _ P ih => simp only [Proc.proceed, Proc.commit, ih h]
  | cross _ P ih => simp only [Proc.proceed, Proc.commit, ih h]
  | offer q P ih => exact one_commit (hg q h.1) _ _
  | recall _ f ih => simp only [Proc.proceed, Proc.commit, fun v => ih v (h v)]

theorem one_of_commit {Q : Nat → Prop} {P e : Proc} {g : Nat → Proc} (h : Proc.All Q P) (hg : ∀ q, Q q → Proc.One (g q)) (he : Proc.One e) :
    Proc.One (P.commit g e) := by
  induction P with
  | done => exact he
  | note _ _ _ P ih => exact ih h
  | cross _ P ih => exact ih h
  | offer q P ih => exact hg q h.1
  | recall _ f ih => exact fun v => ih v (h v)

theorem one_possessiveUpTo (g : Nat → Proc) (k p : Nat) : Proc.One (Proc.possessiveUpTo g k p) := by
  induction k generalizing p with
  | zero => rfl
  | succ k ih => exact one_of_commit (all_true _) (fun q _ => ih q) rfl

theorem one_possessiveStar {n : Nat} {fwd : Bool} {g : Nat → Proc} (hg : ∀ p, Proc.All (Moves n fwd false p) (g p)) (k p : Nat) (h : room n fwd p < k) :
    Proc.One (Proc.possessiveStar g k p) := by
  induction k generalizing p with
  | zero => omega
  | succ k ih =>
    refine one_of_commit (hg p) (fun q hq => ?_) rfl
    split
    · rfl
    · next hne =>
      rcases hq with ⟨e, _⟩ | hq
      · exact absurd e hne
      · have := room_lt hq
        exact ih q (by omega)

/-! ### Quantifiers -/

section
variable {f : Flags} {m : Mode} {n : Nat} {g : Nat → Proc}

theorem quantified_zero (hi : Bound) (p : Nat) :
    Proc.quantified n m f.ungreedy 0 hi g p = Proc.extra n m f.ungreedy g (match hi with | .fin h => some h | .inf => none) p := by
  unfold Proc.quantified
  cases m <;> cases hi <;> exact only_goOn _ _

theorem quantified_exact (k p : Nat) :
    Proc.quantified n m f.ungreedy k (.fin k) g p =
      match m with | .possessive => (Proc.times g k p).commit Proc.only .done | _ => Proc.times g k p := by
  unfold Proc.quantified
  simp only [Nat.sub_self, extraP_zero, goOn_only]
  cases m <;> rfl

theorem quantified_exact' (hm : m ≠ .possessive) (k p : Nat) : Proc.quantified n m f.ungreedy k (.fin k) g p = Proc.times g k p := by
  rw [quantified_exact]
  cases m with
  | possessive => exact absurd rfl hm
  | greedy => rfl
  | lazy => rfl

theorem quantified_atomic (p : Nat) : Proc.quantified n .possessive f.ungreedy 1 (.fin 1) g p = (g p).commit Proc.only .done := by
  rw [quantified_exact]
  simp only [times_one]

theorem quantified_split (lo k p : Nat) : Proc.quantified n m f.ungreedy lo (.fin (lo + k)) g p =
    (Proc.quantified n m f.ungreedy lo (.fin lo) g p).proceed (Proc.quantified n m f.ungreedy 0 (.fin k) g) := by
  rw [quantified_exact, show Proc.quantified n m f.ungreedy 0 (.fin k) g = _ from funext (quantified_zero (.fin k))]
  unfold Proc.quantified
  simp only [Nat.add_sub_cancel_left]
  cases m <;> rfl

theorem quantified_splitInf (lo p : Nat) : Proc.quantified n m f.ungreedy lo .inf g p =
    (Proc.quantified n m f.ungreedy lo (.fin lo) g p).proceed (Proc.quantified n m f.ungreedy 0 .inf g) := by
  rw [quantified_exact, show Proc.quantified n m f.ungreedy 0 .inf g = _ from funext (quantified_zero .inf)]
  cases m <;> rfl

theorem extra_eager (h : Eager f m) (k : Nat) : Proc.extra n m f.ungreedy g (some k) = Proc.greedyUpTo g k := by
  rcases h with ⟨rfl, h⟩ | ⟨rfl, h⟩ <;> simp [Proc.extra, h]

theorem extra_reluctant (h : Reluctant f m) (k : Nat) : Proc.extra n m f.ungreedy g (some k) = Proc.lazyUpTo g k := by
  rcases h with ⟨rfl, h⟩ | ⟨rfl, h⟩ <;> simp [Proc.extra, h]

theorem extra_eagerStar (h : Eager f m) : Proc.extra n m f.ungreedy g none = Proc.greedyStar g (n + 1) := by
  rcases h with ⟨rfl, h⟩ | ⟨rfl, h⟩ <;> simp [Proc.extra, h]

theorem extra_reluctantStar (h : Reluctant f m) : Proc.extra n m f.ungreedy g none = Proc.lazyStar g (n + 1) := by
  rcases h with ⟨rfl, h⟩ | ⟨rfl, h⟩ <;> simp [Proc.extra, h]

theorem times_add (j k p : Nat) : Proc.times g (j + k) p = (Proc.times g j p).proceed (Proc.times g k) := by
  induction j generalizing p with
  | zero => rw [Nat.zero_add]; exact (only_goOn _ _).symm
  | succ j ih =>
    rw [Nat.succ_add]
    simp only [Proc.times, goOn_assoc]
    congr 1
    funext q
    exact ih q

theorem times_mul (j k p : Nat) : Proc.times (Proc.times g k) j p = Proc.times g (j * k) p := by
  induction j generalizing p with
  | zero => rw [Nat.zero_mul]; rfl
  | succ j ih =>
    rw [Nat.succ_mul, Nat.add_comm (j * k) k, times_add k, Proc.times.eq_2 (Proc.times g k) p j]
    congr 1
    funext q
    exact ih q

section
variable {fwd : Bool} (hg : ∀ p, Proc.All (Moves n fwd true p) (g p))
include hg

theorem onward_of_moves (p : Nat) : Proc.All (Onward n fwd p) (g p) :=
  all_mono (hg p) (fun q hq => by
    rcases hq with ⟨_, h⟩ | h
    · cases h
    · exact h)

theorem greedyStar_unfold (p : Nat) :
    Proc.greedyStar g (n + 1) p = ((g p).proceed (Proc.greedyStar g (n + 1))).andThen (Proc.only p) := by
  have hg' : ∀ p, Proc.All (Moves n fwd false p) (g p) := fun p => all_mono (hg p) (fun q hq => hq.weaken (by simp))
  rw [Proc.greedyStar, except_eq (all_mono (onward_of_moves hg p) (fun q hq => hq.ne))]
  congr 1
  refine proceed_on (onward_of_moves hg p) (fun q hq => ?_)
  have := room_lt hq
  have := room_le n fwd p
  exact greedyStar_fuel hg' _ _ q (by omega) (by omega)

theorem lazyStar_unfold (p : Nat) : Proc.lazyStar g (n + 1) p = .offer p ((g p).proceed (Proc.lazyStar g (n + 1))) := by
  have hg' : ∀ p, Proc.All (Moves n fwd false p) (g p) := fun p => all_mono (hg p) (fun q hq => hq.weaken (by simp))
  rw [Proc.lazyStar, except_eq (all_mono (onward_of_moves hg p) (fun q hq => hq.ne))]
  congr 1
  refine proceed_on (onward_of_moves hg p) (fun q hq => ?_)
  have := room_lt hq
  have := room_le n fwd p
  exact lazyStar_fuel hg' _ _ q (by omega) (by omega)

theorem possessiveStar_unfold (p : Nat) : Proc.possessiveStar g (n + 1) p =
    (((g p).proceed (Proc.possessiveStar g (n + 1))).andThen (Proc.only p)).commit Proc.only .done := by
  have hg' : ∀ p, Proc.All (Moves n fwd false p) (g p) := fun p => all_mono (hg p) (fun q hq => hq.weaken (by simp))
  rw [andThen_commit, proceed_one (onward_of_moves hg p) (fun q hq => ?_)]
  · rw [Proc.possessiveStar]
    refine commit_on (onward_of_moves hg p) (fun q hq => ?_)
    rw [if_neg hq.ne]
    have := room_lt hq
    have := room_le n fwd p
    exact possessiveStar_fuel hg' _ _ q (by omega) (by omega)
  · have := room_le n fwd q
    exact one_possessiveStar hg' _ q (by omega)

end
end

/-! ### Alternatives -/

section
variable {f : Flags} {s : List Byte} {ν : List Byte → Nat} {r : Nat} {inv : Bool}

theorem procAny_one (a : Ast) (p : Nat) : procAny f s ν [a] r inv p = proc f s ν a r inv p := by
  simp only [procAny, characters, Bool.and_true]
  split
  · next h =>
    rw [character_eq] at h
    rw [proc_triv h]
    congr 2
    funext x
    simp [acceptsAny]
  · exact andThen_done _

theorem procAny_cons {a : Ast} {l : List Ast} (h : characters (a :: l) = false) (p : Nat) :
    procAny f s ν (a :: l) r inv p = (proc f s ν a r inv p).andThen (procAny f s ν l r inv p) := by
  simp only [procAny, h, Bool.false_eq_true, if_false]

theorem procAny_maybe (a : Ast) (p : Nat) : procAny f s ν [a, .empty] r inv p = (proc f s ν a r inv p).andThen (Proc.only p) := by
  rw [procAny_cons (by simp [characters, character]), procAny_one]
  simp only [proc, ends, only_offers]

theorem procAny_reluctant (a : Ast) (p : Nat) : procAny f s ν [.empty, a] r inv p = .offer p (proc f s ν a r inv p) := by
  rw [procAny_cons (by simp [characters, character]), procAny_one]
  simp only [proc, ends]
  rfl

theorem proc_inOrder (a b : Ast) (p : Nat) : proc f s ν (inOrder inv a b) r inv p = (proc f s ν a r inv p).proceed (proc f s ν b r inv) := by
  cases inv with
  | false =>
    simp only [inOrder, Bool.false_eq_true, if_false, proc]
    rw [show [a, b] = a :: [b] from rfl, procAll]
    simp only [Bool.false_eq_true, if_false, procAll_one]
  | true =>
    simp only [inOrder, if_true, proc]
    rw [show [b, a] = b :: [a] from rfl, procAll]
    simp only [if_true, procAll_one]

/-- Alternatives, the last of which is not a character. -/
theorem procAny_tried {l : List Ast} {x : Ast} (hx : character x = false) (p : Nat) :
    procAny f s ν (l ++ [x]) r inv p = l.foldr (fun a P => (proc f s ν a r inv p).andThen P) (proc f s ν x r inv p) := by
  induction l with
  | nil => exact procAny_one x p
  | cons a l ih =>
    rw [List.cons_append, procAny_cons (by simp [characters_eq, hx]), ih]
    rfl

theorem acceptsAny_app (f : Flags) (l l' : List Ast) (x : Byte) : acceptsAny f (l ++ l') x = (acceptsAny f l x || acceptsAny f l' x) := by
  induction l with
  | nil => simp [acceptsAny]
  | cons a l ih => simp only [List.cons_append, acceptsAny, ih, Bool.or_assoc]

end

/-! ### Expressions that do the same -/

/-- Two expressions with the same procedures, usable in the same places. -/
structure Akin (f : Flags) (inv : Bool) (a b : Ast) : Prop where
  names : nameSpec a = nameSpec b
  triv : triv a = triv b
  asrt : isAssertion a = isAssertion b
  ok : ∀ (E : Env) (r : Nat), (Ok E r a ↔ Ok E r b) ∧ (Ok E r (invert a) ↔ Ok E r (invert b))
  proc : ∀ (s : List Byte) (ν : List Byte → Nat) (r : Nat), proc f s ν a r inv = proc f s ν b r inv

section
variable {f : Flags} {inv : Bool} {a b : Ast}

theorem Akin.accepts (h : Akin f inv a b) (ht : Ast.triv a = true) : accepts f a = accepts f b := by
  funext x
  have hp := congrFun (h.proc [x] (fun _ => 0) 0) 0
  rw [proc_triv ht, proc_triv (h.triv ▸ ht)] at hp
  simp only [oneChar, readChar, Nat.zero_mod, BEq.rfl, if_true, List.getElem?_cons_zero, Option.map_some] at hp
  cases h1 : Spec.accepts f a x <;> cases h2 : Spec.accepts f b x <;> simp_all [Proc.offers]

theorem same_seq (pre post : List Ast) (h : Akin f inv a b) : Akin f inv (.seq (pre ++ a :: post)) (.seq (pre ++ b :: post)) := by
  refine ⟨?_, ?_, ?_, fun E r => ⟨?_, ?_⟩, fun s ν r => ?_⟩
  · simp only [nameSpec, nameSpecAll_app, nameSpecAll, h.names]
  · simp only [Ast.triv, trivSingle_eq, List.length_append, List.length_cons, List.all_append, List.all_cons, h.triv]
  · simp only [isAssertion_seq, List.length_append, List.length_cons, List.all_append, List.all_cons, h.asrt]
  · rw [ok_seq, ok_seq, all_mid, all_mid, (h.ok E r).1]; simp
  · simp only [invert, invertAll_eq, List.map_append, List.map_cons, List.reverse_append, List.reverse_cons, List.append_assoc, List.singleton_append]
    rw [ok_seq, ok_seq, all_mid, all_mid, (h.ok E r).2]; simp
  · funext p
    simp only [proc]
    have e : procAll f s ν (a :: post) r inv = procAll f s ν (b :: post) r inv := by
      funext p
      simp only [procAll, h.proc]
    rw [procAll_append, procAll_append, e]

theorem same_alt (pre post : List Ast) (h : Akin f inv a b) : Akin f inv (.alt (pre ++ a :: post)) (.alt (pre ++ b :: post)) := by
  refine ⟨?_, ?_, ?_, fun E r => ⟨?_, ?_⟩, fun s ν r => ?_⟩
  · simp only [nameSpec, nameSpecAll_app, nameSpecAll, h.names]
  · simp only [Ast.triv, trivAlt_eq, List.all_append, List.all_cons, h.triv]
    cases pre <;> simp
  · simp only [isAssertion_alt, List.length_append, List.length_cons, List.all_append, List.all_cons, h.asrt]
  · rw [ok_alt, ok_alt, all_mid, all_mid, (h.ok E r).1]; simp
  · simp only [invert, invertAll_eq, List.map_append, List.map_cons]
    rw [ok_alt, ok_alt, all_mid, all_mid, (h.ok E r).2]; simp
  · funext p
    simp only [proc]
    have ht : ∀ l, characters (l ++ a :: post) = characters (l ++ b :: post) := by
      intro l; simp only [characters_triv, areTriv, List.all_append, List.all_cons, h.triv]
    have ha : ∀ l, characters (l ++ a :: post) = true → acceptsAny f (l ++ a :: post) = acceptsAny f (l ++ b :: post) := by
      intro l hl
      have hta : Ast.triv a = true := by
        simp only [characters_triv, areTriv, List.all_append, List.all_cons, Bool.and_eq_true] at hl
        exact hl.2.1
      funext x
      simp only [acceptsAny_app, acceptsAny, h.accepts hta]
    induction pre with
    | nil =>
      have ht := ht []
      have ha := ha []
      simp only [List.nil_append] at ht ha ⊢
      cases hc : characters (a :: post) with
      | true =>
        have hc' := ht ▸ hc
        simp only [procAny, hc, hc', if_true, ha hc]
      | false =>
        have hc' := ht ▸ hc
        rw [procAny_cons hc, procAny_cons hc', h.proc]
    | cons c pre ih =>
      have ht := ht (c :: pre)
      have ha := ha (c :: pre)
      simp only [List.cons_append] at ht ha ⊢
      cases hc : characters (c :: (pre ++ a :: post)) with
      | true =>
        have hc' := ht ▸ hc
        simp only [procAny, hc, hc', if_true, ha hc]
      | false =>
        have hc' := ht ▸ hc
        rw [procAny_cons hc, procAny_cons hc', ih]

theorem same_cap (id : Nat) (name : GroupName) (h : Akin f inv a b) : Akin f inv (.cap id name a) (.cap id name b) := by
  have hk : ∀ {E : Env} {r : Nat} {a b : Ast}, (Ok E r a ↔ Ok E r b) → Ok E r (.cap id name a) → Ok E r (.cap id name b) := by
    intro E r a b h ho
    cases ho with | cap h1 h2 h3 => exact .cap h1 h2 (h.1 h3)
  refine ⟨?_, ?_, ?_, fun E r => ⟨⟨hk (h.ok E r).1, hk (h.ok E r).1.symm⟩, ⟨hk (h.ok E r).2, hk (h.ok E r).2.symm⟩⟩, fun s ν r => ?_⟩
  · simp only [nameSpec, h.names]
  · simp only [Ast.triv]
  · simp only [isAssertion]
  · funext p
    simp only [proc, h.proc]

theorem same_rep (m : Mode) (lo : Nat) (hi : Bound) (h : Akin f inv a b) : Akin f inv (.rep m lo hi a) (.rep m lo hi b) := by
  refine ⟨?_, ?_, ?_, fun E r => ⟨?_, ?_⟩, fun s ν r => ?_⟩
  · simp only [nameSpec, h.names]
  · simp only [Ast.triv, h.triv]
  · simp only [isAssertion, h.asrt]
  · rw [ok_rep, ok_rep, (h.ok E r).1]
  · simp only [invert]; rw [ok_rep, ok_rep, (h.ok E r).2]
  · funext p
    simp only [proc, h.proc]

theorem ok_ahead_iff {E : Env} {r : Nat} {a : Ast} : Ok E r (.look .ahead a) ↔ Ok E r a :=
  ⟨fun h => by cases h with | ahead h => exact h, .ahead⟩

theorem same_look_ok {d : LookDir} (h : ∀ (E : Env) (r : Nat), (Ok E r a ↔ Ok E r b) ∧ (Ok E r (invert a) ↔ Ok E r (invert b))) (E : Env) (r : Nat) :
    (Ok E r (.look d a) ↔ Ok E r (.look d b)) ∧ (Ok E r (invert (.look d a)) ↔ Ok E r (invert (.look d b))) := by
  cases d with
  | ahead => simp only [invert]; rw [ok_ahead_iff, ok_ahead_iff, ok_behind, ok_behind, (h E r).1, (h E (r + 1)).2]; exact ⟨Iff.rfl, Iff.rfl⟩
  | behind => simp only [invert]; rw [ok_ahead_iff, ok_ahead_iff, ok_behind, ok_behind, (h E r).1, (h E (r + 1)).2]; exact ⟨Iff.rfl, Iff.rfl⟩

theorem same_ahead (h : Akin f inv a b) : Akin f inv (.look .ahead a) (.look .ahead b) := by
  refine ⟨?_, rfl, rfl, same_look_ok h.ok, fun s ν r => ?_⟩
  · simp only [nameSpec, h.names]
  · funext p
    have hp := h.proc
    cases inv <;> simp [proc, hp]

theorem same_behind (h : Akin f (!inv) a b) : Akin f inv (.look .behind a) (.look .behind b) := by
  refine ⟨?_, rfl, rfl, same_look_ok h.ok, fun s ν r => ?_⟩
  · simp only [nameSpec, h.names]
  · funext p
    have hp := h.proc
    cases inv <;> simp only [Bool.not_false, Bool.not_true] at hp <;> simp [proc, hp]

theorem same_neg (ha : isAssertion a = true) (h : Akin f inv a b) : Akin f inv (.neg a) (.neg b) := by
  refine ⟨?_, ?_, ?_, fun E r => ⟨?_, ?_⟩, fun s ν r => ?_⟩
  · simp only [nameSpec, h.names]
  · simp only [Ast.triv, h.asrt]
  · simp only [isAssertion, h.asrt]
  · rw [ok_neg, ok_neg, (h.ok E r).1, h.triv, h.asrt]
  · simp only [invert]; rw [ok_neg, ok_neg, (h.ok E r).2, triv_invert, triv_invert, isAssertion_invert, isAssertion_invert, h.triv, h.asrt]
  · funext p
    have hb : isAssertion b = true := h.asrt ▸ ha
    simp only [proc, assertion_eq, ha, hb, if_true, h.proc]

/-! ### Laws -/

theorem ok_pair {E : Env} {r : Nat} {a b : Ast} : Ok E r (.seq [a, b]) ↔ Ok E r a ∧ Ok E r b := by rw [ok_seq]; simp
theorem ok_fork {E : Env} {r : Nat} {a b : Ast} : Ok E r (.alt [a, b]) ↔ Ok E r a ∧ Ok E r b := by rw [ok_alt]; simp
theorem ok_once {E : Env} {r : Nat} {m : Mode} {a : Ast} : Ok E r (.rep m 1 (.fin 1) a) ↔ Ok E r a := by
  rw [ok_rep]; exact ⟨fun h => h.2, fun h => ⟨fun k e => (by injection e with e; omega), h⟩⟩
theorem ok_upTo {E : Env} {r : Nat} {m : Mode} {k : Nat} {a : Ast} : Ok E r (.rep m 0 (.fin k) a) ↔ Ok E r a := by
  rw [ok_rep]; exact ⟨fun h => h.2, fun h => ⟨fun k e => Nat.zero_le _, h⟩⟩
theorem ok_many {E : Env} {r : Nat} {m : Mode} {lo : Nat} {a : Ast} : Ok E r (.rep m lo .inf a) ↔ Ok E r a := by
  rw [ok_rep]; exact ⟨fun h => h.2, fun h => ⟨fun k e => (by cases e), h⟩⟩
theorem ok_exact {E : Env} {r : Nat} {m : Mode} {k : Nat} {a : Ast} : Ok E r (.rep m k (.fin k) a) ↔ Ok E r a := by
  rw [ok_rep]; exact ⟨fun h => h.2, fun h => ⟨fun k e => (by injection e with e; omega), h⟩⟩
theorem ok_range {E : Env} {r : Nat} {m : Mode} {lo k : Nat} {a : Ast} : Ok E r (.rep m lo (.fin (lo + k)) a) ↔ Ok E r a := by
  rw [ok_rep]; exact ⟨fun h => h.2, fun h => ⟨fun k e => (by injection e with e; omega), h⟩⟩
theorem ok_empty {E : Env} {r : Nat} : Ok E r .empty ↔ True := ⟨fun _ => trivial, fun _ => .empty⟩
theorem ok_inOrder {E : Env} {r : Nat} {a b : Ast} : Ok E r (inOrder inv a b) ↔ Ok E r a ∧ Ok E r b := by
  cases inv
  · exact ok_pair
  · exact ok_pair.trans And.comm

theorem invert_inOrder : invert (inOrder inv a b) = inOrder (!inv) (invert a) (invert b) := by
  cases inv <;> rfl

theorem triv_inOrder : Ast.triv (inOrder inv a b) = false := by cases inv <;> rfl
theorem isAssertion_inOrder : isAssertion (inOrder inv a b) = false := by cases inv <;> rfl
theorem nameSpec_inOrder (h : nameSpec b = []) : nameSpec (inOrder inv a b) = nameSpec a := by
  cases inv <;> simp [inOrder, nameSpec, nameSpecAll, h]

macro "ok_simp" : tactic => `(tactic|
  (intro E r; simp only [invert, invertAll, invert_inOrder, ok_once, ok_fork, ok_upTo, ok_many, ok_exact, ok_range, ok_empty, ok_inOrder, and_true, true_and, and_self]))

theorem triv_zero {m : Mode} {hi : Bound} {a : Ast} : Ast.triv (.rep m 0 hi a) = false := by simp [Ast.triv]
theorem isAssertion_zero {m : Mode} {hi : Bound} {a : Ast} : isAssertion (.rep m 0 hi a) = false := by simp [isAssertion]
theorem triv_forkEmpty : Ast.triv (.alt [a, .empty]) = false := by simp [Ast.triv, trivAlt_eq]
theorem triv_emptyFork : Ast.triv (.alt [.empty, a]) = false := by simp [Ast.triv, trivAlt_eq]
theorem isAssertion_fork : isAssertion (.alt [a, b]) = false := rfl
theorem triv_atomic : Ast.triv (.rep .possessive 1 (.fin 1) a) = Ast.triv a := by simp [Ast.triv]
theorem isAssertion_atomic : isAssertion (.rep .possessive 1 (.fin 1) a) = false := by simp [isAssertion]

theorem same_eagerMaybe {m : Mode} (h : Eager f m) (a : Ast) : Akin f inv (.rep m 0 (.fin 1) a) (.alt [a, .empty]) := by
  refine ⟨by simp [nameSpec, nameSpecAll], by rw [triv_zero, triv_forkEmpty], by rw [isAssertion_zero, isAssertion_fork], by ok_simp, fun s ν r => ?_⟩
  funext p
  rw [proc, proc, quantified_zero, procAny_maybe]
  dsimp only
  rw [extra_eager h]
  rw [Proc.greedyUpTo]
  rw [show Proc.greedyUpTo (proc f s ν a r inv) 0 = Proc.only from rfl, goOn_only]

theorem same_reluctantMaybe {m : Mode} (h : Reluctant f m) (a : Ast) : Akin f inv (.rep m 0 (.fin 1) a) (.alt [.empty, a]) := by
  refine ⟨by simp [nameSpec, nameSpecAll], by rw [triv_zero, triv_emptyFork], by rw [isAssertion_zero, isAssertion_fork], by ok_simp, fun s ν r => ?_⟩
  funext p
  rw [proc, proc, quantified_zero, procAny_reluctant]
  dsimp only
  rw [extra_reluctant h, Proc.lazyUpTo]
  rw [show Proc.lazyUpTo (proc f s ν a r inv) 0 = Proc.only from rfl, goOn_only]

theorem same_possessiveMaybe (a : Ast) :
    Akin f inv (.rep .possessive 0 (.fin 1) a) (.rep .possessive 1 (.fin 1) (.alt [a, .empty])) := by
  refine ⟨by simp [nameSpec, nameSpecAll], by rw [triv_zero, triv_atomic, triv_forkEmpty], by rw [isAssertion_zero, isAssertion_atomic], by ok_simp,
    fun s ν r => ?_⟩
  funext p
  rw [proc, proc, quantified_zero, quantified_atomic, proc, procAny_maybe, andThen_commit]
  rfl

theorem same_split (m : Mode) (lo k : Nat) (a : Ast) (ha : captureCount a = 0) (hk : k ≠ 0) :
    Akin f inv (.rep m lo (.fin (lo + k)) a) (inOrder inv (.rep m lo (.fin lo) a) (.rep m 0 (.fin k) a)) := by
  have hn := nameSpec_nil a ha
  refine ⟨by rw [nameSpec_inOrder (by simpa [nameSpec] using hn)]; simp [nameSpec], ?_, ?_, by ok_simp, fun s ν r => ?_⟩
  · rw [triv_inOrder]; simp only [Ast.triv, Bool.and_eq_false_iff, beq_eq_false_iff_ne, ne_eq, Bound.fin.injEq]; omega
  · rw [isAssertion_inOrder]; simp only [isAssertion, Bool.and_eq_false_iff, beq_eq_false_iff_ne, ne_eq, Bound.fin.injEq]; omega
  · funext p
    rw [proc_inOrder]
    simp only [proc]
    rw [quantified_split]

theorem same_splitInf (m : Mode) (lo : Nat) (a : Ast) (ha : captureCount a = 0) :
    Akin f inv (.rep m lo .inf a) (inOrder inv (.rep m lo (.fin lo) a) (.rep m 0 .inf a)) := by
  have hn := nameSpec_nil a ha
  refine ⟨by rw [nameSpec_inOrder (by simpa [nameSpec] using hn)]; simp [nameSpec], by rw [triv_inOrder]; simp [Ast.triv],
    by rw [isAssertion_inOrder]; simp [isAssertion], by ok_simp, fun s ν r => ?_⟩
  funext p
  rw [proc_inOrder]
  simp only [proc]
  rw [quantified_splitInf]

section
variable (ha : captureCount a = 0)
include ha

theorem nameSpec_more (m : Mode) (lo : Nat) (hi : Bound) : nameSpec (inOrder inv a (.rep m lo hi a)) = nameSpec a :=
  nameSpec_inOrder (by simpa [nameSpec] using nameSpec_nil a ha)

theorem same_eagerMore {m : Mode} (k : Nat) (h : Eager f m) :
    Akin f inv (.rep m 0 (.fin (k + 1)) a) (.alt [inOrder inv a (.rep m 0 (.fin k) a), .empty]) := by
  refine ⟨by simp [nameSpec, nameSpecAll, nameSpec_more ha], by rw [triv_zero, triv_forkEmpty], by rw [isAssertion_zero, isAssertion_fork], by ok_simp,
    fun s ν r => ?_⟩
  funext p
  rw [proc, proc, quantified_zero, procAny_maybe, proc_inOrder]
  have e : proc f s ν (.rep m 0 (.fin k) a) r inv = Proc.greedyUpTo (proc f s ν a r inv) k := by
    funext q; rw [proc, quantified_zero]; dsimp only; rw [extra_eager h]
  rw [e]
  dsimp only
  rw [extra_eager h]
  rfl

theorem same_reluctantMore {m : Mode} (k : Nat) (h : Reluctant f m) :
    Akin f inv (.rep m 0 (.fin (k + 1)) a) (.alt [.empty, inOrder inv a (.rep m 0 (.fin k) a)]) := by
  refine ⟨by simp [nameSpec, nameSpecAll, nameSpec_more ha], by rw [triv_zero, triv_emptyFork], by rw [isAssertion_zero, isAssertion_fork], by ok_simp,
    fun s ν r => ?_⟩
  funext p
  rw [proc, proc, quantified_zero, procAny_reluctant, proc_inOrder]
  have e : proc f s ν (.rep m 0 (.fin k) a) r inv = Proc.lazyUpTo (proc f s ν a r inv) k := by
    funext q; rw [proc, quantified_zero]; dsimp only; rw [extra_reluctant h]
  rw [e]
  dsimp only
  rw [extra_reluctant h]
  rfl

theorem same_possessiveMore (k : Nat) : Akin f inv (.rep .possessive 0 (.fin (k + 1)) a)
    (.rep .possessive 1 (.fin 1) (.alt [inOrder inv a (.rep .possessive 0 (.fin k) a), .empty])) := by
  refine ⟨by simp [nameSpec, nameSpecAll, nameSpec_more ha], by rw [triv_zero, triv_atomic, triv_forkEmpty],
    by rw [isAssertion_zero, isAssertion_atomic], by ok_simp, fun s ν r => ?_⟩
  funext p
  rw [proc, proc, quantified_zero, quantified_atomic, proc, procAny_maybe, proc_inOrder]
  have e : proc f s ν (.rep .possessive 0 (.fin k) a) r inv = Proc.possessiveUpTo (proc f s ν a r inv) k := by
    funext q; rw [proc, quantified_zero]; rfl
  rw [e, andThen_commit, proceed_one (all_true _) (fun q _ => one_possessiveUpTo _ _ q)]
  rfl

variable (hadv : advances a = true)
include hadv

omit ha in
theorem moves_of_advances (s : List Byte) (ν : List Byte → Nat) (r : Nat) (p : Nat) :
    Proc.All (Moves s.length (r % 2 == 0) true p) (proc f s ν a r inv p) := hadv ▸ proc_moves f s ν a r inv p

theorem same_eagerStar {m : Mode} (h : Eager f m) :
    Akin f inv (.rep m 0 .inf a) (.alt [inOrder inv a (.rep m 0 .inf a), .empty]) := by
  refine ⟨by simp [nameSpec, nameSpecAll, nameSpec_more ha], by rw [triv_zero, triv_forkEmpty], by rw [isAssertion_zero, isAssertion_fork], by ok_simp,
    fun s ν r => ?_⟩
  have e : proc f s ν (.rep m 0 .inf a) r inv = Proc.greedyStar (proc f s ν a r inv) (s.length + 1) := by
    funext q; rw [proc, quantified_zero]; dsimp only; rw [extra_eagerStar h]
  funext p
  rw [e, proc, procAny_maybe, proc_inOrder, e]
  exact greedyStar_unfold (moves_of_advances hadv s ν r) p

theorem same_reluctantStar {m : Mode} (h : Reluctant f m) :
    Akin f inv (.rep m 0 .inf a) (.alt [.empty, inOrder inv a (.rep m 0 .inf a)]) := by
  refine ⟨by simp [nameSpec, nameSpecAll, nameSpec_more ha], by rw [triv_zero, triv_emptyFork], by rw [isAssertion_zero, isAssertion_fork], by ok_simp,
    fun s ν r => ?_⟩
  have e : proc f s ν (.rep m 0 .inf a) r inv = Proc.lazyStar (proc f s ν a r inv) (s.length + 1) := by
    funext q; rw [proc, quantified_zero]; dsimp only; rw [extra_reluctantStar h]
  funext p
  rw [e, proc, procAny_reluctant, proc_inOrder, e]
  exact lazyStar_unfold (moves_of_advances hadv s ν r) p

theorem same_possessiveStar : Akin f inv (.rep .possessive 0 .inf a)
    (.rep .possessive 1 (.fin 1) (.alt [inOrder inv a (.rep .possessive 0 .inf a), .empty])) := by
  refine ⟨by simp [nameSpec, nameSpecAll, nameSpec_more ha], by rw [triv_zero, triv_atomic, triv_forkEmpty],
    by rw [isAssertion_zero, isAssertion_atomic], by ok_simp, fun s ν r => ?_⟩
  have e : proc f s ν (.rep .possessive 0 .inf a) r inv = Proc.possessiveStar (proc f s ν a r inv) (s.length + 1) := by
    funext q; rw [proc, quantified_zero]; rfl
  funext p
  rw [e, proc, quantified_atomic, proc, procAny_maybe, proc_inOrder, e]
  exact possessiveStar_unfold (moves_of_advances hadv s ν r) p

end

/-! Atomic groups around quantifiers -/

theorem commit_else {P : Proc} (h : Proc.One (P.commit Proc.only .done)) (e : Proc) : P.commit Proc.only e = P.commit Proc.only .done := by
  induction P with
  | done => exact False.elim h
  | note _ _ _ P ih => simp only [Proc.commit, ih h]
  | cross _ P ih => simp only [Proc.commit, ih h]
  | offer q P ih => rfl
  | recall _ g ih => simp only [Proc.commit, fun v => ih v (h v)]

/-- If every way on offers something, the first offer of the whole is the first offer of the first way on. -/
theorem commit_proceed {Q : Nat → Prop} {P : Proc} {G : Nat → Proc} (hP : Proc.All Q P) (h : ∀ q, Q q → Proc.One ((G q).commit Proc.only .done)) (e : Proc) :
    (P.proceed G).commit Proc.only e = P.commit (fun q => (G q).commit Proc.only .done) e := by
  induction P with
  | done => rfl
  | note _ _ _ P ih => simp only [Proc.proceed, Proc.commit, ih hP]
  | cross _ P ih => simp only [Proc.proceed, Proc.commit, ih hP]
  | offer q P ih => rw [Proc.proceed, andThen_commit, commit_else (h q hP.1)]; rfl
  | recall _ g ih => simp only [Proc.proceed, Proc.commit, fun v => ih v (hP v)]

theorem proceed_commit_only (P : Proc) (G : Nat → Proc) : (P.commit Proc.only .done).proceed G = P.commit G .done := by
  induction P with
  | done => rfl
  | note _ _ _ P ih => simp only [Proc.proceed, Proc.commit, ih]
  | cross _ P ih => simp only [Proc.proceed, Proc.commit, ih]
  | offer q P ih => exact only_goOn _ _
  | recall _ g ih => simp only [Proc.proceed, Proc.commit, ih]

theorem commit_greedyUpTo (g : Nat → Proc) (k p : Nat) : (Proc.greedyUpTo g k p).commit Proc.only .done = Proc.possessiveUpTo g k p := by
  induction k generalizing p with
  | zero => rfl
  | succ k ih =>
    rw [Proc.greedyUpTo, andThen_commit, commit_proceed (all_true _) (fun q _ => by rw [ih]; exact one_possessiveUpTo g k q), Proc.possessiveUpTo]
    simp only [ih]; rfl

theorem commit_greedyStar {n : Nat} {fwd : Bool} {g : Nat → Proc} (hg : ∀ p, Proc.All (Moves n fwd true p) (g p)) (k p : Nat) (h : room n fwd p < k) :
    (Proc.greedyStar g k p).commit Proc.only .done = Proc.possessiveStar g k p := by
  have hg' : ∀ p, Proc.All (Moves n fwd false p) (g p) := fun p => all_mono (hg p) (fun q hq => hq.weaken (by simp))
  induction k generalizing p with
  | zero => omega
  | succ k ih =>
    have hq : ∀ q, Onward n fwd p q → room n fwd q < k := fun q hq => by have := room_lt hq; omega
    rw [Proc.greedyStar, except_eq (all_mono (onward_of_moves hg p) (fun q hq => hq.ne)), andThen_commit,
      commit_proceed (onward_of_moves hg p) (fun q h => by rw [ih q (hq q h)]; exact one_possessiveStar hg' k q (hq q h)), Proc.possessiveStar]
    refine commit_on (onward_of_moves hg p) (fun q h => ?_)
    rw [if_neg h.ne, ih q (hq q h)]

theorem same_possessive {m : Mode} (lo : Nat) (hi : Bound) (a : Ast) (h : Eager f m) (hadv : hi = .inf → advances a = true) :
    Akin f inv (.rep .possessive lo hi a) (.rep .possessive 1 (.fin 1) (.rep m lo hi a)) := by
  refine ⟨by simp [nameSpec], by simp [Ast.triv], by simp [isAssertion], fun E r => ?_, fun s ν r => ?_⟩
  · simp only [invert, ok_once]; rw [ok_rep, ok_rep, ok_rep, ok_rep]; exact ⟨Iff.rfl, Iff.rfl⟩
  · funext p
    have hm : m ≠ .possessive := by rcases h with ⟨rfl, _⟩ | ⟨rfl, _⟩ <;> decide
    simp only [proc]
    rw [quantified_atomic]
    have e : ∀ x, Proc.quantified s.length m f.ungreedy lo hi (proc f s ν a r inv) p =
        (Proc.times (proc f s ν a r inv) lo p).proceed x → (Proc.quantified s.length m f.ungreedy lo hi (proc f s ν a r inv) p).commit Proc.only .done =
        ((Proc.times (proc f s ν a r inv) lo p).proceed x).commit Proc.only .done := fun x hx => by rw [hx]
    cases hi with
    | fin k =>
      rw [e (Proc.greedyUpTo (proc f s ν a r inv) (k - lo)) (by
        rw [← extra_eager (n := s.length) h]
        cases m with
        | possessive => exact absurd rfl hm
        | _ => rfl)]
      rw [commit_proceed (all_true _) (fun q _ => by rw [commit_greedyUpTo]; exact one_possessiveUpTo _ _ q)]
      simp only [commit_greedyUpTo]
      exact proceed_commit_only _ _
    | inf =>
      have hmv := moves_of_advances (f := f) (inv := inv) (hadv rfl) s ν r
      have hmv' : ∀ p, Proc.All (Moves s.length (r % 2 == 0) false p) (proc f s ν a r inv p) :=
        fun p => all_mono (hmv p) (fun q hq => hq.weaken (by simp))
      have hr : ∀ q, room s.length (r % 2 == 0) q < s.length + 1 := fun q => by have := room_le s.length (r % 2 == 0) q; omega
      rw [e (Proc.greedyStar (proc f s ν a r inv) (s.length + 1)) (by
        rw [← extra_eagerStar h]
        cases m with
        | possessive => exact absurd rfl hm
        | _ => rfl)]
      rw [commit_proceed (all_true _) (fun q _ => by rw [commit_greedyStar hmv _ q (hr q)]; exact one_possessiveStar hmv' _ q (hr q))]
      simp only [fun q => commit_greedyStar hmv _ q (hr q)]
      exact proceed_commit_only _ _

theorem same_reluctantAtomic {m : Mode} (lo : Nat) (hi : Bound) (a : Ast) (h : Reluctant f m) (hlo : ∀ h, hi = .fin h → lo ≤ h)
    (h1 : lo = 1 → character a = false) : Akin f inv (.rep .possessive 1 (.fin 1) (.rep m lo hi a)) (.rep .possessive lo (.fin lo) a) := by
  have ht : Ast.triv a = false ∨ lo ≠ 1 := by
    by_cases h : lo = 1
    · exact .inl (character_eq a ▸ h1 h)
    · exact .inr h
  refine ⟨by simp [nameSpec], ?_, by simp [isAssertion], fun E r => ?_, fun s ν r => ?_⟩
  · rcases ht with ht | ht
    · simp [Ast.triv, ht]
    · have : (lo == 1) = false := beq_eq_false_iff_ne.2 ht
      simp [Ast.triv, this]
  · simp only [invert, ok_once, ok_exact]; rw [ok_rep, ok_rep]
    exact ⟨⟨fun h => h.2, fun h => ⟨hlo, h⟩⟩, ⟨fun h => h.2, fun h => ⟨hlo, h⟩⟩⟩
  · funext p
    simp only [proc]
    rw [quantified_atomic, quantified_exact]
    have hx : ∀ k q, ∃ P, Proc.extra s.length m f.ungreedy (proc f s ν a r inv) k q = .offer q P := by
      intro k q
      cases k with
      | none => rw [extra_reluctantStar h]; exact ⟨_, rfl⟩
      | some k =>
        rw [extra_reluctant h]
        cases k with
        | zero => exact ⟨_, rfl⟩
        | succ k => exact ⟨_, rfl⟩
    have hm : m ≠ .possessive := by rcases h with ⟨rfl, _⟩ | ⟨rfl, _⟩ <;> decide
    obtain ⟨k, e⟩ : ∃ k, Proc.quantified s.length m f.ungreedy lo hi (proc f s ν a r inv) p = (Proc.times (proc f s ν a r inv) lo p).proceed
        (Proc.extra s.length m f.ungreedy (proc f s ν a r inv) k) := by
      cases m with
      | possessive => exact absurd rfl hm
      | _ => exact ⟨_, rfl⟩
    have hc : ∀ k q, (Proc.extra s.length m f.ungreedy (proc f s ν a r inv) k q).commit Proc.only .done = Proc.only q := fun k q => by
      obtain ⟨P, h⟩ := hx k q
      rw [h]; rfl
    rw [e, commit_proceed (all_true _) (fun q _ => by rw [hc]; rfl)]
    simp only [hc]

theorem same_power {m m' m'' : Mode} (j k : Nat) (a : Ast) (h : m ≠ .possessive) (h' : m' ≠ .possessive) (h'' : m'' ≠ .possessive) :
    Akin f inv (.rep m j (.fin j) (.rep m' k (.fin k) a)) (.rep m'' (j * k) (.fin (j * k)) a) := by
  have e1 : (j * k = 1) ↔ (j = 1 ∧ k = 1) := by
    constructor
    · intro h
      have h1 : j ∣ 1 := ⟨k, h.symm⟩
      have h2 : j = 1 := Nat.dvd_one.1 h1
      subst h2
      omega
    · rintro ⟨rfl, rfl⟩; rfl
  refine ⟨by simp [nameSpec], ?_, ?_, by ok_simp, fun s ν r => ?_⟩
  · rw [Bool.eq_iff_iff]
    simp only [Ast.triv, Bool.and_eq_true, beq_iff_eq, Bound.fin.injEq, e1]
    constructor
    · rintro ⟨⟨h1, _⟩, ⟨h2, _⟩, h3⟩; exact ⟨⟨⟨h1, h2⟩, ⟨h1, h2⟩⟩, h3⟩
    · rintro ⟨⟨⟨h1, h2⟩, _⟩, h3⟩; exact ⟨⟨h1, h1⟩, ⟨h2, h2⟩, h3⟩
  · rw [Bool.eq_iff_iff]
    simp only [isAssertion, Bool.and_eq_true, beq_iff_eq, bne_iff_ne, ne_eq, Bound.fin.injEq, e1]
    constructor
    · rintro ⟨⟨⟨_, h1⟩, _⟩, ⟨⟨_, h2⟩, _⟩, h3⟩; exact ⟨⟨⟨h'', h1, h2⟩, h1, h2⟩, h3⟩
    · rintro ⟨⟨⟨_, h1, h2⟩, _⟩, h3⟩; exact ⟨⟨⟨h, h1⟩, h1⟩, ⟨⟨h', h2⟩, h2⟩, h3⟩
  · funext p
    rw [proc, proc, quantified_exact' h, quantified_exact' h'', ← times_mul]
    congr 1
    funext q
    rw [proc, quantified_exact' h']

theorem same_atomicTwice (a : Ast) :
    Akin f inv (.rep .possessive 1 (.fin 1) (.rep .possessive 1 (.fin 1) a)) (.rep .possessive 1 (.fin 1) a) := by
  refine ⟨by simp [nameSpec], by simp only [triv_atomic], by simp only [isAssertion_atomic], by ok_simp, fun s ν r => ?_⟩
  funext p
  rw [proc, proc, quantified_atomic, quantified_atomic, proc, quantified_atomic, commit_commit]
  rfl

theorem same_lookAtomic (d : LookDir) (a : Ast) : Akin f inv (.look d (.rep .possessive 1 (.fin 1) a)) (.look d a) := by
  refine ⟨by simp [nameSpec], rfl, rfl, same_look_ok (by ok_simp), fun s ν r => ?_⟩
  funext p
  simp only [proc, quantified_atomic, commit_commit]
  rfl

theorem same_distribute (l : List Ast) (x c : Ast) (hx : character x = false) (hc : captureCount c = 0) :
    Akin f inv (inOrder inv (.alt (l ++ [x])) c) (.alt ((l ++ [x]).map (fun b => inOrder inv b c))) := by
  have hn := nameSpec_nil c hc
  have hlast : ∃ y, (l ++ [x]).map (fun b => inOrder inv b c) = l.map (fun b => inOrder inv b c) ++ [y] ∧ y = inOrder inv x c := by
    exact ⟨_, by simp, rfl⟩
  refine ⟨?_, ?_, ?_, fun E r => ⟨?_, ?_⟩, fun s ν r => ?_⟩
  · rw [nameSpec_inOrder hn]
    simp only [nameSpec]
    generalize l ++ [x] = l
    induction l with
    | nil => rfl
    | cons a l ih => simp only [nameSpecAll, List.map_cons, nameSpec_inOrder hn, ih]
  · rw [triv_inOrder]
    simp [Ast.triv, trivAlt_eq, triv_inOrder]
  · rw [isAssertion_inOrder, isAssertion_alt]
    simp [isAssertion_inOrder]
  · rw [ok_inOrder, ok_alt, ok_alt]
    simp only [List.mem_map, forall_exists_index, and_imp, forall_apply_eq_imp_iff₂, ok_inOrder]
    constructor
    · rintro ⟨⟨h1, h2⟩, h3⟩; exact ⟨by simp, fun a ha => ⟨h2 a ha, h3⟩⟩
    · rintro ⟨h1, h2⟩; exact ⟨⟨by simp, fun a ha => (h2 a ha).1⟩, (h2 x (by simp)).2⟩
  · rw [invert_inOrder]
    simp only [invert, invertAll_eq]
    rw [ok_inOrder, ok_alt, ok_alt]
    simp only [List.mem_map, forall_exists_index, and_imp, forall_apply_eq_imp_iff₂, invert_inOrder, ok_inOrder]
    constructor
    · rintro ⟨⟨h1, h2⟩, h3⟩; exact ⟨by simp, fun a ha => ⟨h2 a ha, h3⟩⟩
    · rintro ⟨h1, h2⟩; exact ⟨⟨by simp, fun a ha => (h2 a ha).1⟩, (h2 x (by simp)).2⟩
  · funext p
    rw [proc_inOrder, proc, proc, procAny_tried hx, List.map_append, List.map_singleton, procAny_tried (by rw [character_eq, triv_inOrder]), proc_inOrder]
    induction l with
    | nil => rfl
    | cons a l ih =>
      have hlast' : ∃ y, (l ++ [x]).map (fun b => inOrder inv b c) = l.map (fun b => inOrder inv b c) ++ [y] ∧ y = inOrder inv x c := ⟨_, by simp, rfl⟩
      simp only [List.foldr_cons, List.map_cons, goOn_andThen, proc_inOrder]
      rw [ih hlast']

/-- Anchors test the position. -/
theorem AnchorTest.proc {a : Ast} (h : AnchorTest a) (f : Flags) (s : List Byte) (ν : List Byte → Nat) (r : Nat) (inv : Bool) :
    ∃ t : Nat → Bool, ∀ p, Spec.proc f s ν a r inv p = .offers (Spec.test (t p) p) := by
  have base : ∀ {a : Ast}, Anchor a → ∃ t : Nat → Bool, ∀ p, Spec.proc f s ν a r inv p = .offers (Spec.test (t p) p) := by
    intro a h
    cases h with
    | bol => exact ⟨fun p => atStart s (r % 2 == 0) f.multiline p, fun p => by simp only [Spec.proc, ends]⟩
    | boi => exact ⟨fun p => atStart s (r % 2 == 0) false p, fun p => by simp only [Spec.proc, ends]⟩
    | eol => exact ⟨fun p => atStop s (r % 2 == 0) f.multiline p, fun p => by simp only [Spec.proc, ends]⟩
    | eoi => exact ⟨fun p => atStop s (r % 2 == 0) false p, fun p => by simp only [Spec.proc, ends]⟩
    | wordB => exact ⟨fun p => before (isWordAt s) p != isWordAt s p, fun p => by simp only [Spec.proc, ends]⟩
  cases h with
  | anchor h => exact base h
  | @neg a h =>
    obtain ⟨t, ht⟩ := base h
    refine ⟨fun p => !t p, fun p => ?_⟩
    simp only [Spec.proc, assertion_eq, h.asrt, if_true, ht]
    unfold Spec.test
    cases t p <;> rfl

theorem AnchorTest.invert {a : Ast} (h : AnchorTest a) : invert a = a := by
  cases h with
  | anchor h => exact h.invert
  | neg h => simp only [Ast.invert, h.invert]

theorem AnchorTest.names {a : Ast} (h : AnchorTest a) : nameSpec a = [] := by
  cases h with
  | anchor h => cases h <;> rfl
  | neg h => cases h <;> rfl

theorem procAll_two (f : Flags) (s : List Byte) (ν : List Byte → Nat) (a b : Ast) (r : Nat) (inv : Bool) (p : Nat) :
    procAll f s ν [a, b] r inv p =
      if inv then (proc f s ν b r inv p).proceed (proc f s ν a r inv) else (proc f s ν a r inv p).proceed (proc f s ν b r inv) := by
  rw [show [a, b] = a :: [b] from rfl, procAll]
  simp only [procAll_one]

theorem tests_tests {P P' : Nat → Proc} {t t' : Nat → Bool} (h : ∀ p, P p = .offers (Spec.test (t p) p)) (h' : ∀ p, P' p = .offers (Spec.test (t' p) p))
    (p : Nat) : (P p).proceed P' = .offers (Spec.test (t p && t' p) p) := by
  rw [h, show P' = _ from funext h', goOn_offers]
  congr 1
  unfold Spec.test
  cases h1 : t p <;> cases h2 : t' p <;> simp [h2]

theorem procAll_mid {f : Flags} {s : List Byte} {ν : List Byte → Nat} {r : Nat} {inv : Bool} (pre post : List Ast) {l l' : List Ast}
    (h : procAll f s ν l r inv = procAll f s ν l' r inv) : procAll f s ν (pre ++ (l ++ post)) r inv = procAll f s ν (pre ++ (l' ++ post)) r inv := by
  have e : procAll f s ν (l ++ post) r inv = procAll f s ν (l' ++ post) r inv := by
    funext p; rw [procAll_append, procAll_append, h]
  funext p
  rw [procAll_append f s ν pre (l ++ post), procAll_append f s ν pre (l' ++ post), e]

theorem same_anchorTwice (pre post : List Ast) (h : AnchorTest a) (hne : pre ++ post ≠ []) :
    Akin f inv (.seq (pre ++ a :: a :: post)) (.seq (pre ++ a :: post)) := by
  have hlen : 1 ≤ pre.length + post.length := by
    have := List.length_pos_iff.2 hne
    rw [List.length_append] at this; exact this
  refine ⟨?_, ?_, ?_, fun E r => ⟨?_, ?_⟩, fun s ν r => ?_⟩
  · simp only [nameSpec, nameSpecAll_app, nameSpecAll, h.names, List.nil_append]
  · rw [(seq_traits (by simp; omega)).1, (seq_traits (by simp; omega)).1]
  · rw [(seq_traits (by simp; omega)).2, (seq_traits (by simp; omega)).2]
  · rw [ok_seq, ok_seq]; simp
  · simp only [invert, invertAll_eq]; rw [ok_seq, ok_seq]; simp
  · obtain ⟨t, ht⟩ := h.proc f s ν r inv
    funext p
    simp only [proc]
    refine congrFun (procAll_mid pre post (l := [a, a]) (l' := [a]) ?_) p
    funext p
    rw [procAll_two, procAll_one, tests_tests ht ht, Bool.and_self, ht, ite_self]

theorem same_anchorSwap (pre post : List Ast) (h : AnchorTest a) (h' : AnchorTest b) :
    Akin f inv (.seq (pre ++ a :: b :: post)) (.seq (pre ++ b :: a :: post)) := by
  refine ⟨?_, ?_, ?_, fun E r => ⟨?_, ?_⟩, fun s ν r => ?_⟩
  · simp only [nameSpec, nameSpecAll_app, nameSpecAll, h.names, h'.names, List.nil_append]
  · rw [(seq_traits (by simp; omega)).1, (seq_traits (by simp; omega)).1]
  · rw [(seq_traits (by simp; omega)).2, (seq_traits (by simp; omega)).2]
  · rw [ok_seq, ok_seq]
    refine and_congr (by simp) (forall_congr' (fun x => ?_))
    simp only [List.mem_append, List.mem_cons]
    rw [or_left_comm (a := x = a)]
  · simp only [invert, invertAll_eq]; rw [ok_seq, ok_seq]
    refine and_congr (by simp) (forall_congr' (fun x => ?_))
    simp only [List.map_append, List.map_cons, List.mem_reverse, List.mem_append, List.mem_cons]
    rw [or_left_comm (a := x = invert a)]
  · obtain ⟨t, ht⟩ := h.proc f s ν r inv
    obtain ⟨t', ht'⟩ := h'.proc f s ν r inv
    funext p
    simp only [proc]
    refine congrFun (procAll_mid pre post (l := [a, b]) (l' := [b, a]) ?_) p
    funext p
    rw [procAll_two, procAll_two, tests_tests ht ht', tests_tests ht' ht, Bool.and_comm]

theorem same_of_unfolds (h : Unfolds f inv a b) : Akin f inv a b := by
  induction h with
  | seq pre post _ ih => exact same_seq pre post ih
  | alt pre post _ ih => exact same_alt pre post ih
  | cap id name _ ih => exact same_cap id name ih
  | rep m lo hi _ ih => exact same_rep m lo hi ih
  | ahead _ ih => exact same_ahead ih
  | behind _ ih => exact same_behind ih
  | neg ha _ ih => exact same_neg ha.asrt ih
  | eagerMaybe inv a h => exact same_eagerMaybe h a
  | reluctantMaybe inv a h => exact same_reluctantMaybe h a
  | possessiveMaybe inv a => exact same_possessiveMaybe a
  | split inv m lo k a h1 h2 => exact same_split m lo k a h1 h2
  | splitInf inv m lo a h => exact same_splitInf m lo a h
  | eagerMore inv k a h h' => exact same_eagerMore h' k h
  | reluctantMore inv k a h h' => exact same_reluctantMore h' k h
  | possessiveMore inv k a h => exact same_possessiveMore h k
  | eagerStar inv a h h1 h2 => exact same_eagerStar h1 h2 h
  | reluctantStar inv a h h1 h2 => exact same_reluctantStar h1 h2 h
  | possessiveStar inv a h1 h2 => exact same_possessiveStar h1 h2
  | possessive inv lo hi a h h' => exact same_possessive lo hi a h h'
  | reluctantAtomic inv lo hi a h h1 h2 => exact same_reluctantAtomic lo hi a h h1 h2
  | power inv j k a h h' h'' => exact same_power j k a h h' h''
  | atomicTwice inv a => exact same_atomicTwice a
  | lookAtomic inv d a => exact same_lookAtomic d a
  | distribute inv l x c h h' => exact same_distribute l x c h h'
  | anchorTwice inv pre post h hne => exact same_anchorTwice pre post h hne
  | anchorSwap inv pre post h h' => exact same_anchorSwap pre post h h'

/-- What calls have in common that carry out the same. -/
theorem carriesOut_same {N n : Nat} {g : Nat → Proc} {M : Method} {cur : Nat} {h : Notes} {o o' : Out} (hN : 0 < N)
    (ho : CarriesOut N n g M cur h o) (ho' : CarriesOut N n g M cur h o') : SameResult o o' := by
  obtain ⟨q, c, rfl, h2, h3, h4⟩ := ho
  obtain ⟨q', c', rfl, h2', h3', h4'⟩ := ho'
  cases hr : (carryOut n g cur h M).1 with
  | none =>
    refine .miss (List.ext_getElem? (fun i => ?_))
    rw [List.getElem?_tail, List.getElem?_tail, h4 _ (Nat.succ_ne_zero i), h4' _ (Nat.succ_ne_zero i)]
  | some x =>
    obtain ⟨b, e⟩ := x
    obtain ⟨rfl, h5⟩ := h3 b e hr
    obtain ⟨rfl, h5'⟩ := h3' b q hr
    have hc : c = c' := by
      refine List.ext_getElem? (fun i => ?_)
      cases i with
      | zero => rw [h5 hN, h5' hN]
      | succ i => rw [h4 _ (Nat.succ_ne_zero i), h4' _ (Nat.succ_ne_zero i)]
    subst hc
    exact .hit

end
end Mregex
