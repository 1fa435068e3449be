import Verif.Model.Meter
import Verif.Spec.Static

/-!
# Runs on related captures

If a relation between captures respects reading and writing groups, then runs on related captures end alike.
-/

namespace Mregex
open Ast

/-- The same end, with related captures. -/
inductive ORel (Q : Ctx → Ctx → Prop) : Out → Out → Prop
  | ok {res c c'} : Q c c' → ORel Q (.ok res c) (.ok res c')
  | ub : ORel Q .ub .ub
  | diverge : ORel Q .diverge .diverge

def KRel (Q : Ctx → Ctx → Prop) (k k' : Cont) : Prop := ∀ q c c', Q c c' → ORel Q (k q c) (k' q c')

def KindRel (Q : Ctx → Ctx → Prop) (m m' : Matcher) : Prop :=
  ∀ p c c' k k', Q c c' → KRel Q k k' → ORel Q (m p c k) (m' p c' k')

/-- `Q` respects the groups `0 … N - 1`. -/
structure Groupwise (N : Nat) (Q : Ctx → Ctx → Prop) : Prop where
  set : ∀ id v c c', id < N → Q c c' → Q (c.set id v) (c'.set id v)
  clear : ∀ id c c', id < N → Q c c' → Q (clearCapture id c) (clearCapture id c')
  get : ∀ id c c', id < N → Q c c' → c[id]? = c'[id]?
  len : ∀ c c', Q c c' → N ≤ c.length ∧ N ≤ c'.length

section
variable {Q : Ctx → Ctx → Prop}

theorem ORel.nonMatch {p : Nat} {c c' : Ctx} (h : Q c c') : ORel Q (nonMatch p c) (nonMatch p c') := .ok h

theorem KRel.success : KRel Q success success := fun _ _ _ h => .ok h

theorem KRel.equals (t : Nat) : KRel Q (equals t) (equals t) := fun _ _ _ h => .ok h

theorem ORel.orElse {o o' : Out} {f f' : Ctx → Out} (h : ORel Q o o') (hf : ∀ c c', Q c c' → ORel Q (f c) (f' c')) :
    ORel Q (o.orElse f) (o'.orElse f') := by
  cases h with
  | @ok res c c' h =>
    unfold Out.orElse
    dsimp only
    split
    · exact .ok h
    · exact hf _ _ h
  | ub => exact .ub
  | diverge => exact .diverge

theorem ORel.onMatch {o o' : Out} {f f' : Nat → Ctx → Out} {g g' : Ctx → Out} (h : ORel Q o o') (hf : KRel Q f f')
    (hg : ∀ c c', Q c c' → ORel Q (g c) (g' c')) : ORel Q (o.onMatch f g) (o'.onMatch f' g') := by
  cases h with
  | @ok res c c' h =>
    unfold Out.onMatch
    dsimp only
    split
    · exact hf _ _ _ h
    · exact hg _ _ h
  | ub => exact .ub
  | diverge => exact .diverge

variable {E : Env} {r : Nat}

theorem mrel_triv (a : Ast) : KindRel Q (trivMatch E r a) (trivMatch E r a) := by
  intro p c c' k k' hc hk
  unfold trivMatch
  split
  · exact .nonMatch hc
  · split
    · exact .ub
    · split
      · exact hk _ _ _ hc
      · exact .nonMatch hc

theorem mrel_seqTriv (l : List Ast) : KindRel Q (seqTriv E r l) (seqTriv E r l) := by
  intro p c c' k k' hc hk
  unfold seqTriv
  split
  · exact .nonMatch hc
  · split
    · exact .ub
    · exact hk _ _ _ hc
    · split <;> exact .nonMatch hc

theorem mrel_seqMatch {m m' : Ast → Matcher} {l : List Ast} (h : ∀ a ∈ l, KindRel Q (m a) (m' a)) :
    KindRel Q (seqMatch E r m l) (seqMatch E r m' l) := by
  match l with
  | [] => exact fun _ _ _ _ _ _ _ => .ub
  | a :: l =>
    induction l generalizing a with
    | nil => exact h a (by simp)
    | cons b l ih =>
      intro p c c' k k' hc hk
      unfold seqMatch
      split
      · exact mrel_seqTriv _ p c c' k k' hc hk
      · exact h a (by simp) _ _ _ _ _ hc
          (fun q d d' hd => ih b (fun x hx => h x (List.mem_cons_of_mem _ hx)) q d d' k k' hd hk)

theorem mrel_altMatch {m m' : Ast → Matcher} {l : List Ast} (h : ∀ a ∈ l, KindRel Q (m a) (m' a)) :
    KindRel Q (altMatch E r m l) (altMatch E r m' l) := by
  match l with
  | [] => exact fun _ _ _ _ _ _ _ => .ub
  | a :: l =>
    induction l generalizing a with
    | nil => exact h a (by simp)
    | cons b l ih =>
      intro p c c' k k' hc hk
      unfold altMatch
      split
      · exact mrel_triv _ p c c' k k' hc hk
      · exact (h a (by simp) _ _ _ _ _ hc hk).orElse
          (fun d d' hd => ih b (fun x hx => h x (List.mem_cons_of_mem _ hx)) p d d' k k' hd hk)

theorem mrel_capMatch (hQ : Groupwise E.names.length Q) {id : Nat} {name : GroupName} (hid : id < E.names.length)
    {m m' : Matcher} (h : KindRel Q m m') : KindRel Q (capMatch E r id name m) (capMatch E r id name m') := by
  intro p c c' k k' hc hk
  unfold capMatch
  refine (h _ _ _ _ _ hc ?_).orElse (fun d d' hd => .nonMatch (hQ.clear _ _ _ hid hd))
  intro q d d' hd
  have hl := hQ.len _ _ hd
  dsimp only
  unfold setCapture
  by_cases hn : E.names[id]? = some name ∧ r ≤ 1
  · have h1 : E.names[id]? = some name ∧ r ≤ 1 ∧ id < d.length := ⟨hn.1, hn.2, by omega⟩
    have h2 : E.names[id]? = some name ∧ r ≤ 1 ∧ id < d'.length := ⟨hn.1, hn.2, by omega⟩
    rw [if_pos h1, if_pos h2]
    exact hk _ _ _ (hQ.set _ _ _ _ hid hd)
  · rw [if_neg (fun h => hn ⟨h.1, h.2.1⟩), if_neg (fun h => hn ⟨h.1, h.2.1⟩)]
    exact .ub

theorem mrel_backref (g : Cap) : KindRel Q (backrefMatch E r g) (backrefMatch E r g) := by
  intro p c c' k k' hc hk
  unfold backrefMatch
  dsimp only
  split
  · exact .ub
  · split
    · exact .nonMatch hc
    · split
      · exact .ub
      · exact hk _ _ _ hc
      · exact .nonMatch hc

theorem mrel_nonUnrolled {m m' : Matcher} (h : KindRel Q m m') (N : Nat) : KindRel Q (nonUnrolled m N) (nonUnrolled m' N) := by
  match N with
  | 0 => exact fun _ _ _ _ _ _ _ => .ub
  | N + 1 =>
    induction N with
    | zero => exact h
    | succ N ih => exact fun p c c' k k' hc hk => h _ _ _ _ _ hc (fun q d d' hd => ih q d d' k k' hd hk)

theorem mrel_unrolled {m m' : Matcher} (h : KindRel Q m m') (N : Nat) : KindRel Q (unrolled m N) (unrolled m' N) := by
  match N with
  | 0 => exact fun p c c' k k' hc hk => hk p c c' hc
  | N + 1 =>
    induction N with
    | zero => exact h
    | succ N ih => exact fun p c c' k k' hc hk => h _ _ _ _ _ hc (fun q d d' hd => ih q d d' k k' hd hk)

theorem mrel_fixedTriv (a : Ast) (N : Nat) : KindRel Q (fixedTriv E r a N) (fixedTriv E r a N) := by
  intro p c c' k k' hc hk
  unfold fixedTriv
  split
  · exact .nonMatch hc
  · split
    · exact .ub
    · exact hk _ _ _ hc
    · split <;> exact .nonMatch hc

theorem mrel_fixedBacktracking (a : Ast) {m m' : Matcher} (h : KindRel Q m m') (N : Nat) :
    KindRel Q (fixedBacktracking E r a m N) (fixedBacktracking E r a m' N) := by
  unfold fixedBacktracking
  split
  · exact mrel_fixedTriv a N
  · split
    · exact mrel_unrolled h N
    · exact mrel_nonUnrolled h N

theorem mrel_fixedMatch (mode : Mode) (a : Ast) {m m' : Matcher} (h : KindRel Q m m') (N : Nat) :
    KindRel Q (fixedMatch E r mode a m N) (fixedMatch E r mode a m' N) := by
  unfold fixedMatch
  split
  · exact fun p c c' k k' hc hk => hk p c c' hc
  · split
    · split
      · exact fun p c c' k k' hc hk => (h _ _ _ _ _ hc .success).onMatch hk (fun _ _ hd => .nonMatch hd)
      · exact h
    · split
      · exact fun p c c' k k' hc hk =>
          (mrel_fixedBacktracking a h N _ _ _ _ _ hc .success).onMatch hk (fun _ _ hd => .nonMatch hd)
      · exact mrel_fixedBacktracking a h N

theorem krel_guard {guard : Bool} {p : Nat} {k k' : Cont} (hk : KRel Q k k') :
    KRel Q (guardCont guard p k) (guardCont guard p k') := by
  intro q c c' hc
  unfold guardCont
  split
  · exact .nonMatch hc
  · exact hk _ _ _ hc

theorem mrel_possLoop {m m' : Matcher} (h : KindRel Q m m') (guard inf : Bool) (n : Nat) :
    KindRel Q (possLoop m guard inf n) (possLoop m' guard inf n) := by
  induction n with
  | zero =>
    intro p c c' k k' hc hk
    unfold possLoop
    split
    · exact .diverge
    · exact hk _ _ _ hc
  | succ n ih =>
    intro p c c' k k' hc hk
    unfold possLoop
    refine (h _ _ _ _ _ hc .success).onMatch (fun q d d' hd => ?_) (fun d d' hd => hk _ _ _ hd)
    split
    · exact hk _ _ _ hd
    · exact ih _ _ _ _ _ hd hk

theorem mrel_greedyLoop {m m' : Matcher} (h : KindRel Q m m') (guard inf : Bool) (n : Nat) :
    KindRel Q (greedyLoop m guard inf n) (greedyLoop m' guard inf n) := by
  induction n with
  | zero =>
    intro p c c' k k' hc hk
    unfold greedyLoop
    split
    · exact .diverge
    · exact hk _ _ _ hc
  | succ n ih =>
    intro p c c' k k' hc hk
    unfold greedyLoop
    exact (h p _ _ _ _ hc (krel_guard (fun q d d' hd => ih q _ _ _ _ hd hk))).orElse (fun d d' hd => hk _ _ _ hd)

theorem mrel_lazyLoop {m m' : Matcher} (h : KindRel Q m m') (guard inf : Bool) (n : Nat) :
    KindRel Q (lazyLoop m guard inf n) (lazyLoop m' guard inf n) := by
  induction n with
  | zero =>
    intro p c c' k k' hc hk
    unfold lazyLoop
    split
    · exact .diverge
    · exact (hk _ _ _ hc).orElse (fun _ _ hd => .nonMatch hd)
  | succ n ih =>
    intro p c c' k k' hc hk
    unfold lazyLoop
    exact (hk _ _ _ hc).orElse (fun d d' hd => h p _ _ _ _ hd (krel_guard (fun q d d' hd => ih q _ _ _ _ hd hk)))

theorem mrel_possTriv (a : Ast) (inf : Bool) (n : Nat) : KindRel Q (possTriv E r a inf n) (possTriv E r a inf n) := by
  induction n with
  | zero =>
    intro p c c' k k' hc hk
    unfold possTriv
    split
    · exact .diverge
    · exact hk _ _ _ hc
  | succ n ih =>
    intro p c c' k k' hc hk
    unfold possTriv
    split
    · exact hk _ _ _ hc
    · split
      · exact .ub
      · split
        · exact ih _ _ _ _ _ hc hk
        · exact hk _ _ _ hc

theorem mrel_lazyTriv (a : Ast) (inf : Bool) (n : Nat) : KindRel Q (lazyTriv E r a inf n) (lazyTriv E r a inf n) := by
  induction n with
  | zero =>
    intro p c c' k k' hc hk
    unfold lazyTriv
    split
    · exact .diverge
    · exact (hk _ _ _ hc).orElse (fun _ _ hd => .nonMatch hd)
  | succ n ih =>
    intro p c c' k k' hc hk
    unfold lazyTriv
    refine (hk _ _ _ hc).orElse (fun d d' hd => ?_)
    split
    · exact .nonMatch hd
    · split
      · exact .ub
      · split
        · exact ih _ _ _ _ _ hd hk
        · exact .nonMatch hd

theorem mrel_backOff {p : Nat} {k k' : Cont} (hk : KRel Q k k') (n : Nat) :
    KRel Q (backOff r p k n) (backOff r p k' n) := by
  induction n with
  | zero =>
    intro q c c' hc
    refine (hk q _ _ hc).orElse (fun d d' hd => ?_)
    split
    · exact .nonMatch hd
    · exact .diverge
  | succ n ih =>
    intro q c c' hc
    refine (hk q _ _ hc).orElse (fun d d' hd => ?_)
    split
    · exact .nonMatch hd
    · exact ih _ _ _ hd

theorem mrel_greedyTriv (a : Ast) (inf : Bool) (n : Nat) : KindRel Q (greedyTriv E r a inf n) (greedyTriv E r a inf n) :=
  fun p c c' _ _ hc hk => mrel_possTriv a inf n p c c' _ _ hc (fun q _ _ hd => mrel_backOff hk _ q _ _ hd)

theorem mrel_betweenBounds (mode : Mode) (a : Ast) {m m' : Matcher} (h : KindRel Q m m') (inf : Bool) (n : Nat) :
    KindRel Q (betweenBounds E r mode a m inf n) (betweenBounds E r mode a m' inf n) := by
  unfold betweenBounds
  split
  · split
    · exact mrel_possTriv a inf _
    · exact mrel_possLoop h _ inf _
  · split
    · split
      · exact mrel_greedyTriv a inf _
      · exact mrel_greedyLoop h _ inf _
    · split
      · exact mrel_lazyTriv a inf _
      · exact mrel_lazyLoop h _ inf _

theorem mrel_repMatch (n : Nat) (mode : Mode) (lo : Nat) (hi : Bound) (a : Ast) {m m' : Matcher} (h : KindRel Q m m') :
    KindRel Q (repMatch E r n mode lo hi a m) (repMatch E r n mode lo hi a m') := by
  unfold repMatch
  split
  · split
    · exact mrel_fixedMatch mode a h lo
    · split
      · exact fun _ _ _ _ _ _ _ => .ub
      · split
        · exact mrel_betweenBounds mode a h false _
        · exact fun p c c' k k' hc hk => mrel_fixedMatch mode a h lo _ _ _ _ _ hc
            (fun q d d' hd => mrel_betweenBounds mode a h false _ q d d' _ _ hd hk)
  · split
    · exact mrel_betweenBounds mode a h true _
    · exact fun p c c' k k' hc hk => mrel_fixedMatch mode a h lo _ _ _ _ _ hc
        (fun q d d' hd => mrel_betweenBounds mode a h true _ q d d' _ _ hd hk)

theorem mrel_assert (pred : Nat → Option Bool) : KindRel Q (assertMatch pred) (assertMatch pred) := by
  intro p c c' k k' hc hk
  unfold assertMatch
  split
  · exact .ub
  · split
    · exact hk _ _ _ hc
    · exact .nonMatch hc

theorem mrel_look {m m' : Matcher} (h : KindRel Q m m') : KindRel Q (lookMatch m) (lookMatch m') :=
  fun _ _ _ _ _ hc hk => (h _ _ _ _ _ hc .success).onMatch (fun _ _ _ hd => hk _ _ _ hd) (fun _ _ hd => .nonMatch hd)

theorem mrel_negAssert {m m' : Matcher} (h : KindRel Q m m') : KindRel Q (negAssertMatch m) (negAssertMatch m') :=
  fun _ _ _ _ _ hc hk => (h _ _ _ _ _ hc .success).onMatch (fun _ _ _ hd => .nonMatch hd) (fun _ _ hd => hk _ _ _ hd)

theorem nameIndex_lt {names : List GroupName} {name : List Byte} {id : Nat} (h : nameIndex names name = some id) :
    id < names.length := by
  unfold nameIndex at h
  split at h
  · next hc =>
    cases h
    exact List.idxOf_lt_length_iff.2 (List.count_pos_iff.1 (by omega))
  · cases h

/-- One node, given related `match` functions for the nodes below it. -/
theorem mrel_node (hQ : Groupwise E.names.length Q) (k : Nat) {rec rec' : Ast → Nat → Matcher} {a : Ast} {r : Nat}
    (hok : Ok E r a) (h : ∀ b r', Ok E r' b → KindRel Q (rec b r') (rec' b r')) :
    KindRel Q (nodeMatch E k rec a r) (nodeMatch E k rec' a r) := by
  cases hok <;> try dsimp only [nodeMatch]
  case empty => exact fun p c c' k k' hc hk => hk p c c' hc
  case lit => exact mrel_triv _
  case range => exact mrel_triv _
  case wildcard => exact mrel_triv _
  case set => exact mrel_triv _
  case neg b _ hb =>
    split
    · exact mrel_negAssert (h b r hb)
    · exact mrel_triv _
  case seq l _ hl => exact mrel_seqMatch (fun b hb => h b r (hl b hb))
  case alt l _ hl => exact mrel_altMatch (fun b hb => h b r (hl b hb))
  case cap id name b hn hr hb => exact mrel_capMatch hQ (List.getElem?_eq_some_iff.1 hn).1 (h b r hb)
  case repFin m lo hi b _ hb => exact mrel_repMatch k m lo _ b (h b r hb)
  case repInf m lo b hb => exact mrel_repMatch k m lo _ b (h b r hb)
  case ahead b hb =>
    split
    · exact mrel_assert _
    · exact mrel_look (h b r hb)
  case behindTriv b hcat ht hb =>
    rw [if_pos ht, if_pos ht]
    exact mrel_assert _
  case behind b hcat hb =>
    split
    · exact mrel_assert _
    · exact mrel_look (h _ _ hb)
  case backref id hcat hid =>
    intro p c c' k k' hc hk
    dsimp only
    rw [hQ.get id c c' hid hc]
    split
    · exact .ub
    · exact mrel_backref _ _ _ _ _ _ hc hk
  case namedBackref name hcat hid =>
    intro p c c' k k' hc hk
    dsimp only
    split
    · exact .ub
    · next id hi =>
      rw [hQ.get id c c' (nameIndex_lt hi) hc]
      split
      · exact .ub
      · exact mrel_backref _ _ _ _ _ _ hc hk
  all_goals exact mrel_assert _

theorem mtch_rel (hQ : Groupwise E.names.length Q) : ∀ fuel a r, Ok E r a → KindRel Q (mtch E fuel a r) (mtch E fuel a r) := by
  intro fuel
  induction fuel with
  | zero => exact fun _ _ _ _ _ _ _ _ _ _ => .diverge
  | succ k ih =>
    intro a r hok
    rw [mtch_eq]
    exact mrel_node hQ k hok (fun b r' hb => ih b r' hb)

end

theorem invokeWith_rel {E : Env} {Q : Ctx → Ctx → Prop} (hQ : Groupwise E.names.length Q) (hN : 0 < E.names.length)
    {m m' : Matcher} (h : KindRel Q m m') (M : Method) {cur : Nat} {c c' : Ctx} (hc : Q c c') :
    ORel Q (M.invokeWith E m cur c) (M.invokeWith E m' cur c') := by
  have hset : ∀ {o o' : Out}, ORel Q o o' → ORel Q (setGroup0 cur o) (setGroup0 cur o') := by
    intro o o' ho
    cases ho with
    | ok hc => exact .ok (hQ.set _ _ _ _ hN hc)
    | ub => exact .ub
    | diverge => exact .diverge
  have hs : ∀ k cur c c', Q c c' → ORel Q (searchBy E m k cur c) (searchBy E m' k cur c') := by
    intro k
    induction k with
    | zero => exact fun _ _ _ _ => .diverge
    | succ k ih =>
      intro cur c c' hc
      have := h cur c c' success success hc .success
      unfold searchBy
      generalize m cur c success = o at this ⊢
      generalize m' cur c' success = o' at this ⊢
      cases this with
      | @ok res d d' hd =>
        dsimp only
        split
        · exact .ok (hQ.set _ _ _ _ hN hd)
        · split
          · exact .ok hd
          · exact ih _ _ _ hd
      | ub => exact .ub
      | diverge => exact .diverge
  cases M with
  | «match» => exact hset (h _ _ _ _ _ hc (.equals _))
  | matchPrefix => exact hset (h _ _ _ _ _ hc .success)
  | search => exact hs _ _ _ _ hc

end Mregex
