import Verif.Model.Methods

/-!
# More fuel never changes a result
-/

namespace Mregex
open Ast

/-- `o` is undecided or equal to `o'`. -/
def Out.Le (o o' : Out) : Prop := o = .diverge ∨ o = o'

def Cont.Le (k k' : Cont) : Prop := ∀ q c, (k q c).Le (k' q c)

def Matcher.Le (m m' : Matcher) : Prop :=
  ∀ p c (k k' : Cont), k.Le k' → (m p c k).Le (m' p c k')

theorem Out.Le.refl (o : Out) : o.Le o := .inr rfl

theorem Out.Le.orElse {o o' : Out} {f f' : Ctx → Out} (h : o.Le o') (hf : ∀ c, (f c).Le (f' c)) :
    (o.orElse f).Le (o'.orElse f') := by
  rcases h with rfl | rfl
  · exact .inl rfl
  · match o with
    | .ok ⟨q, true⟩ c => exact .inr rfl
    | .ok ⟨q, false⟩ c => exact hf c
    | .ub => exact .inr rfl
    | .diverge => exact .inl rfl

theorem Out.Le.onMatch {o o' : Out} {f f' : Nat → Ctx → Out} {g g' : Ctx → Out} (h : o.Le o')
    (hf : ∀ q c, (f q c).Le (f' q c)) (hg : ∀ c, (g c).Le (g' c)) :
    (o.onMatch f g).Le (o'.onMatch f' g') := by
  rcases h with rfl | rfl
  · exact .inl rfl
  · match o with
    | .ok ⟨q, true⟩ c => exact hf q c
    | .ok ⟨q, false⟩ c => exact hg c
    | .ub => exact .inr rfl
    | .diverge => exact .inl rfl

theorem Cont.Le.refl (k : Cont) : k.Le k := fun _ _ => .refl _

section
variable {E : Env} {r : Nat}

theorem trivMatch_le (a : Ast) : Matcher.Le (trivMatch E r a) (trivMatch E r a) := by
  intro p c k k' h
  unfold trivMatch
  split
  · exact .refl _
  · split
    · exact .refl _
    · split
      · exact h _ _
      · exact .refl _

theorem seqTriv_le (l : List Ast) : Matcher.Le (seqTriv E r l) (seqTriv E r l) := by
  intro p c k k' h
  unfold seqTriv
  split
  · exact .refl _
  · split
    · exact .refl _
    · exact h _ _
    · exact .refl _

theorem seqMatch_le {m m' : Ast → Matcher} {l : List Ast} (h : ∀ a ∈ l, Matcher.Le (m a) (m' a)) :
    Matcher.Le (seqMatch E r m l) (seqMatch E r m' l) := by
  match l with
  | [] => exact fun _ _ _ _ _ => .refl _
  | a :: l =>
    induction l generalizing a with
    | nil => exact h a (by simp)
    | cons b l ih =>
      intro p c k k' hk
      unfold seqMatch
      split
      · exact seqTriv_le _ p c k k' hk
      · exact h a (by simp) _ _ _ _ (fun q c' => ih b (fun x hx => h x (List.mem_cons_of_mem _ hx)) q c' k k' hk)

theorem altMatch_le {m m' : Ast → Matcher} {l : List Ast} (h : ∀ a ∈ l, Matcher.Le (m a) (m' a)) :
    Matcher.Le (altMatch E r m l) (altMatch E r m' l) := by
  match l with
  | [] => exact fun _ _ _ _ _ => .refl _
  | a :: l =>
    induction l generalizing a with
    | nil => exact h a (by simp)
    | cons b l ih =>
      intro p c k k' hk
      unfold altMatch
      split
      · exact trivMatch_le _ p c k k' hk
      · exact (h a (by simp) _ _ _ _ hk).orElse
          (fun c' => ih b (fun x hx => h x (List.mem_cons_of_mem _ hx)) p c' k k' hk)

theorem capMatch_le {id : Nat} {name : GroupName} {m m' : Matcher} (h : m.Le m') :
    Matcher.Le (capMatch E r id name m) (capMatch E r id name m') := by
  intro p c k k' hk
  unfold capMatch
  refine (h _ _ _ _ ?_).orElse (fun _ => .refl _)
  intro q c'
  dsimp only
  split
  · exact .refl _
  · exact hk _ _

theorem backrefMatch_le (g : Cap) : Matcher.Le (backrefMatch E r g) (backrefMatch E r g) := by
  intro p c k k' hk
  unfold backrefMatch
  dsimp only
  split
  · exact .refl _
  · split
    · exact .refl _
    · split
      · exact .refl _
      · exact hk _ _
      · exact .refl _

theorem nonUnrolled_le {m m' : Matcher} (h : m.Le m') (N : Nat) :
    Matcher.Le (nonUnrolled m N) (nonUnrolled m' N) := by
  match N with
  | 0 => exact fun _ _ _ _ _ => .refl _
  | N + 1 =>
    induction N with
    | zero => exact h
    | succ N ih =>
      intro p c k k' hk
      exact h _ _ _ _ (fun q c' => ih q c' k k' hk)

theorem unrolled_le {m m' : Matcher} (h : m.Le m') (N : Nat) :
    Matcher.Le (unrolled m N) (unrolled m' N) := by
  match N with
  | 0 => exact fun p c k k' hk => hk p c
  | N + 1 =>
    induction N with
    | zero => exact h
    | succ N ih =>
      intro p c k k' hk
      exact h _ _ _ _ (fun q c' => ih q c' k k' hk)

theorem fixedTriv_le (a : Ast) (N : Nat) : Matcher.Le (fixedTriv E r a N) (fixedTriv E r a N) := by
  intro p c k k' hk
  unfold fixedTriv
  split
  · exact .refl _
  · split
    · exact .refl _
    · exact hk _ _
    · exact .refl _

theorem fixedBacktracking_le (a : Ast) {m m' : Matcher} (h : m.Le m') (N : Nat) :
    Matcher.Le (fixedBacktracking E r a m N) (fixedBacktracking E r a m' N) := by
  unfold fixedBacktracking
  split
  · exact fixedTriv_le a N
  · split
    · exact unrolled_le h N
    · exact nonUnrolled_le h N

theorem fixedMatch_le (mode : Mode) (a : Ast) {m m' : Matcher} (h : m.Le m') (N : Nat) :
    Matcher.Le (fixedMatch E r mode a m N) (fixedMatch E r mode a m' N) := by
  unfold fixedMatch
  split
  · exact fun p c k k' hk => hk p c
  · split
    · split
      · exact fun p c k k' hk => (h _ _ _ _ (Cont.Le.refl _)).onMatch hk (fun _ => .refl _)
      · exact h
    · split
      · exact fun p c k k' hk =>
          (fixedBacktracking_le a h N _ _ _ _ (Cont.Le.refl _)).onMatch hk (fun _ => .refl _)
      · exact fixedBacktracking_le a h N

theorem guardCont_le {guard : Bool} {p : Nat} {k k' : Cont} (hk : k.Le k') :
    Cont.Le (guardCont guard p k) (guardCont guard p k') := by
  intro q c
  unfold guardCont
  split
  · exact .refl _
  · exact hk _ _

/-- Rounds may grow when the loop is unbounded and stay the same otherwise. -/
def RoundsLe (inf : Bool) (n n' : Nat) : Prop := if inf then n ≤ n' else n = n'

theorem RoundsLe.cases {inf : Bool} {n n' : Nat} (h : RoundsLe inf n n') :
    (n = 0 ∧ inf = true) ∨ (n = 0 ∧ n' = 0 ∧ inf = false) ∨
      ∃ i i', n = i + 1 ∧ n' = i' + 1 ∧ RoundsLe inf i i' := by
  unfold RoundsLe at *
  cases inf <;> simp at h
  · subst h
    cases n with
    | zero => exact .inr (.inl ⟨rfl, rfl, rfl⟩)
    | succ n => exact .inr (.inr ⟨n, n, rfl, rfl, by simp⟩)
  · cases n with
    | zero => exact .inl ⟨rfl, rfl⟩
    | succ n => exact .inr (.inr ⟨n, n' - 1, rfl, by omega, by simp; omega⟩)

theorem possLoop_le {m m' : Matcher} (h : m.Le m') (guard inf : Bool) :
    ∀ n n', RoundsLe inf n n' → Matcher.Le (possLoop m guard inf n) (possLoop m' guard inf n') := by
  intro n
  induction n with
  | zero =>
    intro n' hn p c k k' hk
    rcases hn.cases with ⟨_, rfl⟩ | ⟨_, rfl, rfl⟩ | ⟨i, i', h1, _⟩
    · exact .inl rfl
    · exact hk _ _
    · omega
  | succ n ih =>
    intro n' hn p c k k' hk
    rcases hn.cases with ⟨h0, _⟩ | ⟨h0, _⟩ | ⟨i, i', h1, rfl, hi⟩
    · omega
    · omega
    · cases h1
      unfold possLoop
      refine (h _ _ _ _ (Cont.Le.refl _)).onMatch (fun q c' => ?_) (fun c' => hk _ _)
      split
      · exact hk _ _
      · exact ih _ hi _ _ _ _ hk

theorem greedyLoop_le {m m' : Matcher} (h : m.Le m') (guard inf : Bool) :
    ∀ n n', RoundsLe inf n n' → Matcher.Le (greedyLoop m guard inf n) (greedyLoop m' guard inf n') := by
  intro n
  induction n with
  | zero =>
    intro n' hn p c k k' hk
    rcases hn.cases with ⟨_, rfl⟩ | ⟨_, rfl, rfl⟩ | ⟨i, i', h1, _⟩
    · exact .inl rfl
    · exact hk _ _
    · omega
  | succ n ih =>
    intro n' hn p c k k' hk
    rcases hn.cases with ⟨h0, _⟩ | ⟨h0, _⟩ | ⟨i, i', h1, rfl, hi⟩
    · omega
    · omega
    · cases h1
      unfold greedyLoop
      exact (h _ _ _ _ (guardCont_le (fun q c' => ih _ hi _ _ _ _ hk))).orElse (fun c' => hk _ _)

theorem lazyLoop_le {m m' : Matcher} (h : m.Le m') (guard inf : Bool) :
    ∀ n n', RoundsLe inf n n' → Matcher.Le (lazyLoop m guard inf n) (lazyLoop m' guard inf n') := by
  intro n
  induction n with
  | zero =>
    intro n' hn p c k k' hk
    rcases hn.cases with ⟨_, rfl⟩ | ⟨_, rfl, rfl⟩ | ⟨i, i', h1, _⟩
    · exact .inl rfl
    · exact (hk _ _).orElse (fun _ => .refl _)
    · omega
  | succ n ih =>
    intro n' hn p c k k' hk
    rcases hn.cases with ⟨h0, _⟩ | ⟨h0, _⟩ | ⟨i, i', h1, rfl, hi⟩
    · omega
    · omega
    · cases h1
      unfold lazyLoop
      exact (hk _ _).orElse (fun c' => h _ _ _ _ (guardCont_le (fun q c' => ih _ hi _ _ _ _ hk)))

theorem possTriv_le (a : Ast) (inf : Bool) :
    ∀ n n', RoundsLe inf n n' → Matcher.Le (possTriv E r a inf n) (possTriv E r a inf n') := by
  intro n
  induction n with
  | zero =>
    intro n' hn p c k k' hk
    rcases hn.cases with ⟨_, rfl⟩ | ⟨_, rfl, rfl⟩ | ⟨i, i', h1, _⟩
    · exact .inl rfl
    · exact hk _ _
    · omega
  | succ n ih =>
    intro n' hn p c k k' hk
    rcases hn.cases with ⟨h0, _⟩ | ⟨h0, _⟩ | ⟨i, i', h1, rfl, hi⟩
    · omega
    · omega
    · cases h1
      unfold possTriv
      split
      · exact hk _ _
      · split
        · exact .refl _
        · split
          · exact ih _ hi _ _ _ _ hk
          · exact hk _ _

theorem lazyTriv_le (a : Ast) (inf : Bool) :
    ∀ n n', RoundsLe inf n n' → Matcher.Le (lazyTriv E r a inf n) (lazyTriv E r a inf n') := by
  intro n
  induction n with
  | zero =>
    intro n' hn p c k k' hk
    rcases hn.cases with ⟨_, rfl⟩ | ⟨_, rfl, rfl⟩ | ⟨i, i', h1, _⟩
    · exact .inl rfl
    · exact (hk _ _).orElse (fun _ => .refl _)
    · omega
  | succ n ih =>
    intro n' hn p c k k' hk
    rcases hn.cases with ⟨h0, _⟩ | ⟨h0, _⟩ | ⟨i, i', h1, rfl, hi⟩
    · omega
    · omega
    · cases h1
      unfold lazyTriv
      refine (hk _ _).orElse (fun c' => ?_)
      split
      · exact .refl _
      · split
        · exact .refl _
        · split
          · exact ih _ hi _ _ _ _ hk
          · exact .refl _

theorem backOff_le {p : Nat} {k k' : Cont} (hk : k.Le k') :
    ∀ n q c, (backOff r p k n q c).Le (backOff r p k' n q c) := by
  intro n
  induction n with
  | zero => exact fun q c => (hk q c).orElse (fun _ => .refl _)
  | succ n ih =>
    intro q c
    refine (hk q c).orElse (fun c' => ?_)
    split
    · exact .refl _
    · exact ih _ _

theorem greedyTriv_le (a : Ast) (inf : Bool) (n n' : Nat) (hn : RoundsLe inf n n') :
    Matcher.Le (greedyTriv E r a inf n) (greedyTriv E r a inf n') :=
  fun p c _ _ hk => possTriv_le a inf n n' hn p c _ _ (fun q c' => backOff_le hk _ q c')

theorem betweenBounds_le (mode : Mode) (a : Ast) {m m' : Matcher} (h : m.Le m') (inf : Bool) (n n' : Nat)
    (hn : RoundsLe inf n n') :
    Matcher.Le (betweenBounds E r mode a m inf n) (betweenBounds E r mode a m' inf n') := by
  unfold betweenBounds
  split
  · split
    · exact possTriv_le a inf _ _ hn
    · exact possLoop_le h _ inf _ _ hn
  · split
    · split
      · exact greedyTriv_le a inf _ _ hn
      · exact greedyLoop_le h _ inf _ _ hn
    · split
      · exact lazyTriv_le a inf _ _ hn
      · exact lazyLoop_le h _ inf _ _ hn

theorem repMatch_le {n n' : Nat} (hn : n ≤ n') (mode : Mode) (lo : Nat) (hi : Bound) (a : Ast) {m m' : Matcher}
    (h : m.Le m') : Matcher.Le (repMatch E r n mode lo hi a m) (repMatch E r n' mode lo hi a m') := by
  unfold repMatch
  split
  · split
    · exact fixedMatch_le mode a h lo
    · split
      · exact fun _ _ _ _ _ => .refl _
      · split
        · exact betweenBounds_le mode a h false _ _ (by simp [RoundsLe])
        · exact fun p c k k' hk => fixedMatch_le mode a h lo _ _ _ _
            (fun q c' => betweenBounds_le mode a h false _ _ (by simp [RoundsLe]) q c' _ _ hk)
  · split
    · exact betweenBounds_le mode a h true _ _ (by simpa [RoundsLe] using hn)
    · exact fun p c k k' hk => fixedMatch_le mode a h lo _ _ _ _
        (fun q c' => betweenBounds_le mode a h true _ _ (by simpa [RoundsLe] using hn) q c' _ _ hk)

theorem assertMatch_le (pred : Nat → Option Bool) : Matcher.Le (assertMatch pred) (assertMatch pred) := by
  intro p c k k' hk
  unfold assertMatch
  split
  · exact .refl _
  · split
    · exact hk _ _
    · exact .refl _

theorem lookMatch_le {m m' : Matcher} (h : m.Le m') : Matcher.Le (lookMatch m) (lookMatch m') :=
  fun _ _ _ _ hk => (h _ _ _ _ (Cont.Le.refl _)).onMatch (fun _ _ => hk _ _) (fun _ => .refl _)

theorem negAssertMatch_le {m m' : Matcher} (h : m.Le m') :
    Matcher.Le (negAssertMatch m) (negAssertMatch m') :=
  fun _ _ _ _ hk => (h _ _ _ _ (Cont.Le.refl _)).onMatch (fun _ _ => .refl _) (fun _ => hk _ _)

end

theorem mtch_le (E : Env) : ∀ n n' a r, n ≤ n' → Matcher.Le (mtch E n a r) (mtch E n' a r) := by
  intro n
  induction n with
  | zero => exact fun _ _ _ _ _ _ _ _ _ => .inl rfl
  | succ n ih =>
    intro n' a r hn
    obtain ⟨n', rfl⟩ : ∃ i, n' = i + 1 := ⟨n' - 1, by omega⟩
    have hn' : n ≤ n' := by omega
    unfold mtch
    cases a <;> try dsimp only
    case empty => exact fun p c k k' hk => hk p c
    case neg a =>
      split
      · exact negAssertMatch_le (ih n' a r hn')
      · exact trivMatch_le _
    case seq l => exact seqMatch_le (fun a _ => ih n' a r hn')
    case alt l => exact altMatch_le (fun a _ => ih n' a r hn')
    case cap id name a => exact capMatch_le (ih n' a r hn')
    case rep m lo hi a => exact repMatch_le hn' m lo hi a (ih n' a r hn')
    case look d a =>
      cases d <;> dsimp only
      · split
        · exact assertMatch_le _
        · exact lookMatch_le (ih n' a r hn')
      · split
        · exact assertMatch_le _
        · split
          · exact fun _ _ _ _ _ => .refl _
          · exact lookMatch_le (ih n' _ _ hn')
    case backref id =>
      intro p c k k' hk
      dsimp only
      split
      · exact .refl _
      · exact backrefMatch_le _ _ _ _ _ hk
    case namedBackref name =>
      intro p c k k' hk
      dsimp only
      split
      · exact .refl _
      · split
        · exact .refl _
        · exact backrefMatch_le _ _ _ _ _ hk
    all_goals first
      | exact trivMatch_le _
      | exact assertMatch_le _

/-- A result obtained with some fuel is the result for every larger amount. -/
theorem mtch_fuel {E : Env} {n n' : Nat} (hn : n ≤ n') {a : Ast} {r p : Nat} {c : Ctx} {k : Cont}
    (h : mtch E n a r p c k ≠ .diverge) : mtch E n' a r p c k = mtch E n a r p c k := by
  rcases mtch_le E n n' a r hn p c k k (Cont.Le.refl k) with h' | h'
  · exact absurd h' h
  · exact h'.symm

end Mregex
