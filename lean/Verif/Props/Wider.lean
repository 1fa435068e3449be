import Verif.Proof.WiderPaths
import Verif.Props.Frame
import Verif.Props.Exchange

/-!
# C109: parts that permit more
-/

namespace Mregex
open Ast Spec

variable {fl : List RegexFlag} {cat : Cat} {X Y Z : Ast}

theorem wider_top (h : Permits fl cat X Y) {C : Frame} (hC : C.backtracks = true) (oX : (Regex.mk (C.fill X) fl).Ok cat) {s : List Byte} {p : Nat}
    (hp : p ≤ s.length) (q : Nat) :
    if C.positive then q ∈ ends (Flags.ofList fl) s (C.fill X) true false p → q ∈ ends (Flags.ofList fl) s (C.fill Y) true false p
    else q ∈ ends (Flags.ofList fl) s (C.fill Y) true false p → q ∈ ends (Flags.ofList fl) s (C.fill X) true false p :=
  wider_fill s C hC (fun hc => ahead_of_ok (E := (Regex.mk (C.fill X) fl).env cat s) hc (oX s)) (fun fwd inv hr p hp q hq => h fwd inv hr s p hp q hq)
    true false (.inr ⟨rfl, rfl⟩) p hp q

theorem accepted_mono {R R' : Regex} (oR : R.Ok cat) (oR' : R'.Ok cat) (bR : noBackref R.ast = true) (bR' : noBackref R'.ast = true) {s : List Byte}
    (h : ∀ p, p ≤ s.length → ∀ q, q ∈ ends R.fl s R.ast true false p → q ∈ ends R'.fl s R'.ast true false p) (M : Method)
    (hs : s ∈ accepted R M cat) : s ∈ accepted R' M cat := by
  have ne : ∀ p, p ≤ s.length → ends R.fl s R.ast true false p ≠ [] → ends R'.fl s R'.ast true false p ≠ [] := by
    intro p hp hn
    obtain ⟨q, hq⟩ := List.exists_mem_of_ne_nil _ hn
    exact List.ne_nil_of_mem (h p hp q hq)
  cases M with
  | «match» => exact (accepted_match oR' bR' s).2 (h 0 (Nat.zero_le _) _ ((accepted_match oR bR s).1 hs))
  | matchPrefix => exact (accepted_matchPrefix oR' bR' s).2 (ne 0 (Nat.zero_le _) ((accepted_matchPrefix oR bR s).1 hs))
  | search =>
    obtain ⟨i, hi, h1⟩ := (accepted_search oR bR s).1 hs
    exact (accepted_search oR' bR' s).2 ⟨i, hi, ne i hi h1⟩

section
variable (h : Permits fl cat X Y) {C : Frame} (hC : C.backtracks = true) (bX : noBackref (C.fill X) = true) (bY : noBackref (C.fill Y) = true)
  (oX : (Regex.mk (C.fill X) fl).Ok cat) (oY : (Regex.mk (C.fill Y) fl).Ok cat)
include h hC bX bY oX oY

/-- **C109.** If `Y` permits more than `X`, then a pattern accepts more texts with `Y` in the place of `X`, by every method. -/
theorem C109_more (hp : C.positive = true) (M : Method) (s : List Byte) (hs : s ∈ accepted ⟨C.fill X, fl⟩ M cat) : s ∈ accepted ⟨C.fill Y, fl⟩ M cat :=
  accepted_mono oX oY bX bY (fun p hp' q => by have := wider_top h hC oX hp' q; rw [if_pos hp] at this; exact this) M hs

/-- **C109.** But if the place is negated, fewer. -/
theorem C109_fewer (hp : C.positive = false) (M : Method) (s : List Byte) (hs : s ∈ accepted ⟨C.fill Y, fl⟩ M cat) : s ∈ accepted ⟨C.fill X, fl⟩ M cat :=
  accepted_mono oY oX bY bX (fun p hp' q => by have := wider_top h hC oX hp' q; rw [if_neg (by simp [hp])] at this; exact this) M hs

/-- **C109.** A search finds a match of the pattern with `Y` no further to the right than with `X`. -/
theorem C109_leftmost (hp : C.positive = true) (s : List Byte) {res : Result} (hr : (Regex.mk (C.fill X) fl).search s cat = some res) {i j : Nat}
    (hm : res.matched = true) (hg : res.group 0 = some (some (i, j))) :
    ∃ res' i' j', (Regex.mk (C.fill Y) fl).search s cat = some res' ∧ res'.matched = true ∧ res'.group 0 = some (some (i', j')) ∧ i' ≤ i := by
  have he : ∀ p, p ≤ s.length → ∀ q, q ∈ ends (Flags.ofList fl) s (C.fill X) true false p → q ∈ ends (Flags.ofList fl) s (C.fill Y) true false p :=
    fun p hp' q => by have := wider_top h hC oX hp' q; rw [if_pos hp] at this; exact this
  obtain ⟨r1, e1, e2, e3⟩ := invoke_outcome _ cat oX bX .search s
  obtain ⟨r2, f1, f2, f3⟩ := invoke_outcome _ cat oY bY .search s
  have er : r1 = res := Option.some.inj (e1.symm.trans hr)
  subst er
  simp only [Regex.fl] at e2 e3 f2 f3
  have key : ∀ k m i j, m + k ≤ s.length + 1 → firstFrom (ends (Flags.ofList fl) s (C.fill X) true false) k m = some (i, j) →
      ∃ i' j', firstFrom (ends (Flags.ofList fl) s (C.fill Y) true false) k m = some (i', j') ∧ i' ≤ i := by
    intro k
    induction k with
    | zero => intro m i j _ h; cases h
    | succ k ih =>
      intro m i j hm h
      have mi : ∀ k m i j, firstFrom (ends (Flags.ofList fl) s (C.fill X) true false) k m = some (i, j) → m ≤ i := by
        intro k
        induction k with
        | zero => intro m i j h; cases h
        | succ k ih =>
          intro m i j h
          simp only [firstFrom] at h
          split at h
          · cases h; exact Nat.le_refl _
          · exact Nat.le_of_succ_le (ih _ _ _ h)
      have hmi := mi _ _ _ _ h
      simp only [firstFrom] at h ⊢
      cases hY : (ends (Flags.ofList fl) s (C.fill Y) true false m).head? with
      | some q => exact ⟨m, q, rfl, hmi⟩
      | none =>
        have : ends (Flags.ofList fl) s (C.fill X) true false m = [] := by
          rw [List.head?_eq_none_iff] at hY
          refine List.eq_nil_iff_forall_not_mem.2 (fun q hq => ?_)
          have := he m (by omega) q hq
          rw [hY] at this
          cases this
        rw [this] at h
        exact ih (m + 1) i j (by omega) h
  have e4 := e3 hm
  rw [hg] at e4
  obtain ⟨i', j', k1, k2⟩ := key (s.length + 1) 0 i j (by omega) (Option.some.inj e4).symm
  have hm' : r2.matched = true := by rw [f2, show outcome .search s.length _ = some (i', j') from k1]; rfl
  exact ⟨r2, i', j', f1, hm', by rw [f3 hm']; exact congrArg some k1, k2⟩

end

/-- **C109.** The same with groups and references in the pattern (but not inside lookarounds and possessive parts), if there are none in the exchanged parts: whatever a method finds
with `X`, it finds something with `Y`, and not further to the right; the other way round in negated places. -/
theorem C109_references (h : Permits fl cat X Y) (hX : closed X = true) (hY : closed Y = true) {C : Frame} (hC : C.backtracks = true)
    (oX : (Regex.mk (C.fill X) fl).Ok cat) (oY : (Regex.mk (C.fill Y) fl).Ok cat) (tX : traceable (C.fill X) = true) (tY : traceable (C.fill Y) = true)
    (M : Method) (s : List Byte) {Z W : Ast} (hZ : (Z, W) = if C.positive then (C.fill X, C.fill Y) else (C.fill Y, C.fill X)) {res : Result} {i j : Nat}
    (hr : (Regex.mk Z fl).invoke M cat s = some res) (hm : res.matched = true) (hg : res.group 0 = some (some (i, j))) :
    ∃ res' i' j', (Regex.mk W fl).invoke M cat s = some res' ∧ res'.matched = true ∧ res'.group 0 = some (some (i', j')) ∧ i' ≤ i := by
  have hp := wider_paths s hX hY (fun fwd inv hr p hp q hq => h fwd inv hr s p hp q hq) C hC
    (fun hc => ahead_of_ok (E := (Regex.mk (C.fill X) fl).env cat s) hc (oX s))
  have key : ∀ {A B : Ast}, (Regex.mk A fl).Ok cat → (Regex.mk B fl).Ok cat → traceable A = true → traceable B = true →
      (∀ x : Place, x.1 ≤ s.length → ∀ y ∈ paths (Flags.ofList fl) s A x, y ∈ paths (Flags.ofList fl) s B x) → (Regex.mk A fl).invoke M cat s = some res →
      ∃ res' i' j', (Regex.mk B fl).invoke M cat s = some res' ∧ res'.matched = true ∧ res'.group 0 = some (some (i', j')) ∧ i' ≤ i := by
    intro A B oA oB tA tB hAB hA
    obtain ⟨r1, e1, e2⟩ := method_paths (s := s) oA tA M
    obtain ⟨r2, f1, f2⟩ := method_paths (s := s) oB tB M
    cases Option.some.inj (e1.symm.trans hA)
    rcases e2 with ⟨k, y, e2, _, e4, _⟩ | ⟨_, e3, _⟩
    · obtain ⟨i', y', g1, g2⟩ := methodPath_more hAB e2
      rcases f2 with ⟨k', z, f2, f3, f4, _⟩ | ⟨f2, _, _⟩
      · cases (show methodPath (Flags.ofList fl) s B M = _ from f2).symm.trans g1
        rw [hg] at e4
        cases Option.some.inj (Option.some.inj e4)
        exact ⟨r2, _, _, f1, f3, f4, g2⟩
      · cases (show methodPath (Flags.ofList fl) s B M = _ from f2).symm.trans g1
    · rw [hm] at e3; cases e3
  by_cases hpos : C.positive = true
  · rw [if_pos hpos] at hZ
    cases hZ
    simp only [if_pos hpos] at hp
    exact key oX oY tX tY (fun x hx y => hp x hx y) hr
  · rw [if_neg hpos] at hZ
    cases hZ
    simp only [if_neg hpos] at hp
    exact key oY oX tY tX (fun x hx y => hp x hx y) hr

/-! ## Nothing else is permitted -/

/-- One that fits only if a match of the gap begins at `p` and may end at `q`. -/
def spot (s : List Byte) (fwd inv : Bool) (p q : Nat) : Frame := between inv [isAt s fwd inv p] .gap [isAt s fwd inv q]

theorem ends_spot (f : Flags) (s : List Byte) (fwd inv : Bool) {p q i : Nat} (hp : p ≤ s.length) (hq : q ≤ s.length) (hi : i ≤ s.length) (X : Ast) :
    ends f s ((spot s fwd inv p q).fill X) fwd inv i ≠ [] ↔ i = p ∧ q ∈ ends f s X fwd inv p := by
  have outer : ends f s ((spot s fwd inv p q).fill X) fwd inv i =
      (ends f s (isAt s fwd inv p) fwd inv i).flatMap (fun j => (ends f s X fwd inv j).flatMap (ends f s (isAt s fwd inv q) fwd inv)) := by
    unfold spot
    cases inv <;> simp [between, Frame.fill, ends, endsAll, List.flatMap_assoc]
  rw [outer, ends_isAt f s fwd inv p i hp hi]
  by_cases h : i = p
  · subst h
    simp only [test, decide_true, if_true, List.flatMap_cons, List.flatMap_nil, List.append_nil, true_and, ne_eq, List.flatMap_eq_nil_iff]
    constructor
    · intro h
      apply Classical.byContradiction
      intro hn
      apply h
      intro x hx
      rw [ends_isAt f s fwd inv q x hq (ends_within hi hx), test, if_neg]
      simp only [decide_eq_true_eq]
      rintro rfl
      exact hn hx
    · intro h1 h2
      have := h2 q h1
      rw [ends_isAt f s fwd inv q q hq hq] at this
      simp [test] at this
  · simp [test, h]

theorem search_spot (oX : (Regex.mk X fl).Ok cat) (hX : closed X = true) {fwd inv : Bool} (hr : Readings cat fwd inv) {s : List Byte} {p q : Nat}
    (hp : p ≤ s.length) (hq : q ≤ s.length) :
    let C := lead fwd inv (spot s fwd inv p q)
    C.backtracks = true ∧ C.positive = true ∧ noBackref (C.fill X) = true ∧ (Regex.mk (C.fill X) fl).Ok cat ∧
      (s ∈ accepted ⟨C.fill X, fl⟩ .search cat ↔ q ∈ ends (Flags.ofList fl) s X fwd inv p) := by
  simp only [closed, Bool.and_eq_true, List.isEmpty_iff] at hX
  have hb : noBackref ((lead fwd inv (spot s fwd inv p q)).fill X) = true := by
    cases fwd <;> cases inv <;> simp [lead, spot, between, Frame.fill, noBackref, noBackrefAll, hX.2, isAt, remaining, anyChar]
  have hg : groupIds ((lead fwd inv (spot s fwd inv p q)).fill X) = [] := by
    cases fwd <;> cases inv <;> simp [lead, spot, between, Frame.fill, groupIds, groupIdsAll, hX.1, isAt, remaining, anyChar]
  have hn : nameSpec ((lead fwd inv (spot s fwd inv p q)).fill X) = [] := by
    rw [← List.length_eq_zero_iff, length_nameSpec, ← length_groupIds, hg]; rfl
  have hnX : nameSpec X = [] := by
    rw [← List.length_eq_zero_iff, length_nameSpec, ← length_groupIds, hX.1]; rfl
  have hok : (Regex.mk ((lead fwd inv (spot s fwd inv p q)).fill X) fl).Ok cat := by
    intro t
    rw [show (Regex.mk ((lead fwd inv (spot s fwd inv p q)).fill X) fl).env cat t = (Regex.mk X fl).env cat t by simp only [Regex.env, Regex.names, hn, hnX]]
    have hx := oX t
    by_cases hc : cat = .forward
    · rcases hr with hr | ⟨rfl, rfl⟩
      · exact absurd hc hr
      · refine .seq (by simp) (fun a ha => ?_)
        simp only [List.cons_append, List.nil_append, List.mem_cons, List.not_mem_nil, or_false] at ha
        rcases ha with rfl | rfl | rfl
        · exact ok_remaining _ _
        · exact hx
        · exact ok_remaining _ _
    · have hc' : ((Regex.mk X fl).env cat t).cat ≠ .forward := hc
      have hx' := okAny_of_ok hc' hx hX.1
      have h3 := fun q => okAny_remaining hc' inv (distance s fwd q)
      have h : OkAny ((Regex.mk X fl).env cat t) ((spot s fwd inv p q).fill X) := by
        unfold spot
        cases inv <;> (refine okAny_seq (by simp) (fun a ha => ?_); simp only [Frame.fill, List.nil_append, List.cons_append, List.mem_cons, List.not_mem_nil, or_false] at ha;
                       rcases ha with rfl | rfl | rfl <;> first | exact hx' | exact h3 _)
      cases fwd <;> cases inv
      · exact okAny_look hc' (okAny_look hc' h) 0 false
      · exact okAny_look hc' h 0 false
      · exact h 0 false
      · exact okAny_look hc' (okAny_look hc' h) 0 false
  refine ⟨by cases fwd <;> cases inv <;> rfl, by cases fwd <;> cases inv <;> rfl, hb, hok, ?_⟩
  rw [accepted_search hok hb]
  constructor
  · rintro ⟨i, hi, h⟩
    exact ((ends_spot _ s fwd inv hp hq hi X).1 ((ends_lead _ s fwd inv _ X i).1 h)).2
  · intro h
    exact ⟨p, hp, (ends_lead _ s fwd inv _ X p).2 ((ends_spot _ s fwd inv hp hq hp X).2 ⟨rfl, h⟩)⟩

/-- **C109.** And no other parts may be exchanged in this way: for `X` and `Y` without groups and references, all patterns around them without atomic parts and
negations accept more with `Y` than with `X` if and only if `Y` permits more than `X`. -/
theorem C109_exact (oX : (Regex.mk X fl).Ok cat) (oY : (Regex.mk Y fl).Ok cat) (hX : closed X = true) (hY : closed Y = true) :
    Permits fl cat X Y ↔ ∀ C : Frame, C.backtracks = true → C.positive = true → noBackref (C.fill X) = true → noBackref (C.fill Y) = true →
      (Regex.mk (C.fill X) fl).Ok cat → (Regex.mk (C.fill Y) fl).Ok cat → ∀ M s, s ∈ accepted ⟨C.fill X, fl⟩ M cat → s ∈ accepted ⟨C.fill Y, fl⟩ M cat := by
  refine ⟨fun h C hC hp bX bY o1 o2 M s hs => C109_more h hC bX bY o1 o2 hp M s hs, fun h fwd inv hr s p hp q hq => ?_⟩
  have hq' := ends_within hp hq
  obtain ⟨h1, h2, h3, h4, h5⟩ := search_spot oX hX hr hp hq'
  obtain ⟨_, _, h3', h4', h5'⟩ := search_spot oY hY hr hp hq'
  exact h5'.1 (h _ h1 h2 h3 h3' h4 h4' .search s (h5.2 hq))

theorem permits_iff_same : Permits fl cat X Y ↔ ∀ fwd inv, Readings cat fwd inv → SameChoices (Flags.ofList fl) fwd inv (.alt [Y, X]) Y := by
  have e : ∀ s fwd inv p, ends (Flags.ofList fl) s (.alt [Y, X]) fwd inv p = ends (Flags.ofList fl) s Y fwd inv p ++ ends (Flags.ofList fl) s X fwd inv p := by
    intro s fwd inv p
    simp [ends, endsAny]
  constructor
  · intro h fwd inv hr s p hp A
    rw [e, List.find?_append]
    cases hy : (ends (Flags.ofList fl) s Y fwd inv p).find? A with
    | some q => rfl
    | none =>
      rw [Option.none_or, List.find?_eq_none]
      exact fun q hq => List.find?_eq_none.1 hy q (h fwd inv hr s p hp q hq)
  · intro h fwd inv hr s p hp q hq
    have h1 := h fwd inv hr s p hp (fun x => x == q)
    rw [e, List.find?_append] at h1
    cases hy : (ends (Flags.ofList fl) s Y fwd inv p).find? (fun x => x == q) with
    | some x =>
      have := List.find?_some hy
      rw [beq_iff_eq] at this
      exact this ▸ List.mem_of_find?_eq_some hy
    | none =>
      rw [hy, Option.none_or, List.find?_eq_none] at h1
      exact absurd (h1 q hq) (by simp)

/-- **C109.** `Y` permits more than `X` exactly if `Y|X` can be exchanged for `Y`. -/
theorem C109_absorbs (oX : (Regex.mk X fl).Ok cat) (oY : (Regex.mk Y fl).Ok cat) (hX : closed X = true) (hY : closed Y = true) :
    Permits fl cat X Y ↔ Interchangeable fl cat (.alt [Y, X]) Y := by
  have hn : ∀ {Z : Ast}, groupIds Z = [] → nameSpec Z = [] := fun {Z} h => by
    rw [← List.length_eq_zero_iff, length_nameSpec, ← length_groupIds, h]; rfl
  simp only [closed, Bool.and_eq_true, List.isEmpty_iff] at hX hY
  have hg : groupIds (.alt [Y, X]) = [] := by simp [groupIds, groupIdsAll, hX.1, hY.1]
  have o : (Regex.mk (.alt [Y, X]) fl).Ok cat := by
    intro t
    have e : ∀ Z, groupIds Z = [] → (Regex.mk Z fl).env cat t = (Regex.mk (.alt [Y, X]) fl).env cat t := fun Z h => by
      simp only [Regex.env, Regex.names, hn h, hn hg]
    refine .alt (by simp) (fun a ha => ?_)
    simp only [List.mem_cons, List.not_mem_nil, or_false] at ha
    rcases ha with rfl | rfl
    · rw [← e _ hY.1]; exact oY t
    · rw [← e _ hX.1]; exact oX t
  rw [permits_iff_same, C90_interchangeable o oY (by simp [closed, hg, noBackref, noBackrefAll, hX.2, hY.2]) (by simp [closed, hY])]

/-- **C109.** Whether `Y` permits more than `X` is found out by a program, which tries the texts up to a length. -/
theorem C109_decidable : exchangeableb fl cat (.alt [Y, X]) Y = true ↔ Permits fl cat X Y := exchangeableb_iff.trans permits_iff_same.symm

/-! ## What permits more -/

theorem permits_refl : Permits fl cat X X := fun _ _ _ _ _ _ _ h => h

theorem permits_trans (h : Permits fl cat X Y) (h' : Permits fl cat Y Z) : Permits fl cat X Z :=
  fun fwd inv hr s p hp q hq => h' fwd inv hr s p hp q (h fwd inv hr s p hp q hq)

/-- **C109.** So that several parts may be exchanged one after the other, also inside of others. -/
theorem C109_inside (h : Permits fl cat X Y) {C : Frame} (hC : C.backtracks = true) (hp : C.positive = true) (oX : (Regex.mk (C.fill X) fl).Ok cat) :
    Permits fl cat (C.fill X) (C.fill Y) := by
  intro fwd inv hr s p hps q
  have := wider_fill s C hC (fun hc => ahead_of_ok (E := (Regex.mk (C.fill X) fl).env cat s) hc (oX s)) (fun fwd inv hr p hp q hq => h fwd inv hr s p hp q hq)
    fwd inv hr p hps q
  rw [if_pos hp] at this
  exact this

/-- **C109.** More alternatives, in whichever order, permit more. -/
theorem C109_alternatives {l l' : List Ast} (h : ∀ a ∈ l, a ∈ l') : Permits fl cat (.alt l) (.alt l') := by
  have key : ∀ (f : Flags) (s : List Byte) (fwd inv : Bool) (p q : Nat) (l : List Ast), q ∈ endsAny f s l fwd inv p ↔ ∃ a ∈ l, q ∈ ends f s a fwd inv p := by
    intro f s fwd inv p q l
    induction l with
    | nil => simp [endsAny]
    | cons a l ih => simp [endsAny, ih]
  intro fwd inv _ s p _ q hq
  simp only [ends, key] at hq ⊢
  obtain ⟨a, h1, h2⟩ := hq
  exact ⟨a, h a h1, h2⟩

/-- **C109.** An alternative permits less than the alternation. -/
theorem C109_alternative {l : List Ast} (h : X ∈ l) : Permits fl cat X (.alt l) := by
  refine permits_trans (Y := .alt [X]) (fun fwd inv _ s p _ q hq => by simpa [ends, endsAny] using hq) (C109_alternatives (fun a ha => ?_))
  rw [List.mem_singleton.1 ha]
  exact h

/-- **C109.** Wider bounds permit more, and so does a quantifier that can give back, whether greedy or lazy. -/
theorem C109_bounds {m m' : Mode} (hm : m' ≠ .possessive) {lo lo' : Nat} {hi hi' : Bound} (h0 : ∀ b, hi = .fin b → lo ≤ b) (hl : lo' ≤ lo)
    (hh : ∀ b', hi' = .fin b' → ∃ b, hi = .fin b ∧ b ≤ b') : Permits fl cat (.rep m lo hi X) (.rep m' lo' hi' X) := by
  intro fwd inv _ s p hp q hq
  simp only [ends] at hq ⊢
  obtain ⟨i, h1, h2, h3⟩ := mem_quantified hq
  refine (mem_quantified_iff (E := (Regex.mk X fl).env .randomAccess s) (r := if fwd then 0 else 1)
    (ends_inside (E := (Regex.mk X fl).env .randomAccess s) (by cases fwd <;> rfl) X inv) hm (fun b' hb' => ?_) hp).2
    ⟨i, Nat.le_trans hl h1, ?_, h3⟩
  · obtain ⟨b, e, hle⟩ := hh b' hb'
    have := h0 b e
    omega
  · cases hi' with
    | inf => trivial
    | fin b' =>
      obtain ⟨b, e, hle⟩ := hh b' rfl
      exact Nat.le_trans (h2 b e (h0 b e)) hle

/-- **C109.** Once is permitted if the bounds say so. -/
theorem C109_once {m : Mode} (hm : m ≠ .possessive) {lo : Nat} {hi : Bound} (hl : lo ≤ 1) (hh : ∀ b, hi = .fin b → 1 ≤ b) :
    Permits fl cat X (.rep m lo hi X) := by
  refine permits_trans (Y := .rep .greedy 1 (.fin 1) X) ?_ (C109_bounds hm (by simp) hl (fun b hb => ⟨1, rfl, hh b hb⟩))
  intro fwd inv _ s p _ q hq
  simpa [ends, quantified, exactly, extra_zero] using hq

/-- **C109.** Without an assertion a sequence permits more. -/
theorem C109_assertion {a : Ast} (h : ∀ s fwd inv p, ∀ q ∈ ends (Flags.ofList fl) s a fwd inv p, q = p) (pre post : List Ast) :
    Permits fl cat (.seq (pre ++ a :: post)) (.seq (pre ++ post)) := by
  intro fwd inv hr s p hp q hq
  clear hr hp
  simp only [ends] at hq ⊢
  induction pre generalizing p q with
  | nil =>
    cases inv <;> simp only [List.nil_append, endsAll, if_true, Bool.false_eq_true, if_false, List.mem_flatMap] at hq ⊢ <;> obtain ⟨t, h1, h2⟩ := hq
    · rw [h _ _ _ _ _ h1] at h2; exact h2
    · rw [h _ _ _ _ _ h2]; exact h1
  | cons c pre ih =>
    cases inv <;> simp only [List.cons_append, endsAll, if_true, Bool.false_eq_true, if_false, List.mem_flatMap] at hq ⊢ <;> obtain ⟨t, h1, h2⟩ := hq
    · exact ⟨t, h1, ih t q h2⟩
    · exact ⟨t, ih p t h1, h2⟩

/-! ## Examples -/

/-- `x(ab?c|y)` permits less than `x(ab*c|y)`: both as patterns and in lookbehinds. -/
example (cat : Mregex.Cat) :
    Permits [] cat (.seq [lt 'x', .cap 1 none (.alt [.seq [lt 'a', .rep .greedy 0 (.fin 1) (lt 'b'), lt 'c'], lt 'y'])])
      (.seq [lt 'x', .cap 1 none (.alt [.seq [lt 'a', .rep .greedy 0 .inf (lt 'b'), lt 'c'], lt 'y'])]) :=
  C109_inside (C := .seq [lt 'x'] (.cap 1 none (.alt [] (.seq [lt 'a'] .gap [lt 'c']) [lt 'y'])) [])
    (C109_bounds (by decide) (fun b hb => Nat.zero_le b) (Nat.le_refl _) (fun b' hb' => by cases hb')) rfl rfl
    (by cases cat <;> exact Regex.ok_of_okb (by decide))

/-- Where `(?!b*)c` fits, `(?!b{1,2}?)c` fits as well. -/
example (M : Method) (s : List Byte)
    (h : s ∈ accepted ⟨.seq [.neg (.look .ahead (.rep .greedy 0 .inf (lt 'b'))), lt 'c'], []⟩ M .randomAccess) :
    s ∈ accepted ⟨.seq [.neg (.look .ahead (.rep .lazy 1 (.fin 2) (lt 'b'))), lt 'c'], []⟩ M .randomAccess :=
  C109_fewer (C := .seq [] (.notLook .ahead .gap) [lt 'c'])
    (C109_bounds (m := .lazy) (m' := .greedy) (by decide) (fun b hb => by cases hb; decide) (Nat.zero_le _) (fun b' hb' => by cases hb')) rfl rfl rfl
    (Regex.ok_of_okb (by decide)) (Regex.ok_of_okb (by decide)) rfl M s h

/-- What `(ab?)c\\1` matches, `(ab*)c\\1` matches. -/
example (s : List Byte) {res : Result} {j : Nat}
    (hr : (Regex.mk (.seq [.cap 1 none (.seq [lt 'a', .rep .greedy 0 (.fin 1) (lt 'b')]), lt 'c', .backref 1]) []).match s .randomAccess = some res)
    (hm : res.matched = true) (hg : res.group 0 = some (some (0, j))) :
    ∃ res' i' j', (Regex.mk (.seq [.cap 1 none (.seq [lt 'a', .rep .greedy 0 .inf (lt 'b')]), lt 'c', .backref 1]) []).match s .randomAccess = some res' ∧
      res'.matched = true ∧ res'.group 0 = some (some (i', j')) ∧ i' ≤ 0 :=
  C109_references (X := .rep .greedy 0 (.fin 1) (lt 'b')) (Y := .rep .greedy 0 .inf (lt 'b')) (C := .seq [] (.cap 1 none (.seq [lt 'a'] .gap [])) [lt 'c', .backref 1])
    (C109_bounds (by decide) (fun b hb => Nat.zero_le b) (Nat.le_refl _) (fun b' hb' => by cases hb')) rfl rfl rfl
    (Regex.ok_of_okb (by decide)) (Regex.ok_of_okb (by decide)) rfl rfl .match s rfl hr hm hg

/-- A lookahead may be left out. -/
example (cat : Mregex.Cat) : Permits [] cat (.seq ([lt 'a'] ++ .look .ahead (lt 'b') :: [anyChar])) (.seq ([lt 'a'] ++ [anyChar])) :=
  C109_assertion (fun s fwd inv p q hq => by
    simp only [ends] at hq
    split at hq <;> · simp only [test] at hq; split at hq <;> simp_all) _ _

/-- **C109.** In atomic parts the rule does not hold: `aa|a` permits more than `a`, but `(?>aa|a)a` does not accept `aa`. -/
theorem C109_atomic (cat : Mregex.Cat) :
    Permits [] cat (lt 'a') (.alt [.seq [lt 'a', lt 'a'], lt 'a']) ∧
      let C := Frame.seq [] (.rep .possessive 1 (.fin 1) .gap) [lt 'a']
      C.positive = true ∧ (Regex.mk (C.fill (lt 'a')) []).Ok cat ∧ (Regex.mk (C.fill (.alt [.seq [lt 'a', lt 'a'], lt 'a'])) []).Ok cat ∧
      txt "aa" ∈ accepted ⟨C.fill (lt 'a'), []⟩ .match cat ∧ txt "aa" ∉ accepted ⟨C.fill (.alt [.seq [lt 'a', lt 'a'], lt 'a']), []⟩ .match cat := by
  have o1 : (Regex.mk ((Frame.seq [] (.rep .possessive 1 (.fin 1) .gap) [lt 'a']).fill (lt 'a')) []).Ok cat := by
    cases cat <;> exact Regex.ok_of_okb (by decide)
  have o2 : (Regex.mk ((Frame.seq [] (.rep .possessive 1 (.fin 1) .gap) [lt 'a']).fill (.alt [.seq [lt 'a', lt 'a'], lt 'a'])) []).Ok cat := by
    cases cat <;> exact Regex.ok_of_okb (by decide)
  refine ⟨C109_alternative (by simp), rfl, o1, o2, ?_, ?_⟩
  · rw [accepted_match o1 rfl]; decide
  · rw [accepted_match o2 rfl]; decide

end Mregex
