import Verif.Spec.Tokens
import Verif.Props.Words
import Verif.Props.Captures

/-!
# C96: tokens
-/

namespace Mregex
open Ast Spec

/-- `first i` describes the attempts at any position: where the match that starts at `i` ends. -/
def PrefixView (R : Regex) (cat : Cat) (s : List Byte) (first : Nat → Option Nat) : Prop :=
  ∀ cur, cur ≤ s.length → ∃ r c, Method.matchPrefix.invoke (R.env cat s) (fuelFor R.ast s) R.ast cur (initCtx R.names) = .ok r c ∧
    first cur = if r.matched then some r.pos else none

theorem prefixView_ends {R : Regex} {cat : Cat} {s : List Byte} (hR : R.Ok cat) (hb : noBackref R.ast = true) :
    PrefixView R cat s (fun i => (ends R.fl s R.ast true false i).head?) := by
  intro cur hc
  obtain ⟨r, c, h1, h2⟩ := C06_matchPrefix R cat hR hb s cur hc _ (length_init R.names)
  exact ⟨r, c, h1, h2.symm⟩

theorem prefixView_paths {R : Regex} {cat : Cat} {s : List Byte} (hR : R.Ok cat) (ht : traceable R.ast = true) :
    PrefixView R cat s (firstEnd R.fl s R.ast) := by
  intro cur hc
  unfold firstEnd
  rcases (prefix_paths (s := s) (denC_root hR ht) hc (agrees_init (R := R) (cat := cat) (s := s))).elim with ⟨q, c', h1, y, h2, rfl, _⟩ | ⟨q, c', h1, h2, _⟩
  · rw [show (paths R.fl s R.ast (cur, [])).head? = some y from h2]
    simp only [Method.invoke, prefixMethod, h1, setGroup0]
    exact ⟨_, _, rfl, rfl⟩
  · rw [show (paths R.fl s R.ast (cur, [])).head? = none from h2]
    simp only [Method.invoke, prefixMethod, h1, setGroup0]
    exact ⟨_, _, rfl, rfl⟩

theorem tokenizerNext_view {R : Regex} {cat : Cat} {s : List Byte} (hR : R.Ok cat) {first : Nat → Option Nat} (hv : PrefixView R cat s first) {g : Gen}
    (hg : g.current ≤ s.length) (ha : g.active = true) :
    ∃ res g', genNext R .matchPrefix cat s g = some (res, g') ∧ g'.current ≤ s.length ∧ (res.matched = false → g'.active = false ∧ first g.current = none) ∧
      (res.matched = true → g.current ≤ g'.current ∧ res.group 0 = some (some (g.current, g'.current)) ∧ g'.active = decide (g.current ≠ g'.current) ∧
        first g.current = some g'.current) := by
  obtain ⟨res, g', h1, h2, h3, h4⟩ := genNext_active hR .matchPrefix hg ha
  obtain ⟨r, c, i1, i2⟩ := hv g.current hg
  simp only [genNext, ha, i1, Bool.not_true, Bool.false_eq_true, if_false] at h1
  simp only [Option.some.injEq, Prod.mk.injEq] at h1
  obtain ⟨rfl, rfl⟩ := h1
  refine ⟨_, _, by simp only [genNext, ha, i1, Bool.not_true, Bool.false_eq_true, if_false], h2, fun h => ⟨h3 h, ?_⟩, fun h => ?_⟩
  · have h : r.matched = false := h
    rw [i2, h]; rfl
  · obtain ⟨i, j1, j2, j3, j4, j5⟩ := h4 h
    have := j3 (by decide)
    subst this
    have h : r.matched = true := h
    exact ⟨j2, j4, j5, by rw [i2, h]; rfl⟩

theorem genCalls_takes {R : Regex} {cat : Cat} {s : List Byte} (hR : R.Ok cat) {first : Nat → Option Nat} (hv : PrefixView R cat s first) (k : Nat) :
    ∀ (g : Gen) (rs : List Result) (g' : Gen), g.active = true → g.current ≤ s.length → genCalls R .matchPrefix cat s k g = some (rs, g') →
      g'.active = false →
      ∃ rg, (rs.takeWhile (·.matched)).map (·.group 0) = rg.map (fun x => some (some x)) ∧ Takes first g.current rg := by
  induction k with
  | zero =>
    intro g rs g' ha hg h h'
    cases h
    rw [ha] at h'; cases h'
  | succ k ih =>
    intro g rs g' ha hg h h'
    obtain ⟨res, g1, h1, h2, h3, h4⟩ := tokenizerNext_view hR hv hg ha
    unfold genCalls at h
    cases e2 : genCalls R .matchPrefix cat s k g1 with
    | none => simp [h1, e2] at h
    | some y =>
      obtain ⟨rest, g2⟩ := y
      simp only [h1, e2, Option.bind_eq_bind, Option.bind_some, Option.pure_def, Option.some.injEq, Prod.mk.injEq] at h
      obtain ⟨rfl, rfl⟩ := h
      cases hm : res.matched with
      | false => exact ⟨[], by simp [hm], .none (h3 hm).2⟩
      | true =>
        obtain ⟨j1, j2, j3, j4⟩ := h4 hm
        by_cases hi : g.current = g1.current
        · have hact : g1.active = false := by rw [j3]; simpa using hi
          rw [genCalls_inactive _ hact] at e2
          obtain ⟨e3, e4⟩ := Prod.mk.inj (Option.some.inj e2)
          refine ⟨[(g.current, g.current)], ?_, .empty (by rw [j4, hi])⟩
          have : rest.takeWhile (·.matched) = [] := by
            rw [← e3]
            cases k <;> simp [List.replicate_succ]
          rw [List.takeWhile_cons, if_pos hm, this]
          simp [j2, hi]
        · obtain ⟨rg, r1, r2⟩ := ih g1 rest g2 (by rw [j3]; simpa using hi) h2 e2 h'
          exact ⟨(g.current, g1.current) :: rg, by simp [hm, j2, r1], .cons j4 (by omega) r2⟩

/-- What a loop over `tokenize` visits: the ranges of the results, all of them matches. -/
def Tokenizes (R : Regex) (cat : Cat) (s : List Byte) (Q : List (Nat × Nat) → Prop) : Prop :=
  ∀ rounds, s.length + 2 ≤ rounds → ∃ rs ranges, rangeElements R tokenizeMethod cat s rounds = some (rs, true) ∧
    rs.map (·.group 0) = ranges.map (fun x => some (some x)) ∧ Q ranges

theorem takes_of_view {R : Regex} {cat : Cat} {s : List Byte} (hR : R.Ok cat) {first : Nat → Option Nat} (hv : PrefixView R cat s first) :
    Tokenizes R cat s (Takes first 0) := by
  intro k hk
  obtain ⟨rs, g, h1, h2, _⟩ := C33_range R cat hR .matchPrefix s k hk
  obtain ⟨rs', g', h3, h4⟩ := C32_exhausted R cat hR .matchPrefix s (k + 1) (by omega)
  rw [h1] at h3
  obtain ⟨rfl, rfl⟩ := Prod.mk.inj (Option.some.inj h3)
  obtain ⟨rg, h5, h6⟩ := genCalls_takes hR hv (k + 1) {} rs g rfl (Nat.zero_le _) h1 h4
  exact ⟨_, rg, h2, h5, h6⟩

/-- **C96**: the tokens are the preferred matches, one after the other, until there is none or one is empty.  Here for regexes without references. -/
theorem C96_tokens (R : Regex) (cat : Cat) (hR : R.Ok cat) (hb : noBackref R.ast = true) (s : List Byte) :
    Tokenizes R cat s (Takes (fun i => (ends R.fl s R.ast true false i).head?) 0) := takes_of_view hR (prefixView_ends hR hb)

/-- **C96**: the same with references, in terms of paths. -/
theorem C96_references (R : Regex) (cat : Cat) (hR : R.Ok cat) (ht : traceable R.ast = true) (s : List Byte) :
    Tokenizes R cat s (Takes (firstEnd R.fl s R.ast) 0) := takes_of_view hR (prefixView_paths hR ht)

/-- What is taken is determined. -/
theorem takes_unique {first : Nat → Option Nat} {p : Nat} {l l' : List (Nat × Nat)} (h : Takes first p l) (h' : Takes first p l') : l = l' := by
  induction h generalizing l' with
  | none h => cases h' <;> simp_all
  | empty h =>
    cases h' with
    | none h' => rw [h] at h'; cases h'
    | empty => rfl
    | cons h1 h2 => rw [h] at h1; cases h1; omega
  | cons h1 h2 h3 ih =>
    cases h' with
    | none h' => rw [h1] at h'; cases h'
    | empty h' => rw [h1] at h'; cases h'; omega
    | cons h4 h5 h6 =>
      rw [h1] at h4
      cases h4
      rw [ih h6]

/-! ### Classes -/

section
variable {fl : List RegexFlag} {cat : Cat} {s : List Byte} {m : Mode}

/-- `c₁+|…|cₖ+`, each with its mode. -/
def classAlts (l : List (Mode × Ast)) : Ast := .alt (l.map fun x => .rep x.1 1 .inf x.2)

/-- The classes as sets of characters. -/
def classSets (fl : List RegexFlag) (l : List (Mode × Ast)) : List (Byte → Prop) := l.map fun x y => accepts (Flags.ofList fl) x.2 y = true

theorem lexeme_unique {cs : List (Byte → Prop)} {p j j' : Nat} (h : Lexeme cs s p j) (h' : Lexeme cs s p j') : j = j' := by
  obtain ⟨b, P, a, rfl, h1, h2, h3, h4⟩ := h
  obtain ⟨b', P', a', he, h1', h2', h3', h4'⟩ := h'
  have hP : CharAt s p P := h3 p (Nat.le_refl _) h2
  have hP' : CharAt s p P' := h3' p (Nat.le_refl _) h2'
  have : P = P' := by
    induction b generalizing b' with
    | nil =>
      cases b' with
      | nil => simpa using (List.cons.inj he).1
      | cons x b' =>
        simp only [List.nil_append, List.cons_append, List.cons.injEq] at he
        exact absurd (he.1 ▸ hP) (h1' x (by simp))
    | cons x b ih =>
      cases b' with
      | nil =>
        simp only [List.nil_append, List.cons_append, List.cons.injEq] at he
        exact absurd (he.1 ▸ hP') (h1 x (by simp))
      | cons x' b' =>
        simp only [List.cons_append, List.cons.injEq] at he
        exact ih (fun Q hQ => h1 Q (by simp [hQ])) b' he.2 (fun Q hQ => h1' Q (by simp [hQ]))
  subst this
  exact restOf_unique ⟨h2, h3, h4⟩ ⟨h2', h3', h4'⟩

theorem head_classes {l : List (Mode × Ast)} (hc : ∀ x ∈ l, character x.2 = true ∧ eager (Flags.ofList fl) x.1 = true) {p j : Nat} (hp : p ≤ s.length) :
    (endsAny (Flags.ofList fl) s (l.map fun x => .rep x.1 1 .inf x.2) true false p).head? = some j ↔ Lexeme (classSets fl l) s p j := by
  induction l with
  | nil =>
    constructor
    · intro h; cases h
    · rintro ⟨b, P, a, h, _⟩
      cases b <;> cases h
  | cons x l ih =>
    have ih := ih (fun y hy => hc y (by simp [hy]))
    obtain ⟨c1, c2⟩ := hc x (by simp)
    have h1 := fun j => head_eager (s := s) (f := Flags.ofList fl) (p := p) (j := j) c1 c2 hp
    simp only [List.map_cons, endsAny, List.head?_append]
    constructor
    · intro h
      cases h2 : (ends (Flags.ofList fl) s (.rep x.1 1 .inf x.2) true false p).head? with
      | some t =>
        rw [h2] at h
        cases h
        obtain ⟨a1, a2, a3⟩ := (h1 j).1 h2
        exact ⟨[], _, _, rfl, fun _ h => (nomatch h), a1, a2, a3⟩
      | none =>
        rw [h2, Option.none_or] at h
        obtain ⟨b, P, a, e, a1, a2⟩ := ih.1 h
        refine ⟨_ :: b, P, a, congrArg (_ :: ·) e, fun Q hQ => ?_, a2⟩
        rcases List.mem_cons.1 hQ with rfl | hQ
        · intro hx
          obtain ⟨t, ht⟩ := restOf_exists hx
          rw [(h1 t).2 ht] at h2
          cases h2
        · exact a1 Q hQ
    · rintro ⟨b, P, a, e, a1, a2, a3, a4⟩
      cases b with
      | nil =>
        simp only [classSets, List.map_cons, List.nil_append, List.cons.injEq] at e
        obtain ⟨rfl, _⟩ := e
        rw [(h1 j).2 ⟨a2, a3, a4⟩]
        rfl
      | cons Q b =>
        simp only [classSets, List.map_cons, List.cons_append, List.cons.injEq] at e
        obtain ⟨rfl, e⟩ := e
        have h2 : (ends (Flags.ofList fl) s (.rep x.1 1 .inf x.2) true false p).head? = none := by
          cases h2 : (ends (Flags.ofList fl) s (.rep x.1 1 .inf x.2) true false p).head? with
          | none => rfl
          | some t =>
            obtain ⟨b1, b2, _⟩ := (h1 t).1 h2
            exact absurd (b2 p (Nat.le_refl _) b1) (a1 _ (by simp))
        rw [h2, Option.none_or]
        exact ih.2 ⟨b, P, a, e, fun Q hQ => a1 Q (by simp [hQ]), a2, a3, a4⟩

/-- **C96**: with a regex `c₁+|…|cₖ+` for classes of characters, where the quantifiers prefer more, the tokens are the lexemes: each is all of a stretch of characters of the first
class that its first character belongs to; the tokens end where a character belongs to no class. -/
theorem C96_classes {l : List (Mode × Ast)} (hR : (Regex.mk (classAlts l) fl).Ok cat) (hc : ∀ x ∈ l, character x.2 = true ∧ eager (Flags.ofList fl) x.1 = true) :
    Tokenizes ⟨classAlts l, fl⟩ cat s (Lexed (classSets fl l) s 0) := by
  have hw := wf_of_ok (hR [])
  have hnb : noBackref (classAlts l) = true := by
    simp only [classAlts, wf, wfAll_eq, Bool.and_eq_true, List.all_eq_true, List.mem_map, forall_exists_index, and_imp, forall_apply_eq_imp_iff₂] at hw
    simp only [classAlts, noBackref, noBackrefAll_eq, List.all_eq_true, List.mem_map, forall_exists_index, and_imp, forall_apply_eq_imp_iff₂]
    exact fun x hx => (closed_of_triv (hw.2 x hx) (by rw [← character_eq]; exact (hc x hx).1)).2
  intro k hk
  obtain ⟨rs, ranges, h1, h2, h3⟩ := C96_tokens _ cat hR hnb s k hk
  refine ⟨rs, ranges, h1, h2, ?_⟩
  have key : ∀ {p l'}, Takes (fun i => (ends (Flags.ofList fl) s (classAlts l) true false i).head?) p l' → p ≤ s.length → Lexed (classSets fl l) s p l' := by
    intro p l' h
    induction h with
    | @none p h =>
      intro hp P hP hx
      simp only [classSets, List.mem_map] at hP
      obtain ⟨x, hx', rfl⟩ := hP
      have hend : ∃ j, Lexeme (classSets fl l) s p j := by
        clear h1 h2 h3 h hw hnb hR hc
        induction l with
        | nil => cases hx'
        | cons y l ih =>
          by_cases hy : CharAt s p (fun z => accepts (Flags.ofList fl) y.2 z = true)
          · obtain ⟨j, a1, a2, a3⟩ := restOf_exists hy
            exact ⟨j, [], _, _, rfl, fun _ h => (nomatch h), a1, a2, a3⟩
          · rcases List.mem_cons.1 hx' with rfl | hx'
            · exact absurd hx hy
            · obtain ⟨j, b, P, a, e, a1, a2⟩ := ih hx'
              refine ⟨j, _ :: b, P, a, congrArg (_ :: ·) e, fun Q hQ => ?_, a2⟩
              rcases List.mem_cons.1 hQ with rfl | hQ
              · exact hy
              · exact a1 Q hQ
      obtain ⟨j, hj⟩ := hend
      have := (head_classes hc hp).2 hj
      simp only [classAlts, ends] at h
      rw [h] at this
      cases this
    | @empty p h =>
      intro hp
      simp only [classAlts, ends] at h
      obtain ⟨_, _, _, _, _, h', _⟩ := (head_classes hc hp).1 h
      omega
    | @cons p j l' h hj _ ih =>
      intro hp
      simp only [classAlts, ends] at h
      have hx := (head_classes hc hp).1 h
      obtain ⟨_, _, _, _, _, _, h3, _⟩ := id hx
      obtain ⟨x, hx', _⟩ := h3 (j - 1) (by omega) (by omega)
      have := (List.getElem?_eq_some_iff.1 hx').1
      exact ⟨rfl, hx, ih (by omega)⟩
  exact key h3 (Nat.zero_le _)

/-- A stretch of one of the classes. -/
def SomeStretch (cs : List (Byte → Prop)) (s : List Byte) (i j : Nat) : Prop := ∃ P ∈ cs, Stretch P s i j

theorem apart_unique {cs : List (Byte → Prop)} (h : Apart cs) {P Q : Byte → Prop} (hP : P ∈ cs) (hQ : Q ∈ cs) {x : Byte} (h1 : P x) (h2 : Q x) : P = Q := by
  induction cs with
  | nil => cases hP
  | cons a l ih =>
    obtain ⟨h3, h4⟩ := List.pairwise_cons.1 h
    rcases List.mem_cons.1 hP with e | hP' <;> rcases List.mem_cons.1 hQ with e' | hQ'
    · rw [e, e']
    · exact absurd h2 (h3 Q hQ' x (e ▸ h1))
    · exact absurd h1 (h3 P hP' x (e' ▸ h2))
    · exact ih h4 hP' hQ'

theorem lexed_tiles {cs : List (Byte → Prop)} (ha : Apart cs) (hall : ∀ x ∈ s, ∃ P ∈ cs, P x) {p : Nat} {l : List (Nat × Nat)} (h : Lexed cs s p l) (hp : p ≤ s.length)
    (hb : ∀ P ∈ cs, CharBefore s p P → ¬ CharAt s p P) :
    Tiles p s.length l ∧ (∀ x ∈ l, SomeStretch cs s x.1 x.2 ∧ p ≤ x.1) ∧ ∀ i j, p ≤ i → SomeStretch cs s i j → (i, j) ∈ l := by
  induction l generalizing p with
  | nil =>
    have hp' : p = s.length := by
      rcases Nat.lt_or_ge p s.length with hlt | hge
      · obtain ⟨P, hP, hx⟩ := hall s[p] (List.getElem_mem hlt)
        exact absurd ⟨s[p], List.getElem?_eq_getElem hlt, hx⟩ (h P hP)
      · omega
    refine ⟨hp', fun x hx => (nomatch hx), fun i j hi ⟨P, _, h1, h2, _⟩ => ?_⟩
    obtain ⟨x, hx, _⟩ := h2 i (Nat.le_refl _) h1
    have := (List.getElem?_eq_some_iff.1 hx).1
    omega
  | cons y l ih =>
    obtain ⟨i, j⟩ := y
    obtain ⟨rfl, hx, hl⟩ := h
    obtain ⟨b, P, a, e, h1, h2, h3, h4⟩ := hx
    have hP : P ∈ cs := by rw [e]; simp
    obtain ⟨z, hz, hz'⟩ := h3 (j - 1) (by omega) (by omega)
    have hj := (List.getElem?_eq_some_iff.1 hz).1
    have hst : Stretch P s i j := ⟨h2, h3, fun hbef => hb P hP hbef (h3 i (Nat.le_refl _) h2), h4⟩
    obtain ⟨t1, t2, t3⟩ := ih hl (by omega) (fun Q hQ ⟨k, hk, y, hy, hyQ⟩ hc => by
      obtain rfl : k = j - 1 := by omega
      rw [hz] at hy
      cases hy
      have := apart_unique ha hP hQ hz' hyQ
      subst this
      exact h4 hc)
    refine ⟨⟨rfl, h2, t1⟩, fun x hx => ?_, fun i' j' hi ⟨Q, hQ, hQs⟩ => ?_⟩
    · rcases List.mem_cons.1 hx with rfl | hx
      · exact ⟨⟨P, hP, hst⟩, Nat.le_refl _⟩
      · exact ⟨(t2 x hx).1, by have := (t2 x hx).2; omega⟩
    · rcases Nat.lt_or_ge i' j with hlt | hge
      · obtain ⟨x, hx, hxQ⟩ := hQs.2.1 i' (Nat.le_refl _) hQs.1
        obtain ⟨x', hx', hxP⟩ := h3 i' hi hlt
        rw [hx] at hx'
        cases hx'
        have := apart_unique ha hP hQ hxP hxQ
        subst this
        obtain ⟨rfl, rfl⟩ := stretch_unique hst hQs hi hlt
        exact List.mem_cons_self
      · exact List.mem_cons_of_mem _ (t3 i' j' hge ⟨Q, hQ, hQs⟩)

/-- **C96**: if every character of the text belongs to exactly one class, then the tokens are side by side from the beginning to the end, and they are exactly the longest stretches
of characters of one class. -/
theorem C96_partition {l : List (Mode × Ast)} (hR : (Regex.mk (classAlts l) fl).Ok cat) (hc : ∀ x ∈ l, character x.2 = true ∧ eager (Flags.ofList fl) x.1 = true)
    (ha : Apart (classSets fl l)) (hall : ∀ x ∈ s, ∃ P ∈ classSets fl l, P x) :
    Tokenizes ⟨classAlts l, fl⟩ cat s (fun ranges => Tiles 0 s.length ranges ∧ ∀ i j, (i, j) ∈ ranges ↔ SomeStretch (classSets fl l) s i j) := by
  intro k hk
  obtain ⟨rs, ranges, h1, h2, h3⟩ := C96_classes hR hc k hk
  obtain ⟨t1, t2, t3⟩ := lexed_tiles ha hall h3 (Nat.zero_le _) (fun P _ ⟨k, hk, _⟩ => by omega)
  exact ⟨rs, ranges, h1, h2, t1, fun i j => ⟨fun h => (t2 _ h).1, t3 i j (Nat.zero_le _)⟩⟩

end

/-- `\w+|\W+`. -/
theorem words_and_gaps : parse (txt "\\w+|\\W+") = .result (classAlts [(.greedy, wordClass), (.greedy, .neg wordClass)]) .success := rfl

/-- **C96**: `\w+|\W+` takes every text apart into its words and what is between them. -/
theorem C96_example {a : Ast} (h : parse (txt "\\w+|\\W+") = .result a .success) (cat : Cat) (s : List Byte) :
    Tokenizes ⟨a, []⟩ cat s (fun ranges => Tiles 0 s.length ranges ∧
      ∀ i j, (i, j) ∈ ranges ↔ Stretch WordChar s i j ∨ Stretch (fun x => ¬ WordChar x) s i j) := by
  rw [words_and_gaps] at h
  cases h
  have e1 : (fun x => accepts (Flags.ofList []) wordClass x = true) = WordChar := funext fun x => propext (accepts_wordClass _ x)
  have e2 : (fun x => accepts (Flags.ofList []) (.neg wordClass) x = true) = fun x => ¬ WordChar x := funext fun x => propext <| by
    rw [← accepts_wordClass (Flags.ofList []) x]
    simp [accepts]
  have hs : classSets [] [(Mode.greedy, wordClass), (Mode.greedy, .neg wordClass)] = [WordChar, fun x => ¬ WordChar x] := by
    simp only [classSets, List.map_cons, List.map_nil, e1, e2]
  have := C96_partition (fl := []) (cat := cat) (s := s) (l := [(Mode.greedy, wordClass), (Mode.greedy, .neg wordClass)])
    (by cases cat <;> exact Regex.ok_of_okb (by decide)) (by decide)
    (by rw [hs]; simp [Apart])
    (fun x _ => by
      rw [hs]
      by_cases hx : WordChar x
      · exact ⟨_, by simp, hx⟩
      · exact ⟨_, List.mem_cons_of_mem _ List.mem_cons_self, hx⟩)
  intro k hk
  obtain ⟨rs, ranges, h1, h2, h3, h4⟩ := this k hk
  refine ⟨rs, ranges, h1, h2, h3, fun i j => (h4 i j).trans ?_⟩
  rw [hs]
  simp [SomeStretch]

/-- Letters before digits, and nothing else: the first class wins. -/
example := C96_classes (s := txt "ab12,c") (fl := []) (cat := .forward) (l := [(.possessive, .range (ch 'a') (ch 'z')), (.greedy, wordClass)])
  (Regex.ok_of_okb (by decide)) (by decide)
example : (rangeElements ⟨classAlts [(.possessive, .range (ch 'a') (ch 'z')), (.greedy, wordClass)], []⟩ .matchPrefix .forward (txt "ab1a,c") 8).map
    (fun x => x.1.map (·.group 0)) = some [some (some (0, 2)), some (some (2, 4))] := by decide +kernel
example := C96_references ⟨.seq [.cap 1 none wordClass, .backref 1], []⟩ .randomAccess (Regex.ok_of_okb (by decide)) (by decide) (txt "aabbc")

end Mregex
