import Verif.Proof.Unicode
import Verif.Spec.UnicodeOrder

/-!
# The order of preference over characters and over bytes
-/

namespace Mregex
open Ast Spec

/-! ## Counting in two ways -/

section transport
variable {n N : Nat} {o : Nat → Nat} (ho : ∀ p q, p < q → q ≤ n → o p < o q) (hN : ∀ p, p ≤ n → o p ≤ N)

/-- Nothing goes back or beyond the end. -/
def Onwards (n : Nat) (g : Nat → List Nat) : Prop := ∀ p q, p ≤ n → q ∈ g p → p ≤ q ∧ q ≤ n

/-- The same lists, counted in two ways. -/
def CountedAlike (n : Nat) (o : Nat → Nat) (g g' : Nat → List Nat) : Prop := ∀ p, p ≤ n → FEq (g (o p)) ((g' p).map o)

theorem alike_flatMap {h h' : Nat → List Nat} {l l' : List Nat} (hl : FEq l (l'.map o)) (hle : ∀ q ∈ l', q ≤ n)
    (hh : ∀ q ∈ l', FEq (h (o q)) ((h' q).map o)) : FEq (l.flatMap h) ((l'.flatMap h').map o) := by
  refine (hl.flatMap fun q => .refl (h q)).trans ?_
  clear hl
  induction l' with
  | nil => exact .refl _
  | cons q l' ih =>
    simp only [List.map_cons, List.flatMap_cons, List.map_append]
    exact (hh q (by simp)).append (ih (fun q hq => hle q (by simp [hq])) (fun q hq => hh q (by simp [hq])))

include ho in
theorem alike_inj {p q : Nat} (hp : p ≤ n) (hq : q ≤ n) : o p = o q ↔ p = q := by
  refine ⟨fun h => ?_, fun h => by rw [h]⟩
  rcases Nat.lt_trichotomy p q with h' | h' | h'
  · have := ho p q h' hq; omega
  · exact h'
  · have := ho q p h' hp; omega

include ho in
theorem alike_filter {l l' : List Nat} {p : Nat} (hl : FEq l (l'.map o)) (hle : ∀ q ∈ l', q ≤ n) (hp : p ≤ n) :
    FEq (l.filter (· ≠ o p)) ((l'.filter (· ≠ p)).map o) := by
  refine (hl.filter _).trans (.of_eq ?_)
  rw [List.filter_map]
  congr 1
  refine List.filter_congr fun q hq => ?_
  have := alike_inj ho (hle q hq) hp
  simp [this]

variable {g g' : Nat → List Nat} (hm : Onwards n g') (hg : CountedAlike n o g g')

include hm in
theorem onwards_flatMap {h : Nat → List Nat} (hh : Onwards n h) : Onwards n fun p => (g' p).flatMap h := by
  intro p q hp hq
  obtain ⟨r, hr, hq⟩ := List.mem_flatMap.1 hq
  have h1 := hm p r hp hr
  have h2 := hh r q h1.2 hq
  omega

include hm in
theorem onwards_exactly (k : Nat) : Onwards n (exactly g' k) := by
  induction k with
  | zero => intro p q hp hq; simp only [exactly, List.mem_singleton] at hq; omega
  | succ k ih => exact onwards_flatMap hm ih

include hm in
theorem onwards_greedyUpTo (k : Nat) : Onwards n (greedyUpTo g' k) := by
  induction k with
  | zero => intro p q hp hq; simp only [greedyUpTo, List.mem_singleton] at hq; omega
  | succ k ih =>
    intro p q hp hq
    simp only [greedyUpTo, List.mem_append, List.mem_singleton] at hq
    rcases hq with hq | hq
    · exact onwards_flatMap hm ih p q hp hq
    · omega

include hm in
theorem onwards_lazyUpTo (k : Nat) : Onwards n (lazyUpTo g' k) := by
  induction k with
  | zero => intro p q hp hq; simp only [lazyUpTo, List.mem_singleton] at hq; omega
  | succ k ih =>
    intro p q hp hq
    simp only [lazyUpTo, List.mem_append, List.mem_singleton] at hq
    rcases hq with hq | hq
    · omega
    · exact onwards_flatMap hm ih p q hp hq

include hm in
theorem onwards_filter : Onwards n fun p => (g' p).filter (· ≠ p) := fun p q hp hq => hm p q hp (List.mem_filter.1 hq).1

include hm in
theorem onwards_greedyStar (k : Nat) : Onwards n (greedyStar g' k) := by
  induction k with
  | zero => intro p q hp hq; simp [greedyStar] at hq
  | succ k ih =>
    intro p q hp hq
    rw [greedyStar, List.mem_append, List.mem_singleton] at hq
    rcases hq with hq | hq
    · exact onwards_flatMap (onwards_filter hm) ih p q hp hq
    · omega

include hm in
theorem onwards_lazyStar (k : Nat) : Onwards n (lazyStar g' k) := by
  induction k with
  | zero => intro p q hp hq; simp [lazyStar] at hq
  | succ k ih =>
    intro p q hp hq
    rw [lazyStar, List.mem_append, List.mem_singleton] at hq
    rcases hq with hq | hq
    · omega
    · exact onwards_flatMap (onwards_filter hm) ih p q hp hq

include hm in
theorem onwards_possessiveUpTo (k : Nat) : Onwards n (possessiveUpTo g' k) := by
  induction k with
  | zero => intro p q hp hq; simp only [possessiveUpTo, List.mem_singleton] at hq; omega
  | succ k ih =>
    intro p q hp hq
    rw [possessiveUpTo] at hq
    split at hq
    · simp only [List.mem_singleton] at hq; omega
    · next r l hr =>
      have h1 := hm p r hp (by rw [hr]; simp)
      have h2 := ih r q h1.2 hq
      omega

include hm in
theorem onwards_possessiveStar (k : Nat) : Onwards n (possessiveStar g' k) := by
  induction k with
  | zero => intro p q hp hq; simp [possessiveStar] at hq
  | succ k ih =>
    intro p q hp hq
    rw [possessiveStar] at hq
    split at hq
    · simp only [List.mem_singleton] at hq; omega
    · next r l hr =>
      have h1 := hm p r hp (by rw [hr]; simp)
      split at hq
      · simp only [List.mem_singleton] at hq; omega
      · have h2 := ih r q h1.2 hq
        omega

include hm in
theorem onwards_extra (m : Mode) (u : Bool) (k : Option Nat) : Onwards n (extra n m u g' k) := by
  cases k <;> cases m <;> cases u <;> simp only [extra] <;>
    first
    | exact onwards_greedyUpTo hm _
    | exact onwards_lazyUpTo hm _
    | exact onwards_possessiveUpTo hm _
    | exact onwards_greedyStar hm _
    | exact onwards_lazyStar hm _
    | exact onwards_possessiveStar hm _

include hm in
theorem onwards_quantified (m : Mode) (u : Bool) (lo : Nat) (hi : Bound) : Onwards n (quantified n m u lo hi g') := by
  unfold quantified
  refine onwards_flatMap (g' := fun p => match m with | .possessive => (exactly g' lo p).take 1 | _ => exactly g' lo p) ?_ (onwards_extra hm m u _)
  intro p q hp hq
  refine onwards_exactly hm lo p q hp ?_
  cases m
  · exact hq
  · exact hq
  · exact List.mem_of_mem_take hq

include hm hg

theorem alike_exactly (k : Nat) : CountedAlike n o (exactly g k) (exactly g' k) := by
  induction k with
  | zero => intro p _; exact .refl _
  | succ k ih =>
    intro p hp
    exact alike_flatMap (hg p hp) (fun q hq => (hm p q hp hq).2) (fun q hq => ih q (hm p q hp hq).2)

theorem alike_greedyUpTo (k : Nat) : CountedAlike n o (greedyUpTo g k) (greedyUpTo g' k) := by
  induction k with
  | zero => intro p _; exact .refl _
  | succ k ih =>
    intro p hp
    simp only [greedyUpTo, List.map_append]
    exact (alike_flatMap (hg p hp) (fun q hq => (hm p q hp hq).2) (fun q hq => ih q (hm p q hp hq).2)).append (.refl _)

theorem alike_lazyUpTo (k : Nat) : CountedAlike n o (lazyUpTo g k) (lazyUpTo g' k) := by
  induction k with
  | zero => intro p _; exact .refl _
  | succ k ih =>
    intro p hp
    simp only [lazyUpTo, List.map_append]
    exact FEq.append (.refl _) (alike_flatMap (hg p hp) (fun q hq => (hm p q hp hq).2) (fun q hq => ih q (hm p q hp hq).2))

theorem alike_possessiveUpTo (k : Nat) : CountedAlike n o (possessiveUpTo g k) (possessiveUpTo g' k) := by
  induction k with
  | zero => intro p _; exact .refl _
  | succ k ih =>
    intro p hp
    have h := (hg p hp).head?
    rw [List.head?_map] at h
    simp only [possessiveUpTo]
    cases h1 : g' p with
    | nil =>
      rw [h1] at h
      rw [List.head?_eq_none_iff.1 h]
      exact .refl _
    | cons q l =>
      rw [h1] at h
      obtain ⟨l', hl'⟩ := List.head?_eq_some_iff.1 h
      rw [hl']
      exact ih q (hm p q hp (by rw [h1]; simp)).2

include ho hN

theorem alike_greedyStar : ∀ (k K p : Nat), p ≤ n → n - p < k → N - o p < K → FEq (greedyStar g K (o p)) ((greedyStar g' k p).map o) := by
  intro k
  induction k with
  | zero => intro K p _ h; omega
  | succ k ih =>
    intro K p hp hk hK
    obtain ⟨K, rfl⟩ : ∃ i, K = i + 1 := ⟨K - 1, by omega⟩
    rw [greedyStar, greedyStar, List.map_append]
    refine FEq.append (alike_flatMap (n := n) (alike_filter ho (hg p hp) (fun q hq => (hm p q hp hq).2) hp)
      (fun q hq => (hm p q hp (List.mem_filter.1 hq).1).2) fun q hq => ?_) (.refl _)
    obtain ⟨h1, h2⟩ := List.mem_filter.1 hq
    have h3 := hm p q hp h1
    have h4 : q ≠ p := by simpa using h2
    have h5 := ho p q (by omega) h3.2
    have h6 := hN q h3.2
    exact ih K q h3.2 (by omega) (by omega)

theorem alike_lazyStar : ∀ (k K p : Nat), p ≤ n → n - p < k → N - o p < K → FEq (lazyStar g K (o p)) ((lazyStar g' k p).map o) := by
  intro k
  induction k with
  | zero => intro K p _ h; omega
  | succ k ih =>
    intro K p hp hk hK
    obtain ⟨K, rfl⟩ : ∃ i, K = i + 1 := ⟨K - 1, by omega⟩
    rw [lazyStar, lazyStar, List.map_append]
    refine FEq.append (.refl _) (alike_flatMap (n := n) (alike_filter ho (hg p hp) (fun q hq => (hm p q hp hq).2) hp)
      (fun q hq => (hm p q hp (List.mem_filter.1 hq).1).2) fun q hq => ?_)
    obtain ⟨h1, h2⟩ := List.mem_filter.1 hq
    have h3 := hm p q hp h1
    have h4 : q ≠ p := by simpa using h2
    have h5 := ho p q (by omega) h3.2
    have h6 := hN q h3.2
    exact ih K q h3.2 (by omega) (by omega)

theorem alike_possessiveStar : ∀ (k K p : Nat), p ≤ n → n - p < k → N - o p < K → FEq (possessiveStar g K (o p)) ((possessiveStar g' k p).map o) := by
  intro k
  induction k with
  | zero => intro K p _ h; omega
  | succ k ih =>
    intro K p hp hk hK
    obtain ⟨K, rfl⟩ : ∃ i, K = i + 1 := ⟨K - 1, by omega⟩
    have h := (hg p hp).head?
    rw [List.head?_map] at h
    rw [possessiveStar, possessiveStar]
    cases h1 : g' p with
    | nil =>
      rw [h1] at h
      rw [List.head?_eq_none_iff.1 h]
      exact .refl _
    | cons q l =>
      rw [h1] at h
      obtain ⟨l', hl'⟩ := List.head?_eq_some_iff.1 h
      rw [hl']
      have h3 := hm p q hp (by rw [h1]; simp)
      by_cases h4 : q = p
      · subst h4
        simp only [if_true]
        exact .refl _
      · have h5 := ho p q (by omega) h3.2
        have h6 := hN q h3.2
        simp only [h4, if_false]
        rw [if_neg (by omega)]
        exact ih K q h3.2 (by omega) (by omega)

theorem alike_extra (m : Mode) (u : Bool) (k : Option Nat) : CountedAlike n o (extra N m u g k) (extra n m u g' k) := by
  intro p hp
  cases k <;> cases m <;> cases u <;> simp only [extra] <;>
    first
    | exact alike_greedyUpTo hm hg _ p hp
    | exact alike_lazyUpTo hm hg _ p hp
    | exact alike_possessiveUpTo hm hg _ p hp
    | exact alike_greedyStar ho hN hm hg _ _ p hp (by omega) (by omega)
    | exact alike_lazyStar ho hN hm hg _ _ p hp (by omega) (by omega)
    | exact alike_possessiveStar ho hN hm hg _ _ p hp (by omega) (by omega)

theorem alike_quantified (m : Mode) (u : Bool) (lo : Nat) (hi : Bound) : CountedAlike n o (quantified N m u lo hi g) (quantified n m u lo hi g') := by
  intro p hp
  have h1 := alike_exactly hm hg lo p hp
  have h2 := onwards_exactly hm lo p
  unfold quantified
  refine alike_flatMap (n := n) ?_ ?_ ?_
  · cases m
    · exact h1
    · exact h1
    · simp only [← List.map_take]
      exact .of_eq (by rw [h1.take_one, List.map_take])
  · intro q hq
    refine (h2 q hp ?_).2
    cases m
    · exact hq
    · exact hq
    · exact List.mem_of_mem_take hq
  · intro q hq
    refine alike_extra ho hN hm hg m u _ q (h2 q hp ?_).2
    cases m
    · exact hq
    · exact hq
    · exact List.mem_of_mem_take hq

end transport

/-! ## Characters and bytes -/

theorem byteAt_lt {u : List Char} (p q : Nat) (h : p < q) (hq : q ≤ u.length) : byteAt u p < byteAt u q := by
  have h1 : u.take q = u.take p ++ (u.drop p).take (q - p) := by
    rw [show q = p + (q - p) by omega, List.take_add]; congr 2; omega
  unfold byteAt
  rw [h1, utf8_append, List.length_append]
  have : (u.drop p).take (q - p) ≠ [] := by
    intro h'
    have := congrArg List.length h'
    simp at this
    omega
  have := List.length_pos_iff.2 (utf8_ne_nil this)
  omega

theorem byteAt_end (u : List Char) : byteAt u u.length = (utf8 u).length := by simp [byteAt]

theorem byteAt_zero (u : List Char) : byteAt u 0 = 0 := rfl

theorem byteAt_le {u : List Char} (p : Nat) (hp : p ≤ u.length) : byteAt u p ≤ (utf8 u).length := by
  rw [← byteAt_end]
  rcases Nat.lt_or_ge p u.length with h | h
  · exact Nat.le_of_lt (byteAt_lt p _ h (Nat.le_refl _))
  · rw [show p = u.length by omega]

theorem onwards_letter (u : List Char) (L : Language Char) : Onwards u.length (letterEnds u L) := by
  intro p q hp hq
  unfold letterEnds at hq
  split at hq
  · cases hq
  · next d hd =>
    have := (List.getElem?_eq_some_iff.1 hd).1
    split at hq
    · simp only [List.mem_singleton] at hq; omega
    · cases hq

/-- Lists with the same elements, all of them equal. -/
theorem feq_of_same {l l' : List Nat} {x : Nat} (h : ∀ q, q ∈ l ↔ q ∈ l') (hx : ∀ q ∈ l', q = x) : FEq l l' := by
  have key : ∀ {l : List Nat}, (∀ q ∈ l, q = x) → l ≠ [] → ∀ G : Nat → Option Nat, l.findSome? G = G x := by
    intro l
    induction l with
    | nil => intro _ h; exact absurd rfl h
    | cons a l ih =>
      intro hl _ G
      have ha : a = x := hl a (by simp)
      subst ha
      rw [List.findSome?_cons]
      by_cases hn : l = []
      · subst hn; cases G a <;> rfl
      · rw [ih (fun q hq => hl q (by simp [hq])) hn G]; cases G a <;> rfl
  intro G
  by_cases hn : l' = []
  · subst hn
    have : l = [] := List.eq_nil_iff_forall_not_mem.2 fun q hq => by simpa using (h q).1 hq
    rw [this]
  · have hn' : l ≠ [] := by
      obtain ⟨a, ha⟩ := List.exists_mem_of_ne_nil _ hn
      exact List.ne_nil_of_mem ((h a).2 ha)
    rw [key hx hn G, key (fun q hq => hx q ((h q).1 hq)) hn' G]

theorem ends_letter {f : Flags} {e : UExpr} (he : e.Fine) (hw : wf e.tree = true) {P : Char → Prop} (hL : e.lang f.icase = letterOf P) (u : List Char) :
    CountedAlike u.length (byteAt u) (ends f (utf8 u) e.tree true false) (letterEnds u (e.lang f.icase)) := by
  intro p hp
  have hs := simple_tree he
  obtain ⟨d1, d2, d3⟩ := declarative_iff.1 (selfContained_declarative hs.1 hs.2)
  have hu : utf8 u = utf8 (u.take p) ++ utf8 (u.drop p) := by rw [← utf8_append, List.take_append_drop]
  have hmem : ∀ q, q ∈ ends f (utf8 u) e.tree true false (byteAt u p) ↔ Matches f (utf8 u) e.tree (byteAt u p) q := fun q =>
    ends_iff (E := ⟨utf8 u, f, .randomAccess, []⟩) (fwd := true) (inv := false) hw d1 d2 (.inl ⟨rfl, rfl, d3⟩) (byteAt_le p hp)
  have hin : ∀ q, q ∈ ends f (utf8 u) e.tree true false (byteAt u p) → byteAt u p ≤ q ∧ q ≤ (utf8 u).length := by
    intro q hq
    have := ends_inside (E := ⟨utf8 u, f, .randomAccess, []⟩) (r := 0) rfl _ _ _ _ (byteAt_le p hp) hq
    unfold Env.Reach at this
    simp only at this
    omega
  refine feq_of_same (x := byteAt u (p + 1)) (fun q => ?_) ?_
  · constructor
    · intro h
      obtain ⟨h1, h2⟩ := hin q h
      have e2 : (utf8 u).drop (byteAt u p) = utf8 (u.drop p) := by rw [hu]; exact List.drop_left' rfl
      have e3 : utf8 u = utf8 (u.take p) ++ (utf8 (u.drop p)).take (q - byteAt u p) ++ (utf8 (u.drop p)).drop (q - byteAt u p) := by
        rw [List.append_assoc, List.take_append_drop]; exact hu
      have e4 : ((utf8 (u.drop p)).take (q - byteAt u p)).length = q - byteAt u p := by
        rw [← e2]; simp; omega
      have hm := (matches_tree (f := f) he e3).1 (by
        rw [e4]
        show Matches f (utf8 u) e.tree (byteAt u p) (byteAt u p + (q - byteAt u p))
        rw [show byteAt u p + (q - byteAt u p) = q by omega]
        exact (hmem q).1 h)
      obtain ⟨v, hv, hv'⟩ := (mem_encoded).1 hm
      obtain ⟨d, rfl, hd⟩ : ∃ d, v = [d] ∧ P d := by rw [hL] at hv; exact hv
      obtain ⟨w, hw1, _⟩ := utf8_prefix (u := u.drop p) (v := [d]) (rest := (utf8 (u.drop p)).drop (q - byteAt u p)) (by rw [← hv', List.take_append_drop])
      have hp' : u[p]? = some d := by rw [← List.head?_drop, hw1]; rfl
      rw [List.mem_map]
      refine ⟨p + 1, ?_, ?_⟩
      · unfold letterEnds
        rw [hp']
        simp only [if_pos hv, List.mem_singleton]
      · have h5 : u.take (p + 1) = u.take p ++ [d] := by rw [List.take_add_one, hp']; rfl
        have h6 := congrArg List.length hv'
        rw [e4] at h6
        unfold byteAt at h1 h6 ⊢
        rw [h5, utf8_append, List.length_append, ← h6]
        omega
    · intro h
      obtain ⟨r, hr, rfl⟩ := List.mem_map.1 h
      unfold letterEnds at hr
      split at hr
      · cases hr
      · next d hd =>
        split at hr
        · next hv =>
          simp only [List.mem_singleton] at hr
          subst hr
          have h5 : u.take (p + 1) = u.take p ++ [d] := by rw [List.take_add_one, hd]; rfl
          have h6 : u = u.take p ++ [d] ++ u.drop (p + 1) := by rw [← h5, List.take_append_drop]
          have h7 := (matches_tree (f := f) he (s := utf8 u) (pre := utf8 (u.take p)) (w := utf8 [d]) (post := utf8 (u.drop (p + 1)))
            (by rw [← utf8_append, ← utf8_append, ← h6])).2 (utf8_mem_encoded.2 hv)
          rw [hmem]
          have h8 : byteAt u (p + 1) = byteAt u p + (utf8 [d]).length := by unfold byteAt; rw [h5, utf8_append, List.length_append]
          rw [h8]
          exact h7
        · cases hr
  · intro q hq
    obtain ⟨r, hr, rfl⟩ := List.mem_map.1 hq
    unfold letterEnds at hr
    split at hr
    · cases hr
    · split at hr
      · simp only [List.mem_singleton] at hr; rw [hr]
      · cases hr

theorem noBackref_tree : ∀ e : UExpr, noBackref e.tree = true
  | .empty => rfl
  | .char _ => selfContained_noBackref (noPossessive_charTree _).1
  | .ascii l => selfContained_noBackref (noPossessive_ranges l).1
  | .any => rfl
  | .cat a b => by simp [UExpr.tree, noBackref, noBackrefAll, noBackref_tree a, noBackref_tree b]
  | .alt a b => by simp [UExpr.tree, noBackref, noBackrefAll, noBackref_tree a, noBackref_tree b]
  | .rep _ _ _ a => by simp [UExpr.tree, noBackref, noBackref_tree a]
  | .group _ _ a => by simp [UExpr.tree, noBackref, noBackref_tree a]

theorem onwards_ends (i g : Bool) (u : List Char) : ∀ e : UExpr, Onwards u.length (e.ends i g u)
  | .empty => fun p q hp hq => by simp only [UExpr.ends, List.mem_singleton] at hq; omega
  | .char _ => onwards_letter u _
  | .ascii _ => onwards_letter u _
  | .any => onwards_letter u _
  | .cat a b => onwards_flatMap (onwards_ends i g u a) (onwards_ends i g u b)
  | .alt a b => fun p q hp hq => by
    rcases List.mem_append.1 hq with h | h
    · exact onwards_ends i g u a p q hp h
    · exact onwards_ends i g u b p q hp h
  | .rep m lo hi a => onwards_quantified (onwards_ends i g u a) m g lo hi
  | .group _ _ a => onwards_ends i g u a

/-- The order of preference in bytes is the order of preference in characters. -/
theorem alike_ends (f : Flags) (u : List Char) : ∀ {e : UExpr}, e.Ranged → wf e.tree = true →
    CountedAlike u.length (byteAt u) (ends f (utf8 u) e.tree true false) (e.ends f.icase f.ungreedy u)
  | .empty, _, _ => fun p _ => by simp only [UExpr.tree, ends, UExpr.ends]; exact .refl _
  | .char c, _, hw => ends_letter (e := .char c) trivial hw rfl u
  | .ascii l, h, hw => ends_letter (e := .ascii l) h hw rfl u
  | .any, _, hw => ends_letter (e := .any) trivial hw rfl u
  | .cat a b, h, hw => fun p hp => by
    simp only [UExpr.tree, wf, wfAll, Bool.and_eq_true] at hw
    have ha := alike_ends f u h.1 hw.2.1
    have hb := alike_ends f u h.2 hw.2.2.1
    have hm := onwards_ends f.icase f.ungreedy u a
    simp only [UExpr.tree, ends, UExpr.ends, endsAll, Bool.false_eq_true, if_false]
    refine alike_flatMap (n := u.length) (ha p hp) (fun q hq => (hm p q hp hq).2) fun q hq => ?_
    simp only [List.flatMap_singleton']
    exact hb q (hm p q hp hq).2
  | .alt a b, h, hw => fun p hp => by
    simp only [UExpr.tree, wf, wfAll, Bool.and_eq_true] at hw
    have ha := alike_ends f u h.1 hw.2.1
    have hb := alike_ends f u h.2 hw.2.2.1
    simp only [UExpr.tree, ends, UExpr.ends, endsAny, List.map_append, List.append_nil]
    exact (ha p hp).append (hb p hp)
  | .rep m lo hi a, h, hw => fun p hp => by
    have hw' : wf a.tree = true := by
      simp only [UExpr.tree] at hw
      cases hi <;> simp_all [wf]
    simp only [UExpr.tree, ends, UExpr.ends]
    exact alike_quantified byteAt_lt byteAt_le (onwards_ends _ _ u a) (alike_ends f u (e := a) h hw') m f.ungreedy lo hi p hp
  | .group _ _ a, h, hw => fun p hp => by
    simp only [UExpr.tree, wf] at hw
    simp only [UExpr.tree, ends, UExpr.ends]
    exact alike_ends f u (e := a) h hw p hp

theorem ranged_of_fine : ∀ {e : UExpr}, e.Fine → e.Ranged
  | .empty, _ => trivial
  | .char _, _ => trivial
  | .ascii _, h => h
  | .any, _ => trivial
  | .cat _ _, h => ⟨ranged_of_fine h.1, ranged_of_fine h.2⟩
  | .alt _ _, h => ⟨ranged_of_fine h.1, ranged_of_fine h.2⟩
  | .rep _ _ _ a, h => ranged_of_fine (e := a) h.2
  | .group _ _ a, h => ranged_of_fine (e := a) h

/-! ## One piece after the other -/

section pieces
variable {n N : Nat} {o : Nat → Nat} (ho : ∀ p q, p < q → q ≤ n → o p < o q) {first first' : Nat → Option Nat}
  (hf : ∀ p, p ≤ n → first (o p) = (first' p).map o) (hm : ∀ p q, p ≤ n → first' p = some q → p ≤ q ∧ q ≤ n)
include ho hf hm

theorem takes_alike {P : Nat} {l : List (Nat × Nat)} (h : Takes first P l) : ∀ p, p ≤ n → P = o p →
    ∃ l', Takes first' p l' ∧ l = l'.map fun x => (o x.1, o x.2) := by
  induction h with
  | none h =>
    rintro p hp rfl
    rw [hf p hp, Option.map_eq_none_iff] at h
    exact ⟨[], .none h, rfl⟩
  | empty h =>
    rintro p hp rfl
    rw [hf p hp, Option.map_eq_some_iff] at h
    obtain ⟨q, h1, h2⟩ := h
    obtain rfl := (alike_inj ho (hm p q hp h1).2 hp).1 h2
    exact ⟨[(q, q)], .empty h1, rfl⟩
  | cons h h' _ ih =>
    rintro p hp rfl
    rw [hf p hp, Option.map_eq_some_iff] at h
    obtain ⟨q, h1, rfl⟩ := h
    have h3 := hm p q hp h1
    have h4 : p ≠ q := by rintro rfl; omega
    obtain ⟨l', h5, h6⟩ := ih q h3.2 rfl
    exact ⟨(p, q) :: l', .cons h1 (by omega) h5, by rw [h6]; rfl⟩

theorem finds_alike (hN : ∀ p, p ≤ n → o p ≤ N)
    (hB : ∀ p i j, p ≤ n → o p ≤ i → i ≤ N → first i = some j → (∀ i', o p ≤ i' → i' < i → first i' = none) → ∃ q, p ≤ q ∧ q ≤ n ∧ i = o q)
    {P : Nat} {l : List (Nat × Nat)} (h : Finds N first P l) : ∀ p, p ≤ n → P = o p →
    ∃ l', Finds n first' p l' ∧ l = l'.map fun x => (o x.1, o x.2) := by
  have mono : ∀ p q, p ≤ q → q ≤ n → o p ≤ o q := by
    intro p q h1 h2
    rcases Nat.lt_or_ge p q with h | h
    · exact Nat.le_of_lt (ho p q h h2)
    · rw [show p = q by omega]
  have none_of : ∀ p q, p ≤ q → q ≤ n → (∀ i', o p ≤ i' → i' < o q → first i' = none) → ∀ i', p ≤ i' → i' < q → first' i' = none := by
    intro p q _ hq h i' h1 h2
    have h3 := h (o i') (mono p i' h1 (by omega)) (ho i' q h2 hq)
    rwa [hf i' (by omega), Option.map_eq_none_iff] at h3
  induction h with
  | none h =>
    rintro p hp rfl
    refine ⟨[], .none fun i h1 h2 => ?_, rfl⟩
    have h3 := h (o i) (mono p i h1 h2) (hN i h2)
    rwa [hf i h2, Option.map_eq_none_iff] at h3
  | @empty _ i h1 h2 h3 h4 =>
    rintro p hp rfl
    obtain ⟨q, hpq, hq, rfl⟩ := hB p i i hp h1 h2 h3 h4
    rw [hf q hq, Option.map_eq_some_iff] at h3
    obtain ⟨r, h5, h6⟩ := h3
    obtain rfl := (alike_inj ho (hm q r hq h5).2 hq).1 h6
    exact ⟨[(r, r)], .empty hpq hq h5 (none_of p r hpq hq h4), rfl⟩
  | @cons _ i j _ h1 h2 h3 h4 h5 _ ih =>
    rintro p hp rfl
    obtain ⟨q, hpq, hq, rfl⟩ := hB p i j hp h1 (by omega) h4 h5
    rw [hf q hq, Option.map_eq_some_iff] at h4
    obtain ⟨r, h6, rfl⟩ := h4
    have h7 := hm q r hq h6
    have h8 : q ≠ r := by rintro rfl; omega
    obtain ⟨l', h9, h10⟩ := ih r h7.2 rfl
    exact ⟨(q, r) :: l', .cons hpq (by omega) h7.2 h6 (none_of p q hpq hq h5) h9, by rw [h10]; rfl⟩

end pieces

/-! ## Inside of characters -/

section inside
variable {i : Nat} {g : Nat → List Nat} (hg : ∀ q ∈ g i, q = i)
include hg

theorem stays_flatMap {h : Nat → List Nat} (hh : ∀ q ∈ h i, q = i) : ∀ q ∈ (g i).flatMap h, q = i := by
  intro q hq
  obtain ⟨r, hr, hq⟩ := List.mem_flatMap.1 hq
  rw [hg r hr] at hq
  exact hh q hq

theorem stays_exactly (k : Nat) : ∀ q ∈ exactly g k i, q = i := by
  induction k with
  | zero => simp [exactly]
  | succ k ih => exact stays_flatMap hg ih

theorem stays_greedyUpTo (k : Nat) : ∀ q ∈ greedyUpTo g k i, q = i := by
  induction k with
  | zero => simp [greedyUpTo]
  | succ k ih =>
    intro q hq
    rw [greedyUpTo, List.mem_append, List.mem_singleton] at hq
    exact hq.elim (stays_flatMap hg ih q) id

theorem stays_lazyUpTo (k : Nat) : ∀ q ∈ lazyUpTo g k i, q = i := by
  induction k with
  | zero => simp [lazyUpTo]
  | succ k ih =>
    intro q hq
    rw [lazyUpTo, List.mem_append, List.mem_singleton] at hq
    exact hq.elim id (stays_flatMap hg ih q)

theorem stays_possessiveUpTo (k : Nat) : ∀ q ∈ possessiveUpTo g k i, q = i := by
  induction k with
  | zero => simp [possessiveUpTo]
  | succ k ih =>
    rw [possessiveUpTo]
    split
    · simp
    · next r l hr => rw [hg r (by rw [hr]; simp)]; exact ih

theorem stays_none : (g i).filter (· ≠ i) = [] := by
  rw [List.filter_eq_nil_iff]
  intro q hq
  simp [hg q hq]

theorem stays_greedyStar (k : Nat) : ∀ q ∈ greedyStar g k i, q = i := by
  cases k with
  | zero => simp [greedyStar]
  | succ k => rw [greedyStar, stays_none hg]; simp

theorem stays_lazyStar (k : Nat) : ∀ q ∈ lazyStar g k i, q = i := by
  cases k with
  | zero => simp [lazyStar]
  | succ k => rw [lazyStar, stays_none hg]; simp

theorem stays_possessiveStar (k : Nat) : ∀ q ∈ possessiveStar g k i, q = i := by
  cases k with
  | zero => simp [possessiveStar]
  | succ k =>
    rw [possessiveStar]
    split
    · simp
    · next r l hr => rw [if_pos (hg r (by rw [hr]; simp))]; simp

theorem stays_extra (n : Nat) (m : Mode) (u : Bool) (k : Option Nat) : ∀ q ∈ extra n m u g k i, q = i := by
  cases k <;> cases m <;> cases u <;> simp only [extra] <;>
    first
    | exact stays_greedyUpTo hg _
    | exact stays_lazyUpTo hg _
    | exact stays_possessiveUpTo hg _
    | exact stays_greedyStar hg _
    | exact stays_lazyStar hg _
    | exact stays_possessiveStar hg _

theorem stays_quantified (n : Nat) (m : Mode) (u : Bool) (lo : Nat) (hi : Bound) : ∀ q ∈ quantified n m u lo hi g i, q = i := by
  unfold quantified
  refine stays_flatMap (g := fun p => match m with | .possessive => (exactly g lo p).take 1 | _ => exactly g lo p) ?_ (stays_extra hg n m u _)
  intro q hq
  refine stays_exactly hg lo q ?_
  cases m
  · exact hq
  · exact hq
  · exact List.mem_of_mem_take hq

end inside

theorem exactly_ne_nil {g : Nat → List Nat} {lo p : Nat} (hlo : lo ≠ 0) (h : exactly g lo p ≠ []) : g p ≠ [] := by
  obtain ⟨k, rfl⟩ := Nat.exists_eq_succ_of_ne_zero hlo
  intro h'
  exact h (by rw [exactly, h']; rfl)

/-- Nothing has to be read. -/
def _root_.Mregex.Spec.UExpr.mayBeEmpty : UExpr → Bool
  | .empty => true
  | .char _ | .ascii _ | .any => false
  | .cat a b => a.mayBeEmpty && b.mayBeEmpty
  | .alt a b => a.mayBeEmpty || b.mayBeEmpty
  | .rep _ lo _ a => lo == 0 || a.mayBeEmpty
  | .group _ _ a => a.mayBeEmpty

/-- The position is inside of a character. -/
def InsideChar (u : List Char) (i : Nat) : Prop := i ≤ (utf8 u).length ∧ ∀ q, q ≤ u.length → i ≠ byteAt u q

theorem letter_inside {f : Flags} {e : UExpr} (he : e.Fine) (hw : wf e.tree = true) {P : Char → Prop} (hL : e.lang f.icase = letterOf P) {u : List Char} {i : Nat}
    (hi : InsideChar u i) : ends f (utf8 u) e.tree true false i = [] := by
  have hs := simple_tree he
  obtain ⟨d1, d2, d3⟩ := declarative_iff.1 (selfContained_declarative hs.1 hs.2)
  refine List.eq_nil_iff_forall_not_mem.2 fun j hj => ?_
  have hin := ends_inside (E := ⟨utf8 u, f, .randomAccess, []⟩) (r := 0) rfl _ _ _ _ hi.1 hj
  unfold Env.Reach at hin
  simp only at hin
  have hm : Matches f (utf8 u) e.tree i j :=
    (ends_iff (E := ⟨utf8 u, f, .randomAccess, []⟩) (fwd := true) (inv := false) hw d1 d2 (.inl ⟨rfl, rfl, d3⟩) hi.1).1 hj
  rcases Nat.lt_or_ge i j with hij | hij
  · obtain ⟨x, v, y, hu, _, _, hx, _⟩ := piece_of_matches he hij (by omega) hm
    exact hi.2 x.length (by rw [hu]; simp) (by rw [← hx, byteAt, hu]; simp)
  · obtain rfl : j = i := by omega
    have := nil_of_matches he hi.1 hm
    rw [hL] at this
    obtain ⟨d, hd, _⟩ := this
    cases hd

/-- Inside of a character nothing can be read. -/
theorem ends_insideChar (f : Flags) {u : List Char} {i : Nat} (hi : InsideChar u i) : ∀ {e : UExpr}, e.Ranged → wf e.tree = true →
    (∀ q ∈ ends f (utf8 u) e.tree true false i, q = i) ∧ (ends f (utf8 u) e.tree true false i ≠ [] → e.mayBeEmpty = true)
  | .empty, _, _ => by simp [UExpr.tree, ends, UExpr.mayBeEmpty]
  | .char c, _, hw => by simp [letter_inside (f := f) (e := .char c) trivial hw rfl hi]
  | .ascii l, h, hw => by simp [letter_inside (f := f) (e := .ascii l) h hw rfl hi]
  | .any, _, hw => by simp [letter_inside (f := f) (e := .any) trivial hw rfl hi]
  | .cat a b, h, hw => by
    simp only [UExpr.tree, wf, wfAll, Bool.and_eq_true] at hw
    have ha := ends_insideChar f hi h.1 hw.2.1
    have hb := ends_insideChar f hi h.2 hw.2.2.1
    simp only [UExpr.tree, ends, endsAll, Bool.false_eq_true, if_false, List.flatMap_singleton', UExpr.mayBeEmpty, Bool.and_eq_true]
    refine ⟨stays_flatMap ha.1 hb.1, fun hne => ?_⟩
    obtain ⟨q, hq⟩ := List.exists_mem_of_ne_nil _ hne
    obtain ⟨r, hr, hq⟩ := List.mem_flatMap.1 hq
    rw [ha.1 r hr] at hq
    exact ⟨ha.2 (List.ne_nil_of_mem hr), hb.2 (List.ne_nil_of_mem hq)⟩
  | .alt a b, h, hw => by
    simp only [UExpr.tree, wf, wfAll, Bool.and_eq_true] at hw
    have ha := ends_insideChar f hi h.1 hw.2.1
    have hb := ends_insideChar f hi h.2 hw.2.2.1
    simp only [UExpr.tree, ends, endsAny, List.append_nil, UExpr.mayBeEmpty, Bool.or_eq_true, List.mem_append]
    refine ⟨fun q hq => hq.elim (ha.1 q) (hb.1 q), fun hne => ?_⟩
    obtain ⟨q, hq⟩ := List.exists_mem_of_ne_nil _ hne
    exact (List.mem_append.1 hq).imp (fun h => ha.2 (List.ne_nil_of_mem h)) (fun h => hb.2 (List.ne_nil_of_mem h))
  | .rep m lo hi' a, h, hw => by
    have hw' : wf a.tree = true := by
      simp only [UExpr.tree] at hw
      cases hi' <;> simp_all [wf]
    have ha := ends_insideChar f hi (e := a) h hw'
    simp only [UExpr.tree, ends]
    refine ⟨stays_quantified ha.1 _ _ _ _ _, fun hne => ?_⟩
    by_cases hlo : lo = 0
    · simp [UExpr.mayBeEmpty, hlo]
    · have : exactly (ends f (utf8 u) a.tree true false) lo i ≠ [] := by
        intro h'
        apply hne
        unfold quantified
        rw [h']
        cases m <;> rfl
      simp [UExpr.mayBeEmpty, ha.2 (exactly_ne_nil hlo this)]
  | .group _ _ a, h, hw => by
    simp only [UExpr.tree, wf] at hw
    have ha := ends_insideChar f hi (e := a) h hw
    simpa only [UExpr.tree, ends, UExpr.mayBeEmpty] using ha

section always
variable {n : Nat} {g : Nat → List Nat} (hm : Onwards n g)
include hm

theorem exactly_always (hg : ∀ p, p ≤ n → g p ≠ []) (k : Nat) : ∀ p, p ≤ n → exactly g k p ≠ [] := by
  induction k with
  | zero => intro p _; simp [exactly]
  | succ k ih =>
    intro p hp
    obtain ⟨q, hq⟩ := List.exists_mem_of_ne_nil _ (hg p hp)
    obtain ⟨r, hr⟩ := List.exists_mem_of_ne_nil _ (ih q (hm p q hp hq).2)
    exact List.ne_nil_of_mem (List.mem_flatMap.2 ⟨q, hq, hr⟩)

theorem possessiveUpTo_always (k : Nat) : ∀ p, p ≤ n → possessiveUpTo g k p ≠ [] := by
  induction k with
  | zero => intro p _; simp [possessiveUpTo]
  | succ k ih =>
    intro p hp
    rw [possessiveUpTo]
    split
    · simp
    · next q l hq => exact ih q (hm p q hp (by rw [hq]; simp)).2

theorem possessiveStar_always (k : Nat) : ∀ p, p ≤ n → n - p < k → possessiveStar g k p ≠ [] := by
  induction k with
  | zero => intro p _ h; omega
  | succ k ih =>
    intro p hp hk
    rw [possessiveStar]
    split
    · simp
    · next q l hq =>
      have := hm p q hp (by rw [hq]; simp)
      split
      · simp
      · exact ih q this.2 (by omega)

theorem extra_always (m : Mode) (u : Bool) (k : Option Nat) (p : Nat) (hp : p ≤ n) : extra n m u g k p ≠ [] := by
  have h1 : ∀ k, greedyUpTo g k p ≠ [] := fun k => by cases k <;> simp [greedyUpTo]
  have h2 : ∀ k, lazyUpTo g k p ≠ [] := fun k => by cases k <;> simp [lazyUpTo]
  have h3 : greedyStar g (n + 1) p ≠ [] := by simp [greedyStar]
  have h4 : lazyStar g (n + 1) p ≠ [] := by simp [lazyStar]
  cases k <;> cases m <;> cases u <;> simp only [extra] <;>
    first
    | exact h1 _
    | exact h2 _
    | exact possessiveUpTo_always hm _ p hp
    | exact possessiveStar_always hm _ p hp (by omega)
    | exact h3
    | exact h4

theorem quantified_always (m : Mode) (u : Bool) (lo : Nat) (hi : Bound) (hg : lo = 0 ∨ ∀ p, p ≤ n → g p ≠ []) (p : Nat) (hp : p ≤ n) :
    quantified n m u lo hi g p ≠ [] := by
  have h1 : exactly g lo p ≠ [] := by
    rcases hg with rfl | hg
    · simp [exactly]
    · exact exactly_always hm hg lo p hp
  obtain ⟨q, l, hq⟩ := List.exists_cons_of_ne_nil h1
  have hqn := (onwards_exactly hm lo p q hp (by rw [hq]; simp)).2
  unfold quantified
  obtain ⟨r, hr⟩ := List.exists_mem_of_ne_nil _ (extra_always hm m u (match hi with | .fin h => some (h - lo) | .inf => none) q hqn)
  refine List.ne_nil_of_mem (List.mem_flatMap.2 ⟨q, ?_, hr⟩)
  rw [hq]
  cases m <;> simp

end always

theorem ends_always (ic ug : Bool) (u : List Char) : ∀ e : UExpr, e.mayBeEmpty = true → ∀ p, p ≤ u.length → e.ends ic ug u p ≠ []
  | .empty, _, p, _ => by simp [UExpr.ends]
  | .cat a b, h, p, hp => by
    simp only [UExpr.mayBeEmpty, Bool.and_eq_true] at h
    obtain ⟨q, hq⟩ := List.exists_mem_of_ne_nil _ (ends_always ic ug u a h.1 p hp)
    obtain ⟨r, hr⟩ := List.exists_mem_of_ne_nil _ (ends_always ic ug u b h.2 q (onwards_ends ic ug u a p q hp hq).2)
    exact List.ne_nil_of_mem (List.mem_flatMap.2 ⟨q, hq, hr⟩)
  | .alt a b, h, p, hp => by
    simp only [UExpr.mayBeEmpty, Bool.or_eq_true] at h
    simp only [UExpr.ends, ne_eq, List.append_eq_nil_iff, not_and_or]
    exact h.imp (fun h => ends_always ic ug u a h p hp) (fun h => ends_always ic ug u b h p hp)
  | .rep m lo hi a, h, p, hp => by
    simp only [UExpr.mayBeEmpty, Bool.or_eq_true, beq_iff_eq] at h
    exact quantified_always (onwards_ends ic ug u a) m ug lo hi (h.imp id fun h => ends_always ic ug u a h) p hp
  | .group _ _ a, h, p, hp => ends_always ic ug u a h p hp

/-- The leftmost place from a boundary on where there is an attempt is a boundary. -/
theorem leftmost_boundary {f : Flags} {u : List Char} {e : UExpr} (he : e.Ranged) (hw : wf e.tree = true) {p i : Nat} (hp : p ≤ u.length) (hpi : byteAt u p ≤ i)
    (hi : i ≤ (utf8 u).length) (h : ends f (utf8 u) e.tree true false i ≠ [])
    (hn : ∀ i', byteAt u p ≤ i' → i' < i → ends f (utf8 u) e.tree true false i' = []) : ∃ q, p ≤ q ∧ q ≤ u.length ∧ i = byteAt u q := by
  by_cases hb : ∃ q, q ≤ u.length ∧ i = byteAt u q
  · obtain ⟨q, hq, rfl⟩ := hb
    refine ⟨q, ?_, hq, rfl⟩
    rcases Nat.lt_or_ge q p with h' | h'
    · have := byteAt_lt q p h' hp
      omega
    · exact h'
  · exfalso
    have hin : InsideChar u i := ⟨hi, fun q hq h' => hb ⟨q, hq, h'⟩⟩
    have h1 := ends_always f.icase f.ungreedy u e ((ends_insideChar f hin he hw).2 h) p hp
    have h2 := (alike_ends f u he hw p hp).isEmpty
    have h3 : byteAt u p < i := by
      have := hin.2 p hp
      omega
    rw [hn _ (Nat.le_refl _) h3] at h2
    exact h1 (by simpa using h2.symm)

/-! ## Groups -/

theorem behindOk_tree : ∀ e : UExpr, behindOk e.tree = true
  | .empty => rfl
  | .char _ => selfContained_behindOk (noPossessive_charTree _).1
  | .ascii l => selfContained_behindOk (noPossessive_ranges l).1
  | .any => rfl
  | .cat a b => by simp [UExpr.tree, behindOk, behindOkAll, behindOk_tree a, behindOk_tree b]
  | .alt a b => by simp [UExpr.tree, behindOk, behindOkAll, behindOk_tree a, behindOk_tree b]
  | .rep _ _ _ a => by simp [UExpr.tree, behindOk, behindOk_tree a]
  | .group _ _ a => by simp [UExpr.tree, behindOk, behindOk_tree a]

theorem groupIds_bytes : ∀ l : List Byte, groupIdsAll (l.map .lit) = []
  | [] => rfl
  | _ :: l => by simp [groupIdsAll, groupIds, groupIds_bytes l]

theorem groupIds_charTree (w : List Byte) : groupIds (charTree w) = [] := by
  match w with
  | [] => rfl
  | [b] => rfl
  | a :: b :: l => exact groupIds_bytes (a :: b :: l)

theorem groupIds_ranges (l : List (Char × Char)) : groupIds (UExpr.ascii l).tree = [] := by
  simp only [UExpr.tree, groupIds]
  induction l with
  | nil => rfl
  | cons x w ih => simpa [groupIdsAll, groupIds] using ih

theorem groupBody_tree {k : Nat} {body : Ast} : ∀ {e : UExpr}, GroupBody e.tree k body → ∃ a : UExpr, body = a.tree ∧ UExpr.Around k a e
  | .empty, h => by cases h
  | .char c, h => by have := groupBody_groupIds h; rw [UExpr.tree, groupIds_charTree] at this; cases this
  | .ascii l, h => by have := groupBody_groupIds h; rw [groupIds_ranges] at this; cases this
  | .any, h => by have := groupBody_groupIds h; cases this
  | .cat a b, h => by
    rw [UExpr.tree] at h
    cases h with | seq hm h => ?_
    simp only [List.mem_cons, List.not_mem_nil, or_false] at hm
    rcases hm with rfl | rfl
    · obtain ⟨x, h1, h2⟩ := groupBody_tree h; exact ⟨x, h1, .catL h2⟩
    · obtain ⟨x, h1, h2⟩ := groupBody_tree h; exact ⟨x, h1, .catR h2⟩
  | .alt a b, h => by
    rw [UExpr.tree] at h
    cases h with | alt hm h => ?_
    simp only [List.mem_cons, List.not_mem_nil, or_false] at hm
    rcases hm with rfl | rfl
    · obtain ⟨x, h1, h2⟩ := groupBody_tree h; exact ⟨x, h1, .altL h2⟩
    · obtain ⟨x, h1, h2⟩ := groupBody_tree h; exact ⟨x, h1, .altR h2⟩
  | .rep _ _ _ a, h => by
    rw [UExpr.tree] at h
    cases h with | rep h => ?_
    obtain ⟨x, h1, h2⟩ := groupBody_tree h
    exact ⟨x, h1, .rep h2⟩
  | .group id name a, h => by
    rw [UExpr.tree] at h
    cases h with
    | here => exact ⟨a, rfl, .here⟩
    | cap h =>
      obtain ⟨x, h1, h2⟩ := groupBody_tree h
      exact ⟨x, h1, .group h2⟩

end Mregex
