import Verif.Proof.Kleene
import Verif.Props.Local

/-!
# C54: the methods in terms of formal languages
-/

namespace Mregex
open Ast Spec
open scoped Computability

theorem mem_all (w : List Byte) : w ∈ (oneOf fun _ => True)∗ := by
  induction w with
  | nil => exact Language.nil_mem_kstar _
  | cons x w ih =>
    rw [← Language.one_add_self_mul_kstar_eq_kstar]
    exact .inr (Language.mem_mul.2 ⟨[x], ⟨x, rfl, trivial⟩, w, ih, rfl⟩)

theorem mem_denote_window {f : Flags} {a : Ast} (hs : selfContained a = true) (u w v : List Byte) :
    Matches f (u ++ w ++ v) a u.length (u.length + w.length) ↔ w ∈ denote f a := by
  rw [mem_denote hs]
  have := matches_window (f := f) hs (s := u ++ w ++ v) (s' := w) (i := u.length) (i' := 0) (n := w.length) (fun k hk => by
    rw [List.append_assoc, List.getElem?_append_right (by omega), List.getElem?_append_left (by omega)]
    congr 1
    omega)
  simpa using this

theorem mem_denote_slice {f : Flags} {a : Ast} (hs : selfContained a = true) {s : List Byte} {i j : Nat} (hij : i ≤ j) (hj : j ≤ s.length) :
    Matches f s a i j ↔ (s.drop i).take (j - i) ∈ denote f a := by
  have e : s.take i ++ (s.drop i).take (j - i) ++ s.drop j = s := by
    have : s.drop j = (s.drop i).drop (j - i) := by rw [List.drop_drop]; congr 1; omega
    rw [this, List.append_assoc, List.take_append_drop, List.take_append_drop]
  have h1 : (s.take i).length = i := by simp; omega
  have h2 : ((s.drop i).take (j - i)).length = j - i := by simp; omega
  rw [← mem_denote_window hs (s.take i) _ (s.drop j), e, h1, h2, show i + (j - i) = j by omega]

/-- **C54.** `match` accepts exactly the texts of the formal language. -/
theorem C54_match (R : Regex) (cat : Cat) (hR : R.Ok cat) (hs : selfContained R.ast = true) (hp : noPossessive R.ast = true) (s : List Byte) :
    ∃ res, R.match s cat = some res ∧ (res.matched = true ↔ s ∈ denote R.fl R.ast) := by
  obtain ⟨res, h1, h2⟩ := C02_match_language R cat hR (selfContained_declarative hs hp) s
  exact ⟨res, h1, h2.trans (mem_denote hs s).symm⟩

/-- **C54.** `match_prefix` accepts exactly the texts that begin with a text of the language. -/
theorem C54_matchPrefix (R : Regex) (cat : Cat) (hR : R.Ok cat) (hs : selfContained R.ast = true) (hp : noPossessive R.ast = true)
    (s : List Byte) :
    ∃ res, R.matchPrefix s cat = some res ∧ (res.matched = true ↔ s ∈ denote R.fl R.ast * (oneOf fun _ => True)∗) := by
  have hd := selfContained_declarative hs hp
  obtain ⟨res, h1, h2, _⟩ := C03_matchPrefix_language R cat hR hd s
  refine ⟨res, h1, h2.trans ?_⟩
  rw [Language.mem_mul]
  constructor
  · rintro ⟨j, hj⟩
    have hjs := (ends_le (Nat.zero_le _) ((mem_ends_iff hR hd (Nat.zero_le _)).2 hj)).2
    have hl : (s.take j).length = j := by simp; omega
    refine ⟨s.take j, (mem_denote hs _).2 ?_, s.drop j, mem_all _, List.take_append_drop j s⟩
    rw [← (matches_split hs (s.take j) (s.drop j)).1, List.take_append_drop, hl]
    exact hj
  · rintro ⟨u, hu, v, _, rfl⟩
    exact ⟨u.length, (matches_split hs u v).1.2 ((mem_denote hs u).1 hu)⟩

/-- **C54.** `search` accepts exactly the texts with a part in the language. -/
theorem C54_search (R : Regex) (cat : Cat) (hR : R.Ok cat) (hs : selfContained R.ast = true) (hp : noPossessive R.ast = true)
    (s : List Byte) :
    ∃ res, R.search s cat = some res ∧
      (res.matched = true ↔ s ∈ (oneOf fun _ => True)∗ * denote R.fl R.ast * (oneOf fun _ => True)∗) := by
  have hd := selfContained_declarative hs hp
  obtain ⟨res, h1, h2, _⟩ := C04_search_leftmost R cat hR hd s
  refine ⟨res, h1, h2.trans ?_⟩
  rw [Language.mem_mul]
  constructor
  · rintro ⟨i, j, hi, hm⟩
    have hij := ends_le hi ((mem_ends_iff hR hd hi).2 hm)
    have e : s.take i ++ (s.drop i).take (j - i) ++ s.drop j = s := by
      have : s.drop j = (s.drop i).drop (j - i) := by rw [List.drop_drop]; congr 1; omega
      rw [this, List.append_assoc, List.take_append_drop, List.take_append_drop]
    exact ⟨_, Language.mem_mul.2 ⟨s.take i, mem_all _, _, (mem_denote_slice hs hij.1 hij.2).1 hm, rfl⟩, s.drop j, mem_all _, e⟩
  · rintro ⟨x, hx, v, _, rfl⟩
    obtain ⟨u, _, w, hw, rfl⟩ := Language.mem_mul.1 hx
    exact ⟨u.length, u.length + w.length, by simp, (mem_denote_window hs u w v).2 hw⟩

/-- **C54.** Regexes with the same language give the same verdict, whatever the method, and report matches that begin at the same place. -/
theorem C54_equivalent (R R' : Regex) (cat : Cat) (hR : R.Ok cat) (hR' : R'.Ok cat) (hs : selfContained R.ast = true)
    (hs' : selfContained R'.ast = true) (hp : noPossessive R.ast = true) (hp' : noPossessive R'.ast = true)
    (h : denote R.fl R.ast = denote R'.fl R'.ast) (M : Method) (s : List Byte) :
    ∃ res res', R.invoke M cat s = some res ∧ R'.invoke M cat s = some res' ∧ res.matched = res'.matched ∧
      (res.matched = true → ∃ b e e', res.group 0 = some (some (b, e)) ∧ res'.group 0 = some (some (b, e'))) := by
  have hd := selfContained_declarative hs hp
  have hd' := selfContained_declarative hs' hp'
  cases M with
  | «match» =>
    obtain ⟨res, h1, h2⟩ := C54_match R cat hR hs hp s
    obtain ⟨res', h1', h2'⟩ := C54_match R' cat hR' hs' hp' s
    have hm : res.matched = res'.matched := by rw [Bool.eq_iff_iff, h2, h2', h]
    exact ⟨res, res', h1, h1', hm, fun ht => ⟨_, _, _, (C07_match R cat hR s res h1 ht).1, (C07_match R' cat hR' s res' h1' (hm ▸ ht)).1⟩⟩
  | matchPrefix =>
    obtain ⟨res, h1, h2⟩ := C54_matchPrefix R cat hR hs hp s
    obtain ⟨res', h1', h2'⟩ := C54_matchPrefix R' cat hR' hs' hp' s
    have hm : res.matched = res'.matched := by rw [Bool.eq_iff_iff, h2, h2', h]
    refine ⟨res, res', h1, h1', hm, fun ht => ?_⟩
    obtain ⟨j, _, h3, _⟩ := C07_matchPrefix R cat hR s res h1 ht
    obtain ⟨j', _, h3', _⟩ := C07_matchPrefix R' cat hR' s res' h1' (hm ▸ ht)
    exact ⟨_, _, _, h3, h3'⟩
  | search =>
    obtain ⟨res, h1, h2⟩ := C54_search R cat hR hs hp s
    obtain ⟨res', h1', h2'⟩ := C54_search R' cat hR' hs' hp' s
    have hm : res.matched = res'.matched := by rw [Bool.eq_iff_iff, h2, h2', h]
    refine ⟨res, res', h1, h1', hm, fun ht => ?_⟩
    obtain ⟨_, g1, _, g3⟩ := C04_search_leftmost R cat hR hd s
    obtain ⟨_, g1', _, g3'⟩ := C04_search_leftmost R' cat hR' hd' s
    obtain rfl := Option.some.inj (g1.symm.trans h1)
    obtain rfl := Option.some.inj (g1'.symm.trans h1')
    obtain ⟨i, j, hij, hj, h4, h5, h6⟩ := g3 ht
    obtain ⟨i', j', hij', hj', h4', h5', h6'⟩ := g3' (hm ▸ ht)
    have hi : i = i' := by
      rcases Nat.lt_trichotomy i i' with hlt | rfl | hlt
      · exact absurd ((mem_denote_slice hs' hij hj).2 (h ▸ (mem_denote_slice hs hij hj).1 h5)) (h6' i j hlt)
      · rfl
      · exact absurd ((mem_denote_slice hs hij' hj').2 (h ▸ (mem_denote_slice hs' hij' hj').1 h5')) (h6 i' j' hlt)
    subst hi
    exact ⟨_, _, _, h4, h4'⟩

/-- `(a|bc)*d?` accepts `abcd`, which is in its language. -/
example : exLocal.Ok .randomAccess ∧ selfContained exLocal.ast = true ∧ noPossessive exLocal.ast = true ∧
    (exLocal.match [ch 'a', ch 'b', ch 'c', ch 'd']).map Result.matched = some true :=
  ⟨exLocal_ok, exLocal_local.1, exLocal_local.2, by decide⟩

/-- `(?:X*)*` and `X*` have the same language. -/
example (f : Flags) (X : Ast) : denote f (star (star X)) = denote f (star X) := by
  simp only [Ast.star, denote, pow_zero, one_mul, kstar_idem]

/-- `X+` is `XX*`. -/
example (f : Flags) (X : Ast) : denote f (plus X) = denote f (.seq [X, star X]) := by
  simp only [Ast.plus, Ast.star, denote, denoteAll, pow_zero, pow_one, one_mul, mul_one]

end Mregex
