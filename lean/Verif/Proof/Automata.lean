import Mathlib.Computability.RegularExpressions
import Mathlib.Computability.DFA
import Mathlib.Data.Fintype.Basic

/-!
# Regular languages are denoted by regular expressions

One half of Kleene's theorem, which Mathlib lacks.
-/

namespace Mregex
open scoped Computability

variable {α σ : Type} (M : DFA α σ)

/-- `w` is not empty and leads from the first state to the second one; the states in between are in the list. -/
inductive Thru (ks : List σ) : σ → List α → σ → Prop
  | one (p : σ) (x : α) : Thru ks p [x] (M.step p x)
  | cons {p : σ} {x : α} {w : List α} {q : σ} : M.step p x ∈ ks → Thru ks (M.step p x) w q → Thru ks p (x :: w) q

/-- The texts with that property. -/
def thru (ks : List σ) (p q : σ) : Language α := {w | Thru M ks p w q}

variable {M}

theorem mem_thru {ks : List σ} {p q : σ} {w : List α} : w ∈ thru M ks p q ↔ Thru M ks p w q := Iff.rfl

theorem Thru.mono {ks ks' : List σ} (h : ∀ k ∈ ks, k ∈ ks') {p q : σ} {w : List α} (hw : Thru M ks p w q) : Thru M ks' p w q := by
  induction hw with
  | one p x => exact .one p x
  | cons hm _ ih => exact .cons (h _ hm) ih

theorem Thru.append {ks : List σ} {p k q : σ} {u v : List α} (hu : Thru M ks p u k) (hk : k ∈ ks) (hv : Thru M ks k v q) :
    Thru M ks p (u ++ v) q := by
  induction hu with
  | one p x => exact .cons hk hv
  | cons hm _ ih => exact .cons hm (ih hk hv)

theorem Thru.eval {ks : List σ} {p q : σ} {w : List α} (hw : Thru M ks p w q) : M.evalFrom p w = q := by
  induction hw with
  | one p x => rfl
  | cons _ _ ih => exact ih

theorem thru_of_eval {ks : List σ} (h : ∀ k, k ∈ ks) (p : σ) (x : α) (w : List α) : Thru M ks p (x :: w) (M.evalFrom p (x :: w)) := by
  induction w generalizing p x with
  | nil => exact .one p x
  | cons y w ih => exact .cons (h _) (ih _ y)

theorem thru_cons (ks : List σ) (k p q : σ) :
    thru M (k :: ks) p q = thru M ks p q + thru M ks p k * (thru M ks k k)∗ * thru M ks k q := by
  ext w
  simp only [Language.mem_add, mem_thru]
  constructor
  · intro hw
    induction hw with
    | one p x => exact .inl (.one p x)
    | @cons p x w q hm _ ih =>
      rcases List.mem_cons.1 hm with he | hm
      · have h1 : [x] ∈ thru M ks p k := he ▸ Thru.one p x
        rw [he] at ih
        refine .inr ?_
        rcases ih with ih | ih
        · exact Language.mem_mul.2 ⟨[x] ++ [], Language.mem_mul.2 ⟨_, h1, _, Language.nil_mem_kstar _, rfl⟩, w, ih, rfl⟩
        · obtain ⟨ab, hab, c, hc, rfl⟩ := Language.mem_mul.1 ih
          obtain ⟨a, ha, b, hb, rfl⟩ := Language.mem_mul.1 hab
          refine Language.mem_mul.2 ⟨[x] ++ (a ++ b), Language.mem_mul.2 ⟨_, h1, _, ?_, rfl⟩, c, hc, by simp⟩
          rw [Language.mem_kstar] at hb ⊢
          obtain ⟨L, rfl, hL⟩ := hb
          exact ⟨a :: L, by simp, fun y hy => (List.mem_cons.1 hy).elim (fun e => e ▸ ha) (hL y)⟩
      · rcases ih with ih | ih
        · exact .inl (.cons hm ih)
        · refine .inr ?_
          obtain ⟨ab, hab, c, hc, rfl⟩ := Language.mem_mul.1 ih
          obtain ⟨a, ha, b, hb, rfl⟩ := Language.mem_mul.1 hab
          exact Language.mem_mul.2 ⟨(x :: a) ++ b, Language.mem_mul.2 ⟨_, Thru.cons hm ha, _, hb, rfl⟩, c, hc, rfl⟩
  · have hmono : ∀ {p q w}, Thru M ks p w q → Thru M (k :: ks) p w q := fun h => h.mono fun _ h => List.mem_cons_of_mem _ h
    rintro (hw | hw)
    · exact hmono hw
    · obtain ⟨ab, hab, c, hc, rfl⟩ := Language.mem_mul.1 hw
      obtain ⟨a, ha, b, hb, rfl⟩ := Language.mem_mul.1 hab
      obtain ⟨L, rfl, hL⟩ := Language.mem_kstar.1 hb
      have hk : k ∈ k :: ks := List.mem_cons_self ..
      refine Thru.append ?_ hk (hmono hc)
      clear hb hab hw
      induction L generalizing a with
      | nil => simpa using hmono ha
      | cons y L ih =>
        rw [List.flatten_cons, ← List.append_assoc]
        have h1 : Thru M (k :: ks) p a k := hmono ha
        have h2 : Thru M (k :: ks) k (y ++ L.flatten) k := by
          clear ih
          have hy : Thru M (k :: ks) k y k := hmono (hL y (by simp))
          have hL' : ∀ z ∈ L, z ∈ thru M ks k k := fun z hz => hL z (List.mem_cons_of_mem _ hz)
          clear hL
          induction L generalizing y with
          | nil => simpa using hy
          | cons z L ih =>
            rw [List.flatten_cons]
            exact hy.append hk (ih z (hmono (hL' z (by simp))) fun t ht => hL' t (List.mem_cons_of_mem _ ht))
        rw [List.append_assoc]
        exact h1.append hk h2

/-- A sum of regular expressions. -/
def sumOf : List (RegularExpression α) → RegularExpression α
  | [] => 0
  | P :: l => P + sumOf l

theorem mem_sumOf {l : List (RegularExpression α)} {w : List α} : w ∈ (sumOf l).matches' ↔ ∃ P ∈ l, w ∈ P.matches' := by
  induction l with
  | nil => simp only [sumOf, RegularExpression.matches'_zero]; simp [Language.notMem_zero]
  | cons P l ih => simp only [sumOf, RegularExpression.matches'_add, Language.mem_add, ih]; simp

theorem exists_thru (letters : List α) (hl : ∀ x, x ∈ letters) (ks : List σ) (p q : σ) : ∃ P : RegularExpression α, P.matches' = thru M ks p q := by
  classical
  induction ks generalizing p q with
  | nil =>
    refine ⟨sumOf ((letters.filter fun x => M.step p x = q).map .char), ?_⟩
    ext w
    rw [mem_sumOf, mem_thru]
    constructor
    · rintro ⟨P, hP, hw⟩
      obtain ⟨x, hx, rfl⟩ := List.mem_map.1 hP
      have hw : w = [x] := hw
      have := (List.mem_filter.1 hx).2
      simp only [decide_eq_true_eq] at this
      rw [hw, ← this]; exact .one p x
    · intro hw
      cases hw with
      | one p x => exact ⟨.char x, List.mem_map.2 ⟨x, List.mem_filter.2 ⟨hl x, by simp⟩, rfl⟩, rfl⟩
      | cons hm _ => cases hm
  | cons k ks ih =>
    obtain ⟨P1, h1⟩ := ih p q
    obtain ⟨P2, h2⟩ := ih p k
    obtain ⟨P3, h3⟩ := ih k k
    obtain ⟨P4, h4⟩ := ih k q
    exact ⟨P1 + P2 * P3.star * P4, by rw [thru_cons, ← h1, ← h2, ← h3, ← h4]; rfl⟩

/-- **Kleene.** -/
theorem exists_expression (letters : List α) (hl : ∀ x, x ∈ letters) {L : Language α} (hL : L.IsRegular) :
    ∃ P : RegularExpression α, P.matches' = L := by
  classical
  obtain ⟨σ, hσ, M, rfl⟩ := hL
  have hall : ∀ k : σ, k ∈ (Finset.univ : Finset σ).toList := fun k => by simp
  let f : σ → RegularExpression α := fun q => (exists_thru (M := M) letters hl (Finset.univ : Finset σ).toList M.start q).choose
  have hf : ∀ q, (f q).matches' = thru M (Finset.univ : Finset σ).toList M.start q := fun q =>
    (exists_thru (M := M) letters hl (Finset.univ : Finset σ).toList M.start q).choose_spec
  refine ⟨(if M.start ∈ M.accept then 1 else 0) + sumOf (((Finset.univ : Finset σ).toList.filter fun q => q ∈ M.accept).map f), ?_⟩
  ext w
  rw [RegularExpression.matches'_add, Language.mem_add, mem_sumOf, DFA.mem_accepts]
  have hsum : (∃ P ∈ ((Finset.univ : Finset σ).toList.filter fun q => q ∈ M.accept).map f, w ∈ P.matches') ↔
      ∃ q ∈ M.accept, Thru M (Finset.univ : Finset σ).toList M.start w q := by
    constructor
    · rintro ⟨P, hP, hw⟩
      obtain ⟨q, hq, rfl⟩ := List.mem_map.1 hP
      rw [hf] at hw
      exact ⟨q, by simpa using (List.mem_filter.1 hq).2, hw⟩
    · rintro ⟨q, hq, hw⟩
      exact ⟨f q, List.mem_map.2 ⟨q, List.mem_filter.2 ⟨hall q, by simpa using hq⟩, rfl⟩, by rw [hf]; exact hw⟩
  rw [hsum]
  constructor
  · rintro (hw | ⟨q, hq, hw⟩)
    · split at hw
      · next hs =>
        have hw : w = [] := hw
        rw [hw]; exact hs
      · exact absurd hw (Language.notMem_zero w)
    · rw [← hw.eval] at hq; exact hq
  · intro hw
    cases w with
    | nil =>
      have hs : M.start ∈ M.accept := hw
      rw [if_pos hs]; exact .inl rfl
    | cons x w => exact .inr ⟨_, hw, thru_of_eval hall M.start x w⟩

end Mregex
