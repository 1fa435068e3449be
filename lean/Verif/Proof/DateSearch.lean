import Verif.Proof.Site
import Verif.Props.Template
import Verif.Props.Says

/-!
# Dates in a text
-/

namespace Mregex
open Ast Spec

/-! ### What the expression says -/

theorem says_digits (lo hi : Nat) (e : Memory) (w : List Byte) (e' : Memory) :
    Says {} (.rep .greedy lo (.fin hi) (.range (ch '0') (ch '9'))) e w e' ↔ DigitsOf lo hi w ∧ e' = e := by
  rw [Says.eq_5]
  simp only [repeats_chars (f := {}) (cls := .range (ch '0') (ch '9')) (by intros; simp only [Says]), accepts_digit, AtMost, DigitsOf]
  constructor
  · rintro ⟨n, h1, h2, rfl, h4, h5⟩
    exact ⟨⟨h4, h1, h2⟩, h5⟩
  · rintro ⟨⟨h1, h2, h3⟩, h4⟩
    exact ⟨_, h2, h3, rfl, h1, h4⟩

theorem says_date (w : List Byte) (e : Memory) : Says {} (template dateFields []) [] w e ↔
    ∃ d m y, DigitsOf 1 2 d ∧ DigitsOf 1 2 m ∧ DigitsOf 2 4 y ∧ w = dateText d m y ∧ e = [(3, y), (2, m), (1, d)] := by
  show Says {} (.seq [.cap 1 none (.rep .greedy 1 (.fin 2) (.range (ch '0') (ch '9'))), .lit (ch '/'), .cap 2 none (.rep .greedy 1 (.fin 2) (.range (ch '0') (ch '9'))),
    .lit (ch '/'), .cap 3 none (.rep .greedy 2 (.fin 4) (.range (ch '0') (ch '9')))]) [] w e ↔ _
  simp only [Says.eq_2, SaysAll, Says.eq_4, says_char, says_digits]
  constructor
  · rintro ⟨d, _, _, rfl, ⟨_, ⟨h1, rfl⟩, rfl⟩, _, _, _, rfl, ⟨rfl, rfl⟩, m, _, _, rfl, ⟨_, ⟨h2, rfl⟩, rfl⟩, _, _, _, rfl, ⟨rfl, rfl⟩, y, _, _, rfl, ⟨_, ⟨h3, rfl⟩, rfl⟩, rfl, rfl⟩
    exact ⟨d, m, y, h1, h2, h3, by simp [dateText], rfl⟩
  · rintro ⟨d, m, y, h1, h2, h3, rfl, rfl⟩
    exact ⟨d, _, _, rfl, ⟨_, ⟨h1, rfl⟩, rfl⟩, [ch '/'], _, _, rfl, ⟨rfl, rfl⟩, m, _, _, rfl, ⟨_, ⟨h2, rfl⟩, rfl⟩, [ch '/'], _, _, rfl, ⟨rfl, rfl⟩, y, [], _, by simp,
      ⟨_, ⟨h3, rfl⟩, rfl⟩, rfl, rfl⟩

/-! ### The attempt that comes first -/

theorem head_flatMap_single {l : List Nat} {F : Nat → List Nat} {x : Nat} (hx : x ∈ l) (h : ∀ y ∈ l, y ≠ x → F y = []) : (l.flatMap F).head? = (F x).head? := by
  have hnil : ∀ l' : List Nat, (∀ y ∈ l', y ≠ x → F y = []) → F x = [] → l'.flatMap F = [] := fun l' h' h0 =>
    List.flatMap_eq_nil_iff.2 fun y hy => by
      by_cases e : y = x
      · rw [e, h0]
      · exact h' y hy e
  induction l with
  | nil => simp at hx
  | cons a l ih =>
    by_cases e : a = x
    · subst e
      rw [List.flatMap_cons]
      cases h0 : F a with
      | nil => rw [hnil l (fun y hy => h y (List.mem_cons_of_mem _ hy)) h0]; rfl
      | cons b r => rfl
    · rw [List.flatMap_cons, h a (by simp) e, List.nil_append]
      exact ih ((List.mem_cons.1 hx).resolve_left fun e' => e e'.symm) fun y hy => h y (List.mem_cons_of_mem _ hy)

section
variable {s : List Byte}

theorem head_upTo {P : Byte → Bool} {k p n : Nat} (h : AllAt s P p n) (hn : n ≤ k) (hs : n = k ∨ Halts s P (p + n)) :
    (greedyUpTo (oneChar s true P) k p).head? = some (p + n) := by
  induction k generalizing p n with
  | zero =>
    obtain rfl : n = 0 := by omega
    rfl
  | succ k ih =>
    rcases char_cases s P p with ⟨h1, h2⟩ | ⟨h1, h2⟩
    · cases n with
      | zero =>
        rcases hs with hs | hs
        · cases hs
        · exact absurd h2 hs
      | succ n =>
        have := ih (p := p + 1) (allAt_succ.1 h).2 (by omega) (by
          rcases hs with hs | hs
          · exact .inl (by omega)
          · exact .inr (by rwa [show p + 1 + n = p + (n + 1) by omega]))
        simp only [greedyUpTo, h1, List.flatMap_cons, List.flatMap_nil, List.append_nil, List.head?_append, this, Option.some_or]
        congr 1; omega
    · cases n with
      | zero => simp [greedyUpTo, h1]
      | succ n => exact absurd (allAt_succ.1 h).1 h2

abbrev digitClass : Ast := .range (ch '0') (ch '9')

/-- A number before a slash: the attempts after it begin behind the slash. -/
theorem head_number {k lo hi : Nat} {nm : GroupName} {L : List Ast} {p n : Nat} (hw : lo ≤ hi) (h : AllAt s (accepts {} digitClass) p n) (h1 : lo ≤ n) (h2 : n ≤ hi)
    (hs : s[p + n]? = some (ch '/')) :
    (endsAll {} s (.cap k nm (.rep .greedy lo (.fin hi) digitClass) :: .lit (ch '/') :: L) true false p).head? = (endsAll {} s L true false (p + n + 1)).head? := by
  have hc : character digitClass = true := rfl
  have hp : p ≤ s.length := by
    have := (List.getElem?_eq_some_iff.1 hs).1
    omega
  have hno : accepts {} digitClass (ch '/') = false := by decide
  have hstop : ¬CharAt s (p + n) (fun x => accepts {} digitClass x = true) := by
    rintro ⟨x, hx, hx'⟩
    rw [hs] at hx
    cases hx
    rw [hno] at hx'
    cases hx'
  have hmem : p + n ∈ ends {} s (.rep .greedy lo (.fin hi) digitClass) true false p := by
    rw [mem_run (by simp [wf, hw]) hc hp hstop]
    refine ⟨by omega, by omega, ?_, ?_⟩
    · show p + n - p ≤ hi
      omega
    · exact (allAt_chars (by omega)).1 (by rwa [show p + n - p = n by omega])
  have hlit : ∀ q, ends {} s (.lit (ch '/')) true false q = if s[q]? = some (ch '/') then [q + 1] else [] := fun q => by
    rcases char_cases s (accepts {} (.lit (ch '/'))) q with ⟨h3, x, h4, h5⟩ | ⟨h3, h4⟩
    · have : ch '/' = x := by simpa [accepts] using h5
      subst this
      simp only [ends, h3, h4, if_true]
    · simp only [ends, h3]
      rw [if_neg]
      exact fun h5 => h4 ⟨_, h5, by decide⟩
  simp only [endsAll, Bool.false_eq_true, if_false]
  rw [show ends {} s (.cap k nm (.rep .greedy lo (.fin hi) digitClass)) true false p = ends {} s (.rep .greedy lo (.fin hi) digitClass) true false p by rw [ends],
    head_flatMap_single hmem, hlit, if_pos hs, List.flatMap_cons, List.flatMap_nil, List.append_nil]
  intro y hy hne
  obtain ⟨h3, h4⟩ := sub_run hc hy
  rw [hlit, if_neg, List.flatMap_nil]
  intro h5
  by_cases hlt : y < p + n
  · have h' : AllAt s (accepts {} digitClass) p (p + n - p) := by rwa [show p + n - p = n by omega]
    obtain ⟨x, hx, hx'⟩ := (allAt_chars (by omega)).1 h' y (by omega) hlt
    rw [h5] at hx
    cases hx
    rw [hno] at hx'
    cases hx'
  · exact hstop (h4 (p + n) (by omega) (by omega))

/-- A number at the end: as many digits as there are. -/
theorem head_last {k lo hi : Nat} {nm : GroupName} {p n : Nat} (h : AllAt s (accepts {} digitClass) p n) (h1 : lo ≤ n) (h2 : n ≤ hi)
    (hs : n = hi ∨ Halts s (accepts {} digitClass) (p + n)) :
    (endsAll {} s [.cap k nm (.rep .greedy lo (.fin hi) digitClass)] true false p).head? = some (p + n) := by
  have hg : ∀ t, FEq (ends {} s digitClass true false t) (oneChar s true (accepts {} digitClass) t) := fun t => by
    rw [ends]; exact FEq.refl _
  simp only [endsAll, Bool.false_eq_true, if_false, List.flatMap_singleton']
  rw [ends, ends, (quantified_feq hg _ _ _ _ _ _).head?]
  obtain ⟨h3, h4⟩ := (allAt_add (n := lo) (m := n - lo)).1 (by rwa [show lo + (n - lo) = n by omega])
  have hx : exactly (oneChar s true (accepts {} digitClass)) lo p = [p + lo] := by
    clear h h1 h2 hs h4
    induction lo generalizing p with
    | zero => rfl
    | succ lo ih =>
      obtain ⟨h5, h6⟩ := allAt_succ.1 h3
      rcases char_cases s (accepts {} digitClass) p with ⟨h7, _⟩ | ⟨_, h7⟩
      · simp only [exactly, h7, List.flatMap_cons, List.flatMap_nil, List.append_nil]
        rw [ih h6]
        congr 1; omega
      · exact absurd h5 h7
  simp only [quantified, hx, List.flatMap_cons, List.flatMap_nil, List.append_nil, extra]
  rw [head_upTo h4 (by omega) (by
    rcases hs with hs | hs
    · exact .inl (by omega)
    · exact .inr (by rwa [show p + lo + (n - lo) = p + n by omega]))]
  congr 1; omega

theorem allAt_digits {a v b : List Byte} (h : ∀ x ∈ v, Digit x) : AllAt (a ++ (v ++ b)) (accepts {} digitClass) a.length v.length := by
  intro i hi
  refine ⟨v[i], ?_, (accepts_digit _).2 (h _ (List.getElem_mem hi))⟩
  rw [List.getElem?_append_right (by omega), Nat.add_sub_cancel_left, List.getElem?_append_left hi, List.getElem?_eq_getElem hi]

end

theorem head_date {u d m y v : List Byte} (hd : DigitsOf 1 2 d) (hm : DigitsOf 1 2 m) (hy : DigitsOf 2 4 y) (hv : y.length = 4 ∨ ∀ x, v.head? = some x → ¬Digit x) :
    (ends {} (u ++ (dateText d m y ++ v)) (template dateFields []) true false u.length).head? = some (u.length + (dateText d m y).length) := by
  show (ends {} (u ++ (dateText d m y ++ v)) (.seq [.cap 1 none (.rep .greedy 1 (.fin 2) digitClass), .lit (ch '/'), .cap 2 none (.rep .greedy 1 (.fin 2) digitClass),
    .lit (ch '/'), .cap 3 none (.rep .greedy 2 (.fin 4) digitClass)]) true false u.length).head? = _
  have e1 : u ++ (dateText d m y ++ v) = u ++ (d ++ (ch '/' :: (m ++ ch '/' :: (y ++ v)))) := by simp [dateText]
  have e2 : u ++ (dateText d m y ++ v) = (u ++ (d ++ [ch '/'])) ++ (m ++ (ch '/' :: (y ++ v))) := by simp [dateText]
  have e3 : u ++ (dateText d m y ++ v) = (u ++ (d ++ ch '/' :: (m ++ [ch '/']))) ++ (y ++ v) := by simp [dateText]
  have a1 := allAt_digits (a := u) (b := ch '/' :: (m ++ ch '/' :: (y ++ v))) hd.1
  have a2 := allAt_digits (a := u ++ (d ++ [ch '/'])) (b := ch '/' :: (y ++ v)) hm.1
  have a3 := allAt_digits (a := u ++ (d ++ ch '/' :: (m ++ [ch '/']))) (b := v) hy.1
  rw [← e1] at a1
  rw [← e2] at a2
  rw [← e3] at a3
  have l2 : (u ++ (d ++ [ch '/'])).length = u.length + d.length + 1 := by simp; omega
  have l3 : (u ++ (d ++ ch '/' :: (m ++ [ch '/']))).length = u.length + d.length + 1 + m.length + 1 := by simp; omega
  rw [l2] at a2
  rw [l3] at a3
  have g1 : (u ++ (dateText d m y ++ v))[u.length + d.length]? = some (ch '/') := by
    rw [e1, ← List.append_assoc, List.getElem?_append_right (by simp)]; simp
  have g2 : (u ++ (dateText d m y ++ v))[u.length + d.length + 1 + m.length]? = some (ch '/') := by
    rw [e2, ← List.append_assoc, List.getElem?_append_right (by simp; omega)]
    rw [show u.length + d.length + 1 + m.length - ((u ++ (d ++ [ch '/'])) ++ m).length = 0 by simp; omega]
    rfl
  rw [ends, head_number (by decide) a1 hd.2.1 hd.2.2 g1, head_number (by decide) a2 hm.2.1 hm.2.2 g2, head_last a3 hy.2.1 hy.2.2]
  · simp [dateText]; omega
  · refine hv.imp id fun hv => ?_
    rintro ⟨x, hx, hx'⟩
    rw [e3, List.getElem?_append_right (by rw [l3]; omega), l3, Nat.add_sub_cancel_left, List.getElem?_append_right (Nat.le_refl _), Nat.sub_self, ← List.head?_eq_getElem?] at hx
    exact hv x hx ((accepts_digit x).1 hx')

end Mregex
