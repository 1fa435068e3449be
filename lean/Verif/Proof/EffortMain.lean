import Verif.Proof.Effort

/-!
# Bounds for every node
-/

namespace Mregex
open Ast

/-- The rounds that have to be run: their calls stay active. -/
def kept (lo : Nat) : Bound → Nat
  | .fin h => h
  | .inf => lo

/-- The optional rounds, for `n` characters. -/
def spare (n lo : Nat) : Bound → Nat
  | .fin h => h - lo
  | .inf => n + 1

mutual
/-- Calls kept active when the node continues. -/
def holding : Ast → Nat
  | .seq l => heldAll l + 1
  | .alt l => heldAll l + 1
  | .cap _ _ a => holding a + 1
  | .rep _ lo hi a => kept lo hi * holding a + 1
  | _ => 1
def heldAll : List Ast → Nat
  | [] => 0
  | a :: l => holding a + heldAll l
end

mutual
/-- Calls kept active for every character passed. -/
def climb (cat : Cat) : Ast → Nat
  | .seq l => climbAll cat l
  | .alt l => climbAll cat l
  | .cap _ _ a => climb cat a
  | .rep m _ hi a => climb cat a + descent cat m (hi == .inf) a (holding a)
  | _ => 0
def climbAll (cat : Cat) : List Ast → Nat
  | [] => 0
  | a :: l => climb cat a + climbAll cat l
end

mutual
/-- Calls active at a time. -/
def high (cat : Cat) (n : Nat) : Ast → Nat
  | .seq l => highAll cat n l + 1
  | .alt l => highAll cat n l + 1
  | .cap _ _ a => high cat n a + 1
  | .rep _ lo hi a => kept lo hi * holding a + high cat n a + 1
  | .neg a => high cat n a + climb cat a * n + 1
  | .look _ a => high cat n a + climb cat a * n + 1
  | _ => 1
def highAll (cat : Cat) (n : Nat) : List Ast → Nat
  | [] => 0
  | a :: l => holding a + high cat n a + highAll cat n l
end

mutual
/-- Calls of the continuation. -/
def attempts (n : Nat) : Ast → Nat
  | .seq l => triesMul n l
  | .alt l => if areTriv l then 1 else triesSum n l
  | .cap _ _ a => attempts n a
  | .rep m lo hi a => if m = .possessive then 1 else attempts n a ^ lo * rounds (attempts n a) (spare n lo hi)
  | _ => 1
def triesMul (n : Nat) : List Ast → Nat
  | [] => 1
  | a :: l => attempts n a * triesMul n l
def triesSum (n : Nat) : List Ast → Nat
  | [] => 0
  | a :: l => attempts n a + triesSum n l
end

mutual
/-- Calls made; `rev`: with the parts of sequences in reverse order. -/
def effort (n : Nat) (rev : Bool) : Ast → Nat
  | .seq l => (if rev then effortBack n rev l else effortParts n rev l) + 1
  | .alt l => effortAll n rev l + 1
  | .cap _ _ a => effort n rev a + 1
  | .rep m lo hi a =>
    toil (attempts n a) (effort n rev a) lo + attempts n a ^ lo * toil (if m = .possessive then 1 else attempts n a) (effort n rev a) (spare n lo hi) + 1
  | .neg a => effort n rev a + 1
  | .look .ahead a => effort n rev a + 1
  | .look .behind a => effort n (!rev) a + 1
  | _ => 1
def effortAll (n : Nat) (rev : Bool) : List Ast → Nat
  | [] => 0
  | a :: l => effort n rev a + effortAll n rev l
def effortParts (n : Nat) (rev : Bool) : List Ast → Nat
  | [] => 0
  | a :: l => effort n rev a + attempts n a * effortParts n rev l
def effortBack (n : Nat) (rev : Bool) : List Ast → Nat
  | [] => 0
  | a :: l => effortBack n rev l + triesMul n l * effort n rev a
end

theorem heldAll_eq (l : List Ast) : heldAll l = (l.map holding).sum := by
  induction l with
  | nil => rfl
  | cons a l ih => simp [heldAll, ih]

theorem climbAll_eq (cat : Cat) (l : List Ast) : climbAll cat l = (l.map (climb cat)).sum := by
  induction l with
  | nil => rfl
  | cons a l ih => simp [climbAll, ih]

theorem highAll_eq (cat : Cat) (n : Nat) (l : List Ast) :
    highAll cat n l = (l.map (fun a => holding a + high cat n a)).sum := by
  induction l with
  | nil => rfl
  | cons a l ih => simp [highAll, ih]

theorem triesSum_eq (n : Nat) (l : List Ast) : triesSum n l = (l.map (attempts n)).sum := by
  induction l with
  | nil => rfl
  | cons a l ih => simp [triesSum, ih]

theorem effortAll_eq (n : Nat) (rev : Bool) (l : List Ast) : effortAll n rev l = (l.map (effort n rev)).sum := by
  induction l with
  | nil => rfl
  | cons a l ih => simp [effortAll, ih]

theorem triesMul_append (n : Nat) (l l' : List Ast) : triesMul n (l ++ l') = triesMul n l * triesMul n l' := by
  induction l with
  | nil => simp [triesMul]
  | cons a l ih => simp [triesMul, ih, Nat.mul_assoc]

theorem triesMul_reverse (n : Nat) (l : List Ast) : triesMul n l.reverse = triesMul n l := by
  induction l with
  | nil => rfl
  | cons a l ih => simp [triesMul_append, triesMul, ih, Nat.mul_comm]

theorem map_congr'' {α β : Type} {l : List α} {f g : α → β} (h : ∀ a ∈ l, f a = g a) : l.map f = l.map g := by
  induction l with
  | nil => rfl
  | cons a l ih => rw [List.map_cons, List.map_cons, h a (by simp), ih (fun b hb => h b (by simp [hb]))]

theorem sum_reverse' (l : List Nat) : l.reverse.sum = l.sum := by
  induction l with
  | nil => rfl
  | cons a l ih => simp [ih]; omega

theorem sum_invert {l : List Ast} {f : Ast → Nat} (ih : ∀ a ∈ l, f (invert a) = f a) :
    ((invertAll l).map f).sum = (l.map f).sum := by
  rw [invertAll_eq, List.map_map]
  congr 1
  exact map_congr'' ih

theorem holding_invert (a : Ast) : holding (invert a) = holding a := by
  induction a using ind with
  | seq l ih => simp only [invert, holding, heldAll_eq, List.map_reverse, sum_reverse', sum_invert ih]
  | alt l ih => simp only [invert, holding, heldAll_eq, sum_invert ih]
  | look d a ih => cases d <;> simp [invert, holding]
  | neg a ih => simp [invert, holding]
  | rep m lo hi a ih => simp [invert, holding, ih]
  | cap id n a ih => simp [invert, holding, ih]
  | _ => simp [invert, holding]

theorem descent_invert (cat : Cat) (m : Mode) (inf : Bool) (a : Ast) (A : Nat) :
    descent cat m inf (invert a) A = descent cat m inf a A := by
  simp [descent, triv_invert]

theorem climb_invert (cat : Cat) (a : Ast) : climb cat (invert a) = climb cat a := by
  induction a using ind with
  | seq l ih => simp only [invert, climb, climbAll_eq, List.map_reverse, sum_reverse', sum_invert ih]
  | alt l ih => simp only [invert, climb, climbAll_eq, sum_invert ih]
  | look d a ih => cases d <;> simp [invert, climb]
  | neg a ih => simp [invert, climb]
  | rep m lo hi a ih => simp [invert, climb, ih, holding_invert, descent_invert]
  | cap id n a ih => simp [invert, climb, ih]
  | _ => simp [invert, climb]

theorem high_invert (cat : Cat) (n : Nat) (a : Ast) : high cat n (invert a) = high cat n a := by
  induction a using ind with
  | seq l ih =>
    simp only [invert, high, highAll_eq, List.map_reverse, sum_reverse']
    rw [sum_invert (f := fun a => holding a + high cat n a) (fun a ha => by rw [ih a ha, holding_invert])]
  | alt l ih =>
    simp only [invert, high, highAll_eq]
    rw [sum_invert (f := fun a => holding a + high cat n a) (fun a ha => by rw [ih a ha, holding_invert])]
  | look d a ih => cases d <;> simp [invert, high]
  | neg a ih => simp [invert, high, ih, climb_invert]
  | rep m lo hi a ih => simp [invert, high, ih, holding_invert]
  | cap id n a ih => simp [invert, high, ih]
  | _ => simp [invert, high]

theorem triesMul_invert {n : Nat} {l : List Ast} (ih : ∀ a ∈ l, attempts n (invert a) = attempts n a) :
    triesMul n (invertAll l) = triesMul n l := by
  induction l with
  | nil => rfl
  | cons a l ih' => simp only [invertAll, triesMul]; rw [ih a (by simp), ih' (fun b hb => ih b (by simp [hb]))]

theorem areTriv_invert (l : List Ast) : areTriv (invertAll l) = areTriv l := by
  simp only [areTriv, invertAll_eq, List.all_map]
  exact all_congr' (fun a _ => triv_invert a)

theorem attempts_invert (n : Nat) (a : Ast) : attempts n (invert a) = attempts n a := by
  induction a using ind with
  | seq l ih => simp only [invert, attempts, triesMul_reverse, triesMul_invert ih]
  | alt l ih => simp only [invert, attempts, triesSum_eq, sum_invert ih, areTriv_invert]
  | look d a ih => cases d <;> simp [invert, attempts]
  | neg a ih => simp [invert, attempts]
  | rep m lo hi a ih => simp [invert, attempts, ih]
  | cap id n a ih => simp [invert, attempts, ih]
  | _ => simp [invert, attempts]

theorem effortParts_append (n : Nat) (rev : Bool) (l l' : List Ast) :
    effortParts n rev (l ++ l') = effortParts n rev l + triesMul n l * effortParts n rev l' := by
  induction l with
  | nil => simp [effortParts, triesMul]
  | cons a l ih => simp only [List.cons_append, effortParts, triesMul, ih, Nat.mul_add, Nat.mul_assoc, Nat.add_assoc]

theorem effortParts_reverse (n : Nat) (rev : Bool) (l : List Ast) : effortParts n rev l.reverse = effortBack n rev l := by
  induction l with
  | nil => rfl
  | cons a l ih => simp [effortParts_append, effortParts, effortBack, ih, triesMul_reverse]

theorem effortBack_reverse (n : Nat) (rev : Bool) (l : List Ast) : effortBack n rev l.reverse = effortParts n rev l := by
  rw [← effortParts_reverse, List.reverse_reverse]

theorem effortParts_invert {n : Nat} {rev : Bool} {l : List Ast} (ih : ∀ a ∈ l, effort n rev (invert a) = effort n (!rev) a) :
    effortParts n rev (invertAll l) = effortParts n (!rev) l := by
  induction l with
  | nil => rfl
  | cons a l ih' => simp only [invertAll, effortParts, attempts_invert, ih a (by simp), ih' (fun b hb => ih b (by simp [hb]))]

theorem effortBack_invert {n : Nat} {rev : Bool} {l : List Ast} (ih : ∀ a ∈ l, effort n rev (invert a) = effort n (!rev) a) :
    effortBack n rev (invertAll l) = effortBack n (!rev) l := by
  induction l with
  | nil => rfl
  | cons a l ih' =>
    simp only [invertAll, effortBack, triesMul_invert (fun a _ => attempts_invert n a), ih a (by simp), ih' (fun b hb => ih b (by simp [hb]))]

theorem effortAll_invert {n : Nat} {rev : Bool} {l : List Ast} (ih : ∀ a ∈ l, effort n rev (invert a) = effort n (!rev) a) :
    effortAll n rev (invertAll l) = effortAll n (!rev) l := by
  induction l with
  | nil => rfl
  | cons a l ih' => simp only [invertAll, effortAll, ih a (by simp), ih' (fun b hb => ih b (by simp [hb]))]

theorem effort_invert (n : Nat) (rev : Bool) (a : Ast) : effort n rev (invert a) = effort n (!rev) a := by
  induction a using ind with
  | seq l ih =>
    simp only [invert, effort, effortParts_reverse, effortBack_reverse, effortParts_invert ih, effortBack_invert ih]
    cases rev <;> rfl
  | alt l ih => simp only [invert, effort, effortAll_invert ih]
  | look d a ih => cases d <;> simp [invert, effort]
  | neg a ih => simp [invert, effort, ih]
  | rep m lo hi a ih => simp [invert, effort, ih, attempts_invert]
  | cap id n a ih => simp [invert, effort, ih]
  | _ => simp [invert, effort]

theorem rounds_pos (T k : Nat) : 1 ≤ rounds T k := by cases k <;> simp [rounds]

theorem attempts_pos_all {n : Nat} {l : List Ast} (ih : ∀ a ∈ l, 1 ≤ attempts n a) : 1 ≤ triesMul n l := by
  induction l with
  | nil => simp [triesMul]
  | cons a l ih' =>
    simp only [triesMul]
    exact Nat.mul_le_mul (ih a (by simp)) (ih' (fun b hb => ih b (by simp [hb])))

theorem attempts_pos (n : Nat) (a : Ast) : 1 ≤ attempts n a := by
  induction a using ind with
  | seq l ih => simp only [attempts]; exact attempts_pos_all ih
  | alt l ih =>
    simp only [attempts]
    split
    · exact Nat.le_refl _
    · match l with
      | [] => next h => exact absurd rfl h
      | a :: l => simp only [triesSum]; have := ih a (by simp); omega
  | cap id n a ih => simpa only [attempts] using ih
  | rep m lo hi a ih =>
    simp only [attempts]
    split
    · exact Nat.le_refl _
    · exact Nat.mul_le_mul (Nat.one_le_pow _ _ ih) (rounds_pos _ _)
  | _ => simp [attempts]

theorem attempts_triv (n : Nat) {a : Ast} (h : triv a = true) : attempts n a = 1 := by
  induction a using ind with
  | seq l ih =>
    match l with
    | [] => simp [triv, trivSingle] at h
    | [a] => simp only [attempts, triesMul]; rw [ih a (by simp) (by simpa [triv, trivSingle] using h)]
    | _ :: _ :: _ => simp [triv, trivSingle] at h
  | alt l ih =>
    simp only [triv, trivAlt_eq, Bool.and_eq_true] at h
    simp only [attempts]
    rw [if_pos (by simpa [areTriv] using h.2)]
  | cap id n a ih => simp [triv] at h
  | rep m lo hi a ih =>
    simp only [triv, Bool.and_eq_true, beq_iff_eq] at h
    obtain ⟨⟨rfl, rfl⟩, h⟩ := h
    simp [attempts, ih h, spare, rounds]
  | _ => simp [attempts]

section
variable {E : Env} {N : Nat}

theorem cost_repMatch {B r A H T W : Nat} {m : Matcher} {adv : Bool} (h : Cost E N B r m adv A H T W) (hT : 1 ≤ T) (a : Ast)
    (hta : triv a = true → T = 1) (hadv : zlm a = false → adv = true) (k : Nat) (mode : Mode) (lo : Nat) (hi : Bound)
    (hb : ∀ j, hi = .fin j → lo ≤ j) :
    Cost E N (B + descent E.cat mode (hi == .inf) a A) r (repMatch E r k mode lo hi a m) (adv && lo != 0) (kept lo hi * A)
      (kept lo hi * A + H) (if mode = .possessive then 1 else T ^ lo * rounds T (spare E.inp.length lo hi))
      (toil T W lo + T ^ lo * toil (if mode = .possessive then 1 else T) W (spare E.inp.length lo hi)) := by
  have hf := (cost_fixedMatch h hT a hta mode lo).lift (B' := B + descent E.cat mode (hi == .inf) a A) (by omega)
  have hpow := Nat.one_le_pow lo T hT
  have hr := rounds_pos T (spare E.inp.length lo hi)
  have htimes : reruns mode T lo ≤ T ^ lo := by
    unfold reruns
    split
    · exact hpow
    · exact Nat.le_refl _
  have hle : reruns mode T lo ≤ if mode = .possessive then 1 else T ^ lo * rounds T (spare E.inp.length lo hi) := by
    unfold reruns
    split
    · exact Nat.le_refl _
    · exact Nat.le_mul_of_pos_right _ (by omega)
  have hzero : ∀ {x y z : Nat}, x ≤ z → x ≤ y + T ^ lo * z := by
    intro x y z hx
    have := Nat.mul_le_mul hpow (Nat.le_refl z)
    omega
  unfold repMatch
  split
  · next j =>
    have hj := hb j rfl
    split
    · next he => subst he; exact hf.mono (fun h => h) (by simp [kept]) (by simp [kept]) hle (by omega)
    · split
      · exact cost_ub
      · next hne hlt =>
        have hbb := cost_betweenBounds h hT a mode false (j - lo) (j - lo) hadv (fun _ => Nat.le_refl _) (by simp)
        split
        · next h0 =>
          subst h0
          simp only [Nat.sub_zero] at hbb
          refine hbb.mono (by simp) (by simp [kept]) (by simp [kept]) ?_ ?_
          · simp [spare]
          · simp [spare, toil]
        · next h0 =>
          have hsum : lo * A + (j - lo) * A = j * A := by rw [← Nat.add_mul]; congr 1; omega
          refine (hf.comp hbb).mono (by simp) ?_ ?_ ?_ ?_
          · simp [kept, hsum]
          · simp only [kept, Bool.false_eq_true, if_false]
            have : lo * A ≤ j * A := Nat.mul_le_mul_right _ hj
            omega
          · simp only [reruns, spare]
            split <;> simp
          · simp only [spare]
            exact Nat.add_le_add_left (Nat.mul_le_mul_right _ htimes) _
  · have hbb := cost_betweenBounds h hT a mode true k (E.inp.length + 1) hadv (by simp) (fun _ => by omega)
    split
    · next h0 =>
      subst h0
      refine hbb.mono (by simp) (by simp) (by simp [kept]) ?_ ?_
      · simp [spare]
      · simp [spare, toil]
    · next h0 =>
      refine (hf.comp hbb).mono (by simp) ?_ ?_ ?_ ?_
      · simp [kept]
      · simp [kept]
      · simp only [reruns, spare]
        split <;> simp
      · simp only [spare]
        exact Nat.add_le_add_left (Nat.mul_le_mul_right _ htimes) _

theorem cost_seqMatch {r : Nat} {m : Ast → Matcher} {l : List Ast} (hne : l ≠ [])
    (h : ∀ a ∈ l, Cost E N (climb E.cat a) r (m a) (!zlm a) (holding a) (high E.cat E.inp.length a) (attempts E.inp.length a) (effort E.inp.length false a)) :
    Cost E N (climbAll E.cat l) r (seqMatch E r m l) (!zlmAll l) (heldAll l) (highAll E.cat E.inp.length l) (triesMul E.inp.length l)
      (effortParts E.inp.length false l) := by
  match l with
  | [] => exact absurd rfl hne
  | a :: l =>
    induction l generalizing a with
    | nil =>
      refine ((h a (by simp)).lift (by simp [climbAll])).mono ?_ ?_ ?_ ?_ ?_
      · simp [zlmAll]
      · simp [heldAll]
      · simp [highAll]
      · simp [triesMul]
      · simp [effortParts]
    | cons b l ih =>
      have hpos := attempts_pos_all (n := E.inp.length) (l := a :: b :: l) (fun x _ => attempts_pos _ x)
      unfold seqMatch
      split
      · exact (cost_seqTriv _ (by simp)).mono (fun _ => rfl) (by omega) (by omega) hpos (by omega)
      · have h1 := (h a (by simp)).lift (B' := climbAll E.cat (a :: b :: l)) (by simp only [climbAll]; omega)
        have h2 := (ih b (by simp) (fun x hx => h x (List.mem_cons_of_mem _ hx))).lift (B' := climbAll E.cat (a :: b :: l))
          (by simp only [climbAll]; omega)
        refine (h1.comp h2).mono ?_ ?_ ?_ ?_ ?_
        · simp only [zlmAll, Bool.not_and]
          exact fun h => h
        · simp only [heldAll]; omega
        · simp only [highAll]; omega
        · rw [show triesMul E.inp.length (a :: b :: l) = attempts E.inp.length a * triesMul E.inp.length (b :: l) from rfl]
          exact Nat.le_refl _
        · simp only [effortParts]; exact Nat.le_refl _

theorem cost_altMatch {r : Nat} {m : Ast → Matcher} {l : List Ast} (hne : l ≠ [])
    (h : ∀ a ∈ l, Cost E N (climb E.cat a) r (m a) (!zlm a) (holding a) (high E.cat E.inp.length a) (attempts E.inp.length a) (effort E.inp.length false a)) :
    Cost E N (climbAll E.cat l) r (altMatch E r m l) (!zlmAny l) (heldAll l) (highAll E.cat E.inp.length l)
      (if areTriv l then 1 else triesSum E.inp.length l) (effortAll E.inp.length false l) := by
  by_cases hl : areTriv l = true
  · rw [if_pos hl]
    match l with
    | [] => exact absurd rfl hne
    | [a] =>
      have ht : triv a = true := by simpa [areTriv] using hl
      refine ((h a (by simp)).lift (by simp [climbAll])).mono ?_ ?_ ?_ ?_ ?_
      · simp [zlmAny]
      · simp [heldAll]
      · simp [highAll]
      · rw [attempts_triv _ ht]; exact Nat.le_refl _
      · simp [effortAll]
    | a :: b :: l =>
      unfold altMatch
      rw [if_pos hl]
      exact (cost_triv _).mono (fun _ => rfl) (by omega) (by omega) (by omega) (by omega)
  · rw [if_neg hl]
    clear hl
    match l with
    | [] => exact absurd rfl hne
    | a :: l =>
      induction l generalizing a with
      | nil =>
        refine ((h a (by simp)).lift (by simp [climbAll])).mono ?_ ?_ ?_ ?_ ?_
        · simp [zlmAny]
        · simp [heldAll]
        · simp [highAll]
        · simp [triesSum]
        · simp [effortAll]
      | cons b l ih =>
        unfold altMatch
        split
        · refine (cost_triv _).mono (fun _ => rfl) (by omega) (by omega) ?_ (by omega)
          have := attempts_pos E.inp.length a
          simp only [triesSum]
          omega
        · have h1 := (h a (by simp)).lift (B' := climbAll E.cat (a :: b :: l)) (by simp only [climbAll]; omega)
          have h2 := (ih b (by simp) (fun x hx => h x (List.mem_cons_of_mem _ hx))).lift (B' := climbAll E.cat (a :: b :: l))
            (by simp only [climbAll]; omega)
          refine (h1.orElse h2).mono ?_ ?_ ?_ ?_ ?_
          · rw [show zlmAny (a :: b :: l) = (zlm a || zlmAny (b :: l)) from rfl, Bool.not_or]
            exact fun h => h
          · rw [show heldAll (a :: b :: l) = holding a + heldAll (b :: l) from rfl]
            omega
          · rw [show highAll E.cat E.inp.length (a :: b :: l) =
              holding a + high E.cat E.inp.length a + highAll E.cat E.inp.length (b :: l) from rfl]
            omega
          · exact Nat.le_refl _
          · exact Nat.le_refl _

/-- The rule for every node: `X` is the node without the call itself. -/
theorem cost_call {B r : Nat} {m : Matcher} {adv : Bool} {A H T W : Nat} (h : Cost E N B r m adv A H T W) (b : Bool) :
    Cost E N B r (if b then m else counted N m) adv (A + 1) (H + 1) T (W + 1) := by
  split
  · exact h.mono (fun h => h) (by omega) (by omega) (Nat.le_refl _) (by omega)
  · exact h.counted

theorem mtchM_cost (hN : N = E.names.length) : ∀ fuel a r, Ok E r a →
    Cost E N (climb E.cat a) r (mtchM E fuel a r) (!zlm a) (holding a) (high E.cat E.inp.length a) (attempts E.inp.length a)
      (effort E.inp.length false a) := by
  subst hN
  intro fuel
  induction fuel with
  | zero => intro a r _; exact cost_diverge
  | succ k ih =>
    intro a r hok
    unfold mtchM
    have leaf : ∀ {m : Matcher} {adv : Bool}, Cost E E.names.length (climb E.cat a) r m adv 0 0 1 0 → (zlm a = false → adv = true) →
        holding a = 1 → 1 ≤ high E.cat E.inp.length a → attempts E.inp.length a = 1 → 1 ≤ effort E.inp.length false a →
        Cost E E.names.length (climb E.cat a) r (if inherits a then m else counted E.names.length m) (!zlm a) (holding a)
          (high E.cat E.inp.length a) (attempts E.inp.length a) (effort E.inp.length false a) := by
      intro m adv h hz h1 h2 h3 h4
      exact (cost_call h (inherits a)).mono (fun h => hz (by simpa using h)) (by omega) (by omega) (by omega) (by omega)
    cases hok with
    | empty => exact leaf cost_id (by simp [zlm]) rfl (Nat.le_refl _) rfl (Nat.le_refl _)
    | lit => exact leaf (cost_triv _) (fun _ => rfl) rfl (Nat.le_refl _) rfl (Nat.le_refl _)
    | range => exact leaf (cost_triv _) (fun _ => rfl) rfl (Nat.le_refl _) rfl (Nat.le_refl _)
    | wildcard => exact leaf (cost_triv _) (fun _ => rfl) rfl (Nat.le_refl _) rfl (Nat.le_refl _)
    | set => exact leaf (cost_triv _) (fun _ => rfl) rfl (Nat.le_refl _) rfl (Nat.le_refl _)
    | @neg _ b hb hok =>
      by_cases ha : isAssertion b = true
      · have : nodeMatch E k (mtchM E k) (.neg b) r = negAssertMatch (mtchM E k b r) := by simp [nodeMatch, ha]
        rw [this]
        refine (cost_call ((ih b r hok).negAssert _) _).mono ?_ ?_ ?_ ?_ ?_
        · simp [zlm, ha]
        · simp [holding]
        · simp [high]
        · simp [attempts]
        · simp [effort]
      · have : nodeMatch E k (mtchM E k) (.neg b) r = trivMatch E r (.neg b) := by simp [nodeMatch, ha]
        rw [this]
        exact leaf (cost_triv _) (fun _ => rfl) rfl (by simp [high]) rfl (by simp [effort])
    | @seq _ l hne hl =>
      refine (cost_call (cost_seqMatch hne (fun b hb => ih b r (hl b hb))) _).mono ?_ ?_ ?_ ?_ ?_
      · simp [zlm]
      · simp [holding]
      · simp [high]
      · simp [attempts]
      · simp [effort]
    | @alt _ l hne hl =>
      refine (cost_call (cost_altMatch hne (fun b hb => ih b r (hl b hb))) _).mono ?_ ?_ ?_ ?_ ?_
      · simp [zlm]
      · simp [holding]
      · simp [high]
      · simp [attempts]
      · simp [effort]
    | @cap _ id name b hn hr hok =>
      refine (cost_call (cost_cap (ih b r hok) (List.getElem?_eq_some_iff.1 hn).1) _).mono ?_ ?_ ?_ ?_ ?_
      · simp [zlm]
      · simp [holding]
      · simp [high]
      · simp [attempts]
      · simp [effort]
    | @repFin _ m lo hi b hlo hok =>
      refine (cost_call (cost_repMatch (ih b r hok) (attempts_pos _ _) b (attempts_triv _) (by simp) k m lo (.fin hi)
        (fun j e => by cases e; exact hlo)) _).mono ?_ ?_ ?_ ?_ ?_
      · simp [zlm]; intro h1 h2; exact ⟨h2, h1⟩
      · simp [holding]
      · simp [high]
      · simp [attempts]
      · simp [effort]
    | @repInf _ m lo b hok =>
      refine (cost_call (cost_repMatch (ih b r hok) (attempts_pos _ _) b (attempts_triv _) (by simp) k m lo .inf
        (fun j e => by cases e)) _).mono ?_ ?_ ?_ ?_ ?_
      · simp [zlm]; intro h1 h2; exact ⟨h2, h1⟩
      · simp [holding]
      · simp [high]
      · simp [attempts]
      · simp [effort]
    | @ahead _ b hok =>
      by_cases ha : triv b = true
      · have : nodeMatch E k (mtchM E k) (.look .ahead b) r = assertMatch (lookaheadTrivPred E r b) := by simp [nodeMatch, ha]
        rw [this]
        exact leaf (cost_assert _) (by simp [zlm]) rfl (by simp [high]) rfl (by simp [effort])
      · have : nodeMatch E k (mtchM E k) (.look .ahead b) r = lookMatch (mtchM E k b r) := by simp [nodeMatch, ha]
        rw [this]
        refine (cost_call ((ih b r hok).look _) _).mono ?_ ?_ ?_ ?_ ?_
        · simp [zlm]
        · simp [holding]
        · simp [high]
        · simp [attempts]
        · simp [effort]
    | @behindTriv _ b hcat ht hok =>
      have : nodeMatch E k (mtchM E k) (.look .behind b) r = assertMatch (lookbehindTrivPred E r b) := by simp [nodeMatch, ht]
      rw [this]
      exact leaf (cost_assert _) (by simp [zlm]) rfl (by simp [high]) rfl (by simp [effort])
    | @behind _ b hcat hok =>
      by_cases ha : triv b = true
      · have : nodeMatch E k (mtchM E k) (.look .behind b) r = assertMatch (lookbehindTrivPred E r b) := by simp [nodeMatch, ha]
        rw [this]
        exact leaf (cost_assert _) (by simp [zlm]) rfl (by simp [high]) rfl (by simp [effort])
      · have : nodeMatch E k (mtchM E k) (.look .behind b) r = lookMatch (mtchM E k (invert b) (r + 1)) := by
          simp [nodeMatch, ha, hcat]
        rw [this]
        refine (cost_call ((ih (invert b) (r + 1) hok).look _) _).mono ?_ ?_ ?_ ?_ ?_
        · simp [zlm]
        · simp [holding]
        · simp [high, high_invert, climb_invert]
        · simp [attempts]
        · simp [effort, effort_invert]
    | bol h => exact leaf (cost_assert _) (by simp [zlm]) rfl (Nat.le_refl _) rfl (Nat.le_refl _)
    | boi => exact leaf (cost_assert _) (by simp [zlm]) rfl (Nat.le_refl _) rfl (Nat.le_refl _)
    | eol => exact leaf (cost_assert _) (by simp [zlm]) rfl (Nat.le_refl _) rfl (Nat.le_refl _)
    | eoi => exact leaf (cost_assert _) (by simp [zlm]) rfl (Nat.le_refl _) rfl (Nat.le_refl _)
    | wordB h => exact leaf (cost_assert _) (by simp [zlm]) rfl (Nat.le_refl _) rfl (Nat.le_refl _)
    | @backref _ id hcat hid =>
      refine leaf (adv := false) ?_ (by simp [zlm]) rfl (Nat.le_refl _) rfl (Nat.le_refl _)
      intro S p c cont w Z hp hc hk
      dsimp only [nodeMatch]
      split
      · exact spent_ub
      · exact cost_backref _ S p c cont w Z hp hc hk
    | @namedBackref _ name hcat hid =>
      refine leaf (adv := false) ?_ (by simp [zlm]) rfl (Nat.le_refl _) rfl (Nat.le_refl _)
      intro S p c cont w Z hp hc hk
      dsimp only [nodeMatch]
      split
      · exact spent_ub
      · split
        · exact spent_ub
        · exact cost_backref _ S p c cont w Z hp hc hk

end

end Mregex
