import Verif.Proof.Sound
import Verif.Proof.Fuel
import Verif.Proof.OkCheck

/-!
# The public methods in terms of the rules for the matcher
-/

namespace Mregex
open Ast Spec

section
variable {E : Env} {I : Ctx → Prop}

theorem attempt_safe (hlen : ∀ c, I c → c.length = E.names.length) {fuel : Nat} {a : Ast} (hok : Ok E 0 a)
    (hfuel : fuelFor a E.inp ≤ fuel) (hcl : CapClosed E I 0 a) {cur : Nat} {c : Ctx} (hcur : cur ≤ E.inp.length)
    (hc : I c) {cont : Cont} {S : Nat → Ctx → Prop}
    (hcont : ∀ q c', Over E a 0 false cur q → I c' → Post S (FailP E 0 I cur) (cont q c')) :
    Post S (FailP E 0 I cur) (mtch E fuel a 0 cur c cont) :=
  mtch_safe hlen fuel a 0 hok hfuel hcl cur cur c cont S (.refl hcur) hc hcont

theorem post_success {S F : Nat → Ctx → Prop} {q : Nat} {c : Ctx} (h : S q c) : Post S F (success q c) := by
  simpa [Post, success] using h

theorem prefix_safe (hlen : ∀ c, I c → c.length = E.names.length) {fuel : Nat} {a : Ast} (hok : Ok E 0 a)
    (hfuel : fuelFor a E.inp ≤ fuel) (hcl : CapClosed E I 0 a) {cur : Nat} {c : Ctx} (hcur : cur ≤ E.inp.length)
    (hc : I c) :
    Post (fun q c' => Over E a 0 false cur q ∧ I c') (FailP E 0 I cur) (mtch E fuel a 0 cur c success) :=
  attempt_safe hlen hok hfuel hcl hcur hc (fun _ _ h h' => post_success ⟨h, h'⟩)

theorem match_safe (hlen : ∀ c, I c → c.length = E.names.length) {fuel : Nat} {a : Ast} (hok : Ok E 0 a)
    (hfuel : fuelFor a E.inp ≤ fuel) (hcl : CapClosed E I 0 a) {cur : Nat} {c : Ctx} (hcur : cur ≤ E.inp.length)
    (hc : I c) :
    Post (fun q c' => q = E.inp.length ∧ Over E a 0 false cur q ∧ I c') (FailP E 0 I cur)
      (mtch E fuel a 0 cur c (equals E.inp.length)) := by
  refine attempt_safe hlen hok hfuel hcl hcur hc (fun q c' h h' => ?_)
  by_cases hq : q = E.inp.length
  · simp only [Post, equals, hq, beq_self_eq_true, if_true, true_and]
    exact ⟨hq ▸ h, h'⟩
  · have : (q == E.inp.length) = false := by simpa using hq
    simp only [Post, equals, this, Bool.false_eq_true, if_false]
    exact ⟨over_reach hcur h, h'⟩

theorem search_safe (hlen : ∀ c, I c → c.length = E.names.length) {fuel : Nat} {a : Ast} (hok : Ok E 0 a)
    (hfuel : fuelFor a E.inp ≤ fuel) (hcl : CapClosed E I 0 a) :
    ∀ k cur c, cur ≤ E.inp.length → E.inp.length - cur + 1 ≤ k → I c →
    Post (fun q c' => ∃ i c'', cur ≤ i ∧ i ≤ E.inp.length ∧ Over E a 0 false i q ∧ I c'' ∧ c' = c''.set 0 (some (i, q)))
      (fun q c' => q = E.inp.length ∧ I c') (searchLoop E fuel a k cur c) := by
  intro k
  induction k with
  | zero => intro cur c _ h; omega
  | succ k ih =>
    intro cur c hcur hk hc
    unfold searchLoop
    have h := prefix_safe hlen hok hfuel hcl hcur hc
    match hm : mtch E fuel a 0 cur c success with
    | .ok ⟨q, true⟩ c' =>
      rw [hm] at h
      simp only [Post, if_true] at h ⊢
      exact ⟨cur, c', Nat.le_refl _, hcur, h.1, h.2, rfl⟩
    | .ok ⟨q, false⟩ c' =>
      rw [hm] at h
      simp only [Post, Bool.false_eq_true, if_false] at h ⊢
      by_cases he : cur = E.inp.length
      · simp only [he, if_true, nonMatch, true_and]
        exact h.2
      · simp only [he, if_false]
        have := (ih (cur + 1) c' (by omega) (by omega) h.2).mono
          (S' := fun q c' => ∃ i c'', cur ≤ i ∧ i ≤ E.inp.length ∧ Over E a 0 false i q ∧ I c'' ∧
            c' = c''.set 0 (some (i, q))) (by
          rintro q c' ⟨i, c'', h1, h2⟩
          exact ⟨i, c'', by omega, h2⟩) (fun _ _ h => h)
        exact this
    | .ub => rw [hm] at h; exact h.elim
    | .diverge => rw [hm] at h; exact h.elim

theorem length_clear (id : Nat) (c : Ctx) : (clearCapture id c).length = c.length := by
  simp [clearCapture]

theorem capClosed_len {r : Nat} {a : Ast} : CapClosed E (fun c => c.length = E.names.length) r a := by
  intro r' id b _
  refine ⟨fun c hc => ?_, fun c p q hc _ _ => ?_⟩
  · simpa [length_clear] using hc
  · simpa using hc

theorem capStable_len {r : Nat} {a : Ast} : CapStable E (fun c => c.length = E.names.length) r a := by
  intro r' id b _
  refine ⟨fun c hc => ?_, fun c p q hc _ _ => ?_⟩
  · simpa [length_clear] using hc
  · simpa using hc

theorem attempt_view (hlen : ∀ c, I c → c.length = E.names.length) {fuel : Nat} {a : Ast} (hok : Ok E 0 a)
    (hnb : noBackref a = true) (hfuel : fuelFor a E.inp ≤ fuel) (hcl : CapStable E I 0 a) {cur : Nat} {c : Ctx}
    (hcur : cur ≤ E.inp.length) (hc : I c) :
    View I (mtch E fuel a 0 cur c success) (ends E.flags E.inp a true false cur).head? :=
  (mtch_den hlen fuel a 0 hok hnb hfuel hcl).success hcur hc

theorem findSome?_eq_end (l : List Nat) (n : Nat) :
    l.findSome? (fun q => if q = n then some q else none) = if n ∈ l then some n else none := by
  induction l with
  | nil => rfl
  | cons a l ih =>
    by_cases h : a = n
    · simp [h]
    · have : ¬ n = a := fun e => h e.symm
      simp [h, this, ih]

theorem match_view (hlen : ∀ c, I c → c.length = E.names.length) {fuel : Nat} {a : Ast} (hok : Ok E 0 a)
    (hnb : noBackref a = true) (hfuel : fuelFor a E.inp ≤ fuel) (hcl : CapStable E I 0 a) {cur : Nat} {c : Ctx}
    (hcur : cur ≤ E.inp.length) (hc : I c) :
    View I (mtch E fuel a 0 cur c (equals E.inp.length))
      (if E.inp.length ∈ ends E.flags E.inp a true false cur then some E.inp.length else none) := by
  have := mtch_den hlen fuel a 0 hok hnb hfuel hcl cur c (equals E.inp.length)
    (fun q => if q = E.inp.length then some q else none) hcur hc (fun q c' _ hc' => ?_)
  · rw [findSome?_eq_end] at this
    exact this
  · by_cases hq : q = E.inp.length
    · simp [View, Post, equals, hq, hc']
    · have : (q == E.inp.length) = false := by simpa using hq
      simp [View, Post, equals, this, hq, hc']

/-- The first start position at or after `cur` with a match, and the preferred end there. -/
def firstFrom (g : Nat → List Nat) : Nat → Nat → Option (Nat × Nat)
  | 0, _ => none
  | k + 1, cur =>
    match (g cur).head? with
    | some q => some (cur, q)
    | none => firstFrom g k (cur + 1)

theorem search_view (hlen : ∀ c, I c → c.length = E.names.length) {fuel : Nat} {a : Ast} (hok : Ok E 0 a)
    (hnb : noBackref a = true) (hfuel : fuelFor a E.inp ≤ fuel) (hcl : CapStable E I 0 a) :
    ∀ k cur c, cur ≤ E.inp.length → k = E.inp.length - cur + 1 → I c →
    Post (fun q c' => ∃ i c'', firstFrom (ends E.flags E.inp a true false) k cur = some (i, q) ∧ I c'' ∧
        c' = c''.set 0 (some (i, q)))
      (fun q c' => q = E.inp.length ∧ firstFrom (ends E.flags E.inp a true false) k cur = none ∧ I c')
      (searchLoop E fuel a k cur c) := by
  intro k
  induction k with
  | zero => intro cur c _ h; omega
  | succ k ih =>
    intro cur c hcur hk hc
    have h := attempt_view hlen hok hnb hfuel hcl hcur hc
    unfold searchLoop firstFrom
    match hm : mtch E fuel a 0 cur c success with
    | .ok ⟨q, true⟩ c' =>
      rw [hm] at h
      simp only [View, Post, if_true] at h ⊢
      rw [h.1]
      exact ⟨cur, c', rfl, h.2, rfl⟩
    | .ok ⟨q, false⟩ c' =>
      rw [hm] at h
      simp only [View, Post, Bool.false_eq_true, if_false] at h ⊢
      rw [h.1]
      by_cases he : cur = E.inp.length
      · have hk0 : k = 0 := by omega
        subst hk0
        simp only [he, if_true, nonMatch, firstFrom, true_and]
        exact h.2
      · simp only [he, if_false]
        exact ih (cur + 1) c' (by omega) (by omega) h.2
    | .ub => rw [hm] at h; exact h.elim
    | .diverge => rw [hm] at h; exact h.elim

theorem firstFrom_some {g : Nat → List Nat} {k cur i q : Nat} (h : firstFrom g k cur = some (i, q)) :
    cur ≤ i ∧ i < cur + k ∧ (g i).head? = some q ∧ ∀ j, cur ≤ j → j < i → g j = [] := by
  induction k generalizing cur with
  | zero => simp [firstFrom] at h
  | succ k ih =>
    unfold firstFrom at h
    split at h
    · next q' hq =>
      simp only [Option.some.injEq, Prod.mk.injEq] at h
      obtain ⟨rfl, rfl⟩ := h
      exact ⟨Nat.le_refl _, by omega, hq, fun j h1 h2 => by omega⟩
    · next hn =>
      obtain ⟨h1, h2, h3, h4⟩ := ih h
      refine ⟨by omega, by omega, h3, fun j h5 h6 => ?_⟩
      by_cases hj : j = cur
      · subst hj; simpa using hn
      · exact h4 j (by omega) h6

theorem firstFrom_none {g : Nat → List Nat} {k cur : Nat} (h : firstFrom g k cur = none) :
    ∀ j, cur ≤ j → j < cur + k → g j = [] := by
  induction k generalizing cur with
  | zero => intro j h1 h2; omega
  | succ k ih =>
    unfold firstFrom at h
    split at h
    · simp at h
    · next hn =>
      intro j h1 h2
      by_cases hj : j = cur
      · subst hj; simpa using hn
      · exact ih h j (by omega) (by omega)

end

/-- Every amount of fuel above `fuelFor` gives the same result. -/
theorem invoke_fuel {E : Env} {a : Ast} (hok : Ok E 0 a) (M : Method) {cur : Nat} (hcur : cur ≤ E.inp.length)
    {c : Ctx} (hc : c.length = E.names.length) {fuel : Nat} (hfuel : fuelFor a E.inp ≤ fuel) :
    M.invoke E fuel a cur c = M.invoke E (fuelFor a E.inp) a cur c := by
  have key : ∀ cur cont c, cur ≤ E.inp.length → c.length = E.names.length →
      (∀ q c', Over E a 0 false cur q → c'.length = E.names.length →
        Post (fun _ _ => True) (FailP E 0 (fun c => c.length = E.names.length) cur) (cont q c')) →
      mtch E fuel a 0 cur c cont = mtch E (fuelFor a E.inp) a 0 cur c cont := by
    intro cur cont c hcur hc hcont
    refine mtch_fuel hfuel ?_
    have := attempt_safe (I := fun c => c.length = E.names.length) (fun _ h => h) hok (Nat.le_refl _) capClosed_len hcur hc hcont
    intro hd
    rw [hd] at this
    exact this
  have keyS : ∀ cur c, cur ≤ E.inp.length → c.length = E.names.length →
      mtch E fuel a 0 cur c success = mtch E (fuelFor a E.inp) a 0 cur c success :=
    fun cur c hcur hc => key cur _ c hcur hc (fun _ _ _ _ => post_success trivial)
  cases M with
  | «match» =>
    simp only [Method.invoke, matchMethod]
    rw [key cur _ c hcur hc]
    intro q c' h h'
    by_cases hq : q = E.inp.length
    · simp [Post, equals, hq]
    · have : (q == E.inp.length) = false := by simpa using hq
      simp only [Post, equals, this, Bool.false_eq_true, if_false]
      exact ⟨over_reach hcur h, h'⟩
  | matchPrefix =>
    simp only [Method.invoke, prefixMethod]
    rw [keyS cur c hcur hc]
  | search =>
    simp only [Method.invoke, searchMethod]
    suffices H : ∀ k cur c, cur ≤ E.inp.length → c.length = E.names.length →
        searchLoop E fuel a k cur c = searchLoop E (fuelFor a E.inp) a k cur c from H _ cur c hcur hc
    intro k
    induction k with
    | zero => intros; rfl
    | succ k ih =>
      intro cur c hcur hc
      unfold searchLoop
      rw [keyS cur c hcur hc]
      have hs := prefix_safe (I := fun c => c.length = E.names.length) (fun _ h => h) hok (Nat.le_refl _)
        capClosed_len hcur hc
      match hm : mtch E (fuelFor a E.inp) a 0 cur c success with
      | .ok ⟨q, true⟩ c' => rfl
      | .ok ⟨q, false⟩ c' =>
        rw [hm] at hs
        simp only [Post, Bool.false_eq_true, if_false] at hs ⊢
        by_cases he : cur = E.inp.length
        · simp only [he, if_true]
        · simp only [he, if_false]
          exact ih (cur + 1) c' (by omega) hs.2
      | .ub => rfl
      | .diverge => rfl

end Mregex
