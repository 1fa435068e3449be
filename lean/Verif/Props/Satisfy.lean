import Verif.Proof.Satisfy
import Verif.Props.Says

/-!
# C94: references and satisfiability
-/

namespace Mregex
open Ast Spec

theorem numeral_length (n : Nat) : (numeralText n).length ≤ n + 1 := by
  induction n using Nat.strongRecOn with
  | _ n ih =>
    unfold numeralText
    split
    · simp
    · rw [List.length_append, List.length_singleton]
      have := ih (n / 10) (by omega)
      omega

/-- **C94**: for every formula, `match` on the text `x,x,…x,` with the pattern of the formula succeeds exactly if the formula is satisfiable.  If so, the groups are a solution:
the variable `i` is true if the group `2 * i + 1` holds text, and false if the group `2 * i + 2` does. -/
theorem C94_satisfiable (n : Nat) (h0 : n ≠ 0) (hb : 2 * n < 2 ^ 64) (φ : List Clause) (hφ : ∀ c ∈ φ, c.Within n) (fl : List RegexFlag) (cat : Cat) (hcat : cat ≠ .forward) :
    ∃ a, parse (satPattern n φ) = .result a .success ∧ (Regex.mk a fl).Ok cat ∧
      ∃ res, (Regex.mk a fl).invoke .match cat (satText (n + φ.length)) = some res ∧ (res.matched = true ↔ ∃ v, Satisfies v φ) ∧
        (res.matched = true → ∃ v, Satisfies v φ ∧ ∀ i, i < n →
          (res.group (2 * i + 1)).map (heldText (satText (n + φ.length))) = some (if v i then [ch 'x'] else []) ∧
          (res.group (2 * i + 2)).map (heldText (satText (n + φ.length))) = some (if v i then [] else [ch 'x'])) := by
  have hR := sat_ok h0 hφ fl hcat
  have hw : wordy (satAst n φ) = true := wordy_parts n 0 φ
  obtain ⟨res, h1, h2, h3⟩ := C92_match ⟨satAst n φ, fl⟩ cat hR hw (traceable_sat n φ) (satText (n + φ.length))
  have hlen : res.groups.length = 2 * n + 1 := by
    rw [(invoke_inBounds _ cat hR .match _ res h1).1]
    show (none :: nameSpecAll (satParts 0 n φ)).length = _
    rw [names_parts]
    simp
  have hr : Remembers (fun _ => true) 0 [] := fun i hi => by omega
  have solved : ∀ e, Says (Regex.mk (satAst n φ) fl).fl (satAst n φ) [] (satText (n + φ.length)) e → ∃ v, Remembers v n e ∧ Satisfies v φ := by
    intro e he
    rw [satAst, Says.eq_2] at he
    exact says_parts n 0 (by omega) hφ hr e he
  refine ⟨satAst n φ, parse_sat h0 hb hφ, hR, res, h1, ⟨fun h => ?_, fun ⟨v, hv⟩ => ?_⟩, fun h => ?_⟩
  · obtain ⟨e, he⟩ := h2.1 h
    obtain ⟨v, _, hv⟩ := solved e he
    exact ⟨v, hv⟩
  · obtain ⟨e, he⟩ := parts_say (f := (Regex.mk (satAst n φ) fl).fl) n 0 (by omega) hφ (v := v) (e := []) (fun i hi => by omega) hv
    refine h2.2 ⟨e, ?_⟩
    rw [satAst, Says.eq_2]
    exact he
  · obtain ⟨e, he, hg⟩ := h3 h
    obtain ⟨v, hv, hs⟩ := solved e he
    have key : ∀ k, k ≠ 0 → k ≤ 2 * n → (res.group k).map (heldText (satText (n + φ.length))) = some (recall k e) := by
      intro k hk hk'
      have hgk : res.group k = some res.groups[k] := List.getElem?_eq_getElem (by omega)
      rw [hgk, Option.map_some]
      rcases hg k _ hk hgk with h | ⟨h, _⟩
      · rw [h]
      · rw [show visitedOnce k (satAst n φ) = true from once_sat k n φ] at h
        cases h
    refine ⟨v, hs, fun i hi => ?_⟩
    obtain ⟨h5, h6⟩ := hv i hi
    rw [key _ (by omega) (by omega), key _ (by omega) (by omega), h5, h6]
    exact ⟨rfl, rfl⟩

/-- **C94**: the pattern and the text are hardly longer than the formula: deciding whether a text matches a pattern with references is at least as hard as satisfiability. -/
theorem C94_size (n : Nat) (φ : List Clause) (hφ : ∀ c ∈ φ, c.Within n) :
    (satPattern n φ).length ≤ 9 * n + φ.length * (6 * n + 13) ∧ (satText (n + φ.length)).length = 2 * (n + φ.length) := by
  have ht : ∀ m, (satText m).length = 2 * m := by
    intro m
    induction m with
    | zero => rfl
    | succ m ih => rw [satText, List.length_cons, List.length_cons, ih]; omega
  have hl : ∀ l : Literal, l.var < n → l.pattern.length ≤ 2 * n + 2 := by
    intro l hl
    have h1 := literal_group_le hl
    have h2 := numeral_length l.group
    rw [Literal.pattern, List.length_append]
    show 1 + _ ≤ _
    omega
  have hc : ∀ c : Clause, c.Within n → c.pattern.length ≤ 6 * n + 13 := by
    rintro c ⟨h1, h2, h3⟩
    have g1 := hl _ h1
    have g2 := hl _ h2
    have g3 := hl _ h3
    rw [Clause.pattern]
    simp only [List.length_append]
    show 3 + (_ + (1 + (_ + (1 + _)))) + 1 + 1 ≤ _
    omega
  refine ⟨?_, ht _⟩
  have hp : (clausesPattern φ).length ≤ φ.length * (6 * n + 13) := by
    clear ht
    induction φ with
    | nil => simp [clausesPattern]
    | cons c φ ih =>
      have h1 := hc c (hφ c (by simp))
      have h2 := ih fun d hd => hφ d (List.mem_cons_of_mem _ hd)
      rw [clausesPattern, List.length_append, List.length_cons, Nat.add_mul]
      omega
  have : ∀ m, (satPattern m φ).length = 9 * m + (clausesPattern φ).length := by
    intro m
    induction m with
    | zero => simp [satPattern]
    | succ m ih =>
      rw [satPattern, List.length_append, ih]
      show 9 + _ = _
      omega
  rw [this]
  omega

/-- `(a ∨ ¬b ∨ c) ∧ (¬a ∨ ¬b ∨ ¬c)`. -/
def exFormula : List Clause := [⟨⟨0, true⟩, ⟨1, false⟩, ⟨2, true⟩⟩, ⟨⟨0, false⟩, ⟨1, false⟩, ⟨2, false⟩⟩]

example : satPattern 3 exFormula = txt "(x?)(x?),(x?)(x?),(x?)(x?),(?:\\1|\\4|\\5),(?:\\2|\\4|\\6)," ∧ satText (3 + exFormula.length) = txt "x,x,x,x,x," := by decide +kernel
example : (∀ c ∈ exFormula, c.Within 3) ∧ Satisfies (fun i => i == 0) exFormula := by
  unfold exFormula Satisfies Clause.Within Clause.Holds Literal.Holds; decide
/-- A formula that is not satisfiable. -/
example : ¬ ∃ v, Satisfies v [⟨⟨0, true⟩, ⟨0, true⟩, ⟨0, true⟩⟩, ⟨⟨0, false⟩, ⟨0, false⟩, ⟨0, false⟩⟩] := by
  rintro ⟨v, h⟩
  have h1 := h _ (List.mem_cons_self ..)
  have h2 := h ⟨⟨0, false⟩, ⟨0, false⟩, ⟨0, false⟩⟩ (by simp)
  simp only [Clause.Holds, Literal.Holds, or_self] at h1 h2
  rw [h1] at h2
  cases h2

end Mregex
