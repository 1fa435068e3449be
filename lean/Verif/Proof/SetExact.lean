import Verif.Proof.Meaning
import Verif.Spec.SetExact

/-!
# Accepted sets
-/

namespace Mregex
open Ast Spec

/-- A text that starts with an opening bracket starts with a set. -/
theorem reads_bracket {c : Spec.Cat} {w : List Byte} {f : Option Byte} {x : Ast} (h : Reads c w f x) :
    (∀ y, c ≠ .seq (some y) ∧ c ≠ .alts (some y)) → w ≠ [] ∧ (w.head? = some (ch '[') → ∃ v u y, w = v ++ u ∧ SetText v y) := by
  have step : ∀ {w v : List Byte}, (w ≠ [] ∧ (w.head? = some (ch '[') → ∃ v u y, w = v ++ u ∧ SetText v y)) →
      w ++ v ≠ [] ∧ ((w ++ v).head? = some (ch '[') → ∃ v' u y, w ++ v = v' ++ u ∧ SetText v' y) := by
    intro w v ⟨h1, h2⟩
    match w, h1, h2 with
    | c :: w, h1, h2 =>
      refine ⟨by simp, fun h => ?_⟩
      obtain ⟨v', u, y, e, h3⟩ := h2 h
      exact ⟨v', u ++ v, y, by rw [e, List.append_assoc], h3⟩
  induction h with
  | plain h => exact fun _ => ⟨by simp, fun e => absurd (by simpa using e) (fun e => h (by rw [e]; decide))⟩
  | dot => exact fun _ => ⟨by decide, fun e => absurd e (by decide)⟩
  | esc h => intro _; cases h <;> exact ⟨by simp [txt], fun e => absurd (Option.some.inj e) (by decide)⟩
  | cls h => exact fun _ => ⟨by simp, fun e => absurd (Option.some.inj e) (by decide)⟩
  | @set w x f h =>
    intro _
    refine ⟨by cases h <;> simp [txt], fun _ => ⟨w, [], x, by simp, h⟩⟩
  | backref => exact fun _ => ⟨by simp, fun e => absurd (Option.some.inj e) (by decide)⟩
  | namedBackref => exact fun _ => ⟨by simp [txt], fun e => absurd (Option.some.inj e) (by decide)⟩
  | emptyGroup h => intro _; cases h <;> exact ⟨by simp [txt], fun e => absurd (Option.some.inj e) (by decide)⟩
  | group h => intro _; cases h <;> exact ⟨by simp [txt], fun e => absurd (Option.some.inj e) (by decide)⟩
  | brace => exact fun _ => ⟨by decide, fun e => absurd (Option.some.inj e) (by decide)⟩
  | bare _ _ ih => exact fun _ => ih (fun y => ⟨by nofun, by nofun⟩)
  | quant _ _ _ _ ih => exact fun _ => by rw [List.append_assoc]; exact step (ih (fun y => ⟨by nofun, by nofun⟩))
  | bol => exact fun _ => ⟨by decide, fun e => absurd (Option.some.inj e) (by decide)⟩
  | eol => exact fun _ => ⟨by decide, fun e => absurd (Option.some.inj e) (by decide)⟩
  | assertion => exact fun _ => ⟨by simp, fun e => absurd (Option.some.inj e) (by decide)⟩
  | braced _ _ _ _ ih => exact fun _ => by rw [List.append_assoc]; exact step (ih (fun y => ⟨by nofun, by nofun⟩))
  | start => exact fun h => absurd rfl (h _).1
  | one _ ih => exact fun _ => ih (fun y => ⟨by nofun, by nofun⟩)
  | @more s w v f x y _ _ ih => exact fun h => step (ih (fun y => ⟨(h y).1, by nofun⟩))
  | single _ ih => exact fun h => ih (fun y => ⟨fun e => (h y).2 (by cases e; rfl), by nofun⟩)
  | or _ _ ih => exact fun h => by rw [List.append_assoc]; exact step (ih h)

/-! ## Where a set ends -/

theorem Spec.Unclosed.append {w v : List Byte} (hw : Unclosed w) (hv : Unclosed v) : Unclosed (w ++ v) := by
  induction hw with
  | nil => exact hv
  | char h h' _ ih => exact .char h h' ih
  | esc _ ih => exact .esc ih

theorem inside_hex {h : Byte} {v : Nat} (hv : HexDigit h v) {w : List Byte} (hw : Unclosed w) : Unclosed (h :: w) := by
  have := hexDigit_plain h (hexDigit_lt hv)
  exact .char (by rintro rfl; revert this; decide) (by rintro rfl; revert this; decide) hw

theorem inside_setChar {w : List Byte} {c : Byte} (h : SetChar w c) : Unclosed w := by
  cases h with
  | plain h h' => exact .char h h' .nil
  | esc h =>
    cases h with
    | ctrl => exact .esc .nil
    | hex h h' => exact .esc (inside_hex h (inside_hex h' .nil))
    | backspace => exact .esc .nil
    | self => exact .esc .nil

theorem inside_dash : Unclosed (txt "-") := .char (by decide) (by decide) .nil

theorem inside_setItems {st : SetState} {w : List Byte} {l : List Ast} (h : SetItems st w l) : Unclosed w := by
  induction h with
  | nil => exact .nil
  | char _ hc _ ih => exact ih.append (inside_setChar hc)
  | cls _ _ ih => exact ih.append (.esc .nil)
  | range _ hc ih => exact (ih.append inside_dash).append (inside_setChar hc)
  | dash _ _ hc ih => exact (ih.append inside_dash).append (inside_setChar hc)
  | quirk _ hc ih => exact (ih.append inside_dash).append (inside_setChar hc)

theorem inside_setBody {w : List Byte} {l : List Ast} (h : SetBody w l) : Unclosed w := by
  cases h with
  | plain h => exact inside_setItems h
  | dash h _ => exact (inside_setItems h).append inside_dash

/-- Where the bracket is that closes. -/
theorem inside_unique {v w : List Byte} (hv : Unclosed v) (hw : Unclosed w) {r s : List Byte} (h : v ++ ch ']' :: r = w ++ ch ']' :: s) : v = w := by
  induction hv generalizing w with
  | nil =>
    cases hw with
    | nil => rfl
    | char h1 _ _ => cases h; exact absurd rfl h1
    | esc _ => exact absurd (List.cons.inj h).1 (by decide)
  | char h1 h2 _ ih =>
    cases hw with
    | nil => cases h; exact absurd rfl h1
    | char _ _ hw => cases (List.cons.inj h).1; rw [ih hw (List.cons.inj h).2]
    | esc _ => exact absurd (List.cons.inj h).1 h2
  | esc _ ih =>
    cases hw with
    | nil => exact absurd (List.cons.inj h).1 (by decide)
    | char _ h2 _ => exact absurd (List.cons.inj h).1.symm h2
    | esc hw =>
      have h' := (List.cons.inj h).2
      cases (List.cons.inj h').1
      rw [ih hw (List.cons.inj h').2]

theorem setMeans_content {w : List Byte} {P : Byte → Prop} (h : SetMeans w P) : ∃ P', SetContent true w P' := by
  have key : ∀ {st w P}, Items st w P → ∃ P', ItemList true st w P' := by
    intro st w P h
    induction h with
    | nil => exact ⟨_, .nil⟩
    | char _ h1 h2 ih => obtain ⟨P', ih⟩ := ih; exact ⟨_, .char ih h1 h2⟩
    | range _ h1 h2 h3 h4 ih => obtain ⟨P', ih⟩ := ih; exact ⟨_, .range ih h1 h2 h3 h4⟩
    | cls _ h1 ih => obtain ⟨P', ih⟩ := ih; exact ⟨_, .cls ih h1⟩
    | clsDash _ h1 _ h3 ih => obtain ⟨P', ih⟩ := ih; exact ⟨_, .clsDash ih h1 (by nofun) h3⟩
    | quirk _ h1 _ ih => obtain ⟨P', ih⟩ := ih; exact ⟨_, .clsDash ih .R (by nofun) h1⟩
  cases h with
  | plain h => obtain ⟨P', h⟩ := key h; exact ⟨_, .plain h⟩
  | dash h _ => obtain ⟨P', h⟩ := key h; exact ⟨_, .dash h⟩

theorem indexSame_mem {o : Nat} {l : List Ast} {a : Ast} (h : a ∈ l) : index o a ∈ indexSame o l := by
  induction l with
  | nil => cases h
  | cons b l ih =>
    rcases List.mem_cons.1 h with rfl | h
    · exact List.mem_cons_self
    · exact List.mem_cons_of_mem _ (ih h)

theorem ok_ranges {E : Env} {r : Nat} {l : List Ast} (h : Ok E r (.set (indexSame 1 l))) (a b : Byte) (hm : .range a b ∈ l) : a.toNat ≤ b.toNat := by
  cases h with
  | set _ h2 => cases h2 _ (indexSame_mem (o := 1) hm) with | range h => exact h

end Mregex
