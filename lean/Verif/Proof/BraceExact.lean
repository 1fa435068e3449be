import Verif.Proof.Brace

/-!
# A brace that starts no quantifier begins a group
-/

namespace Mregex
open Ast Spec

/-- What follows a text matters only if it is a quantifier, a digit or the end of the group. -/
theorem reads_follow {c : Spec.Cat} {w : List Byte} {f : Option Byte} {x : Ast} (h : Reads c w f x) : ∀ {f' : Option Byte}, NoQuant f' → (∀ c, f' = some c → ¬DecDigit c) →
    (AtEnd f → AtEnd f') → Reads c w f' x := by
  induction h with
  | plain h => exact fun _ _ _ => .plain h
  | dot => exact fun _ _ _ => .dot
  | esc h => exact fun _ _ _ => .esc h
  | cls h => exact fun _ _ _ => .cls h
  | set h => exact fun _ _ _ => .set h
  | backref h1 h2 _ => exact fun _ hd _ => .backref h1 h2 hd
  | namedBackref h => exact fun _ _ _ => .namedBackref h
  | emptyGroup h => exact fun _ _ _ => .emptyGroup h
  | group h1 h2 => exact fun _ _ _ => .group h1 h2
  | brace _ => exact fun _ hd _ => .brace hd
  | bare _ _ ih => exact fun hq hd he => .bare (ih hq hd he) hq
  | quant h1 h2 h3 _ _ => exact fun hq _ _ => .quant h1 h2 h3 hq
  | bol _ => exact fun hq _ _ => .bol hq
  | eol _ => exact fun hq _ _ => .eol hq
  | assertion h _ => exact fun hq _ _ => .assertion h hq
  | @braced b w x v y u z f h1 h2 h3 h4 _ ih2 ih3 =>
    intro f' hq hd he
    refine .braced h1 ?_ (ih3 hq hd he) (he h4)
    cases u with
    | nil => exact ih2 hq hd he
    | cons a u => exact h2
  | start => exact fun _ _ _ => .start
  | one _ ih => exact fun hq hd he => .one (ih hq hd he)
  | more h1 _ _ ih => exact fun hq hd he => .more h1 (ih hq hd he)
  | single _ ih => exact fun hq hd he => .single (ih hq hd he)
  | or h1 _ _ ih => exact fun hq hd he => .or h1 (ih hq hd he)

theorem atom_head {w : List Byte} {f : Option Byte} {x : Ast} (h : Reads (.atom false) w f x) : ¬AtEnd w.head? := by
  have no : ∀ (c : Byte), c ≠ ch ')' → ∀ w : List Byte, ¬AtEnd (c :: w).head? := by
    rintro c h w (e | e)
    · cases e
    · exact h (Option.some.inj e)
  cases h with
  | plain h =>
    rintro (e | e)
    · cases e
    · exact h (by rw [show _ = ch ')' from Option.some.inj e]; decide)
  | dot => rintro (e | e) <;> exact absurd e (by decide)
  | esc h => cases h <;> exact no _ (by decide) _
  | cls h => exact no _ (by decide) _
  | set h => cases h <;> exact no _ (by decide) _
  | backref _ _ _ => exact no _ (by decide) _
  | namedBackref _ => exact no _ (by decide) _
  | emptyGroup h => cases h <;> exact no _ (by decide) _
  | group h _ => cases h <;> exact no _ (by decide) _

theorem paren_noQuant {f : Option Byte} (h : f = some (ch '(') ∨ f = some (ch ')')) : NoQuant f ∧ ∀ c, f = some c → ¬DecDigit c := by
  unfold NoQuant DecDigit
  rcases h with rfl | rfl <;> exact ⟨fun c h => by cases h; decide, fun c h => by cases h; decide⟩

/-- From a part with a brace after it, a group reaches to the end. -/
theorem brace_group {w u : List Byte} {f : Option Byte} {x y : Ast} (hw : Reads (.atom false) w (some (ch '{')) x) (hd : ∀ c, follow u f = some c → ¬DecDigit c) (hf : AtEnd f)
    (hu : Reads (.alts none) (txt "\\{" ++ u) f y) (g : Option Byte) :
    ∃ z, Reads (.item false) (w ++ txt "{" ++ u) f z ∧ Reads (.atom false) (txt "(?:" ++ (w ++ txt "\\{" ++ u) ++ txt ")") g z := by
  obtain ⟨z, h⟩ := alts_after hu x
  obtain ⟨h1, h2⟩ := brace_first hw hd hf h
  have hp := paren_noQuant (f := some (ch ')')) (.inr rfl)
  exact ⟨z, h1, .group (g := id) .plain (reads_follow h2 hp.1 hp.2 (fun _ => .inr rfl))⟩

end Mregex
