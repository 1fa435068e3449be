import Verif.Spec.Site
import Verif.Proof.Url
import Verif.Props.Readme

/-!
# What the expression of example/using_expressions.cpp says
-/

namespace Mregex
open Ast Spec

theorem says_char (c : Byte) (e : Memory) (w : List Byte) (e' : Memory) : Says {} (.lit c) e w e' ↔ w = [c] ∧ e' = e := by
  simp only [Says, accepts, Bool.false_and, Bool.or_false, beq_iff_eq]
  exact ⟨fun ⟨⟨x, h1, h2⟩, h3⟩ => ⟨by rw [h1, h2], h3⟩, fun ⟨h1, h2⟩ => ⟨⟨c, h1, rfl⟩, h2⟩⟩

theorem says_text (t : List Byte) (l : List Ast) (e : Memory) (w : List Byte) (e' : Memory) :
    SaysAll {} (t.map .lit ++ l) e w e' ↔ ∃ v, w = t ++ v ∧ SaysAll {} l e v e' := by
  induction t generalizing w with
  | nil => simp
  | cons c t ih =>
    simp only [List.map_cons, List.cons_append, SaysAll, says_char]
    constructor
    · rintro ⟨_, w', e1, rfl, ⟨rfl, rfl⟩, h⟩
      obtain ⟨v, rfl, h'⟩ := (ih w').1 h
      exact ⟨v, by simp, h'⟩
    · rintro ⟨v, rfl, h⟩
      exact ⟨[c], t ++ v, e, rfl, ⟨rfl, rfl⟩, (ih _).2 ⟨v, rfl, h⟩⟩

theorem says_fixed (t : List Byte) (e : Memory) (w : List Byte) (e' : Memory) : SaysAll {} (t.map .lit) e w e' ↔ w = t ∧ e' = e := by
  have := says_text t [] e w e'
  simp only [List.append_nil, SaysAll] at this
  rw [this]
  exact ⟨fun ⟨v, h1, h2, h3⟩ => ⟨by rw [h1, h2, List.append_nil], h3⟩, fun ⟨h1, h2⟩ => ⟨[], by rw [h1, List.append_nil], rfl, h2⟩⟩

theorem says_schema (e : Memory) (w : List Byte) (e' : Memory) :
    Says {} schemaAst e w e' ↔ (w = txt "ftp" ∨ w = txt "ssh" ∨ w = txt "http" ∨ w = txt "https") ∧ e' = e := by
  simp only [schemaAst, Says.eq_3, SaysAny, Says.eq_2, says_fixed, says_text, SaysAll, says_optional, says_char, or_false]
  constructor
  · rintro (⟨rfl, rfl⟩ | ⟨rfl, rfl⟩ | ⟨_, rfl, _, _, _, rfl, ⟨rfl, rfl⟩ | ⟨rfl, rfl⟩, rfl, rfl⟩)
    · exact ⟨.inl rfl, rfl⟩
    · exact ⟨.inr (.inl rfl), rfl⟩
    · exact ⟨.inr (.inr (.inl rfl)), rfl⟩
    · exact ⟨.inr (.inr (.inr rfl)), rfl⟩
  · rintro ⟨rfl | rfl | rfl | rfl, rfl⟩
    · exact .inl ⟨rfl, rfl⟩
    · exact .inr (.inl ⟨rfl, rfl⟩)
    · exact .inr (.inr ⟨[], rfl, [], [], e', rfl, .inl ⟨rfl, rfl⟩, rfl, rfl⟩)
    · exact .inr (.inr ⟨[ch 's'], rfl, [ch 's'], [], e', rfl, .inr ⟨rfl, rfl⟩, rfl, rfl⟩)

instance (x : Byte) : Decidable (NameChar x) := by unfold NameChar; infer_instance
instance (x : Byte) : Decidable (Visible x) := by unfold Visible; infer_instance

theorem name_table : ∀ x : Byte, accepts {} domainClass x = decide (NameChar x) := by decide +kernel
theorem visible_table : ∀ x : Byte, accepts {} (.neg Ast.whitespace) x = decide (Visible x) := by decide +kernel

theorem says_star {f : Flags} {cls : Ast} {P : Byte → Prop} (hs : ∀ e w e', Says f cls e w e' ↔ (∃ x, w = [x] ∧ accepts f cls x = true) ∧ e' = e)
    (hP : ∀ x, accepts f cls x = true ↔ P x) (m : Mode) (e : Memory) (w : List Byte) (e' : Memory) :
    Says f (.rep m 0 .inf cls) e w e' ↔ (∀ x ∈ w, P x) ∧ e' = e := by
  simp only [Says, repeats_chars hs, AtMost, true_and, hP]
  exact ⟨fun ⟨n, _, _, h3, h4⟩ => ⟨h3, h4⟩, fun ⟨h2, h3⟩ => ⟨w.length, Nat.zero_le _, rfl, h2, h3⟩⟩

theorem says_sitePath (e : Memory) (w : List Byte) (e' : Memory) :
    Says {} (.seq [.lit (ch '/'), .rep .greedy 0 .inf (.neg Ast.whitespace)]) e w e' ↔ ∃ v, (∀ x ∈ v, Visible x) ∧ w = ch '/' :: v ∧ e' = [] ++ e := by
  simp only [Says.eq_2, SaysAll, says_char,
    says_star (f := {}) (cls := .neg Ast.whitespace) (P := Visible) (by intros; simp only [Says]) (by simp [visible_table])]
  constructor
  · rintro ⟨_, _, _, rfl, ⟨rfl, rfl⟩, v, _, _, rfl, ⟨h, rfl⟩, rfl, rfl⟩
    exact ⟨v, h, by simp, rfl⟩
  · rintro ⟨v, h, rfl, h'⟩
    subst h'
    exact ⟨[ch '/'], v, _, rfl, ⟨rfl, rfl⟩, v, [], _, by simp, ⟨h, rfl⟩, rfl, rfl⟩

theorem says_site (w : List Byte) (e' : Memory) :
    Says {} urlAst [] w e' ↔ ∃ u : ComSite, u.Fine ∧ w = u.text ∧ e' = [(1, u.name ++ txt ".com")] := by
  simp only [urlAst, pathAst, Says.eq_2, List.cons_append, SaysAll, says_schema, says_text, Says.eq_4, says_fixed, says_option says_sitePath,
    says_plus (f := {}) (cls := domainClass) (P := NameChar) (says_set _) (by simp [name_table])]
  constructor
  · rintro ⟨s, _, _, rfl, ⟨h1, rfl⟩, _, rfl, _, _, _, rfl, ⟨_, ⟨n, _, _, rfl, ⟨h2, rfl⟩, rfl, rfl⟩, rfl⟩, _, _, _, rfl, ⟨o, h3, rfl, rfl⟩, rfl, rfl⟩
    refine ⟨⟨s, n, o⟩, ⟨h1, h2, h3⟩, by simp [ComSite.text], ?_⟩
    cases o <;> rfl
  · rintro ⟨⟨s, n, o⟩, ⟨h1, h2, h3⟩, rfl, rfl⟩
    refine ⟨s, _, [], rfl, ⟨h1, rfl⟩, _, rfl, n ++ txt ".com", optionText (fun w => ch '/' :: w) o, _, by simp, ⟨[], ⟨n, _, [], rfl, ⟨h2, rfl⟩, rfl, rfl⟩, rfl⟩, _, [], _,
      by simp, ⟨o, h3, rfl, rfl⟩, rfl, ?_⟩
    cases o <;> rfl

theorem dotcom_chars : ∀ c ∈ txt ".com", NameChar c := by decide

/-- A text is the text of one such URL only. -/
theorem site_unique {u u' : ComSite} (hu : u.Fine) (hu' : u'.Fine) (h : u.text = u'.text) : u = u' := by
  have hs : ∀ {u : ComSite}, u.Fine → ∀ c ∈ u.schema, c ≠ ch ':' := fun hu => by
    rcases hu.1 with h | h | h | h <;> rw [h] <;> decide
  obtain ⟨h1, h2⟩ := cut_unique h (hs hu) (hs hu') (stops_cons (c := ch ':') (by simp) _) (stops_cons (c := ch ':') (by simp) _)
  have h2 := List.append_cancel_left h2
  have hn : ∀ {u : ComSite}, u.Fine → ∀ c ∈ u.name ++ txt ".com", NameChar c := fun hu c hc =>
    (List.mem_append.1 hc).elim (hu.2.1.2 c) (dotcom_chars c)
  rw [← List.append_assoc, ← List.append_assoc] at h2
  have hslash : ¬NameChar (ch '/') := by decide
  obtain ⟨h3, h4⟩ := cut_unique h2 (hn hu) (hn hu') (stops_option (fun _ => stops_cons hslash _) _) (stops_option (fun _ => stops_cons hslash _) _)
  replace h3 := List.append_cancel_right h3
  replace h4 := optionText_unique (by simp) (by simp) (by simp) h4
  obtain ⟨_, _, _⟩ := u
  obtain ⟨_, _, _⟩ := u'
  simp only at h1 h3 h4
  subst h1 h3 h4
  rfl

end Mregex
