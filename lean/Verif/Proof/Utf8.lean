import Verif.Spec.Utf8
import Verif.Proof.Derives

/-!
# Whole characters
-/

namespace Mregex
open Ast Spec

variable {s : List Byte}

theorem Spec.Chars.trans {m i t j : Nat} (h : Chars s m i t) (h' : Chars s 0 t j) : Chars s m i j := by
  induction h with
  | done => exact h'
  | leads h1 h2 _ ih => exact .leads h1 h2 (ih h')
  | trails h1 h2 _ ih => exact .trails h1 h2 (ih h')

theorem Spec.Chars.le {m i j : Nat} (h : Chars s m i j) : i ≤ j := by
  induction h with
  | done => exact Nat.le_refl _
  | leads _ _ _ ih => omega
  | trails _ _ _ ih => omega

theorem leads_not_trails {x : Byte} (h : Leads x) (h' : Trails x) : False := by
  unfold Leads at h; unfold Trails at h'; omega

/-- The state at a position. -/
theorem Spec.Chars.split {m i n b : Nat} (h : Chars s m i n) (h1 : i ≤ b) (h2 : b ≤ n) : ∃ m', Chars s m' b n ∧ (m' = 0 → Chars s m i b) := by
  induction h with
  | @done i =>
    have : i = b := by omega
    subst this
    exact ⟨0, .done, fun _ => .done⟩
  | @leads i j x hx hb hc ih =>
    by_cases hi : i = b
    · subst hi; exact ⟨0, .leads hx hb hc, fun _ => .done⟩
    · obtain ⟨m', h3, h4⟩ := ih (by omega) h2
      exact ⟨m', h3, fun e => .leads hx hb (h4 e)⟩
  | @trails m i j x hx hb hc ih =>
    by_cases hi : i = b
    · subst hi; exact ⟨m + 1, .trails hx hb hc, fun e => by omega⟩
    · obtain ⟨m', h3, h4⟩ := ih (by omega) h2
      exact ⟨m', h3, fun e => .trails hx hb (h4 e)⟩

theorem Spec.Chars.rest {m b e : Nat} (h : Chars s m b e) (h' : Chars s m b s.length) : Chars s 0 e s.length := by
  induction h with
  | done => exact h'
  | leads hx hb _ ih =>
    have hl := (List.getElem?_eq_some_iff.1 hx).1
    generalize hn : s.length = n at h' hl ⊢
    cases h' with
    | done => omega
    | leads hx' _ hc => rw [hx] at hx'; cases hx'; subst hn; exact ih hc
  | trails hx hb _ ih =>
    generalize hn : s.length = n at h' ⊢
    cases h' with
    | trails hx' _ hc => subst hn; exact ih hc

theorem Spec.Utf8.undivided (hs : Utf8 s) {b e : Nat} (hbe : b < e) (h : Chars s 0 b e) (he : e ≤ s.length) : Undivided s b e := by
  obtain ⟨m, h1, h2⟩ := Chars.split hs (Nat.zero_le b) (by omega)
  have hm : m = 0 := by
    cases h with
    | done => omega
    | leads hx hb _ =>
      cases h1 with
      | done => rfl
      | leads => rfl
      | trails hx' hc _ => rw [hx] at hx'; cases hx'; exact absurd hc (leads_not_trails hb)
  subst hm
  exact ⟨h2 rfl, h, h.rest h1⟩

/-! ## Case -/

theorem charEq_byte {i : Bool} {c x : Byte} (h : CharEq i c x) : c = x ∨ (Ascii c ∧ Ascii x) := by
  rcases h with rfl | ⟨_, h⟩
  · exact .inl rfl
  · rw [asciiLower_eq_iff] at h
    rcases h with rfl | ⟨ha, rfl⟩
    · exact .inl rfl
    · have key : ∀ y : Byte, isAlpha y = true → y.toNat < 128 ∧ (flipLowercaseBit y).toNat < 128 := by decide +kernel
      exact .inr (key _ ha)

theorem ascii_leads {x : Byte} (h : Ascii x) : Leads x ∧ missing x = 0 := by
  unfold Ascii at h
  exact ⟨.inl h, by unfold missing; rw [if_pos (by omega)]⟩

theorem charEq_leads {i : Bool} {c x : Byte} (h : CharEq i c x) (hc : Leads c) : Leads x ∧ missing x = missing c := by
  rcases charEq_byte h with rfl | ⟨h1, h2⟩
  · exact ⟨hc, rfl⟩
  · exact ⟨(ascii_leads h2).1, by rw [(ascii_leads h1).2, (ascii_leads h2).2]⟩

theorem charEq_trails {i : Bool} {c x : Byte} (h : CharEq i c x) (hc : Trails c) : Trails x := by
  rcases charEq_byte h with rfl | ⟨h1, _⟩
  · exact hc
  · exact absurd (leads_not_trails (ascii_leads h1).1 hc) id

theorem chars_ascii {i : Nat} (h : CharAt s i Ascii) : Chars s 0 i (i + 1) := by
  obtain ⟨x, hx, ha⟩ := h
  exact .leads hx (ascii_leads ha).1 (by rw [(ascii_leads ha).2]; exact .done)

theorem sameChar_charEq {i : Bool} {x y : Byte} (h : sameChar i x y = true) : CharEq i x y := by
  simpa [sameChar, CharEq] using h

/-- A copy of whole characters consists of whole characters. -/
theorem Spec.Chars.copy {m b e : Nat} (h : Chars s m b e) {ic : Bool} {i j : Nat} (hc : Copied ic s b e i j) : Chars s m i j := by
  induction h generalizing i with
  | @done b =>
    obtain ⟨n, h1, h2, _⟩ := hc
    have : n = 0 := by omega
    subst this; subst h2; exact .done
  | @leads b e x hx hb hr ih =>
    obtain ⟨n, h1, h2, h3⟩ := hc
    have hle := hr.le
    obtain ⟨x', y, hx', hy, hs⟩ := h3 0 (by omega)
    rw [Nat.add_zero] at hx' hy
    rw [hx] at hx'; cases hx'
    have hxy := charEq_leads (sameChar_charEq hs) hb
    refine .leads hy hxy.1 ?_
    rw [hxy.2]
    refine ih ⟨n - 1, by omega, by omega, fun k hk => ?_⟩
    obtain ⟨x', y', h4, h5, h6⟩ := h3 (k + 1) (by omega)
    exact ⟨x', y', by rw [← h4]; congr 1; omega, by rw [← h5]; congr 1; omega, h6⟩
  | @trails m b e x hx hb hr ih =>
    obtain ⟨n, h1, h2, h3⟩ := hc
    have hle := hr.le
    obtain ⟨x', y, hx', hy, hs⟩ := h3 0 (by omega)
    rw [Nat.add_zero] at hx' hy
    rw [hx] at hx'; cases hx'
    refine .trails hy (charEq_trails (sameChar_charEq hs) hb) ?_
    refine ih ⟨n - 1, by omega, by omega, fun k hk => ?_⟩
    obtain ⟨x', y', h4, h5, h6⟩ := h3 (k + 1) (by omega)
    exact ⟨x', y', by rw [← h4]; congr 1; omega, by rw [← h5]; congr 1; omega, h6⟩

/-! ## Expressions -/

variable {f : Flags} {ν : List Byte → Nat} {A : Ast}

theorem wholeSeq_replicate {a : Ast} (h : Whole a) (k : Nat) : WholeSeq 0 (List.replicate k a) := by
  induction k with
  | zero => exact .nil
  | succ k ih => exact .part h ih

/-- Composed expressions for one character. -/
theorem whole_character : ∀ {a : Ast} {i j : Nat}, character a = true → Matches f s a i j →
    (Whole a → Chars s 0 i j) ∧ (∀ l m, a = .seq l → WholeSeq m l → Chars s m i j) ∧ ∀ b, a = .lit b → j = i + 1 ∧ CharAt s i (CharEq f.icase b) := by
  intro a
  have one : ∀ {i j : Nat} {a : Ast}, single a = true → Matches f s a i j → Whole a → Chars s 0 i j := by
    intro i j a ha h hw
    cases hw with
    | ascii _ h2 => obtain ⟨rfl, h3⟩ := h2 _ _ _ _ h; exact chars_ascii h3
    | anchor h => rcases h with rfl | rfl | rfl | rfl | rfl <;> simp [single] at ha
    | neg => simp_all [single]
    | _ => simp [single] at ha
  match a with
  | .lit b => exact fun {_ _} _ h => ⟨one rfl h, by nofun, fun b' e => by cases e; exact h⟩
  | .range _ _ => exact fun {_ _} _ h => ⟨one rfl h, by nofun, by nofun⟩
  | .set _ => exact fun {_ _} _ h => ⟨one rfl h, by nofun, by nofun⟩
  | .neg a => exact fun {_ _} hc h => ⟨one (by simpa [character, single] using hc) h, by nofun, by nofun⟩
  | .wildcard => exact fun {_ _} _ h => ⟨fun hw => by cases hw <;> simp_all [single], by nofun, by nofun⟩
  | .seq [a] =>
    intro i j hc h
    obtain ⟨t, h, rfl⟩ := h
    have ih := whole_character (by simpa [character] using hc) h
    have hs : ∀ m, WholeSeq m [a] → Chars s m i t := by
      intro m hw
      cases hw with
      | part h1 h2 => exact ih.1 h1
      | leads h1 h2 =>
        obtain ⟨rfl, x, hx, hxb⟩ := ih.2.2 _ rfl
        have := charEq_leads hxb h1
        refine .leads hx this.1 ?_
        rw [this.2]
        revert h2
        generalize missing _ = n
        intro h2
        cases h2
        exact .done
      | trails h1 h2 =>
        obtain ⟨rfl, x, hx, hxb⟩ := ih.2.2 _ rfl
        cases h2
        exact .trails hx (charEq_trails hxb h1) .done
    refine ⟨fun hw => ?_, fun l m e hw => by cases e; exact hs m hw, by nofun⟩
    cases hw with
    | ascii h => simp [single] at h
    | anchor h => rcases h with h | h | h | h | h <;> cases h
    | seq h => exact hs 0 h
  | .alt l =>
    intro i j hc h
    refine ⟨fun hw => ?_, by nofun, by nofun⟩
    cases hw with
    | ascii h => simp [single] at h
    | anchor h => rcases h with h | h | h | h | h <;> cases h
    | alt hw =>
      simp only [character, Bool.and_eq_true] at hc
      have hc := hc.2
      clear one
      have key : ∀ l' : List Ast, (∀ a ∈ l', a ∈ l) → characters l' = true → MatchesAny f s l' i j → Chars s 0 i j := by
        intro l'
        induction l' with
        | nil => exact fun _ _ h => h.elim
        | cons b l' ih =>
          intro hm hc h
          simp only [characters, Bool.and_eq_true] at hc
          rcases h with h | h
          · have hb : b ∈ l := hm b (by simp)
            exact (whole_character hc.1 h).1 (hw b hb)
          · exact ih (fun a ha => hm a (by simp [ha])) hc.2 h
      exact key l (fun _ h => h) hc h
  | .rep m lo hi a =>
    intro i j hc h
    have hb : lo = 1 ∧ hi = .fin 1 ∧ character a = true := by unfold character at hc; split at hc <;> simp_all
    obtain ⟨rfl, rfl, hc'⟩ := hb
    refine ⟨fun hw => ?_, by nofun, by nofun⟩
    cases hw with
    | ascii h => simp [single] at h
    | anchor h => rcases h with h | h | h | h | h <;> cases h
    | rep hw =>
      obtain ⟨k, h1, h2, h⟩ := h
      have h2 : k ≤ 1 := h2
      have : k = 1 := by omega
      subst this
      obtain ⟨t, h, rfl⟩ := h
      exact (whole_character hc' h).1 hw
  | .empty | .bol | .boi | .eol | .eoi | .wordB | .backref _ | .namedBackref _ | .cap _ _ _ | .look _ _ => exact fun {_ _} hc => by simp [character] at hc
  | .seq [] => exact fun {_ _} hc => by simp [character] at hc
  | .seq (_ :: _ :: _) => exact fun {_ _} hc => by simp [character] at hc
termination_by a => sizeOf a

theorem whole_derives (hA : ∀ k body, GroupBody A k body → Whole body) {a : Ast} {i j : Nat} (h : Derives f s ν A a i j) :
    (Whole a → Chars s 0 i j) ∧ (∀ l m, a = .seq l → WholeSeq m l → Chars s m i j) ∧ ∀ b, a = .lit b → j = i + 1 ∧ CharAt s i (CharEq f.icase b) := by
  induction h with
  | @atom a i j ha h =>
    by_cases hc : character a = true
    · exact whole_character hc h
    · have hij : i = j := by
        cases a <;> simp_all [indivisible, character, Matches]
      subst hij
      refine ⟨fun _ => .done, fun l m e hw => ?_, fun b e => ?_⟩
      · subst e; simp_all [indivisible]
      · subst e; simp [character] at hc
  | neg => exact ⟨fun _ => .done, by nofun, by nofun⟩
  | nil =>
    refine ⟨fun _ => .done, fun l m e hw => ?_, by nofun⟩
    cases e; cases hw; exact .done
  | @cons a l i t j _ _ ih1 ih2 =>
    have hs : ∀ m, WholeSeq m (a :: l) → Chars s m i j := by
      intro m hw
      cases hw with
      | part h1 h2 => exact (ih1.1 h1).trans (ih2.2.1 _ _ rfl h2)
      | leads h1 h2 =>
        obtain ⟨rfl, x, hx, hxb⟩ := ih1.2.2 _ rfl
        have := charEq_leads hxb h1
        exact .leads hx this.1 (by rw [this.2]; exact ih2.2.1 _ _ rfl h2)
      | trails h1 h2 =>
        obtain ⟨rfl, x, hx, hxb⟩ := ih1.2.2 _ rfl
        exact .trails hx (charEq_trails hxb h1) (ih2.2.1 _ _ rfl h2)
    refine ⟨fun hw => ?_, fun l' m e hw => by cases e; exact hs m hw, by nofun⟩
    cases hw with
    | ascii h => simp [single] at h
    | anchor h => rcases h with h | h | h | h | h <;> cases h
    | seq h => exact hs 0 h
  | alt hm _ ih =>
    refine ⟨fun hw => ?_, by nofun, by nofun⟩
    cases hw with
    | ascii h => simp [single] at h
    | anchor h => rcases h with h | h | h | h | h <;> cases h
    | alt h => exact ih.1 (h _ hm)
  | cap _ ih =>
    refine ⟨fun hw => ?_, by nofun, by nofun⟩
    cases hw with
    | ascii h => simp [single] at h
    | anchor h => rcases h with h | h | h | h | h <;> cases h
    | cap h => exact ih.1 h
  | @rep m lo hi a k i j _ _ _ ih =>
    refine ⟨fun hw => ?_, by nofun, by nofun⟩
    cases hw with
    | ascii h => simp [single] at h
    | anchor h => rcases h with h | h | h | h | h <;> cases h
    | rep h => exact ih.2.1 _ _ rfl (wholeSeq_replicate h k)
  | ahead => exact ⟨fun _ => .done, by nofun, by nofun⟩
  | behind => exact ⟨fun _ => .done, by nofun, by nofun⟩
  | nothing => exact ⟨fun _ => .done, by nofun, by nofun⟩
  | copy hb _ hc ih => exact ⟨fun _ => (ih.1 (hA _ _ hb)).copy hc, by nofun, by nofun⟩
  | named _ ih => exact ⟨fun _ => ih.1 .backref, by nofun, by nofun⟩

end Mregex
