import Verif.Props.Kleene
import Verif.Props.Tokens
import Verif.Spec.Unicode
import Verif.Proof.Utf8
import Verif.Proof.Kleene

/-!
# Encoded languages
-/

namespace Mregex
open Ast Spec
open scoped Computability

/-! ## Characters -/

theorem char_valid (c : Char) : c.toNat < 0xd800 ∨ (0xdfff < c.toNat ∧ c.toNat < 0x110000) := c.valid

theorem exists_char {n : Nat} (h : n < 0xd800 ∨ (0xdfff < n ∧ n < 0x110000)) : ∃ c : Char, c.toNat = n := ⟨Char.ofNatAux n h, rfl⟩

theorem utf8Char_shape (c : Char) : ∃ b t, utf8Char c = b :: t ∧ Leads b ∧ t.length = missing b ∧ ∀ x ∈ t, Trails x := by
  have hv := char_valid c
  unfold utf8Char utf8Nat
  generalize c.toNat = n at hv
  split
  · refine ⟨_, _, rfl, ?_, ?_, by simp⟩
    · unfold Leads; simp only [BitVec.toNat_ofNat]; omega
    · unfold missing; simp only [BitVec.toNat_ofNat]; rw [if_pos (by omega)]; rfl
  split
  · refine ⟨_, _, rfl, ?_, ?_, ?_⟩
    · unfold Leads; simp only [BitVec.toNat_ofNat]; omega
    · unfold missing; simp only [BitVec.toNat_ofNat]; rw [if_neg (by omega), if_pos (by omega)]; rfl
    · intro x hx
      simp only [List.map_cons, List.map_nil, List.mem_cons, List.not_mem_nil, or_false] at hx
      subst hx
      unfold Trails; simp only [BitVec.toNat_ofNat]; omega
  split
  · refine ⟨_, _, rfl, ?_, ?_, ?_⟩
    · unfold Leads; simp only [BitVec.toNat_ofNat]; omega
    · unfold missing; simp only [BitVec.toNat_ofNat]; rw [if_neg (by omega), if_neg (by omega), if_pos (by omega)]; rfl
    · intro x hx
      simp only [List.map_cons, List.map_nil, List.mem_cons, List.not_mem_nil, or_false] at hx
      unfold Trails
      rcases hx with rfl | rfl <;> simp only [BitVec.toNat_ofNat] <;> omega
  · refine ⟨_, _, rfl, ?_, ?_, ?_⟩
    · unfold Leads; simp only [BitVec.toNat_ofNat]; omega
    · unfold missing; simp only [BitVec.toNat_ofNat]; rw [if_neg (by omega), if_neg (by omega), if_neg (by omega)]; rfl
    · intro x hx
      simp only [List.map_cons, List.map_nil, List.mem_cons, List.not_mem_nil, or_false] at hx
      unfold Trails
      rcases hx with rfl | rfl | rfl <;> simp only [BitVec.toNat_ofNat] <;> omega

/-- What a byte of an encoding is. -/
theorem ofNat_inj {a b : Nat} (h : BitVec.ofNat 8 a = BitVec.ofNat 8 b) (ha : a < 256) (hb : b < 256) : a = b := by
  have := congrArg BitVec.toNat h
  simp only [BitVec.toNat_ofNat] at this
  omega

theorem utf8Char_inj {c d : Char} (h : utf8Char c = utf8Char d) : c = d := by
  have hc := char_valid c
  have hd := char_valid d
  rw [← Char.toNat_inj]
  unfold utf8Char utf8Nat at h
  generalize c.toNat = n at hc h
  generalize d.toNat = m at hd h
  split at h <;> split at h <;> try (simp only [List.map_cons, List.map_nil, List.cons.injEq, List.nil_eq, reduceCtorEq, and_false, false_and, and_true] at h)
  · exact ofNat_inj h (by omega) (by omega)
  all_goals (try split at h) <;> (try split at h) <;> try (simp only [List.map_cons, List.map_nil, List.cons.injEq, List.nil_eq, reduceCtorEq, and_false, false_and, and_true] at h)
  all_goals (try split at h) <;> (try split at h) <;> try (simp only [List.map_cons, List.map_nil, List.cons.injEq, List.nil_eq, reduceCtorEq, and_false, false_and, and_true] at h)
  · obtain ⟨h1, h2⟩ := h
    have := ofNat_inj h1 (by omega) (by omega)
    have := ofNat_inj h2 (by omega) (by omega)
    omega
  · obtain ⟨h1, h2, h3⟩ := h
    have := ofNat_inj h1 (by omega) (by omega)
    have := ofNat_inj h2 (by omega) (by omega)
    have := ofNat_inj h3 (by omega) (by omega)
    omega
  · obtain ⟨h1, h2, h3, h4⟩ := h
    have := ofNat_inj h1 (by omega) (by omega)
    have := ofNat_inj h2 (by omega) (by omega)
    have := ofNat_inj h3 (by omega) (by omega)
    have := ofNat_inj h4 (by omega) (by omega)
    omega

/-! ## Texts -/

theorem utf8_cons (c : Char) (u : List Char) : utf8 (c :: u) = utf8Char c ++ utf8 u := rfl

theorem utf8_append (u v : List Char) : utf8 (u ++ v) = utf8 u ++ utf8 v := List.flatMap_append

theorem utf8Char_split {c d : Char} {x y : List Byte} (h : utf8Char c ++ x = utf8Char d ++ y) : c = d ∧ x = y := by
  obtain ⟨b, t, h1, h2, h3, _⟩ := utf8Char_shape c
  obtain ⟨b', t', h1', h2', h3', _⟩ := utf8Char_shape d
  have hb : b = b' := by
    rw [h1, h1'] at h
    exact (List.cons.inj h).1
  have := List.append_inj h (by rw [h1, h1', List.length_cons, List.length_cons, h3, h3', hb])
  exact ⟨utf8Char_inj this.1, this.2⟩

theorem utf8_prefix {u : List Char} : ∀ {v : List Char} {rest : List Byte}, utf8 u = utf8 v ++ rest → ∃ w, u = v ++ w ∧ rest = utf8 w := by
  induction u with
  | nil =>
    intro v rest h
    cases v with
    | nil => exact ⟨[], rfl, h.symm⟩
    | cons d v =>
      obtain ⟨b, t, h1, _⟩ := utf8Char_shape d
      rw [utf8_cons, h1] at h
      simp [utf8] at h
  | cons c u ih =>
    intro v rest h
    cases v with
    | nil => exact ⟨c :: u, rfl, h.symm⟩
    | cons d v =>
      rw [utf8_cons, utf8_cons, List.append_assoc] at h
      obtain ⟨rfl, h2⟩ := utf8Char_split h
      obtain ⟨w, rfl, h3⟩ := ih h2
      exact ⟨w, rfl, h3⟩

theorem utf8_inj {u v : List Char} (h : utf8 u = utf8 v) : u = v := by
  obtain ⟨w, rfl, hw⟩ := utf8_prefix (rest := []) (h.trans (List.append_nil _).symm)
  cases w with
  | nil => simp
  | cons d w =>
    obtain ⟨b, t, h1, _⟩ := utf8Char_shape d
    rw [utf8_cons, h1] at hw
    cases hw

/-- Where characters begin. -/
theorem utf8_boundary {u : List Char} : ∀ {pre rest : List Byte} {b : Byte}, utf8 u = pre ++ b :: rest → Leads b → ∃ x y, u = x ++ y ∧ pre = utf8 x ∧ b :: rest = utf8 y := by
  induction u with
  | nil => intro pre rest b h; simp [utf8] at h
  | cons c u ih =>
    intro pre rest b h hb
    rw [utf8_cons] at h
    rcases List.append_eq_append_iff.1 h with ⟨p', hp, hr⟩ | ⟨p', hp, hr⟩
    · obtain ⟨x, y, rfl, hx, hy⟩ := ih hr hb
      exact ⟨c :: x, y, rfl, by rw [utf8_cons, hp, hx], hy⟩
    · cases p' with
      | nil =>
        rw [List.append_nil] at hp
        obtain ⟨x, y, rfl, hx, hy⟩ := ih (pre := []) (rest := rest) (by simpa using hr.symm) hb
        exact ⟨c :: x, y, rfl, by rw [utf8_cons, hp, ← hx, List.append_nil], hy⟩
      | cons b' p' =>
        obtain ⟨rfl, h2⟩ := List.cons.inj hr
        cases pre with
        | nil =>
          exact ⟨[], c :: u, rfl, rfl, by rw [utf8_cons, hp, h2]; rfl⟩
        | cons a pre =>
          obtain ⟨b0, t, h3, _, _, h4⟩ := utf8Char_shape c
          rw [h3] at hp
          obtain ⟨_, rfl⟩ := List.cons.inj hp
          exact absurd (h4 b (by simp)) (fun h => leads_not_trails hb h)

theorem utf8_middle {u v : List Char} {pre rest : List Byte} (h : utf8 u = pre ++ utf8 v ++ rest) (hv : v ≠ []) : ∃ x y, u = x ++ v ++ y ∧ pre = utf8 x := by
  cases v with
  | nil => exact absurd rfl hv
  | cons c v =>
    obtain ⟨b, t, h1, h2, _⟩ := utf8Char_shape c
    have h' : utf8 u = pre ++ b :: (t ++ utf8 v ++ rest) := by rw [h, utf8_cons, h1]; simp
    obtain ⟨x, y, rfl, h3, h4⟩ := utf8_boundary h' h2
    have h5 : utf8 y = utf8 (c :: v) ++ rest := by rw [← h4, utf8_cons, h1]; simp
    obtain ⟨w, rfl, _⟩ := utf8_prefix h5
    exact ⟨x, w, by simp, h3⟩

/-! ## Languages -/

/-- The encodings of the texts of a language. -/
def encoded (L : Language Char) : Language Byte := {w | ∃ u ∈ L, w = utf8 u}

theorem mem_encoded {L : Language Char} {w : List Byte} : w ∈ encoded L ↔ ∃ u ∈ L, w = utf8 u := Iff.rfl

theorem utf8_mem_encoded {L : Language Char} {u : List Char} : utf8 u ∈ encoded L ↔ u ∈ L :=
  ⟨fun ⟨v, hv, e⟩ => by rw [utf8_inj e]; exact hv, fun h => ⟨u, h, rfl⟩⟩

theorem encoded_one : encoded 1 = 1 := by
  ext w
  rw [mem_encoded, Language.mem_one]
  constructor
  · rintro ⟨u, hu, rfl⟩
    rw [Language.mem_one] at hu
    rw [hu]; rfl
  · rintro rfl
    exact ⟨[], Language.nil_mem_one, rfl⟩

theorem encoded_zero : encoded 0 = 0 := by
  ext w
  rw [mem_encoded]
  constructor
  · rintro ⟨u, hu, rfl⟩
    exact absurd hu (Language.notMem_zero _)
  · intro h
    exact absurd h (Language.notMem_zero _)

theorem encoded_add (L M : Language Char) : encoded (L + M) = encoded L + encoded M := by
  ext w
  rw [Language.mem_add, mem_encoded, mem_encoded, mem_encoded]
  constructor
  · rintro ⟨u, hu | hu, rfl⟩
    · exact .inl ⟨u, hu, rfl⟩
    · exact .inr ⟨u, hu, rfl⟩
  · rintro (⟨u, hu, rfl⟩ | ⟨u, hu, rfl⟩)
    · exact ⟨u, .inl hu, rfl⟩
    · exact ⟨u, .inr hu, rfl⟩

theorem encoded_mul (L M : Language Char) : encoded (L * M) = encoded L * encoded M := by
  ext w
  rw [Language.mem_mul, mem_encoded]
  constructor
  · rintro ⟨u, hu, rfl⟩
    obtain ⟨a, ha, b, hb, rfl⟩ := Language.mem_mul.1 hu
    exact ⟨utf8 a, ⟨a, ha, rfl⟩, utf8 b, ⟨b, hb, rfl⟩, (utf8_append a b).symm⟩
  · rintro ⟨_, ⟨a, ha, rfl⟩, _, ⟨b, hb, rfl⟩, rfl⟩
    exact ⟨a ++ b, Language.mem_mul.2 ⟨a, ha, b, hb, rfl⟩, (utf8_append a b).symm⟩

theorem encoded_pow (L : Language Char) (n : Nat) : encoded (L ^ n) = encoded L ^ n := by
  induction n with
  | zero => rw [pow_zero, pow_zero, encoded_one]
  | succ n ih => rw [pow_succ, pow_succ, encoded_mul, ih]

theorem encoded_kstar (L : Language Char) : encoded (L∗) = (encoded L)∗ := by
  ext w
  rw [mem_encoded, Language.kstar_eq_iSup_pow (l := encoded L), Language.mem_iSup]
  constructor
  · rintro ⟨u, hu, rfl⟩
    rw [Language.kstar_eq_iSup_pow, Language.mem_iSup] at hu
    obtain ⟨n, hn⟩ := hu
    exact ⟨n, by rw [← encoded_pow]; exact ⟨u, hn, rfl⟩⟩
  · rintro ⟨n, hn⟩
    rw [← encoded_pow] at hn
    obtain ⟨u, hu, rfl⟩ := hn
    exact ⟨u, by rw [Language.kstar_eq_iSup_pow, Language.mem_iSup]; exact ⟨n, hu⟩, rfl⟩

/-! ## Trees -/

theorem mem_oneOf_mul {P : Byte → Prop} {L : Language Byte} {w : List Byte} : w ∈ oneOf P * L ↔ ∃ x v, w = x :: v ∧ P x ∧ v ∈ L := by
  rw [Language.mem_mul]
  constructor
  · rintro ⟨_, ⟨x, rfl, hx⟩, v, hv, rfl⟩
    exact ⟨x, v, rfl, hx, hv⟩
  · rintro ⟨x, v, rfl, hx, hv⟩
    exact ⟨[x], ⟨x, rfl, hx⟩, v, hv, rfl⟩

theorem oneOf_iff {P : Byte → Prop} {w : List Byte} : w ∈ oneOf P ↔ ∃ x, w = [x] ∧ P x := Iff.rfl

theorem toLower_toNat (c : Char) : c.toLower.toNat = if 65 ≤ c.toNat ∧ c.toNat ≤ 90 then c.toNat + 32 else c.toNat := by
  unfold Char.toLower
  split
  · rename_i h
    have h1 : 65 ≤ c.toNat := h.1
    have h2 : c.toNat ≤ 90 := h.2
    rw [if_pos ⟨h1, h2⟩]
    show (c.val + ('a'.val - 'A'.val)).toNat = _
    rw [UInt32.toNat_add]
    show (c.toNat + 32) % 2 ^ 32 = _
    omega
  · rename_i h
    rw [if_neg (fun hc => h ⟨hc.1, hc.2⟩)]

/-- Characters of ASCII and their bytes. -/
theorem sameChar_iff {i : Bool} {c d : Char} (hc : c.toNat < 128) (hd : d.toNat < 128) : SameChar i c d ↔ CharEq i (BitVec.ofNat 8 c.toNat) (BitVec.ofNat 8 d.toNat) := by
  unfold SameChar CharEq
  have h1 : c = d ↔ BitVec.ofNat 8 c.toNat = BitVec.ofNat 8 d.toNat :=
    ⟨fun h => by rw [h], fun h => Char.toNat_inj.1 (ofNat_inj h (by omega) (by omega))⟩
  have h2 : c.toLower = d.toLower ↔ asciiLower (BitVec.ofNat 8 c.toNat) = asciiLower (BitVec.ofNat 8 d.toNat) := by
    rw [← Char.toNat_inj, toLower_toNat, toLower_toNat]
    generalize c.toNat = n at hc
    generalize d.toNat = m at hd
    have key : ∀ n, n < 128 → asciiLower (BitVec.ofNat 8 n) = BitVec.ofNat 8 (if 65 ≤ n ∧ n ≤ 90 then n + 32 else n) := by
      intro n hn
      unfold asciiLower
      have : (BitVec.ofNat 8 n).toNat = n := by rw [BitVec.toNat_ofNat]; omega
      rw [this]
      split
      · apply BitVec.eq_of_toNat_eq
        rw [BitVec.toNat_add, this]
        simp only [BitVec.toNat_ofNat]
      · rfl
    rw [key n hc, key m hd]
    constructor
    · intro h; rw [h]
    · intro h; exact ofNat_inj h (by split <;> omega) (by split <;> omega)
  rw [h1, h2]

theorem sameChar_high {i : Bool} {c d : Char} (h : SameChar i c d) : c = d ∨ (c.toNat < 128 ∧ d.toNat < 128) := by
  rcases h with h | ⟨_, h⟩
  · exact .inl h
  · rw [← Char.toNat_inj, toLower_toNat, toLower_toNat] at h
    rw [← Char.toNat_inj]
    split at h <;> split at h <;> omega

theorem utf8Char_ascii {c : Char} (h : c.toNat < 128) : utf8Char c = [BitVec.ofNat 8 c.toNat] := by
  unfold utf8Char utf8Nat
  rw [if_pos h]; rfl

theorem utf8Char_high {c : Char} (h : ¬c.toNat < 128) : (∀ b ∈ utf8Char c, ¬Ascii b) ∧ ∃ a b t, utf8Char c = a :: b :: t := by
  have hv := char_valid c
  unfold utf8Char utf8Nat
  rw [if_neg h]
  generalize c.toNat = n at hv h
  unfold Ascii
  split
  · refine ⟨fun x hx => ?_, _, _, _, rfl⟩
    simp only [List.map_cons, List.map_nil, List.mem_cons, List.not_mem_nil, or_false] at hx
    rcases hx with rfl | rfl <;> simp only [BitVec.toNat_ofNat] <;> omega
  split
  · refine ⟨fun x hx => ?_, _, _, _, rfl⟩
    simp only [List.map_cons, List.map_nil, List.mem_cons, List.not_mem_nil, or_false] at hx
    rcases hx with rfl | rfl | rfl <;> simp only [BitVec.toNat_ofNat] <;> omega
  · refine ⟨fun x hx => ?_, _, _, _, rfl⟩
    simp only [List.map_cons, List.map_nil, List.mem_cons, List.not_mem_nil, or_false] at hx
    rcases hx with rfl | rfl | rfl | rfl <;> simp only [BitVec.toNat_ofNat] <;> omega

theorem denote_bytes {f : Flags} : ∀ {l : List Byte}, (∀ b ∈ l, ¬Ascii b) → ∀ w, w ∈ denoteAll f (l.map .lit) ↔ w = l
  | [], _, w => by simp only [List.map_nil, denoteAll, Language.mem_one]
  | b :: l, h, w => by
    simp only [List.map_cons, denoteAll, denote, mem_oneOf_mul]
    constructor
    · rintro ⟨x, v, rfl, hx, hv⟩
      rw [(denote_bytes (fun b hb => h b (by simp [hb])) v).1 hv]
      rcases charEq_byte hx with rfl | hx
      · rfl
      · exact absurd hx.1 (h b (by simp))
    · rintro rfl
      exact ⟨b, l, rfl, .inl rfl, (denote_bytes (fun b hb => h b (by simp [hb])) l).2 rfl⟩

theorem denote_char (f : Flags) (c : Char) : denote f (charTree (utf8Char c)) = encoded (letterOf (SameChar f.icase c)) := by
  ext w
  rw [mem_encoded]
  by_cases hc : c.toNat < 128
  · rw [utf8Char_ascii hc]
    simp only [charTree, denote, oneOf_iff]
    constructor
    · rintro ⟨x, rfl, hx⟩
      have hx' : x.toNat < 128 := by
        rcases charEq_byte hx with rfl | h
        · simp only [BitVec.toNat_ofNat]; omega
        · exact h.2
      obtain ⟨d, hd⟩ := exists_char (n := x.toNat) (by omega)
      have hb : BitVec.ofNat 8 d.toNat = x := by rw [hd]; simp
      refine ⟨[d], ⟨d, rfl, (sameChar_iff hc (by omega)).2 (by rw [hb]; exact hx)⟩, ?_⟩
      rw [utf8_cons, utf8Char_ascii (by omega), hb]; rfl
    · rintro ⟨_, ⟨d, rfl, hd⟩, rfl⟩
      have hd' : d.toNat < 128 := by
        rcases sameChar_high hd with rfl | h
        · exact hc
        · exact h.2
      exact ⟨_, by rw [utf8_cons, utf8Char_ascii hd']; rfl, (sameChar_iff hc hd').1 hd⟩
  · obtain ⟨h1, a, b, t, h2⟩ := utf8Char_high hc
    have h3 : charTree (utf8Char c) = .seq ((utf8Char c).map .lit) := by rw [h2]; rfl
    rw [h3]
    simp only [denote]
    rw [denote_bytes h1]
    constructor
    · rintro rfl
      exact ⟨[c], ⟨c, rfl, .inl rfl⟩, by simp [utf8]⟩
    · rintro ⟨_, ⟨d, rfl, hd⟩, rfl⟩
      rcases sameChar_high hd with rfl | h
      · simp [utf8]
      · exact absurd h.1 hc

theorem denoteAny_iff {f : Flags} {w : List Byte} : ∀ {l : List Ast}, w ∈ denoteAny f l ↔ ∃ a ∈ l, w ∈ denote f a
  | [] => by simp [denoteAny, Language.notMem_zero]
  | a :: l => by simp only [denoteAny, Language.mem_add, denoteAny_iff (l := l), List.mem_cons, exists_eq_or_imp]

theorem denote_ascii (f : Flags) {l : List (Char × Char)} (hl : ∀ r ∈ l, r.1.toNat ≤ r.2.toNat ∧ r.2.toNat < 128) :
    denote f (UExpr.ascii l).tree = encoded ((UExpr.ascii l).lang f.icase) := by
  ext w
  rw [mem_encoded]
  simp only [UExpr.tree, UExpr.lang, denote]
  constructor
  · rintro ⟨_, h⟩
    obtain ⟨a, ha, h⟩ := denoteAny_iff.1 h
    obtain ⟨r, hr, rfl⟩ := List.mem_map.1 ha
    have hr2 := hl r hr
    simp only [denote] at h
    obtain ⟨x, rfl, y, h1, h2, h3⟩ := oneOf_iff.1 h
    simp only [BitVec.toNat_ofNat] at h1 h2
    have hy : y.toNat < 128 := by omega
    have hx : x.toNat < 128 := by
      rcases charEq_byte h3 with rfl | h
      · exact hy
      · exact h.2
    obtain ⟨d, hd⟩ := exists_char (n := x.toNat) (by omega)
    obtain ⟨c, hc⟩ := exists_char (n := y.toNat) (by omega)
    have hdb : BitVec.ofNat 8 d.toNat = x := by rw [hd]; simp
    have hcb : BitVec.ofNat 8 c.toNat = y := by rw [hc]; simp
    refine ⟨[d], ⟨d, rfl, r, hr, c, by omega, by omega, (sameChar_iff (by omega) (by omega)).2 (by rw [hcb, hdb]; exact h3)⟩, ?_⟩
    rw [utf8_cons, utf8Char_ascii (by omega), hdb]; rfl
  · rintro ⟨_, ⟨d, rfl, r, hr, y, h1, h2, h3⟩, rfl⟩
    have hr2 := hl r hr
    have hd : d.toNat < 128 := by
      rcases sameChar_high h3 with rfl | h
      · omega
      · exact h.2
    have e : utf8 [d] = [BitVec.ofNat 8 d.toNat] := by rw [utf8_cons, utf8Char_ascii hd]; rfl
    rw [e]
    refine ⟨⟨_, rfl, trivial⟩, denoteAny_iff.2 ⟨_, List.mem_map.2 ⟨r, hr, rfl⟩, ?_⟩⟩
    simp only [denote]
    refine ⟨_, rfl, BitVec.ofNat 8 y.toNat, ?_, ?_, (sameChar_iff (by omega) hd).1 h3⟩ <;> simp only [BitVec.toNat_ofNat] <;> omega

/-- Ranges of bytes beyond ASCII. -/
theorem range_high {i : Bool} {a b : Nat} {x : Byte} (ha : 128 ≤ a) : (∃ y : Byte, a ≤ y.toNat ∧ y.toNat ≤ b ∧ CharEq i y x) ↔ a ≤ x.toNat ∧ x.toNat ≤ b := by
  constructor
  · rintro ⟨y, h1, h2, h3⟩
    rcases charEq_byte h3 with rfl | h
    · exact ⟨h1, h2⟩
    · have : y.toNat < 128 := h.1
      omega
  · rintro ⟨h1, h2⟩
    exact ⟨x, h1, h2, .inl rfl⟩

theorem lit_high {i : Bool} {a x : Byte} (ha : 128 ≤ a.toNat) : CharEq i a x ↔ x.toNat = a.toNat := by
  constructor
  · intro h
    rcases charEq_byte h with rfl | h
    · rfl
    · have : a.toNat < 128 := h.1
      omega
  · intro h
    exact .inl (BitVec.eq_of_toNat_eq h.symm)

theorem range_low {i : Bool} {x : Byte} : (∃ y : Byte, 0 ≤ y.toNat ∧ y.toNat ≤ 127 ∧ CharEq i y x) ↔ x.toNat < 128 := by
  constructor
  · rintro ⟨y, _, h2, h3⟩
    rcases charEq_byte h3 with rfl | h
    · omega
    · exact h.2
  · intro h
    exact ⟨x, Nat.zero_le _, by omega, .inl rfl⟩

/-- A character and its bytes, as numbers. -/
theorem utf8Char_iff {c : Char} {w : List Byte} : w = utf8Char c ↔ w.map BitVec.toNat = utf8Nat c.toNat := by
  have hv := char_valid c
  have hb : ∀ n ∈ utf8Nat c.toNat, n < 256 := by
    generalize c.toNat = n at hv
    unfold utf8Nat
    intro m hm
    split at hm
    · simp only [List.mem_cons, List.not_mem_nil, or_false] at hm; omega
    split at hm
    · simp only [List.mem_cons, List.not_mem_nil, or_false] at hm; omega
    split at hm
    · simp only [List.mem_cons, List.not_mem_nil, or_false] at hm; omega
    · simp only [List.mem_cons, List.not_mem_nil, or_false] at hm; omega
  unfold utf8Char
  generalize utf8Nat c.toNat = l at hb
  constructor
  · rintro rfl
    rw [List.map_map]
    conv => rhs; rw [← List.map_id l]
    refine List.map_congr_left fun n hn => ?_
    have := hb n hn
    simp only [Function.comp_apply, BitVec.toNat_ofNat, id_eq]
    omega
  · rintro rfl
    rw [List.map_map]
    conv => lhs; rw [← List.map_id w]
    refine List.map_congr_left fun n hn => ?_
    simp

theorem denote_byteSet (f : Flags) (a b : Byte) : denote f (byteSet a b) = oneOf fun x => ∃ y : Byte, a.toNat ≤ y.toNat ∧ y.toNat ≤ b.toNat ∧ CharEq f.icase y x := by
  ext w
  simp only [byteSet, denote, denoteAny, add_zero]
  exact ⟨fun h => h.2, fun h => ⟨by obtain ⟨x, hx, _⟩ := h; exact ⟨x, hx, trivial⟩, h⟩⟩

/-- The texts of `anyTree`. -/
theorem denote_any_cases {f : Flags} {w : List Byte} : w ∈ denote f anyTree ↔
    (∃ x, w = [x] ∧ x.toNat < 128) ∨
    (∃ x y, w = [x, y] ∧ (0xC2 ≤ x.toNat ∧ x.toNat ≤ 0xDF) ∧ (0x80 ≤ y.toNat ∧ y.toNat ≤ 0xBF)) ∨
    (∃ x y z, w = [x, y, z] ∧ ((x.toNat = 0xE0 ∧ 0xA0 ≤ y.toNat ∧ y.toNat ≤ 0xBF) ∨ ((0xE1 ≤ x.toNat ∧ x.toNat ≤ 0xEC) ∧ 0x80 ≤ y.toNat ∧ y.toNat ≤ 0xBF) ∨
      (x.toNat = 0xED ∧ 0x80 ≤ y.toNat ∧ y.toNat ≤ 0x9F) ∨ ((0xEE ≤ x.toNat ∧ x.toNat ≤ 0xEF) ∧ 0x80 ≤ y.toNat ∧ y.toNat ≤ 0xBF)) ∧ (0x80 ≤ z.toNat ∧ z.toNat ≤ 0xBF)) ∨
    (∃ x y z v, w = [x, y, z, v] ∧ ((x.toNat = 0xF0 ∧ 0x90 ≤ y.toNat ∧ y.toNat ≤ 0xBF) ∨ ((0xF1 ≤ x.toNat ∧ x.toNat ≤ 0xF3) ∧ 0x80 ≤ y.toNat ∧ y.toNat ≤ 0xBF) ∨
      (x.toNat = 0xF4 ∧ 0x80 ≤ y.toNat ∧ y.toNat ≤ 0x8F)) ∧ (0x80 ≤ z.toNat ∧ z.toNat ≤ 0xBF) ∧ (0x80 ≤ v.toNat ∧ v.toNat ≤ 0xBF)) := by
  simp only [anyTree, trailTree, denote_byteSet, denote, denoteAny, denoteAll, Language.mem_add, mem_oneOf_mul, oneOf_iff, Language.mem_one, Language.notMem_zero, or_false]
  simp (discharger := decide) only [range_high, lit_high, range_low, BitVec.toNat_ofNat, Nat.reducePow, Nat.reduceMod]
  constructor
  · intro h
    rcases h with ⟨x, h1, h2⟩ | h | h | h | h | h | h | h | h
    · exact .inl ⟨x, h1, h2⟩
    · obtain ⟨x, _, rfl, hx, y, _, rfl, hy, rfl⟩ := h
      exact .inr (.inl ⟨x, y, rfl, hx, hy⟩)
    · obtain ⟨x, _, rfl, hx, y, _, rfl, hy, z, _, rfl, hz, rfl⟩ := h
      exact .inr (.inr (.inl ⟨x, y, z, rfl, .inl ⟨hx, hy⟩, hz⟩))
    · obtain ⟨x, _, rfl, hx, y, _, rfl, hy, z, _, rfl, hz, rfl⟩ := h
      exact .inr (.inr (.inl ⟨x, y, z, rfl, .inr (.inl ⟨hx, hy⟩), hz⟩))
    · obtain ⟨x, _, rfl, hx, y, _, rfl, hy, z, _, rfl, hz, rfl⟩ := h
      exact .inr (.inr (.inl ⟨x, y, z, rfl, .inr (.inr (.inl ⟨hx, hy⟩)), hz⟩))
    · obtain ⟨x, _, rfl, hx, y, _, rfl, hy, z, _, rfl, hz, rfl⟩ := h
      exact .inr (.inr (.inl ⟨x, y, z, rfl, .inr (.inr (.inr ⟨hx, hy⟩)), hz⟩))
    · obtain ⟨x, _, rfl, hx, y, _, rfl, hy, z, _, rfl, hz, v, _, rfl, hv, rfl⟩ := h
      exact .inr (.inr (.inr ⟨x, y, z, v, rfl, .inl ⟨hx, hy⟩, hz, hv⟩))
    · obtain ⟨x, _, rfl, hx, y, _, rfl, hy, z, _, rfl, hz, v, _, rfl, hv, rfl⟩ := h
      exact .inr (.inr (.inr ⟨x, y, z, v, rfl, .inr (.inl ⟨hx, hy⟩), hz, hv⟩))
    · obtain ⟨x, _, rfl, hx, y, _, rfl, hy, z, _, rfl, hz, v, _, rfl, hv, rfl⟩ := h
      exact .inr (.inr (.inr ⟨x, y, z, v, rfl, .inr (.inr ⟨hx, hy⟩), hz, hv⟩))
  · rintro (⟨x, rfl, hx⟩ | ⟨x, y, rfl, hx, hy⟩ | ⟨x, y, z, rfl, h, hz⟩ | ⟨x, y, z, v, rfl, h, hz, hv⟩)
    · exact .inl ⟨x, rfl, hx⟩
    · exact .inr (.inl ⟨x, _, rfl, hx, y, _, rfl, hy, rfl⟩)
    · rcases h with ⟨hx, hy⟩ | ⟨hx, hy⟩ | ⟨hx, hy⟩ | ⟨hx, hy⟩
      · exact .inr (.inr (.inl ⟨x, _, rfl, hx, y, _, rfl, hy, z, _, rfl, hz, rfl⟩))
      · exact .inr (.inr (.inr (.inl ⟨x, _, rfl, hx, y, _, rfl, hy, z, _, rfl, hz, rfl⟩)))
      · exact .inr (.inr (.inr (.inr (.inl ⟨x, _, rfl, hx, y, _, rfl, hy, z, _, rfl, hz, rfl⟩))))
      · exact .inr (.inr (.inr (.inr (.inr (.inl ⟨x, _, rfl, hx, y, _, rfl, hy, z, _, rfl, hz, rfl⟩)))))
    · rcases h with ⟨hx, hy⟩ | ⟨hx, hy⟩ | ⟨hx, hy⟩
      · exact .inr (.inr (.inr (.inr (.inr (.inr (.inl ⟨x, _, rfl, hx, y, _, rfl, hy, z, _, rfl, hz, v, _, rfl, hv, rfl⟩))))))
      · exact .inr (.inr (.inr (.inr (.inr (.inr (.inr (.inl ⟨x, _, rfl, hx, y, _, rfl, hy, z, _, rfl, hz, v, _, rfl, hv, rfl⟩)))))))
      · exact .inr (.inr (.inr (.inr (.inr (.inr (.inr (.inr ⟨x, _, rfl, hx, y, _, rfl, hy, z, _, rfl, hz, v, _, rfl, hv, rfl⟩)))))))

/-- `anyTree` describes exactly the encodings of single characters. -/
theorem denote_anyTree (f : Flags) : denote f anyTree = encoded (letterOf fun _ => True) := by
  ext w
  rw [mem_encoded, denote_any_cases]
  constructor
  · intro h
    have key : ∀ n : Nat, (n < 0xd800 ∨ (0xdfff < n ∧ n < 0x110000)) → w.map BitVec.toNat = utf8Nat n →
        ∃ u, u ∈ letterOf (fun _ => True) ∧ w = utf8 u := by
      intro n hn hw
      obtain ⟨c, hc⟩ := exists_char hn
      refine ⟨[c], ⟨c, rfl, trivial⟩, ?_⟩
      have : w = utf8Char c := utf8Char_iff.2 (by rw [hc]; exact hw)
      rw [utf8_cons, ← this]
      simp [utf8]
    rcases h with ⟨x, rfl, hx⟩ | ⟨x, y, rfl, hx, hy⟩ | ⟨x, y, z, rfl, h, hz⟩ | ⟨x, y, z, v, rfl, h, hz, hv⟩
    · refine key x.toNat (by omega) ?_
      simp [utf8Nat, hx]
    · refine key ((x.toNat - 0xC0) * 64 + (y.toNat - 0x80)) (by omega) ?_
      rw [utf8Nat, if_neg (by omega), if_pos (by omega)]
      simp only [List.map_cons, List.map_nil, List.cons.injEq, and_true]
      omega
    · refine key ((x.toNat - 0xE0) * 4096 + (y.toNat - 0x80) * 64 + (z.toNat - 0x80)) (by omega) ?_
      rw [utf8Nat, if_neg (by omega), if_neg (by omega), if_pos (by omega)]
      simp only [List.map_cons, List.map_nil, List.cons.injEq, and_true]
      omega
    · refine key ((x.toNat - 0xF0) * 262144 + (y.toNat - 0x80) * 4096 + (z.toNat - 0x80) * 64 + (v.toNat - 0x80)) (by omega) ?_
      rw [utf8Nat, if_neg (by omega), if_neg (by omega), if_neg (by omega)]
      simp only [List.map_cons, List.map_nil, List.cons.injEq, and_true]
      omega
  · rintro ⟨_, ⟨c, rfl, _⟩, rfl⟩
    have hw : utf8 [c] = utf8Char c := by simp [utf8]
    rw [hw]
    have hv := char_valid c
    have h := (utf8Char_iff (c := c)).1 rfl
    generalize utf8Char c = w at h
    generalize c.toNat = n at h hv
    unfold utf8Nat at h
    split at h
    · obtain ⟨x, t, rfl, hx, h⟩ := List.map_eq_cons_iff.1 h
      obtain rfl := List.map_eq_nil_iff.1 h
      exact .inl ⟨x, rfl, by omega⟩
    · split at h
      · obtain ⟨x, t, rfl, hx, h⟩ := List.map_eq_cons_iff.1 h
        obtain ⟨y, t, rfl, hy, h⟩ := List.map_eq_cons_iff.1 h
        obtain rfl := List.map_eq_nil_iff.1 h
        exact .inr (.inl ⟨x, y, rfl, by omega, by omega⟩)
      · split at h
        · obtain ⟨x, t, rfl, hx, h⟩ := List.map_eq_cons_iff.1 h
          obtain ⟨y, t, rfl, hy, h⟩ := List.map_eq_cons_iff.1 h
          obtain ⟨z, t, rfl, hz, h⟩ := List.map_eq_cons_iff.1 h
          obtain rfl := List.map_eq_nil_iff.1 h
          exact .inr (.inr (.inl ⟨x, y, z, rfl, by omega, by omega⟩))
        · obtain ⟨x, t, rfl, hx, h⟩ := List.map_eq_cons_iff.1 h
          obtain ⟨y, t, rfl, hy, h⟩ := List.map_eq_cons_iff.1 h
          obtain ⟨z, t, rfl, hz, h⟩ := List.map_eq_cons_iff.1 h
          obtain ⟨v, t, rfl, hu, h⟩ := List.map_eq_cons_iff.1 h
          obtain rfl := List.map_eq_nil_iff.1 h
          exact .inr (.inr (.inr ⟨x, y, z, v, rfl, by omega, by omega, by omega⟩))

/-- The tree describes the encodings of the texts that the expression describes. -/
theorem denote_tree (f : Flags) : ∀ {e : UExpr}, e.Fine → denote f e.tree = encoded (e.lang f.icase)
  | .empty, _ => by simp only [UExpr.tree, denote, UExpr.lang, encoded_one]
  | .char c, _ => denote_char f c
  | .ascii _, h => denote_ascii f h
  | .any, _ => denote_anyTree f
  | .cat a b, h => by
    simp only [UExpr.tree, denote, denoteAll, UExpr.lang, encoded_mul, denote_tree f h.1, denote_tree f h.2, mul_one]
  | .alt a b, h => by
    simp only [UExpr.tree, denote, denoteAny, UExpr.lang, encoded_add, denote_tree f h.1, denote_tree f h.2, add_zero]
  | .rep m lo .inf a, h => by
    simp only [UExpr.tree, denote, UExpr.lang, encoded_mul, encoded_pow, encoded_kstar, denote_tree f h.2]
  | .rep m lo (.fin hi) a, h => by
    simp only [UExpr.tree, denote, UExpr.lang, denote_tree f h.2]
    split
    · rw [encoded_mul, encoded_pow, encoded_pow, encoded_add, encoded_one]
    · rw [encoded_zero]
  | .group _ _ a, h => by simp only [UExpr.tree, denote, UExpr.lang]; exact denote_tree f (e := a) h

theorem noPossessive_charTree (w : List Byte) : selfContained (charTree w) = true ∧ noPossessive (charTree w) = true := by
  match w with
  | [] => exact ⟨rfl, rfl⟩
  | [b] => exact ⟨rfl, rfl⟩
  | a :: b :: l =>
    simp only [charTree, selfContained, noPossessive]
    generalize a :: b :: l = w
    induction w with
    | nil => exact ⟨rfl, rfl⟩
    | cons x w ih => simpa [selfContainedAll, noPossessiveAll, selfContained, noPossessive] using ih

theorem noPossessive_ranges (l : List (Char × Char)) : selfContained (UExpr.ascii l).tree = true ∧ noPossessive (UExpr.ascii l).tree = true := by
  simp only [UExpr.tree, selfContained, noPossessive]
  induction l with
  | nil => exact ⟨rfl, rfl⟩
  | cons x w ih => simpa [selfContainedAll, noPossessiveAll, selfContained, noPossessive] using ih

theorem simple_tree : ∀ {e : UExpr}, e.Fine → selfContained e.tree = true ∧ noPossessive e.tree = true
  | .empty, _ => ⟨rfl, rfl⟩
  | .char c, _ => noPossessive_charTree _
  | .ascii l, _ => noPossessive_ranges l
  | .any, _ => ⟨rfl, rfl⟩
  | .cat a b, h => by simp [UExpr.tree, selfContained, selfContainedAll, noPossessive, noPossessiveAll, simple_tree h.1, simple_tree h.2]
  | .alt a b, h => by simp [UExpr.tree, selfContained, selfContainedAll, noPossessive, noPossessiveAll, simple_tree h.1, simple_tree h.2]
  | .rep m lo hi a, h => by
    have := h.1
    simp [UExpr.tree, selfContained, noPossessive, simple_tree h.2, this]
  | .group _ _ a, h => by simp only [UExpr.tree, selfContained, noPossessive]; exact simple_tree (e := a) h

theorem utf8_ne_nil {u : List Char} (h : u ≠ []) : utf8 u ≠ [] := by
  cases u with
  | nil => exact absurd rfl h
  | cons c u =>
    obtain ⟨b, t, ht, _⟩ := utf8Char_shape c
    rw [utf8_cons, ht]
    exact fun h => by cases h

/-- Parts of a text in UTF-8. -/
theorem matches_tree {f : Flags} {e : UExpr} (he : e.Fine) {s pre w post : List Byte} (hs : s = pre ++ w ++ post) :
    Matches f s e.tree pre.length (pre.length + w.length) ↔ w ∈ encoded (e.lang f.icase) := by
  subst hs
  rw [mem_denote_window (simple_tree he).1, denote_tree f he]

/-- Of two prefixes, the one with the shorter encoding is a prefix of the other. -/
theorem utf8_prefix_le {u x y : List Char} (hx : x <+: u) (hy : y <+: u) (h : (utf8 x).length ≤ (utf8 y).length) : ∃ t, y = x ++ t := by
  rcases Nat.le_total x.length y.length with hl | hl
  · obtain ⟨t, ht⟩ := List.prefix_of_prefix_length_le hx hy hl
    exact ⟨t, ht.symm⟩
  · obtain ⟨t, rfl⟩ := List.prefix_of_prefix_length_le hy hx hl
    rw [utf8_append, List.length_append] at h
    have : t = [] := by
      by_cases ht : t = []
      · exact ht
      · have := List.length_pos_iff.2 (utf8_ne_nil ht)
        omega
    subst this
    exact ⟨[], by simp⟩

/-- Nonempty parts that the tree describes are parts of the text. -/
theorem piece_of_matches {f : Flags} {e : UExpr} (he : e.Fine) {u : List Char} {i j : Nat} (hij : i < j) (hj : j ≤ (utf8 u).length)
    (hm : Matches f (utf8 u) e.tree i j) : ∃ x v y, u = x ++ v ++ y ∧ v ∈ e.lang f.icase ∧ v ≠ [] ∧ (utf8 x).length = i ∧ (utf8 x).length + (utf8 v).length = j := by
  have e1 : (utf8 u).take i ++ ((utf8 u).drop i).take (j - i) ++ (utf8 u).drop j = utf8 u := by
    have : (utf8 u).drop j = ((utf8 u).drop i).drop (j - i) := by rw [List.drop_drop]; congr 1; omega
    rw [this, List.append_assoc, List.take_append_drop, List.take_append_drop]
  have e2 : ((utf8 u).take i).length = i := by simp; omega
  have e3 : (((utf8 u).drop i).take (j - i)).length = j - i := by simp; omega
  have := (matches_tree he e1.symm).1 (by rw [e2, e3, show i + (j - i) = j by omega]; exact hm)
  obtain ⟨v, hv, hv'⟩ := (mem_encoded).1 this
  have hvj : (utf8 v).length = j - i := by rw [← hv', e3]
  have hne : v ≠ [] := by rintro rfl; simp [utf8] at hvj; omega
  rw [hv'] at e1
  obtain ⟨x, y, hu, hx⟩ := utf8_middle e1.symm hne
  have hxi : (utf8 x).length = i := by rw [← hx, e2]
  exact ⟨x, v, y, hu, hv, hne, hxi, by omega⟩

theorem matches_piece {f : Flags} {e : UExpr} (he : e.Fine) {u x v y : List Char} (hu : u = x ++ v ++ y) (hv : v ∈ e.lang f.icase) :
    Matches f (utf8 u) e.tree (utf8 x).length ((utf8 x).length + (utf8 v).length) :=
  (matches_tree he (post := utf8 y) (by rw [hu, utf8_append, utf8_append])).2 (utf8_mem_encoded.2 hv)

/-- Empty parts. -/
theorem nil_of_matches {f : Flags} {e : UExpr} (he : e.Fine) {s : List Byte} {i : Nat} (hi : i ≤ s.length) (hm : Matches f s e.tree i i) : [] ∈ e.lang f.icase := by
  have e2 : (s.take i).length = i := by simp; omega
  have := (matches_tree (f := f) he (s := s) (pre := s.take i) (w := []) (post := s.drop i) (by simp)).1 (by rw [e2]; simpa using hm)
  exact utf8_mem_encoded.1 (show utf8 [] ∈ _ from this)

theorem finds_pieces {f : Flags} {e : UExpr} (he : e.Fine) {u : List Char} {first : Nat → Option Nat}
    (hS : ∀ i j, i ≤ (utf8 u).length → first i = some j → Matches f (utf8 u) e.tree i j)
    (hN : ∀ i j, i ≤ (utf8 u).length → first i = none → ¬ Matches f (utf8 u) e.tree i j) {p : Nat} {l : List (Nat × Nat)}
    (h : Finds (utf8 u).length first p l) : ∀ x₀ r, u = x₀ ++ r → p = (utf8 x₀).length → ∃ l', l = byteRanges p l' ∧ FoundIn (e.lang f.icase) r l' := by
  induction h with
  | none h =>
    rintro x₀ r hu rfl
    refine ⟨[], rfl, .none fun x v y hr hv => ?_⟩
    have hu' : u = (x₀ ++ x) ++ v ++ y := by rw [hu, hr]; simp
    have hle : (utf8 (x₀ ++ x)).length ≤ (utf8 u).length := by simp only [hu', utf8_append, List.length_append]; omega
    exact hN _ _ hle (h _ (by rw [utf8_append, List.length_append]; omega) hle) (matches_piece he hu' hv)
  | @empty p i h1 h2 h3 h4 =>
    rintro x₀ r hu rfl
    have hn := nil_of_matches he h2 (hS _ _ h2 h3)
    have hm := matches_piece he (u := u) (x := x₀) (v := []) (y := r) (by simpa using hu) hn
    have : i = (utf8 x₀).length := by
      rcases Nat.lt_or_ge (utf8 x₀).length i with h | h
      · exact absurd hm (hN _ _ (by omega) (h4 _ (Nat.le_refl _) h))
      · omega
    subst this
    exact ⟨[([], [])], by simp [byteRanges, utf8], .empty hn⟩
  | @cons p i j l h1 h2 h3 h4 h5 _ ih =>
    rintro x₀ r hu rfl
    obtain ⟨x, v, y, hu', hv, hne, hi, hj⟩ := piece_of_matches he h2 h3 (hS _ _ (by omega) h4)
    obtain ⟨t, rfl⟩ := utf8_prefix_le (u := u) (x := x₀) (y := x) ⟨r, hu.symm⟩ ⟨v ++ y, by rw [hu']; simp⟩ (by omega)
    have hr : r = t ++ v ++ y := by
      rw [hu'] at hu
      simpa using hu.symm
    obtain ⟨l', hl, hf⟩ := ih (x₀ ++ t ++ v) y hu' (by rw [utf8_append, List.length_append]; exact hj.symm)
    have hx : (utf8 x₀).length + (utf8 t).length = i := by rw [← hi, utf8_append, List.length_append]
    refine ⟨(t, v) :: l', by simp only [byteRanges, hx]; rw [← hi, hj, ← hl], ?_⟩
    rw [hr]
    refine .cons hv hne (fun x' v' y' hr' hv' => ?_) hf
    rcases Nat.lt_or_ge x'.length t.length with hlt | hge
    · exfalso
      have hu'' : u = (x₀ ++ x') ++ v' ++ y' := by rw [hu, hr, hr']; simp
      have hlt' : (utf8 (x₀ ++ x')).length < i := by
        rcases Nat.lt_or_ge (utf8 (x₀ ++ x')).length i with h | h
        · exact h
        · obtain ⟨t', ht'⟩ := utf8_prefix_le (u := u) (x := x₀ ++ t) (y := x₀ ++ x') ⟨v ++ y, by rw [hu']; simp⟩ ⟨v' ++ y', by rw [hu'']; simp⟩ (by omega)
          have := congrArg List.length ht'
          simp only [List.length_append] at this
          omega
      exact hN _ _ (by omega) (h5 _ (by rw [utf8_append, List.length_append]; omega) hlt') (matches_piece he hu'' hv')
    · exact hge

theorem takes_pieces {f : Flags} {e : UExpr} (he : e.Fine) {u : List Char} {first : Nat → Option Nat}
    (hS : ∀ i j, i ≤ (utf8 u).length → first i = some j → Matches f (utf8 u) e.tree i j ∧ j ≤ (utf8 u).length)
    (hN : ∀ i j, i ≤ (utf8 u).length → first i = none → ¬ Matches f (utf8 u) e.tree i j) {p : Nat} {l : List (Nat × Nat)}
    (h : Takes first p l) : ∀ x₀ r, u = x₀ ++ r → p = (utf8 x₀).length → ∃ l', l = byteRanges p l' ∧ TakenFrom (e.lang f.icase) r l' := by
  have hle : ∀ {x₀ r : List Char}, u = x₀ ++ r → (utf8 x₀).length ≤ (utf8 u).length := by
    intro x₀ r hu
    rw [hu, utf8_append, List.length_append]
    omega
  induction h with
  | none h =>
    rintro x₀ r hu rfl
    exact ⟨[], rfl, .none fun v y hr hv => hN _ _ (hle hu) h (matches_piece he (y := y) (by rw [hu, hr]; simp) hv)⟩
  | empty h =>
    rintro x₀ r hu rfl
    exact ⟨[([], [])], by simp [byteRanges, utf8], .empty (nil_of_matches he (hle hu) (hS _ _ (hle hu) h).1)⟩
  | @cons p j l h1 h2 _ ih =>
    rintro x₀ r hu rfl
    obtain ⟨h3, h4⟩ := hS _ _ (hle hu) h1
    obtain ⟨x, v, y, hu', hv, hne, hi, hj⟩ := piece_of_matches he h2 h4 h3
    obtain ⟨t, ht⟩ := utf8_prefix_le (u := u) (x := x₀) (y := x) ⟨r, hu.symm⟩ ⟨v ++ y, by rw [hu']; simp⟩ (by omega)
    obtain ⟨t', ht'⟩ := utf8_prefix_le (u := u) (x := x) (y := x₀) ⟨v ++ y, by rw [hu']; simp⟩ ⟨r, hu.symm⟩ (by omega)
    obtain rfl : x = x₀ := by
      rw [ht', List.append_assoc] at ht
      have := congrArg List.length ht
      simp only [List.length_append] at this
      have : t' = [] := List.length_eq_zero_iff.1 (by omega)
      rw [ht', this, List.append_nil]
    have hr : r = v ++ y := by
      rw [hu'] at hu
      simpa using hu.symm
    obtain ⟨l', hl, hf⟩ := ih (x ++ v) y hu' (by rw [utf8_append, List.length_append]; exact hj.symm)
    refine ⟨([], v) :: l', ?_, hr ▸ .cons hv hne hf⟩
    simp only [byteRanges, show utf8 [] = [] from rfl, List.length_nil, Nat.add_zero, hj]
    rw [← hl]

end Mregex
