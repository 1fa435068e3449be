import Verif.Spec.Order
import Verif.Proof.AstLemmas

/-!
# Characters: the code's bit tricks against the specification
-/

namespace Mregex
open Ast Spec

theorem flip_flip (x : Byte) : flipLowercaseBit (flipLowercaseBit x) = x := by
  revert x; decide +kernel

theorem isAlpha_flip (x : Byte) : isAlpha (flipLowercaseBit x) = isAlpha x := by
  revert x; decide +kernel

theorem asciiLower_cases (x : Byte) :
    asciiLower x = x ∨ (asciiLower x = flipLowercaseBit x ∧ isAlpha x = true) := by
  revert x; decide +kernel

theorem asciiLower_flip (x : Byte) (h : isAlpha x = true) : asciiLower (flipLowercaseBit x) = asciiLower x := by
  revert x; decide +kernel

theorem lowerUpper_alpha (x : Byte) (h : isAlpha x = true) :
    (asciiLower x = x ∧ asciiUpper x = flipLowercaseBit x) ∨
    (asciiLower x = flipLowercaseBit x ∧ asciiUpper x = x) := by
  revert x; decide +kernel

theorem lowerUpper_nonalpha (x : Byte) (h : isAlpha x = false) : asciiLower x = x ∧ asciiUpper x = x := by
  revert x; decide +kernel

theorem isAlpha_iff (x : Byte) :
    isAlpha x = (isInAsciiRange (ch 'a') (ch 'z') x || isInAsciiRange (ch 'A') (ch 'Z') x) := by
  revert x; decide +kernel

/-- Two characters have the same lower case iff they are equal or one is the other letter with its case bit flipped. -/
theorem asciiLower_eq_iff (c x : Byte) :
    asciiLower c = asciiLower x ↔ c = x ∨ (isAlpha c = true ∧ flipLowercaseBit c = x) := by
  constructor
  · intro h
    rcases asciiLower_cases c with hc | ⟨hc, ac⟩ <;> rcases asciiLower_cases x with hx | ⟨hx, ax⟩ <;>
      rw [hc, hx] at h
    · exact .inl h
    · subst h
      exact .inr ⟨by rw [isAlpha_flip]; exact ax, flip_flip x⟩
    · exact .inr ⟨ac, h⟩
    · left
      have := congrArg flipLowercaseBit h
      rwa [flip_flip, flip_flip] at this
  · rintro (rfl | ⟨ha, rfl⟩)
    · rfl
    · exact (asciiLower_flip c ha).symm

theorem charEq_iff (icase : Bool) (c x : Byte) :
    CharEq icase c x ↔ (c == x || (icase && isAlpha c && flipLowercaseBit c == x)) = true := by
  unfold CharEq
  rw [asciiLower_eq_iff]
  cases icase <;> simp

theorem charEq_symm {icase : Bool} {c x : Byte} (h : CharEq icase c x) : CharEq icase x c := by
  rcases h with rfl | ⟨h, h'⟩
  · exact .inl rfl
  · exact .inr ⟨h, h'.symm⟩

theorem lit_accepts (f : Flags) (c x : Byte) : accepts f (.lit c) x = matchOne f (.lit c) x := by
  simp only [accepts, matchOne]
  have h := asciiLower_eq_iff c x
  rw [Bool.eq_iff_iff]
  simp only [Bool.or_eq_true, Bool.and_eq_true, beq_iff_eq, h]
  constructor
  · rintro (h | ⟨h, h' | ⟨h', h''⟩⟩)
    · exact .inl h
    · exact .inl h'
    · exact .inr ⟨⟨h, h'⟩, h''⟩
  · rintro (h | ⟨⟨h, h'⟩, h''⟩)
    · exact .inl h
    · exact .inr ⟨h, .inr ⟨h', h''⟩⟩

theorem inRange_eq (a b x : Byte) : inRange a b x = isInAsciiRange a b x := rfl

theorem inIntersection_eq (a b a' b' x : Byte) :
    inIntersection a b a' b' x = (isInAsciiRange a b x && isInAsciiRange a' b' x) := by
  unfold inIntersection isInAsciiRange
  rw [Bool.eq_iff_iff]
  dsimp only
  split <;> split <;> split <;> simp <;> omega

theorem range_fold (a b x : Byte) :
    (inRange a b x || (inRange a b (asciiLower x) || inRange a b (asciiUpper x))) =
      (inRange a b x || (isAlpha x && inRange a b (flipLowercaseBit x))) := by
  cases h : isAlpha x with
  | false =>
    obtain ⟨h1, h2⟩ := lowerUpper_nonalpha x h
    rw [h1, h2]; cases inRange a b x <;> rfl
  | true =>
    rcases lowerUpper_alpha x h with ⟨h1, h2⟩ | ⟨h1, h2⟩ <;> rw [h1, h2] <;>
      cases inRange a b x <;> cases inRange a b (flipLowercaseBit x) <;> rfl

theorem range_accepts (f : Flags) (a b x : Byte) :
    accepts f (.range a b) x = matchOne f (.range a b) x := by
  have h0 : accepts f (.range a b) x =
      (inRange a b x || (f.icase && (isAlpha x && inRange a b (flipLowercaseBit x)))) := by
    simp only [accepts]
    cases f.icase with
    | false => simp
    | true => simpa using range_fold a b x
  rw [h0]
  simp only [matchOne]
  split
  · next hab =>
    subst hab
    have e : ∀ y : Byte, inRange a a y = (a == y) := by
      intro y
      rw [Bool.eq_iff_iff]
      simp only [inRange, Bool.and_eq_true, decide_eq_true_eq, beq_iff_eq]
      constructor
      · intro h; exact BitVec.eq_of_toNat_eq (by omega)
      · rintro rfl; omega
    rw [e, e]
    have : (isAlpha x && a == flipLowercaseBit x) = (isAlpha a && flipLowercaseBit a == x) := by
      rw [Bool.eq_iff_iff]
      simp only [Bool.and_eq_true, beq_iff_eq]
      constructor
      · rintro ⟨h, rfl⟩; exact ⟨by rw [isAlpha_flip]; exact h, flip_flip x⟩
      · rintro ⟨h, rfl⟩; exact ⟨by rw [isAlpha_flip]; exact h, (flip_flip a).symm⟩
    rw [this, Bool.and_assoc]
  · rw [inIntersection_eq, inIntersection_eq, ← Bool.and_or_distrib_left, ← isAlpha_iff, isAlpha_flip, inRange_eq,
      inRange_eq, Bool.and_comm (isInAsciiRange a b (flipLowercaseBit x))]

/-- The code's `match_one` computes the specified set of bytes. -/
theorem matchOne_eq_accepts (f : Flags) (a : Ast) (x : Byte) : matchOne f a x = accepts f a x := by
  induction a using ind with
  | lit c => exact (lit_accepts f c x).symm
  | range a b => exact (range_accepts f a b x).symm
  | wildcard => simp only [matchOne, accepts]; cases f.dotall <;> simp
  | set l ih =>
    simp only [matchOne, accepts]
    induction l with
    | nil => simp [matchAny, acceptsAny]
    | cons a l ihl =>
      simp only [matchAny, acceptsAny]
      rw [ih a (by simp), ihl (fun b hb => ih b (by simp [hb]))]
  | alt l ih =>
    simp only [matchOne, accepts]
    induction l with
    | nil => simp [matchAny, acceptsAny]
    | cons a l ihl =>
      simp only [matchAny, acceptsAny]
      rw [ih a (by simp), ihl (fun b hb => ih b (by simp [hb]))]
  | neg a ih => simp only [matchOne, accepts, ih]
  | seq l ih =>
    simp only [matchOne, accepts]
    match l with
    | [] => simp [matchSingle, acceptsOnly]
    | [a] => simpa [matchSingle, acceptsOnly] using ih a (by simp)
    | a :: b :: l => simp [matchSingle, acceptsOnly]
  | rep m lo hi a ih =>
    simp only [matchOne]
    split
    · next h =>
      simp only [Bool.and_eq_true, beq_iff_eq] at h
      obtain ⟨rfl, rfl⟩ := h
      simp only [accepts, ih]
    · next h =>
      unfold accepts
      split <;> simp_all
  | _ => simp [matchOne, accepts]

theorem acceptsAny_eq (f : Flags) (l : List Ast) (x : Byte) : acceptsAny f l x = l.any (accepts f · x) := by
  induction l with
  | nil => rfl
  | cons a l ih => simp [acceptsAny, ih]

theorem assertion_eq (a : Ast) : assertion a = isAssertion a := by
  induction a using ind with
  | neg a ih => simpa [assertion, isAssertion] using ih
  | seq l ih =>
    match l with
    | [] => simp [assertion, isAssertion]
    | [a] => simpa [assertion, isAssertion] using ih a (by simp)
    | a :: b :: l => simp [assertion, isAssertion]
  | alt l ih =>
    match l with
    | [] => simp [assertion, isAssertion]
    | [a] => simpa [assertion, isAssertion] using ih a (by simp)
    | a :: b :: l => simp [assertion, isAssertion]
  | rep m lo hi a ih =>
    simp only [isAssertion]
    unfold assertion
    split <;> simp_all
    next h => exact fun _ h1 h2 => absurd rfl (h m a rfl h1 h2)
  | _ => simp [assertion, isAssertion]

theorem wordChar_iff (x : Byte) (f : Flags) : matchOne f word x = true ↔ WordChar x := by
  rw [show matchOne f word x = matchOne { icase := f.icase } word x from rfl]
  cases f.icase <;> (unfold WordChar; revert x; decide +kernel)

theorem isLinebreak_iff (x : Byte) : isLinebreak x = true ↔ LineBreak x := by
  simp [isLinebreak, LineBreak]

end Mregex
