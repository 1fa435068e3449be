import Verif.Spec.Frame
import Verif.Proof.Spelled

/-!
# Filling gaps with parts that do the same, step by step
-/

namespace Mregex
open Ast Spec

variable {f : Flags} {X Y : Ast}

theorem character_fill (h : character X = character Y) : ∀ C : Frame, character (C.fill X) = character (C.fill Y)
  | .gap => h
  | .seq pre C post => by
    simp only [Frame.fill]
    match pre, post with
    | [], [] => simp only [List.nil_append, character]; exact character_fill h C
    | [], b :: l => simp [character]
    | a :: pre, post => cases pre <;> simp [character]
  | .alt pre C post => by
    simp only [Frame.fill, character, characters_eq, List.all_append, List.all_cons, character_fill h C]
    congr 1
    cases pre <;> simp
  | .cap id name C => by simp [Frame.fill, character]
  | .rep m lo hi C => by
    simp only [Frame.fill, character_eq, triv]
    rw [← character_eq, ← character_eq, character_fill h C]
  | .look d C => by simp [Frame.fill, character]
  | .notLook d C => by simp [Frame.fill, character, assertion]

theorem accepts_of_steps (hc : character X = true) (hc' : character Y = true)
    (h : ∀ s ν p, p ≤ s.length → proc f s ν X 0 false p = proc f s ν Y 0 false p) (x : Byte) : accepts f X x = accepts f Y x := by
  have := h [x] (fun _ => 0) 0 (Nat.zero_le _)
  rw [proc_triv (by rw [← character_eq]; exact hc), proc_triv (by rw [← character_eq]; exact hc')] at this
  simp only [oneChar, readChar] at this
  cases h1 : accepts f X x <;> cases h2 : accepts f Y x <;> first | rfl | simp [h1, h2, Proc.offers] at this

theorem procAll_fill {s : List Byte} {ν : List Byte → Nat} {r : Nat} {inv : Bool} {a b : Ast}
    (h : ∀ p, p ≤ s.length → proc f s ν a r inv p = proc f s ν b r inv p) (pre post : List Ast) (p : Nat) (hp : p ≤ s.length) :
    procAll f s ν (pre ++ a :: post) r inv p = procAll f s ν (pre ++ b :: post) r inv p := by
  have mid : ∀ p, p ≤ s.length → procAll f s ν (a :: post) r inv p = procAll f s ν (b :: post) r inv p := by
    intro p hp
    simp only [procAll]
    cases inv with
    | true => exact proceed_on (procAll_inside f s ν post r true hp) (fun q hq => h q hq)
    | false => simp only [Bool.false_eq_true, if_false, h p hp]
  induction pre generalizing p with
  | nil => exact mid p hp
  | cons c pre ih =>
    simp only [List.cons_append, procAll]
    cases inv with
    | true => simp only [if_true, ih p hp]
    | false => exact proceed_on (proc_inside f s ν c r false hp) (fun q hq => ih q hq)

theorem procAny_fill {s : List Byte} {ν : List Byte → Nat} {r : Nat} {inv : Bool} {a b : Ast} {p : Nat} (hc : character a = character b)
    (ha : character a = true → ∀ x, accepts f a x = accepts f b x) (h : proc f s ν a r inv p = proc f s ν b r inv p) (pre post : List Ast) :
    procAny f s ν (pre ++ a :: post) r inv p = procAny f s ν (pre ++ b :: post) r inv p := by
  have hany : ∀ pre : List Ast, character a = true → acceptsAny f (pre ++ a :: post) = acceptsAny f (pre ++ b :: post) := by
    intro pre hca
    funext x
    induction pre with
    | nil => simp only [List.nil_append, acceptsAny, ha hca x]
    | cons c pre ih => simp only [List.cons_append, acceptsAny, ih]
  have hch : ∀ pre : List Ast, characters (pre ++ a :: post) = characters (pre ++ b :: post) := by
    intro pre
    simp only [characters_eq, List.all_append, List.all_cons, hc]
  have hall : ∀ pre : List Ast, characters (pre ++ a :: post) = true → character a = true := by
    intro pre
    simp only [characters_eq, List.all_append, List.all_cons, Bool.and_eq_true]
    exact fun h => h.2.1
  induction pre with
  | nil =>
    have h1 := hch []
    have h2 := hall []
    have h3 := hany []
    simp only [List.nil_append] at h1 h2 h3
    simp only [List.nil_append, procAny, ← h1]
    split
    · next hx => rw [h3 (h2 hx)]
    · rw [h]
  | cons c pre ih =>
    have h1 := hch (c :: pre)
    have h2 := hall (c :: pre)
    have h3 := hany (c :: pre)
    simp only [List.cons_append] at h1 h2 h3
    simp only [List.cons_append, procAny, ← h1]
    split
    · next hx => rw [h3 (h2 hx)]
    · rw [ih]

theorem steps_fill (hc : character X = character Y)
    (h : ∀ s ν r inv p, p ≤ s.length → proc f s ν X r inv p = proc f s ν Y r inv p) :
    ∀ (C : Frame) s ν r inv p, p ≤ s.length → proc f s ν (C.fill X) r inv p = proc f s ν (C.fill Y) r inv p := by
  intro C
  induction C with
  | gap => exact h
  | seq pre C post ih =>
    intro s ν r inv p hp
    simp only [Frame.fill, proc]
    exact procAll_fill (ih s ν r inv) pre post p hp
  | alt pre C post ih =>
    intro s ν r inv p hp
    simp only [Frame.fill, proc]
    refine procAny_fill (character_fill hc C) (fun h1 => accepts_of_steps h1 ?_ (fun s ν p hp => ih s ν 0 false p hp)) (ih s ν r inv p hp) pre post
    rw [← character_fill hc C]; exact h1
  | cap id name C ih =>
    intro s ν r inv p hp
    simp only [Frame.fill, proc, ih s ν r inv p hp]
  | rep m lo hi C ih =>
    intro s ν r inv p hp
    simp only [Frame.fill, proc]
    exact (agree_quantified (fun q hq => ⟨ih s ν r inv q hq, proc_inside f s ν _ r inv hq⟩) _ _ _ _ _ _ hp).1
  | look d C ih =>
    intro s ν r inv p hp
    simp only [Frame.fill, proc, ih s ν r false p hp, ih s ν (r + 1) true p hp]
  | notLook d C ih =>
    intro s ν r inv p hp
    simp only [Frame.fill, proc, assertion, if_true, ih s ν r false p hp, ih s ν (r + 1) true p hp]

theorem nameSpec_fill (h : nameSpec X = nameSpec Y) : ∀ C : Frame, nameSpec (C.fill X) = nameSpec (C.fill Y)
  | .gap => h
  | .seq pre C post | .alt pre C post => by
    simp only [Frame.fill, nameSpec]
    induction pre with
    | nil => simp only [List.nil_append, nameSpecAll, nameSpec_fill h C]
    | cons a pre ih => simp only [List.cons_append, nameSpecAll, ih]
  | .cap id name C => by simp only [Frame.fill, nameSpec, nameSpec_fill h C]
  | .rep m lo hi C => by simp only [Frame.fill, nameSpec, nameSpec_fill h C]
  | .look d C => by simp only [Frame.fill, nameSpec, nameSpec_fill h C]
  | .notLook d C => by simp only [Frame.fill, nameSpec, nameSpec_fill h C]

end Mregex
