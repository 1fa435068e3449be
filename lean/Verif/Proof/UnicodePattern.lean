import Verif.Proof.UnicodeOrder
import Verif.Props.Writable
import Verif.Spec.UnicodePattern

/-!
# Unicode expressions can be written as patterns
-/

namespace Mregex
open Ast Spec
open scoped Computability

theorem ok_charTree {E : Env} {r : Nat} {c : Char} : Ok E r (charTree (utf8Char c)) := by
  obtain ⟨b, t, h, _⟩ := utf8Char_shape c
  rw [h]
  cases t with
  | nil => exact .lit
  | cons d t =>
    refine .seq (by simp) fun a ha => ?_
    obtain ⟨x, _, rfl⟩ := List.mem_map.1 ha
    exact .lit

theorem ok_byteSet {E : Env} {r : Nat} {a b : Byte} (h : a.toNat ≤ b.toNat) : Ok E r (byteSet a b) :=
  .set (by simp [triv]) (by simp only [List.mem_singleton, forall_eq]; exact .range h)

theorem ok_anyTree {E : Env} {r : Nat} : Ok E r anyTree := by
  have h2 : ∀ {a b : Ast}, Ok E r a → Ok E r b → Ok E r (.seq [a, b]) := fun ha hb => .seq (by simp) (by simp [ha, hb])
  have h3 : ∀ {a b c : Ast}, Ok E r a → Ok E r b → Ok E r c → Ok E r (.seq [a, b, c]) := fun ha hb hc => .seq (by simp) (by simp [ha, hb, hc])
  have h4 : ∀ {a b c d : Ast}, Ok E r a → Ok E r b → Ok E r c → Ok E r d → Ok E r (.seq [a, b, c, d]) := fun ha hb hc hd => .seq (by simp) (by simp [ha, hb, hc, hd])
  have ht : Ok E r trailTree := ok_byteSet (by decide)
  refine .alt (by simp) fun a ha => ?_
  simp only [List.mem_cons, List.not_mem_nil, or_false] at ha
  rcases ha with rfl | rfl | rfl | rfl | rfl | rfl | rfl | rfl | rfl
  · exact ok_byteSet (by decide)
  · exact h2 (ok_byteSet (by decide)) ht
  · exact h3 .lit (ok_byteSet (by decide)) ht
  · exact h3 (ok_byteSet (by decide)) ht ht
  · exact h3 .lit (ok_byteSet (by decide)) ht
  · exact h3 (ok_byteSet (by decide)) ht ht
  · exact h4 .lit (ok_byteSet (by decide)) ht ht
  · exact h4 (ok_byteSet (by decide)) ht ht ht
  · exact h4 .lit (ok_byteSet (by decide)) ht ht

theorem ok_tree {E : Env} {r : Nat} : ∀ {e : UExpr}, e.Ranged → e.Plain → Ok E r e.tree
  | .empty, _, _ => .empty
  | .char _, _, _ => ok_charTree
  | .ascii l, h, _ => by
    refine .set ?_ ?_
    · intro a ha
      obtain ⟨x, _, rfl⟩ := List.mem_map.1 ha
      rfl
    · intro a ha
      obtain ⟨x, hx, rfl⟩ := List.mem_map.1 ha
      have := h x hx
      exact .range (by simp only [BitVec.toNat_ofNat]; omega)
  | .any, _, _ => ok_anyTree
  | .cat a b, h, h' => .seq (by simp) (by simp [ok_tree h.1 h'.1, ok_tree h.2 h'.2])
  | .alt a b, h, h' => .alt (by simp) (by simp [ok_tree h.1 h'.1, ok_tree h.2 h'.2])
  | .rep _ _ .inf a, h, h' => .repInf (ok_tree (e := a) h h'.2.2)
  | .rep _ _ (.fin _) a, h, h' => .repFin (h'.2.1 _ rfl).1 (ok_tree (e := a) h h'.2.2)

theorem writable_byteSet (a b : Byte) : Writable (byteSet a b) := .set (by simp only [List.mem_singleton, forall_eq]; exact .range a b)

theorem writable_anyTree : Writable anyTree := by
  have h2 : ∀ {a b : Ast}, Writable a → Writable b → Writable (.seq [a, b]) := fun ha hb => .seq (by simp [ha, hb])
  have h3 : ∀ {a b c : Ast}, Writable a → Writable b → Writable c → Writable (.seq [a, b, c]) := fun ha hb hc => .seq (by simp [ha, hb, hc])
  have h4 : ∀ {a b c d : Ast}, Writable a → Writable b → Writable c → Writable d → Writable (.seq [a, b, c, d]) := fun ha hb hc hd => .seq (by simp [ha, hb, hc, hd])
  have hb := writable_byteSet
  have ht : Writable trailTree := hb _ _
  refine .alt fun a ha => ?_
  simp only [List.mem_cons, List.not_mem_nil, or_false] at ha
  rcases ha with rfl | rfl | rfl | rfl | rfl | rfl | rfl | rfl | rfl
  · exact hb _ _
  · exact h2 (hb _ _) ht
  · exact h3 (.lit _) (hb _ _) ht
  · exact h3 (hb _ _) ht ht
  · exact h3 (.lit _) (hb _ _) ht
  · exact h3 (hb _ _) ht ht
  · exact h4 (.lit _) (hb _ _) ht ht
  · exact h4 (hb _ _) ht ht ht
  · exact h4 (.lit _) (hb _ _) ht ht

theorem writable_charTree (w : List Byte) : Writable (charTree w) := by
  have h : ∀ l : List Byte, Writable (.seq (l.map .lit)) := fun l => .seq fun a ha => by
    obtain ⟨x, _, rfl⟩ := List.mem_map.1 ha
    exact .lit x
  match w with
  | [] => exact h []
  | [b] => exact .lit b
  | a :: b :: l => exact h (a :: b :: l)

theorem writable_tree : ∀ {e : UExpr}, e.Plain → Writable e.tree
  | .empty, _ => .empty
  | .char _, _ => writable_charTree _
  | .ascii l, _ => .set fun a ha => by
    obtain ⟨x, _, rfl⟩ := List.mem_map.1 ha
    exact .range _ _
  | .any, _ => writable_anyTree
  | .cat a b, h => .seq (by simp [writable_tree h.1, writable_tree h.2])
  | .alt a b, h => .alt (by simp [writable_tree h.1, writable_tree h.2])
  | .rep _ _ _ a, h => .rep h.1 (fun k hk => (h.2.1 k hk).2) (writable_tree (e := a) h.2.2)

theorem captureCount_lits : ∀ l : List Byte, captureCountAll (l.map .lit) = 0
  | [] => rfl
  | _ :: l => by simp [captureCountAll, captureCount, captureCount_lits l]

theorem captureCount_charTree (w : List Byte) : captureCount (charTree w) = 0 := by
  match w with
  | [] => rfl
  | [b] => rfl
  | a :: b :: l => exact captureCount_lits (a :: b :: l)

theorem captureCount_tree : ∀ {e : UExpr}, e.Plain → captureCount e.tree = 0
  | .empty, _ => rfl
  | .char _, _ => captureCount_charTree _
  | .ascii l, _ => by
    simp only [UExpr.tree, captureCount]
    induction l with
    | nil => rfl
    | cons x w ih => simpa [captureCountAll, captureCount] using ih trivial
  | .any, _ => rfl
  | .cat a b, h => by simp [UExpr.tree, captureCount, captureCountAll, captureCount_tree h.1, captureCount_tree h.2]
  | .alt a b, h => by simp [UExpr.tree, captureCount, captureCountAll, captureCount_tree h.1, captureCount_tree h.2]
  | .rep _ _ _ a, h => by simp [UExpr.tree, captureCount, captureCount_tree (e := a) h.2.2]

theorem plain_ofExpression : ∀ P : RegularExpression Char, (UExpr.ofExpression P).Fine ∧ (UExpr.ofExpression P).Plain
  | .zero => ⟨fun r hr => absurd hr (by simp), trivial⟩
  | .epsilon => ⟨trivial, trivial⟩
  | .char _ => ⟨trivial, trivial⟩
  | .plus P Q => ⟨⟨(plain_ofExpression P).1, (plain_ofExpression Q).1⟩, ⟨(plain_ofExpression P).2, (plain_ofExpression Q).2⟩⟩
  | .comp P Q => ⟨⟨(plain_ofExpression P).1, (plain_ofExpression Q).1⟩, ⟨(plain_ofExpression P).2, (plain_ofExpression Q).2⟩⟩
  | .star P => ⟨⟨by decide, (plain_ofExpression P).1⟩, ⟨by decide, (fun h hh => absurd hh (by simp)), (plain_ofExpression P).2⟩⟩

theorem lang_ofExpression : ∀ P : RegularExpression Char, (UExpr.ofExpression P).lang false = P.matches'
  | .zero => by
    ext w
    simp only [UExpr.ofExpression, UExpr.lang, RegularExpression.matches', Language.notMem_zero, iff_false]
    rintro ⟨d, _, r, hr, _⟩
    cases hr
  | .epsilon => rfl
  | .char c => by
    ext w
    show (∃ d, w = [d] ∧ SameChar false c d) ↔ w = [c]
    constructor
    · rintro ⟨d, rfl, rfl | ⟨h, _⟩⟩
      · rfl
      · cases h
    · rintro rfl
      exact ⟨c, rfl, .inl rfl⟩
  | .plus P Q => by simp only [UExpr.ofExpression, UExpr.lang, RegularExpression.matches', lang_ofExpression P, lang_ofExpression Q]
  | .comp P Q => by simp only [UExpr.ofExpression, UExpr.lang, RegularExpression.matches', lang_ofExpression P, lang_ofExpression Q]
  | .star P => by simp only [UExpr.ofExpression, UExpr.lang, RegularExpression.matches', lang_ofExpression P, pow_zero, one_mul]

/-- An expression over characters as one over the bytes of their encodings. -/
def encodedExpression : RegularExpression Char → RegularExpression Byte
  | .zero => 0
  | .epsilon => 1
  | .char c => ((utf8Char c).map RegularExpression.char).foldr .comp .epsilon
  | .plus P Q => .plus (encodedExpression P) (encodedExpression Q)
  | .comp P Q => .comp (encodedExpression P) (encodedExpression Q)
  | .star P => .star (encodedExpression P)

theorem matches_letters : ∀ l : List Byte, ((l.map RegularExpression.char).foldr RegularExpression.comp RegularExpression.epsilon).matches' = {l}
  | [] => rfl
  | x :: l => by
    ext w
    show w ∈ ({[x]} : Language Byte) * ((l.map RegularExpression.char).foldr RegularExpression.comp RegularExpression.epsilon).matches' ↔ w = x :: l
    rw [matches_letters l, Language.mem_mul]
    constructor
    · rintro ⟨a, rfl, b, rfl, rfl⟩
      rfl
    · rintro rfl
      exact ⟨[x], rfl, l, rfl, rfl⟩

theorem matches_encodedExpression : ∀ P : RegularExpression Char, (encodedExpression P).matches' = encoded P.matches'
  | .zero => encoded_zero.symm
  | .epsilon => encoded_one.symm
  | .char c => by
    refine (matches_letters (utf8Char c)).trans ?_
    ext w
    rw [mem_encoded]
    constructor
    · rintro rfl
      exact ⟨[c], rfl, by simp [utf8]⟩
    · rintro ⟨u, rfl, rfl⟩
      show utf8 [c] = utf8Char c
      simp [utf8]
  | .plus P Q => by
    simp only [encodedExpression, RegularExpression.matches', matches_encodedExpression P, matches_encodedExpression Q, encoded_add]
  | .comp P Q => by
    simp only [encodedExpression, RegularExpression.matches', matches_encodedExpression P, matches_encodedExpression Q, encoded_mul]
  | .star P => by
    simp only [encodedExpression, RegularExpression.matches', matches_encodedExpression P, encoded_kstar]

/-- An automaton that reads encodings, as one that reads characters. -/
theorem isRegular_chars {L : Language Byte} (hL : L.IsRegular) : Language.IsRegular ({u | utf8 u ∈ L} : Language Char) := by
  obtain ⟨σ, hσ, A, rfl⟩ := hL
  refine ⟨σ, hσ, ⟨fun q c => A.evalFrom q (utf8Char c), A.start, A.accept⟩, ?_⟩
  have h : ∀ (u : List Char) (q : σ), (DFA.mk (fun q c => A.evalFrom q (utf8Char c)) A.start A.accept : DFA Char σ).evalFrom q u = A.evalFrom q (utf8 u) := by
    intro u
    induction u with
    | nil => intro q; rfl
    | cons c u ih =>
      intro q
      rw [show utf8 (c :: u) = utf8Char c ++ utf8 u from by simp [utf8], DFA.evalFrom_of_append]
      exact ih _
  ext u
  show _ ∈ A.accept ↔ _ ∈ A.accept
  rw [h]

end Mregex
