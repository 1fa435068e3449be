import Verif.Spec.Writable
import Verif.Spec.Printing
import Verif.Proof.Variants
import Verif.Proof.Numbering
import Verif.Props.Flags

/-!
# A pattern for every usable tree

Every tree is a notational variant of one in normal form.
-/

namespace Mregex
open Ast Spec

/-- What is used of the static requirements. -/
inductive Regular : Ast → Prop
  | cls {a : Ast} : CharClass a → Regular a
  | empty : Regular .empty
  | anchor {a : Ast} : Anchor a → Regular a
  | neg {a : Ast} : Test a → Regular a → Regular (.neg a)
  | seq {l : List Ast} : l ≠ [] → (∀ a ∈ l, Regular a) → Regular (.seq l)
  | alt {l : List Ast} : l ≠ [] → (∀ a ∈ l, Regular a) → Regular (.alt l)
  | cap {id : Nat} {name : GroupName} {a : Ast} : (∀ n, name = some n → IsName n) → Regular a → Regular (.cap id name a)
  | rep {m : Mode} {lo : Nat} {hi : Bound} {a : Ast} : lo < 2 ^ 64 → (∀ h, hi = .fin h → h < 2 ^ 64) → Regular a → Regular (.rep m lo hi a)
  | look {d : LookDir} {a : Ast} : Regular a → Regular (.look d a)
  | backref {n : Nat} : n < 2 ^ 64 → Regular (.backref n)
  | namedBackref {n : List Byte} : IsName n → Regular (.namedBackref n)

theorem Writable.invert {a : Ast} (h : Writable a) : Writable (invert a) := by
  induction h with
  | set _ ih =>
    simp only [Ast.invert, invertAll_eq]
    exact .set (fun a ha => by obtain ⟨b, hb, rfl⟩ := List.mem_map.1 ha; exact ih b hb)
  | seq _ ih =>
    simp only [Ast.invert, invertAll_eq]
    exact .seq (fun a ha => by obtain ⟨b, hb, rfl⟩ := List.mem_map.1 (List.mem_reverse.1 ha); exact ih b hb)
  | alt _ ih =>
    simp only [Ast.invert, invertAll_eq]
    exact .alt (fun a ha => by obtain ⟨b, hb, rfl⟩ := List.mem_map.1 ha; exact ih b hb)
  | neg _ ih => exact .neg ih
  | cap h _ ih => exact .cap h ih
  | rep h h' _ ih => exact .rep h h' ih
  | @look d a h _ => cases d <;> exact .look h
  | lit c => exact .lit c
  | range a b => exact .range a b
  | empty => exact .empty
  | wildcard => exact .wildcard
  | bol => exact .bol
  | boi => exact .boi
  | eol => exact .eol
  | eoi => exact .eoi
  | wordB => exact .wordB
  | backref h => exact .backref h
  | namedBackref h => exact .namedBackref h

theorem Regular.invert {a : Ast} (h : Regular a) : Regular (invert a) := by
  induction h with
  | cls h => exact .cls h.invert
  | seq hl _ ih =>
    simp only [Ast.invert, invertAll_eq]
    exact .seq (by simpa using hl) (fun a ha => by obtain ⟨b, hb, rfl⟩ := List.mem_map.1 (List.mem_reverse.1 ha); exact ih b hb)
  | alt hl _ ih =>
    simp only [Ast.invert, invertAll_eq]
    exact .alt (by simpa using hl) (fun a ha => by obtain ⟨b, hb, rfl⟩ := List.mem_map.1 ha; exact ih b hb)
  | neg ht _ ih => exact .neg (test_iff.2 (by rw [isAssertion_invert]; exact ht.asrt)) ih
  | cap h _ ih => exact .cap h ih
  | rep h h' _ ih => exact .rep h h' ih
  | @look d a h _ => cases d <;> exact .look h
  | empty => exact .empty
  | anchor h => rw [h.invert]; exact .anchor h
  | backref h => exact .backref h
  | namedBackref h => exact .namedBackref h

theorem regular_of_ok {E : Env} {r : Nat} {a : Ast} (h : Ok E r a) (hw : Writable a) : Regular a := by
  induction h with
  | empty => exact .empty
  | lit => exact .cls (.lit _)
  | range h => exact .cls (.range h)
  | wildcard => exact .cls .wildcard
  | set h1 h2 => exact .cls (charClass_of_ok (.set h1 h2) rfl)
  | @neg r a h1 h2 ih =>
    cases hw with
    | neg hw =>
      by_cases ha : isAssertion a = true
      · exact .neg (test_iff.2 ha) (ih hw)
      · exact .cls (charClass_of_ok (.neg h1 h2) (by simpa [triv] using ha))
  | seq hl _ ih => cases hw with | seq hw => exact .seq hl (fun a ha => ih a ha (hw a ha))
  | alt hl _ ih => cases hw with | alt hw => exact .alt hl (fun a ha => ih a ha (hw a ha))
  | cap _ _ _ ih => cases hw with | cap hn hw => exact .cap hn (ih hw)
  | repFin _ _ ih => cases hw with | rep h1 h2 hw => exact .rep h1 h2 (ih hw)
  | repInf _ ih => cases hw with | rep h1 h2 hw => exact .rep h1 h2 (ih hw)
  | ahead _ ih => cases hw with | look hw => exact .look (ih hw)
  | behindTriv _ ht h _ => exact .look (.cls (charClass_of_ok h ht))
  | behind _ _ ih =>
    cases hw with
    | look hw =>
      have := (ih (Writable.invert hw)).invert
      rw [invert_invert] at this
      exact .look this
  | bol => exact .anchor .bol
  | boi => exact .anchor .boi
  | eol => exact .anchor .eol
  | eoi => exact .anchor .eoi
  | wordB => exact .anchor .wordB
  | backref => cases hw with | backref h => exact .backref h
  | namedBackref => cases hw with | namedBackref h => exact .namedBackref h

/-! ### Pieces -/

/-- What `b` keeps of `a`. -/
structure Keeps (f : Flags) (inv : Bool) (a b : Ast) : Prop where
  normal : Normal b
  variant : Variant f inv a b
  idx : ∀ o, index o a = a → index o b = b
  test : Test a → Test b

theorem Keeps.count {f : Flags} {inv : Bool} {a b : Ast} (h : Keeps f inv a b) : captureCount a = captureCount b := by
  rw [← length_nameSpec, ← length_nameSpec, variant_names h.variant]

/-- All characters of a class, one by one. -/
def allOf (f : Flags) (a : Ast) : List Ast := ((List.range 256).filter fun n => matchOne f a (BitVec.ofNat 8 n)).map fun n => .lit (BitVec.ofNat 8 n)

theorem allOf_lits (f : Flags) (a : Ast) : ∀ x ∈ allOf f a, ∃ c, x = .lit c := by
  intro x hx
  obtain ⟨n, _, rfl⟩ := List.mem_map.1 hx
  exact ⟨_, rfl⟩

theorem mem_allOf {f : Flags} {a : Ast} {c : Byte} : .lit c ∈ allOf f a ↔ matchOne f a c = true := by
  simp only [allOf, List.mem_map, List.mem_filter, List.mem_range, Ast.lit.injEq]
  constructor
  · rintro ⟨n, ⟨_, h⟩, rfl⟩; exact h
  · intro h
    refine ⟨c.toNat, ⟨c.isLt, ?_⟩, ?_⟩ <;> simp [h]

theorem matchOne_allOf (f : Flags) (a : Ast) (x : Byte) : matchOne f (.set (allOf f a)) x = matchOne f a x := by
  rw [Bool.eq_iff_iff]
  simp only [matchOne, matchAny_eq, List.any_eq_true]
  constructor
  · rintro ⟨b, hb, hx⟩
    obtain ⟨c, rfl⟩ := allOf_lits f a b hb
    have hc := mem_allOf.1 hb
    rw [matchOne_eq_accepts, accepts_lit_iff] at hx
    cases hi : f.icase with
    | false =>
      rw [hi] at hx
      rcases hx with rfl | ⟨h, _⟩
      · exact hc
      · cases h
    | true =>
      rw [hi] at hx
      rw [← matchOne_icase hi hx]
      exact hc
  · intro h
    exact ⟨.lit x, mem_allOf.2 h, by simp [matchOne]⟩

theorem setMembers_lits : ∀ l : List Ast, (∀ x ∈ l, ∃ c, x = .lit c) → SetMembers l
  | [], _ => .nil
  | x :: l, h => by
    obtain ⟨c, rfl⟩ := h x (by simp)
    exact .lit (setMembers_lits l (fun y hy => h y (by simp [hy])))

theorem indexSame_lits (o : Nat) : ∀ l : List Ast, (∀ x ∈ l, ∃ c, x = .lit c) → indexSame o l = l
  | [], _ => rfl
  | x :: l, h => by
    obtain ⟨c, rfl⟩ := h x (by simp)
    simp [indexSame, index, indexSame_lits o l (fun y hy => h y (by simp [hy]))]

theorem charClass_allOf (f : Flags) (a : Ast) : CharClass (.set (allOf f a)) :=
  .set (fun x hx => by obtain ⟨c, rfl⟩ := allOf_lits f a x hx; exact .lit c)

theorem keeps_class (f : Flags) (inv : Bool) {a : Ast} (h : CharClass a) : Keeps f inv a (.set (allOf f a)) := by
  refine ⟨.set (setMembers_lits _ (allOf_lits f a)), .sameClass h (charClass_allOf f a) (fun x => ?_), fun o _ => ?_, fun ht => ?_⟩
  · rw [h.one_iff, (charClass_allOf f a).one_iff, matchOne_allOf]
  · simp only [index, indexSame_lits o _ (allOf_lits f a)]
  · have h1 := triv_of_asrt ht.asrt
    rw [h.triv] at h1
    cases h1

/-- In redundant parentheses. -/
theorem keeps_once {f : Flags} {inv : Bool} {a b : Ast} (h : Keeps f inv a b) : Keeps f inv a (.rep .greedy 1 (.fin 1) b) := by
  refine ⟨.repFin (by omega) (by omega) h.normal, h.variant.trans (.symm (.once inv .greedy b (by simp))), fun o ho => ?_, fun ht => ?_⟩
  · simp only [index, h.idx o ho]
  · exact .once (by simp) (h.test ht)

theorem keeps_notSeq {f : Flags} {inv : Bool} {a b : Ast} (h : Keeps f inv a b) : ∃ b', Keeps f inv a b' ∧ NotSeq b' := by
  by_cases hb : NotSeq b
  · exact ⟨b, h, hb⟩
  · exact ⟨_, keeps_once h, fun l hl => by cases hl⟩

theorem keeps_notAlt {f : Flags} {inv : Bool} {a b : Ast} (h : Keeps f inv a b) : ∃ b', Keeps f inv a b' ∧ NotAlt b' := by
  by_cases hb : NotAlt b
  · exact ⟨b, h, hb⟩
  · exact ⟨_, keeps_once h, fun l hl => by cases hl⟩

theorem choose_on {α β : Type} {P : α → β → Prop} (d : α → β) {l : List α} (h : ∀ a ∈ l, ∃ b, P a b) : ∃ g : α → β, ∀ a ∈ l, P a (g a) := by
  classical
  exact ⟨fun a => if h : ∃ b, P a b then h.choose else d a, fun a ha => by simp only [h a ha, dif_pos]; exact (h a ha).choose_spec⟩

theorem variant_seqs {f : Flags} {inv : Bool} (g : Ast → Ast) : ∀ (pre l : List Ast), (∀ a ∈ l, Variant f inv a (g a)) →
    Variant f inv (.seq (pre ++ l)) (.seq (pre ++ l.map g))
  | pre, [], _ => .refl _ _
  | pre, a :: l, h => by
    have h1 : Variant f inv (.seq (pre ++ a :: l)) (.seq (pre ++ g a :: l)) := .seq pre l (h a (by simp))
    have h2 := variant_seqs g (pre ++ [g a]) l (fun b hb => h b (by simp [hb]))
    simp only [List.append_assoc, List.singleton_append] at h2
    exact h1.trans h2

theorem variant_alts {f : Flags} {inv : Bool} (g : Ast → Ast) : ∀ (pre l : List Ast), (∀ a ∈ l, Variant f inv a (g a)) →
    Variant f inv (.alt (pre ++ l)) (.alt (pre ++ l.map g))
  | pre, [], _ => .refl _ _
  | pre, a :: l, h => by
    have h1 : Variant f inv (.alt (pre ++ a :: l)) (.alt (pre ++ g a :: l)) := .alt pre l (h a (by simp))
    have h2 := variant_alts g (pre ++ [g a]) l (fun b hb => h b (by simp [hb]))
    simp only [List.append_assoc, List.singleton_append] at h2
    exact h1.trans h2

theorem indexSeq_keeps {f : Flags} {inv : Bool} (g : Ast → Ast) : ∀ (o : Nat) (l : List Ast), (∀ a ∈ l, Keeps f inv a (g a)) →
    indexSeq o l = l → indexSeq o (l.map g) = l.map g
  | _, [], _, _ => rfl
  | o, a :: l, h, hi => by
    simp only [indexSeq, List.cons.injEq] at hi
    have ha := h a (by simp)
    simp only [List.map_cons, indexSeq, ha.idx o hi.1, ← ha.count, indexSeq_keeps g _ l (fun b hb => h b (by simp [hb])) hi.2]

theorem indexSame_keeps {f : Flags} {inv : Bool} (g : Ast → Ast) : ∀ (o : Nat) (l : List Ast), (∀ a ∈ l, Keeps f inv a (g a)) →
    indexSame o l = l → indexSame o (l.map g) = l.map g
  | _, [], _, _ => rfl
  | o, a :: l, h, hi => by
    simp only [indexSame, List.cons.injEq] at hi
    simp only [List.map_cons, indexSame, (h a (by simp)).idx o hi.1, indexSame_keeps g _ l (fun b hb => h b (by simp [hb])) hi.2]

/-- Negations of tests in normal form. -/
theorem keeps_neg (f : Flags) (inv : Bool) {x : Ast} (ht : Test x) (hn : Normal x) :
    ∃ b, Normal b ∧ Variant f inv (.neg x) b ∧ Test b ∧ ∀ o, index o x = x → index o b = b := by
  induction ht with
  | anchor h =>
    have htx := Test.anchor h
    cases inv with
    | false =>
      exact ⟨.neg (.look .ahead _), .negLook hn, (Variant.neg (.look .ahead _) (.lookTest htx)).symm, .neg (.look _ _), fun o ho => by
        simp only [index, ho]⟩
    | true =>
      exact ⟨.neg (.look .behind _), .negLook hn, (Variant.neg (.look .behind _) (.lookAnchor h)).symm, .neg (.look _ _), fun o ho => by
        simp only [index, ho]⟩
  | look d a =>
    cases hn with
    | look hn => exact ⟨_, .negLook hn, .refl _ _, .neg (.look _ _), fun o ho => by simp only [index] at ho ⊢; rw [ho]⟩
  | @neg a h _ =>
    refine ⟨a, ?_, .doubleNeg inv h, h, fun o ho => by simpa [index] using ho⟩
    cases hn with
    | nonDigit => have := h.asrt; cases this
    | negSet => have := h.asrt; cases this
    | negLook hn => exact .look hn
    | notWordB => exact .wordB
  | one => cases hn with | seq h => simp at h
  | branch => cases hn with | alt h => simp at h
  | @once m a hm h ih =>
    have hn' : Normal a := by cases hn; assumption
    obtain ⟨b, h1, h2, h3, h4⟩ := ih hn'
    exact ⟨b, h1, (Variant.neg (.once hm h) (.once inv m a hm)).trans h2, h3, fun o ho => h4 o (by simpa [index] using ho)⟩

/-- Every tree is a variant of one in normal form. -/
theorem exists_keeps {a : Ast} (h : Regular a) (f : Flags) : ∀ inv, ∃ b, Keeps f inv a b := by
  induction h with
  | cls h => exact fun inv => ⟨_, keeps_class f inv h⟩
  | empty => exact fun inv => ⟨_, .empty, .refl _ _, fun _ h => h, fun h => h⟩
  | anchor h =>
    intro inv
    refine ⟨_, ?_, .refl _ _, fun _ h => h, fun h => h⟩
    cases h
    · exact .bol
    · exact .boi
    · exact .eol
    · exact .eoi
    · exact .wordB
  | neg ht _ ih =>
    intro inv
    obtain ⟨x, hx⟩ := ih inv
    obtain ⟨b, h1, h2, h3, h4⟩ := keeps_neg f inv (hx.test ht) hx.normal
    exact ⟨b, h1, (Variant.neg ht hx.variant).trans h2, fun o ho => h4 o (hx.idx o (by simpa [index] using ho)), fun _ => h3⟩
  | @seq l hl _ ih =>
    intro inv
    match l, hl, ih with
    | [a], _, ih =>
      obtain ⟨b, hb⟩ := ih a (by simp) inv
      refine ⟨b, hb.normal, (Variant.one inv a).trans hb.variant, fun o ho => hb.idx o (by simpa [index, indexSeq] using ho), fun ht => hb.test ?_⟩
      have := ht.asrt
      exact test_iff.2 (by simpa [isAssertion] using this)
    | a :: a' :: l, _, ih =>
      obtain ⟨g, hg⟩ := choose_on (P := fun a b => Keeps f inv a b ∧ NotSeq b) id (l := a :: a' :: l) (fun x hx => by
        obtain ⟨b, hb⟩ := ih x hx inv
        exact keeps_notSeq hb)
      refine ⟨.seq ((a :: a' :: l).map g), .seq (by simp) ?_ ?_, ?_, fun o ho => ?_, fun ht => ?_⟩
      · intro b hb; obtain ⟨x, hx, rfl⟩ := List.mem_map.1 hb; exact (hg x hx).2
      · intro b hb; obtain ⟨x, hx, rfl⟩ := List.mem_map.1 hb; exact (hg x hx).1.normal
      · exact variant_seqs g [] _ (fun x hx => (hg x hx).1.variant)
      · simp only [index, Ast.seq.injEq] at ho ⊢
        exact indexSeq_keeps g o _ (fun x hx => (hg x hx).1) ho
      · have := ht.asrt; simp [isAssertion] at this
  | @alt l hl _ ih =>
    intro inv
    match l, hl, ih with
    | [a], _, ih =>
      obtain ⟨b, hb⟩ := ih a (by simp) inv
      refine ⟨b, hb.normal, (Variant.branch inv a).trans hb.variant, fun o ho => hb.idx o (by simpa [index, indexSame] using ho), fun ht => hb.test ?_⟩
      have := ht.asrt
      exact test_iff.2 (by simpa [isAssertion] using this)
    | a :: a' :: l, _, ih =>
      obtain ⟨g, hg⟩ := choose_on (P := fun a b => Keeps f inv a b ∧ NotAlt b) id (l := a :: a' :: l) (fun x hx => by
        obtain ⟨b, hb⟩ := ih x hx inv
        exact keeps_notAlt hb)
      refine ⟨.alt ((a :: a' :: l).map g), .alt (by simp) (hg a (by simp)).2 ?_, ?_, fun o ho => ?_, fun ht => ?_⟩
      · intro b hb; obtain ⟨x, hx, rfl⟩ := (List.mem_map (f := g) (l := a :: a' :: l)).1 hb; exact (hg x hx).1.normal
      · exact variant_alts g [] _ (fun x hx => (hg x hx).1.variant)
      · simp only [index, Ast.alt.injEq] at ho ⊢
        exact indexSame_keeps g o _ (fun x hx => (hg x hx).1) ho
      · have := ht.asrt; simp [isAssertion] at this
  | @cap id name a hn _ ih =>
    intro inv
    obtain ⟨b, hb⟩ := ih inv
    refine ⟨.cap id name b, ?_, .cap id name hb.variant, fun o ho => ?_, fun ht => ?_⟩
    · cases name with
      | none => exact .cap hb.normal
      | some n => exact .namedCap (hn n rfl) hb.normal
    · simp only [index, Ast.cap.injEq] at ho ⊢
      exact ⟨ho.1, ho.2.1, hb.idx _ ho.2.2⟩
    · have := ht.asrt; simp [isAssertion] at this
  | @rep m lo hi a h1 h2 _ ih =>
    intro inv
    obtain ⟨b, hb⟩ := ih inv
    refine ⟨.rep m lo hi b, ?_, .rep m lo hi hb.variant, fun o ho => ?_, fun ht => ?_⟩
    · cases hi with
      | fin h => exact .repFin h1 (h2 h rfl) hb.normal
      | inf => exact .repInf h1 hb.normal
    · simp only [index, Ast.rep.injEq, true_and] at ho ⊢
      exact hb.idx _ ho
    · have h := ht.asrt
      simp only [isAssertion, Bool.and_eq_true, bne_iff_ne, beq_iff_eq] at h
      obtain ⟨⟨⟨hm, rfl⟩, rfl⟩, h⟩ := h
      exact .once hm (hb.test (test_iff.2 h))
  | @look d a _ ih =>
    intro inv
    cases d with
    | ahead =>
      obtain ⟨b, hb⟩ := ih inv
      exact ⟨.look .ahead b, .look hb.normal, .ahead hb.variant, (fun o ho => by
        simp only [index, Ast.look.injEq, true_and] at ho ⊢; exact hb.idx _ ho), fun _ => .look _ _⟩
    | behind =>
      obtain ⟨b, hb⟩ := ih (!inv)
      exact ⟨.look .behind b, .look hb.normal, .behind hb.variant, (fun o ho => by
        simp only [index, Ast.look.injEq, true_and] at ho ⊢; exact hb.idx _ ho), fun _ => .look _ _⟩
  | backref h => exact fun inv => ⟨_, .backref h, .refl _ _, fun _ h => h, fun h => h⟩
  | namedBackref h => exact fun inv => ⟨_, .namedBackref h, .refl _ _, fun _ h => h, fun h => h⟩

end Mregex
