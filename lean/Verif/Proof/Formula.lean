import Verif.Proof.Usable
import Verif.Proof.Reading
import Verif.Proof.Preference
import Verif.Proof.Words
import Verif.Proof.Named
import Verif.Proof.Numbering
import Verif.Spec.Formula
import Verif.Props.Regular

/-!
# Formulas of patterns
-/

namespace Mregex
open Ast Spec

/-! ## Group numbers do not matter for whether a regex can be used -/

theorem isAssertion_strip (a : Ast) : isAssertion (strip a) = isAssertion a := by
  induction a using ind with
  | seq l ih =>
    simp only [strip, stripAll_eq]
    match l, ih with
    | [], _ => rfl
    | [a], ih => simpa [isAssertion] using ih a (by simp)
    | a :: b :: l, _ => simp [isAssertion]
  | alt l ih =>
    simp only [strip, stripAll_eq]
    match l, ih with
    | [], _ => rfl
    | [a], ih => simpa [isAssertion] using ih a (by simp)
    | a :: b :: l, _ => simp [isAssertion]
  | neg a ih => simp [strip, isAssertion, ih]
  | rep m lo hi a ih => simp [strip, isAssertion, ih]
  | _ => simp [strip, isAssertion]

theorem trivAlt_map {g : Ast → Ast} {l : List Ast} (h : ∀ a ∈ l, triv (g a) = triv a) : trivAlt (l.map g) = trivAlt l := by
  induction l with
  | nil => rfl
  | cons a l ih =>
    cases l with
    | nil => simpa [trivAlt] using h a (by simp)
    | cons b l =>
      have := ih (fun a ha => h a (by simp [ha]))
      simp only [List.map_cons, trivAlt] at this ⊢
      rw [h a (by simp), this]

theorem triv_strip (a : Ast) : triv (strip a) = triv a := by
  induction a using ind with
  | seq l ih =>
    simp only [strip, stripAll_eq]
    match l, ih with
    | [], _ => rfl
    | [a], ih => simpa [triv, trivSingle] using ih a (by simp)
    | a :: b :: l, _ => simp [triv, trivSingle]
  | alt l ih => simp only [strip, stripAll_eq, triv]; exact trivAlt_map ih
  | neg a _ => simp [strip, triv, isAssertion_strip]
  | rep m lo hi a ih => simp [strip, triv, ih]
  | _ => simp [strip, triv]

theorem strip_strip (a : Ast) : strip (strip a) = strip a := by
  induction a using ind <;> simp_all [strip, stripAll_eq]

theorem strip_invert (a : Ast) : strip (invert a) = invert (strip a) := by
  induction a using ind with
  | look d a ih => cases d <;> simp_all [strip, invert]
  | _ => simp_all [strip, stripAll_eq, invert, invertAll_eq]

theorem noBackref_strip (a : Ast) : noBackref (strip a) = noBackref a := by
  induction a using ind <;> simp_all [strip, stripAll_eq, noBackref, noBackrefAll_eq, List.all_eq]

theorem nameSpec_strip (a : Ast) : nameSpec (strip a) = nameSpec a := by
  rw [← nameSpec_index 1, index_strip, nameSpec_index]

mutual
theorem strip_index : ∀ (o : Nat) (a : Ast), strip (index o a) = strip a
  | o, .cap _ _ a => by simp [strip, index, strip_index _ a]
  | o, .seq l => by simp [strip, index, stripAll_indexSeq _ l]
  | o, .alt l => by simp [strip, index, stripAll_indexSame _ l]
  | o, .set l => by simp [strip, index, stripAll_indexSame _ l]
  | o, .neg a => by simp [strip, index, strip_index _ a]
  | o, .rep _ _ _ a => by simp [strip, index, strip_index _ a]
  | o, .look _ a => by simp [strip, index, strip_index _ a]
  | _, .empty | _, .lit _ | _, .range _ _ | _, .wildcard | _, .bol | _, .boi | _, .eol | _, .eoi | _, .wordB | _, .backref _ | _, .namedBackref _ => rfl
theorem stripAll_indexSeq : ∀ (o : Nat) (l : List Ast), stripAll (indexSeq o l) = stripAll l
  | _, [] => rfl
  | o, a :: l => by simp [stripAll, indexSeq, strip_index _ a, stripAll_indexSeq _ l]
theorem stripAll_indexSame : ∀ (o : Nat) (l : List Ast), stripAll (indexSame o l) = stripAll l
  | _, [] => rfl
  | o, a :: l => by simp [stripAll, indexSame, strip_index _ a, stripAll_indexSame _ l]
end

theorem noBackref_of_strip {a b : Ast} (h : strip a = strip b) : noBackref a = noBackref b := by
  rw [← noBackref_strip a, h, noBackref_strip]

theorem triv_of_strip {a b : Ast} (h : strip a = strip b) : triv a = triv b := by
  rw [← triv_strip a, h, triv_strip]

theorem ends_of_strip {a b : Ast} (h : strip a = strip b) (f : Flags) (s : List Byte) : ends f s a = ends f s b := by
  rw [← ends_index f s 1 a, ← index_strip, h, index_strip, ends_index]

/-- A list that differs in group numbers only. -/
theorem strip_members_eq {l l' : List Ast} (h : stripAll l' = stripAll l) : (∀ b ∈ l', ∃ a ∈ l, strip b = strip a) ∧ (l = [] ↔ l' = []) := by
  rw [stripAll_eq, stripAll_eq] at h
  refine ⟨fun b hb => ?_, ?_⟩
  · have : strip b ∈ l.map strip := h ▸ List.mem_map.2 ⟨b, hb, rfl⟩
    obtain ⟨a, ha, e⟩ := List.mem_map.1 this
    exact ⟨a, ha, e.symm⟩
  · have := congrArg List.length h
    rw [List.length_map, List.length_map] at this
    rw [← List.length_eq_zero_iff, ← List.length_eq_zero_iff, this]

theorem ok_of_strip {E E' : Env} (hf : E'.flags = E.flags) (hc : E'.cat = E.cat) {r : Nat} {a : Ast} (h : Ok E r a) :
    ∀ a', strip a' = strip a → noBackref a' = true → (∀ k n, HasGroup a' k n → E'.names[k]? = some n) → Ok E' r a' := by
  induction h with
  | empty => intro a' e hb; cases a' <;> simp_all [strip] ; exact fun _ => .empty
  | lit => intro a' e hb; cases a' <;> simp_all [strip] ; exact fun _ => .lit
  | range h => intro a' e hb; cases a' <;> simp_all [strip] ; exact fun _ => .range h
  | wildcard => intro a' e hb; cases a' <;> simp_all [strip] ; exact fun _ => .wildcard
  | bol h => intro a' e hb; cases a' <;> simp_all [strip] ; exact fun _ => .bol (by rw [hf, hc]; exact h)
  | boi => intro a' e hb; cases a' <;> simp_all [strip] ; exact fun _ => .boi
  | eol => intro a' e hb; cases a' <;> simp_all [strip] ; exact fun _ => .eol
  | eoi => intro a' e hb; cases a' <;> simp_all [strip] ; exact fun _ => .eoi
  | wordB h => intro a' e hb; cases a' <;> simp_all [strip] ; exact fun _ => .wordB (by rw [hc]; exact h)
  | backref => intro a' e hb; cases a' <;> simp_all [strip, noBackref]
  | namedBackref => intro a' e hb; cases a' <;> simp_all [strip, noBackref]
  | @set r l h1 h2 ih =>
    intro a' e hb hg
    cases a' with
    | set l' =>
      simp only [strip, Ast.set.injEq] at e
      obtain ⟨h3, h4⟩ := strip_members_eq e
      simp only [noBackref, noBackrefAll_eq, List.all_eq_true] at hb
      refine .set (fun b hb => ?_) (fun b hb' => ?_)
      · obtain ⟨a, ha, e⟩ := h3 b hb
        rw [triv_of_strip e]; exact h1 a ha
      · obtain ⟨a, ha, e⟩ := h3 b hb'
        exact ih a ha b e (hb b hb') (fun k n h => hg k n (.set hb' h))
    | _ => simp [strip] at e
  | @seq r l h1 h2 ih =>
    intro a' e hb hg
    cases a' with
    | seq l' =>
      simp only [strip, Ast.seq.injEq] at e
      obtain ⟨h3, h4⟩ := strip_members_eq e
      simp only [noBackref, noBackrefAll_eq, List.all_eq_true] at hb
      refine .seq (fun e => h1 (h4.2 e)) (fun b hb' => ?_)
      obtain ⟨a, ha, e⟩ := h3 b hb'
      exact ih a ha b e (hb b hb') (fun k n h => hg k n (.seq hb' h))
    | _ => simp [strip] at e
  | @alt r l h1 h2 ih =>
    intro a' e hb hg
    cases a' with
    | alt l' =>
      simp only [strip, Ast.alt.injEq] at e
      obtain ⟨h3, h4⟩ := strip_members_eq e
      simp only [noBackref, noBackrefAll_eq, List.all_eq_true] at hb
      refine .alt (fun e => h1 (h4.2 e)) (fun b hb' => ?_)
      obtain ⟨a, ha, e⟩ := h3 b hb'
      exact ih a ha b e (hb b hb') (fun k n h => hg k n (.alt hb' h))
    | _ => simp [strip] at e
  | @neg r a h1 h2 ih =>
    intro a' e hb hg
    cases a' with
    | neg a' =>
      simp only [strip, Ast.neg.injEq] at e
      refine .neg ?_ (ih a' e hb (fun k n h => hg k n (.neg h)))
      rw [triv_of_strip e, ← isAssertion_strip, e, isAssertion_strip]; exact h1
    | _ => simp [strip] at e
  | @cap r id name a h1 h2 _ ih =>
    intro a' e hb hg
    cases a' with
    | cap id' name' a' =>
      simp only [strip, Ast.cap.injEq] at e
      exact .cap (hg _ _ .here) h2 (ih a' e.2.2 hb (fun k n h => hg k n (.cap h)))
    | _ => simp [strip] at e
  | @repFin r m lo hi a h1 _ ih =>
    intro a' e hb hg
    cases a' with
    | rep m' lo' hi' a' =>
      simp only [strip, Ast.rep.injEq] at e
      obtain ⟨_, rfl, rfl, e⟩ := e
      exact .repFin h1 (ih a' e hb (fun k n h => hg k n (.rep h)))
    | _ => simp [strip] at e
  | @repInf r m lo a _ ih =>
    intro a' e hb hg
    cases a' with
    | rep m' lo' hi' a' =>
      simp only [strip, Ast.rep.injEq] at e
      obtain ⟨_, rfl, rfl, e⟩ := e
      exact .repInf (ih a' e hb (fun k n h => hg k n (.rep h)))
    | _ => simp [strip] at e
  | @ahead r a _ ih =>
    intro a' e hb hg
    cases a' with
    | look d a' =>
      simp only [strip, Ast.look.injEq] at e
      obtain ⟨rfl, e⟩ := e
      exact .ahead (ih a' e hb (fun k n h => hg k n (.look h)))
    | _ => simp [strip] at e
  | @behindTriv r a h1 h2 _ ih =>
    intro a' e hb hg
    cases a' with
    | look d a' =>
      simp only [strip, Ast.look.injEq] at e
      obtain ⟨rfl, e⟩ := e
      exact .behindTriv (by rw [hc]; exact h1) (by rw [triv_of_strip e]; exact h2) (ih a' e hb (fun k n h => hg k n (.look h)))
    | _ => simp [strip] at e
  | @behind r a h1 _ ih =>
    intro a' e hb hg
    cases a' with
    | look d a' =>
      simp only [strip, Ast.look.injEq] at e
      obtain ⟨rfl, e⟩ := e
      refine .behind (by rw [hc]; exact h1) (ih (invert a') (by rw [strip_invert, strip_invert, e]) (by rw [noBackref_invert]; exact hb) (fun k n h => ?_))
      have := hasGroup_invert h
      rw [invert_invert] at this
      exact hg k n (.look this)
    | _ => simp [strip] at e

/-! ## Unnumbered trees -/

/-- Without names, a tree can be used whatever the numbers of its groups, as long as there are as many groups as numbers. -/
theorem ok_indexed {fl : List RegexFlag} {cat : Cat} {x : Ast} {E : Env} (hf : E.flags = Flags.ofList fl) (hc : E.cat = cat) (h : Ok E 0 (strip x))
    (hb : noBackref x = true) (hn : ∀ n ∈ x.nameSpec, n = none) : (Regex.mk (indexCaptures x) fl).Ok cat := by
  intro s
  refine ok_of_strip (E := E) hf.symm hc.symm h _ (by rw [strip_strip]; exact strip_index 1 x) ((noBackref_of_strip (strip_index 1 x)).trans hb) ?_
  intro k n hg
  have h1 := (hasGroup_iff _).1 hg
  have hk : k ∈ groupIds (indexCaptures x) := (List.of_mem_zip h1).1
  have hn' : n = none := hn n (by rw [← nameSpec_index 1 x]; exact (List.of_mem_zip h1).2)
  obtain ⟨h2, h3⟩ := groupIds_bounds 1 x k hk
  subst hn'
  show (none :: nameSpec (indexCaptures x))[k]? = some none
  obtain ⟨k, rfl⟩ : ∃ k', k = k' + 1 := ⟨k - 1, by omega⟩
  rw [List.getElem?_cons_succ, show nameSpec (indexCaptures x) = nameSpec x from nameSpec_index 1 x]
  have hlt : k < (nameSpec x).length := by rw [length_nameSpec]; omega
  rw [List.getElem?_eq_getElem hlt, hn _ (List.getElem_mem hlt)]

/-- The other way round. -/
theorem ok_unindexed {fl : List RegexFlag} {cat : Cat} {x : Ast} (h : (Regex.mk (indexCaptures x) fl).Ok cat)
    (hb : noBackref x = true) (hn : ∀ n ∈ x.nameSpec, n = none) : Ok { inp := [], flags := Flags.ofList fl, cat := cat, names := [none] } 0 (strip x) := by
  refine ok_of_strip (E := (Regex.mk (indexCaptures x) fl).env cat []) (E' := { inp := [], flags := Flags.ofList fl, cat := cat, names := [none] }) rfl rfl (h []) _ ((strip_strip x).trans (strip_index 1 x).symm)
    ((noBackref_strip x).trans hb) ?_
  intro k n hg
  have h1 := (hasGroup_iff _).1 hg
  have hk : k ∈ groupIds (strip x) := (List.of_mem_zip h1).1
  have hn' : n = none := hn n (by rw [← nameSpec_strip x]; exact (List.of_mem_zip h1).2)
  have key : ∀ a : Ast, ∀ k ∈ groupIds (strip a), k = 0 := by
    intro a
    induction a using ind with
    | seq l ih | alt l ih | set l ih =>
      simp only [strip, stripAll_eq, groupIds]
      intro k hk
      obtain ⟨a, ha, hk⟩ := groupIdsAll_mem.1 hk
      obtain ⟨b, hb, rfl⟩ := List.mem_map.1 ha
      exact ih b hb k hk
    | cap id name a ih =>
      simp only [strip, groupIds, List.mem_cons]
      rintro k (rfl | hk)
      · rfl
      · exact ih k hk
    | neg a ih | rep m lo hi a ih | look d a ih => simpa only [strip, groupIds] using ih
    | _ => simp [strip, groupIds]
  rw [key x k hk, hn']; rfl

theorem ok_cat {E : Env} {r : Nat} {a b : Ast} (ha : Ok E r a) (hb : Ok E r b) : Ok E r (catAst a b) := by
  have key : ∀ {a : Ast}, Ok E r a → Spec.seqParts a ≠ [] ∧ ∀ c ∈ Spec.seqParts a, Ok E r c := by
    intro a h
    cases a with
    | seq l => cases h with | seq h1 h2 => exact ⟨h1, h2⟩
    | _ => exact ⟨by simp [Spec.seqParts], fun c hc => by rw [List.mem_singleton.1 hc]; exact h⟩
  have h1 := key ha
  have h2 := key hb
  refine .seq (fun e => h1.1 (List.append_eq_nil_iff.1 e).1) (fun c hc => ?_)
  rcases List.mem_append.1 hc with h | h
  · exact h1.2 c h
  · exact h2.2 c h

theorem ok_altAst {E : Env} {r : Nat} {a b : Ast} (ha : Ok E r a) (hb : Ok E r b) : Ok E r (altAst a b) := by
  cases a with
  | alt l =>
    cases ha with | alt h1 h2 =>
    refine .alt (by simp) (fun c hc => ?_)
    rcases List.mem_append.1 hc with h | h
    · exact h2 c h
    · rw [List.mem_singleton.1 h]; exact hb
  | _ =>
    refine .alt (by simp) (fun c hc => ?_)
    rcases List.mem_cons.1 hc with rfl | h
    · exact ha
    · rw [List.mem_singleton.1 h]; exact hb

theorem noBackref_cat {a b : Ast} (ha : noBackref a = true) (hb : noBackref b = true) : noBackref (catAst a b) = true := by
  have key : ∀ {a : Ast}, noBackref a = true → ∀ c ∈ Spec.seqParts a, noBackref c = true := by
    intro a h c hc
    cases a with
    | seq l => simp only [noBackref, noBackrefAll_eq, List.all_eq_true] at h; exact h c hc
    | _ => simp only [Spec.seqParts, List.mem_singleton] at hc; rw [hc]; exact h
  simp only [catAst, noBackref, noBackrefAll_eq, List.all_eq_true, List.mem_append]
  rintro c (h | h)
  · exact key ha c h
  · exact key hb c h

theorem noBackref_altAst {a b : Ast} (ha : noBackref a = true) (hb : noBackref b = true) : noBackref (altAst a b) = true := by
  cases a with
  | alt l =>
    simp only [noBackref, noBackrefAll_eq, List.all_eq_true] at ha
    simp only [altAst, noBackref, noBackrefAll_eq, List.all_eq_true, List.mem_append, List.mem_singleton]
    rintro c (h | rfl)
    · exact ha c h
    · exact hb
  | _ => simp only [altAst, noBackref, noBackrefAll, Bool.and_true, Bool.and_eq_true] at ha ⊢; exact ⟨ha, hb⟩

theorem ends_cat (f : Flags) (s : List Byte) (a b : Ast) (p : Nat) :
    ends f s (catAst a b) true false p = (ends f s a true false p).flatMap (ends f s b true false) := by
  have key : ∀ a : Ast, endsAll f s (Spec.seqParts a) true false = ends f s a true false := by
    intro a
    cases a with
    | seq l => funext p; simp [Spec.seqParts, ends]
    | _ => exact endsAll_single ..
  simp only [catAst, ends, endsAll_append, Bool.false_eq_true, if_false, key]

theorem ends_altAst (f : Flags) (s : List Byte) (a b : Ast) (p : Nat) :
    ends f s (altAst a b) true false p = ends f s a true false p ++ ends f s b true false p := by
  have key : ∀ l : List Ast, endsAny f s (l ++ [b]) true false p = endsAny f s l true false p ++ ends f s b true false p := by
    intro l
    induction l with
    | nil => simp [endsAny]
    | cons a l ih => simp [endsAny, ih]
  cases a with
  | alt l => simp only [altAst, ends]; exact key l
  | _ => simp only [altAst]; rw [show ∀ l, ends f s (.alt l) true false p = endsAny f s l true false p from fun _ => by rw [ends]]; exact key [_] ▸ by simp [endsAny]

theorem mem_eoi (f : Flags) (s : List Byte) (p q : Nat) : q ∈ ends f s .eoi true false p ↔ q = p ∧ p = s.length := by
  simp only [ends, atStop, atStart, test]
  by_cases h : p = s.length <;> simp [h]

/-- `A\Z` somewhere. -/
theorem toEnd_nonempty (f : Flags) (s : List Byte) (a : Ast) (p : Nat) :
    ends f s (catAst a .eoi) true false p ≠ [] ↔ s.length ∈ ends f s a true false p := by
  rw [ends_cat, List.ne_nil_iff_exists_cons]
  constructor
  · rintro ⟨q, l, h⟩
    have : q ∈ (ends f s a true false p).flatMap (ends f s .eoi true false) := by rw [h]; simp
    obtain ⟨t, h1, h2⟩ := List.mem_flatMap.1 this
    obtain ⟨rfl, h3⟩ := (mem_eoi f s t q).1 h2
    exact h3 ▸ h1
  · intro h
    have : s.length ∈ (ends f s a true false p).flatMap (ends f s .eoi true false) := List.mem_flatMap.2 ⟨_, h, (mem_eoi f s _ _).2 ⟨rfl, rfl⟩⟩
    cases hl : (ends f s a true false p).flatMap (ends f s .eoi true false) with
    | nil => rw [hl] at this; cases this
    | cons q l => exact ⟨q, l, rfl⟩

theorem mem_ahead (f : Flags) (s : List Byte) (a : Ast) (p q : Nat) :
    q ∈ ends f s (.look .ahead a) true false p ↔ q = p ∧ ends f s a true false p ≠ [] := by
  simp only [ends, beq_self_eq_true, Bool.not_false, if_true, test]
  cases ends f s a true false p <;> simp

theorem mem_notAhead' (f : Flags) (s : List Byte) (a : Ast) (p q : Nat) :
    q ∈ ends f s (.neg (.look .ahead a)) true false p ↔ q = p ∧ ends f s a true false p = [] := by
  simp only [ends, Spec.assertion, if_true, beq_self_eq_true, Bool.not_false, test]
  cases ends f s a true false p <;> simp

/-- Everything: `[^]*`. -/
def anything : Ast := .rep .greedy 0 .inf (.neg (.set []))

theorem mem_anything (f : Flags) (s : List Byte) {p q : Nat} (hp : p ≤ s.length) : q ∈ ends f s anything true false p ↔ p ≤ q ∧ q ≤ s.length := by
  constructor
  · exact ends_bounds hp
  · rintro ⟨h1, h2⟩
    simp only [anything, ends]
    show q ∈ (exactly (ends f s (.neg (.set [])) true false) 0 p).flatMap (extra s.length .greedy f.ungreedy (ends f s (.neg (.set [])) true false) none)
    simp only [exactly, List.flatMap_cons, List.flatMap_nil, List.append_nil]
    have hg : ∀ t, t < s.length → ends f s (.neg (.set [])) true false t = [t + 1] := by
      intro t ht
      simp [ends, Spec.assertion, oneChar, readChar, accepts, acceptsAny, List.getElem?_eq_getElem ht]
    have key : ∀ (g : (Nat → List Nat) → Nat → Nat → List Nat),
        (∀ k p, p ∈ g (ends f s (.neg (.set [])) true false) (k + 1) p) →
        (∀ k p t, t ∈ ends f s (.neg (.set [])) true false p → t ≠ p → ∀ q ∈ g (ends f s (.neg (.set [])) true false) k t, q ∈ g (ends f s (.neg (.set [])) true false) (k + 1) p) →
        ∀ k p, p ≤ q → q < p + k + 1 → q ∈ g (ends f s (.neg (.set [])) true false) (k + 1) p := by
      intro g h3 h4 k
      induction k with
      | zero => intro p hp hq; rw [show q = p by omega]; exact h3 _ _
      | succ k ih =>
        intro p hp hq
        by_cases he : q = p
        · rw [he]; exact h3 _ _
        · exact h4 _ p (p + 1) (by rw [hg p (by omega)]; simp) (by omega) q (ih (p + 1) (by omega) (by omega))
    have hk : q < p + s.length + 1 := by omega
    cases hu : f.ungreedy
    · simp only [extra]
      exact key greedyStar (fun k p => by simp [greedyStar]) (fun k p t h1 h2 q h3 => by
        simp only [greedyStar, List.mem_append, List.mem_flatMap, List.mem_filter]
        exact .inl ⟨t, ⟨h1, by simpa using h2⟩, h3⟩) _ p h1 hk
    · simp only [extra]
      exact key lazyStar (fun k p => by simp [lazyStar]) (fun k p t h1 h2 q h3 => by
        simp only [lazyStar, List.mem_append, List.mem_flatMap, List.mem_filter]
        exact .inr ⟨t, ⟨h1, by simpa using h2⟩, h3⟩) _ p h1 hk

/-! ## Reading the pattern of a formula -/

theorem noQuant_of {c : Byte} (h : c ∉ txt "*+?{") : NoQuant (some c) := by
  intro d e; cases e; exact h

theorem reads_eoi (f : Option Byte) (hf : NoQuant f) : Reads (.item false) (txt "\\Z") f .eoi :=
  .assertion (e := ch 'Z') (by simp [assertions]) hf

theorem reads_everything (f : Option Byte) (hf : NoQuant f) : Reads (.item false) (txt "[^]*") f anything := by
  have h1 : SetText (txt "[^]") (.neg (.set [])) := SetText.neg (w := []) (.plain .nil)
  have := Reads.quant (b := false) (w := txt "[^]") (q := txt "*") (s := []) (f := f) (.set h1) .star .greedy hf
  exact this

theorem reads_toEnd {w : List Byte} {x : Ast} (h : ∀ f, Reads (.atom false) w f x) : Pattern (w ++ txt "\\Z") (catAst x .eoi) :=
  .alts (.single (.more (.one (.bare (h _) (noQuant_of (by decide)))) (reads_eoi _ noQuant_none)))

/-- What is shown by induction on formulas. -/
structure Read (fl : List RegexFlag) (cat : Cat) (w : List Byte) (x : Ast) (P : List Byte → Prop) : Prop where
  atom : ∀ f, Reads (.atom false) w f x
  head : w.head? = some (ch '(')
  ok : Ok { inp := [], flags := Flags.ofList fl, cat := cat, names := [none] } 0 (strip x)
  refs : noBackref x = true
  names : ∀ n ∈ x.nameSpec, n = none
  whole : ∀ s, s.length ∈ ends (Flags.ofList fl) s x true false 0 ↔ P s

variable {fl : List RegexFlag} {cat : Cat}

theorem head_group (w : List Byte) : NoQuant (txt "(?:" ++ w).head? := noQuant_of (by decide)

theorem Read.result {w : List Byte} {x : Ast} {P : List Byte → Prop} (h : Read fl cat w x P) :
    parse w = .result (indexCaptures x) .success ∧ (Regex.mk (indexCaptures x) fl).Ok cat ∧ noBackref (indexCaptures x) = true ∧
    (∀ n ∈ (indexCaptures x).nameSpec, n = none) ∧ ∀ s, s ∈ accepted ⟨indexCaptures x, fl⟩ .match cat ↔ P s := by
  have hok : (Regex.mk (indexCaptures x) fl).Ok cat := ok_indexed (E := { inp := [], flags := Flags.ofList fl, cat := cat, names := [none] }) rfl rfl h.ok h.refs h.names
  have hb : noBackref (indexCaptures x) = true := (noBackref_of_strip (strip_index 1 x)).trans h.refs
  refine ⟨parse_of_pattern (pattern_atom (h.atom none)), hok, hb, by rw [show nameSpec (indexCaptures x) = nameSpec x from nameSpec_index 1 x]; exact h.names, fun s => ?_⟩
  rw [accepted_match hok hb, ← h.whole s]
  show s.length ∈ ends _ s (index 1 x) true false 0 ↔ _
  rw [ends_index]

theorem read_formula (F : Formula) (hF : ∀ w ∈ F.patterns, Plain fl cat w) : ∃ x, Read fl cat F.write x (fun s => F.Holds fl cat s) := by
  induction F with
  | pattern w =>
    obtain ⟨a, h1, h2, h3, h4⟩ := hF w (by simp [Formula.patterns])
    obtain ⟨x, hx, rfl⟩ := (parse_iff w a).1 h1
    have hb : noBackref x = true := by rw [← noBackref_of_strip (strip_index 1 x)]; exact h3
    have hn : ∀ n ∈ x.nameSpec, n = none := by rw [← nameSpec_index 1 x]; exact h4
    refine ⟨x, reads_group .plain hx, rfl, ok_unindexed h2 hb hn, hb, hn, fun s => ?_⟩
    have h5 := accepted_match h2 h3 s
    constructor
    · intro h
      refine ⟨_, h1, h5.2 ?_⟩
      show s.length ∈ ends _ s (index 1 x) true false 0
      rw [ends_index]; exact h
    · rintro ⟨b, h6, h7⟩
      rw [h1] at h6
      cases h6
      have := h5.1 h7
      rw [show (Regex.mk (indexCaptures x) fl).ast = index 1 x from rfl, ends_index] at this
      exact this
  | and A B ihA ihB =>
    obtain ⟨x, hx⟩ := ihA (fun w hw => hF w (by simp [Formula.patterns, hw]))
    obtain ⟨y, hy⟩ := ihB (fun w hw => hF w (by simp [Formula.patterns, hw]))
    have hl : ∀ f, Reads (.atom false) (txt "(?=" ++ (A.write ++ txt "\\Z") ++ txt ")") f (.look .ahead (catAst x .eoi)) := reads_group .ahead (reads_toEnd hx.atom)
    have hq : NoQuant B.write.head? := by rw [hy.head]; exact noQuant_of (by decide)
    have hp : Pattern (txt "(?=" ++ (A.write ++ txt "\\Z") ++ txt ")" ++ B.write) (catAst (.look .ahead (catAst x .eoi)) y) :=
      .alts (.single (.more (.one (.bare (hl _) hq)) (.bare (hy.atom _) noQuant_none)))
    refine ⟨catAst (.look .ahead (catAst x .eoi)) y, ?_, rfl, ?_, ?_, ?_, ?_⟩
    · intro f
      have := reads_group .plain hp f
      simpa [Formula.write, txt] using this
    · rw [strip_catAst]
      refine ok_cat ?_ hy.ok
      simp only [strip, strip_catAst]
      exact .ahead (ok_cat hx.ok .eoi)
    · exact noBackref_cat (by simp only [noBackref]; exact noBackref_cat hx.refs rfl) hy.refs
    · intro n hn
      rw [nameSpec_catAst, nameSpec, nameSpec_catAst] at hn
      simp only [nameSpec, List.append_nil, List.mem_append] at hn
      exact hn.elim (hx.names n) (hy.names n)
    · intro s
      rw [ends_cat, List.mem_flatMap]
      simp only [Formula.Holds]
      rw [← hx.whole s, ← hy.whole s, ← toEnd_nonempty]
      constructor
      · rintro ⟨q, h1, h2⟩
        obtain ⟨rfl, h3⟩ := (mem_ahead _ _ _ _ _).1 h1
        exact ⟨h3, h2⟩
      · rintro ⟨h1, h2⟩
        exact ⟨0, (mem_ahead _ _ _ _ _).2 ⟨rfl, h1⟩, h2⟩
  | or A B ihA ihB =>
    obtain ⟨x, hx⟩ := ihA (fun w hw => hF w (by simp [Formula.patterns, hw]))
    obtain ⟨y, hy⟩ := ihB (fun w hw => hF w (by simp [Formula.patterns, hw]))
    have hp : Pattern (A.write ++ txt "|" ++ B.write) (altAst x y) :=
      .alts (.or (.single (.one (.bare (hx.atom _) (noQuant_of (by decide))))) (.one (.bare (hy.atom _) noQuant_none)))
    refine ⟨altAst x y, ?_, rfl, ?_, noBackref_altAst hx.refs hy.refs, ?_, ?_⟩
    · intro f
      have := reads_group .plain hp f
      simpa [Formula.write, txt] using this
    · rw [strip_altAst]
      exact ok_altAst hx.ok hy.ok
    · intro n hn
      have : nameSpec (altAst x y) = nameSpec x ++ nameSpec y := by
        cases x <;> simp [altAst, nameSpec, nameSpecAll, nameSpecAll_append]
      rw [this, List.mem_append] at hn
      exact hn.elim (hx.names n) (hy.names n)
    · intro s
      rw [ends_altAst, List.mem_append, hx.whole s, hy.whole s]
      rfl
  | not A ihA =>
    obtain ⟨x, hx⟩ := ihA hF
    have hl : ∀ f, Reads (.atom false) (txt "(?!" ++ (A.write ++ txt "\\Z") ++ txt ")") f (.neg (.look .ahead (catAst x .eoi))) := reads_group (g := fun a => .neg (.look .ahead a)) .negAhead (reads_toEnd hx.atom)
    have hp : Pattern (txt "(?!" ++ (A.write ++ txt "\\Z") ++ txt ")" ++ txt "[^]*") (catAst (.neg (.look .ahead (catAst x .eoi))) anything) :=
      .alts (.single (.more (.one (.bare (hl _) (noQuant_of (by decide)))) (reads_everything _ noQuant_none)))
    refine ⟨catAst (.neg (.look .ahead (catAst x .eoi))) anything, ?_, rfl, ?_, ?_, ?_, ?_⟩
    · intro f
      have := reads_group .plain hp f
      simpa [Formula.write, txt] using this
    · rw [strip_catAst]
      refine ok_cat ?_ (.repInf (.neg (.inl rfl) (.set (fun _ h => nomatch h) (fun _ h => nomatch h))))
      simp only [strip, strip_catAst]
      exact .neg (.inr rfl) (.ahead (ok_cat hx.ok .eoi))
    · exact noBackref_cat (by simp only [noBackref]; exact noBackref_cat hx.refs rfl) rfl
    · intro n hn
      rw [nameSpec_catAst, nameSpec, nameSpec, nameSpec_catAst] at hn
      simp only [nameSpec, List.append_nil, anything, nameSpecAll] at hn
      exact hx.names n hn
    · intro s
      rw [ends_cat, List.mem_flatMap]
      simp only [Formula.Holds]
      rw [← hx.whole s, ← toEnd_nonempty, Ne, Classical.not_not]
      constructor
      · rintro ⟨q, h1, h2⟩
        exact ((mem_notAhead' _ _ _ _ _).1 h1).2
      · intro h1
        exact ⟨0, (mem_notAhead' _ _ _ _ _).2 ⟨rfl, h1⟩, (mem_anything _ _ (Nat.zero_le _)).2 ⟨Nat.zero_le _, Nat.le_refl _⟩⟩

end Mregex
