import Verif.Spec.Satisfy
import Verif.Proof.Url
import Verif.Props.Parsing
import Verif.Props.Writable

/-!
# Satisfiability: lemmas
-/

namespace Mregex
open Ast Spec

/-! ### The tree of the pattern -/

def maybeX : Ast := .rep .greedy 0 (.fin 1) (.lit (ch 'x'))

def clauseAst (c : Clause) : Ast := .alt [.backref c.first.group, .backref c.second.group, .backref c.third.group]

def clauseParts : List Clause → List Ast
  | [] => []
  | c :: φ => clauseAst c :: .lit (ch ',') :: clauseParts φ

def satParts (k : Nat) : Nat → List Clause → List Ast
  | 0, φ => clauseParts φ
  | n + 1, φ => .cap (2 * k + 1) none maybeX :: .cap (2 * k + 2) none maybeX :: .lit (ch ',') :: satParts (k + 1) n φ

def satAst (n : Nat) (φ : List Clause) : Ast := .seq (satParts 0 n φ)

theorem group_pos (l : Literal) : l.group ≠ 0 := by unfold Literal.group; split <;> omega

theorem literal_group_le {l : Literal} {n : Nat} (h : l.var < n) : l.group ≤ 2 * n := by unfold Literal.group; split <;> omega

theorem pr_ref (l : Literal) : pr (.backref l.group) = ⟨l.pattern, .ref⟩ := by
  simp only [pr, Literal.pattern, if_neg (group_pos l)]

theorem join_clauses (φ : List Clause) : joinParts (prAll (clauseParts φ)) = clausesPattern φ := by
  induction φ with
  | nil => rfl
  | cons c φ ih =>
    simp only [clauseParts, prAll, joinParts, ih, clausesPattern, Clause.pattern]
    rw [show pr (clauseAst c) = ⟨c.first.pattern ++ txt "|" ++ (c.second.pattern ++ txt "|" ++ c.third.pattern), .alts⟩ by
      rw [clauseAst, pr]
      simp only [prAll, pr_ref, joinBranches, Printed.asBranch]]
    simp only [Printed.asItem, Printed.wrapped, List.append_assoc]
    rfl

theorem join_parts (n k : Nat) (φ : List Clause) : joinParts (prAll (satParts k n φ)) = satPattern n φ := by
  induction n generalizing k with
  | zero => exact join_clauses φ
  | succ n ih =>
    simp only [satParts, prAll, joinParts, ih, satPattern]
    rfl

theorem print_sat (n : Nat) (φ : List Clause) : print (satAst n φ) = satPattern n φ := by
  rw [print, satAst, pr]
  exact join_parts n 0 φ

theorem count_clauses (φ : List Clause) (o : Nat) : indexSeq o (clauseParts φ) = clauseParts φ := by
  induction φ generalizing o with
  | nil => rfl
  | cons c φ ih => simp only [clauseParts, indexSeq, ih, clauseAst, index, indexSame]

theorem index_parts (n k : Nat) (φ : List Clause) : indexSeq (2 * k + 1) (satParts k n φ) = satParts k n φ := by
  induction n generalizing k with
  | zero => exact count_clauses φ _
  | succ n ih =>
    show .cap (2 * k + 1) none maybeX :: .cap (2 * k + 2) none maybeX :: .lit (ch ',') :: indexSeq (2 * (k + 1) + 1) (satParts (k + 1) n φ) = _
    rw [ih, satParts]

theorem index_sat (n : Nat) (φ : List Clause) : indexCaptures (satAst n φ) = satAst n φ := by
  rw [indexCaptures, satAst, index]
  exact congrArg _ (index_parts n 0 φ)

/-- What the parts are. -/
theorem mem_satParts {k n : Nat} {φ : List Clause} {a : Ast} (h : a ∈ satParts k n φ) :
    (∃ id, 2 * k < id ∧ id ≤ 2 * (k + n) ∧ a = .cap id none maybeX) ∨ a = .lit (ch ',') ∨ ∃ c ∈ φ, a = clauseAst c := by
  induction n generalizing k with
  | zero =>
    simp only [satParts] at h
    refine .inr ?_
    induction φ with
    | nil => cases h
    | cons c φ ih =>
      simp only [clauseParts, List.mem_cons] at h
      rcases h with rfl | rfl | h
      · exact .inr ⟨c, by simp, rfl⟩
      · exact .inl rfl
      · rcases ih h with h | ⟨d, h1, h2⟩
        · exact .inl h
        · exact .inr ⟨d, List.mem_cons_of_mem _ h1, h2⟩
  | succ n ih =>
    simp only [satParts, List.mem_cons] at h
    rcases h with rfl | rfl | rfl | h
    · exact .inl ⟨_, by omega, by omega, rfl⟩
    · exact .inl ⟨_, by omega, by omega, rfl⟩
    · exact .inr (.inl rfl)
    · rcases ih h with ⟨id, h1, h2, h3⟩ | h
      · exact .inl ⟨id, by omega, by omega, h3⟩
      · exact .inr h

theorem satParts_length (k n : Nat) (φ : List Clause) : 3 * n ≤ (satParts k n φ).length := by
  induction n generalizing k with
  | zero => omega
  | succ n ih =>
    have := ih (k + 1)
    simp only [satParts, List.length_cons]
    omega

theorem normal_sat {n : Nat} {φ : List Clause} (h0 : n ≠ 0) (hb : 2 * n < 2 ^ 64) (hφ : ∀ c ∈ φ, c.Within n) : Normal (satAst n φ) := by
  refine .seq (by have := satParts_length 0 n φ; omega) ?_ ?_
  · intro a ha
    rcases mem_satParts ha with ⟨_, _, _, rfl⟩ | rfl | ⟨_, _, rfl⟩ <;> exact fun _ h => by cases h
  · intro a ha
    rcases mem_satParts ha with ⟨_, _, _, rfl⟩ | rfl | ⟨c, hc, rfl⟩
    · exact .cap (.repFin (by decide) (by decide) .lit)
    · exact .lit
    · obtain ⟨h1, h2, h3⟩ := hφ c hc
      have g1 := literal_group_le h1
      have g2 := literal_group_le h2
      have g3 := literal_group_le h3
      refine .alt (by simp) (fun _ h => by cases h) (fun b hb' => ?_)
      simp only [List.mem_cons, List.not_mem_nil, or_false] at hb'
      rcases hb' with rfl | rfl | rfl <;> exact .backref (by omega)

theorem parse_sat {n : Nat} {φ : List Clause} (h0 : n ≠ 0) (hb : 2 * n < 2 ^ 64) (hφ : ∀ c ∈ φ, c.Within n) :
    parse (satPattern n φ) = .result (satAst n φ) .success := by
  rw [← print_sat]
  exact C36_parse_print (normal_sat h0 hb hφ) (index_sat n φ)

/-! ### The conditions -/

theorem names_clauses (φ : List Clause) : nameSpecAll (clauseParts φ) = [] := by
  induction φ with
  | nil => rfl
  | cons c φ ih => simp only [clauseParts, nameSpecAll, clauseAst, nameSpec, ih, List.append_nil]

theorem names_parts (n k : Nat) (φ : List Clause) : nameSpecAll (satParts k n φ) = List.replicate (2 * n) none := by
  induction n generalizing k with
  | zero => exact names_clauses φ
  | succ n ih =>
    simp only [satParts, nameSpecAll, maybeX, nameSpec, ih, List.nil_append, List.cons_append]
    rw [show 2 * (n + 1) = 2 * n + 1 + 1 by omega, List.replicate_succ, List.replicate_succ]

theorem sat_ok {n : Nat} {φ : List Clause} (h0 : n ≠ 0) (hφ : ∀ c ∈ φ, c.Within n) (fl : List RegexFlag) {cat : Cat} (hcat : cat ≠ .forward) :
    (Regex.mk (satAst n φ) fl).Ok cat := by
  intro s
  have hn : ((Regex.mk (satAst n φ) fl).env cat s).names = List.replicate (2 * n + 1) none := by
    show none :: nameSpecAll (satParts 0 n φ) = _
    rw [names_parts, List.replicate_succ]
  refine .seq (fun h => ?_) (fun a ha => ?_)
  · have := satParts_length 0 n φ
    rw [h] at this
    simp only [List.length_nil] at this
    omega
  · rcases mem_satParts ha with ⟨id, h1, h2, rfl⟩ | rfl | ⟨c, hc, rfl⟩
    · refine .cap ?_ (by omega) (.repFin (by omega) .lit)
      rw [hn, List.getElem?_replicate, if_pos (by omega)]
    · exact .lit
    · obtain ⟨h1, h2, h3⟩ := hφ c hc
      have g1 := literal_group_le h1
      have g2 := literal_group_le h2
      have g3 := literal_group_le h3
      refine .alt (by simp) (fun b hb => ?_)
      simp only [List.mem_cons, List.not_mem_nil, or_false] at hb
      rcases hb with rfl | rfl | rfl <;> exact .backref hcat (by rw [hn, List.length_replicate]; omega)

theorem wordy_parts (n k : Nat) (φ : List Clause) : wordyAll (satParts k n φ) = true := by
  induction n generalizing k with
  | zero =>
    simp only [satParts]
    induction φ with
    | nil => rfl
    | cons c φ ih => simp only [clauseParts, wordyAll, clauseAst, wordy, ih, Bool.and_self]
  | succ n ih => simp only [satParts, wordyAll, wordy, maybeX, ih, Bool.and_self]

theorem commits_parts (n k : Nat) (φ : List Clause) : commitsClosedAll (satParts k n φ) = true := by
  induction n generalizing k with
  | zero =>
    simp only [satParts]
    induction φ with
    | nil => rfl
    | cons c φ ih => simp only [clauseParts, commitsClosedAll, clauseAst, commitsClosed, ih, Bool.and_self]; rfl
  | succ n ih => simp only [satParts, commitsClosedAll, commitsClosed, maybeX, ih, Bool.and_true]; rfl

theorem ids_parts (n k : Nat) (φ : List Clause) : ∀ id ∈ groupIdsAll (satParts k n φ), 2 * k < id := by
  intro id h
  obtain ⟨a, ha, h⟩ := groupIdsAll_mem.1 h
  rcases mem_satParts ha with ⟨id', h1, h2, rfl⟩ | rfl | ⟨c, hc, rfl⟩
  · simp only [groupIds, maybeX, List.mem_cons, List.not_mem_nil, or_false] at h
    omega
  · cases h
  · simp only [clauseAst, groupIds, groupIdsAll, List.append_nil, List.not_mem_nil] at h

theorem once_parts (j n k : Nat) (φ : List Clause) : visitedOnceAll j (satParts k n φ) = true := by
  induction n generalizing k with
  | zero =>
    simp only [satParts]
    induction φ with
    | nil => rfl
    | cons c φ ih => simp only [clauseParts, visitedOnceAll, clauseAst, visitedOnce, visitedOnceAny, groupIds, groupIdsAll, ih]; rfl
  | succ n ih =>
    have h1 := ids_parts n (k + 1) φ
    have : ∀ i, i ≤ 2 * k + 2 → ¬ i ∈ groupIdsAll (satParts (k + 1) n φ) := by
      intro i hi h
      have := h1 i h
      omega
    simp only [satParts, visitedOnceAll, visitedOnce, maybeX, groupIds, groupIdsAll, ih, List.nil_append, List.cons_append, Bool.and_true, List.contains_cons,
      List.contains_nil, Bool.or_false, Bool.not_false, Bool.or_true, Bool.true_or, Bool.true_and]
    by_cases h2 : j = 2 * k + 1
    · simp [h2, this (2 * k + 1) (by omega)]
    · by_cases h3 : j = 2 * k + 2
      · simp [h3, this (2 * k + 2) (by omega)]
      · simp [h2, h3]

theorem refs_parts {P : Nat → Bool} (hP : ∀ k, P k = true) (n k : Nat) (φ : List Clause) : refsToAll P [] (satParts k n φ) = true := by
  induction n generalizing k with
  | zero =>
    simp only [satParts]
    induction φ with
    | nil => rfl
    | cons c φ ih => simp only [clauseParts, refsToAll, clauseAst, refsTo, ih, hP]; rfl
  | succ n ih => simp only [satParts, refsToAll, refsTo, maybeX, ih]; rfl

theorem once_sat (j n : Nat) (φ : List Clause) : visitedOnce j (satAst n φ) = true := once_parts j n 0 φ

theorem traceable_sat (n : Nat) (φ : List Clause) : traceable (satAst n φ) = true := by
  rw [traceable, show commitsClosed (satAst n φ) = true from commits_parts n 0 φ, Bool.true_and]
  exact refs_parts (fun k => once_sat k n φ) n 0 φ

/-! ### What the pattern says -/

section
variable {f : Flags}

theorem accept_x : ∀ b : Bool, ((ch 'x' == ch 'x' || (b && asciiLower (ch 'x') == asciiLower (ch 'x'))) = true) ∧
    ((ch 'x' == ch ',' || (b && asciiLower (ch 'x') == asciiLower (ch ','))) = false) ∧
    ((ch ',' == ch 'x' || (b && asciiLower (ch ',') == asciiLower (ch 'x'))) = false) ∧
    ((ch ',' == ch ',' || (b && asciiLower (ch ',') == asciiLower (ch ','))) = true) := by decide

theorem says_capX (k : Nat) (e : Memory) (w : List Byte) (e' : Memory) :
    Says f (.cap k none maybeX) e w e' ↔ (w = [] ∨ ∃ x, w = [x] ∧ accepts f (.lit (ch 'x')) x = true) ∧ e' = (k, w) :: e := by
  simp only [Says.eq_4, maybeX, says_optional]
  simp only [Says]
  constructor
  · rintro ⟨t, (⟨rfl, rfl⟩ | ⟨h, rfl⟩), rfl⟩
    · exact ⟨.inl rfl, rfl⟩
    · exact ⟨.inr h, rfl⟩
  · rintro ⟨(rfl | h), rfl⟩
    · exact ⟨e, .inl ⟨rfl, rfl⟩, rfl⟩
    · exact ⟨e, .inr ⟨h, rfl⟩, rfl⟩

/-- What a variable with the value `b` makes the groups remember. -/
def bitMemory (k : Nat) : Bool → Memory
  | true => [(2 * k + 2, []), (2 * k + 1, [ch 'x'])]
  | false => [(2 * k + 2, [ch 'x']), (2 * k + 1, [])]

theorem says_variable (k : Nat) (l : List Ast) (e : Memory) (w : List Byte) (e' : Memory) :
    SaysAll f (.cap (2 * k + 1) none maybeX :: .cap (2 * k + 2) none maybeX :: .lit (ch ',') :: l) e (ch 'x' :: ch ',' :: w) e' ↔
      ∃ b, SaysAll f l (bitMemory k b ++ e) w e' := by
  obtain ⟨a1, a2, a3, a4⟩ := accept_x f.icase
  have hl : ∀ e u e', Says f (.lit (ch ',')) e u e' ↔ (∃ x, u = [x] ∧ accepts f (.lit (ch ',')) x = true) ∧ e' = e := fun _ _ _ => by simp only [Says]
  simp only [SaysAll, says_capX, hl]
  constructor
  · rintro ⟨u, v, t, h1, ⟨hu, rfl⟩, u', v', t', rfl, ⟨hu', rfl⟩, u'', v'', t'', rfl, ⟨⟨x, rfl, hx⟩, rfl⟩, h⟩
    rcases hu with rfl | ⟨y, rfl, hy⟩
    · rcases hu' with rfl | ⟨y', rfl, hy'⟩
      · simp only [List.nil_append, List.cons_append, List.cons.injEq] at h1
        obtain ⟨rfl, _⟩ := h1
        rw [accepts, a3] at hx
        cases hx
      · simp only [List.nil_append, List.cons_append, List.cons.injEq] at h1
        obtain ⟨rfl, rfl, rfl⟩ := h1
        exact ⟨false, h⟩
    · rcases hu' with rfl | ⟨y', rfl, hy'⟩
      · simp only [List.nil_append, List.cons_append, List.cons.injEq] at h1
        obtain ⟨rfl, rfl, rfl⟩ := h1
        exact ⟨true, h⟩
      · simp only [List.nil_append, List.cons_append, List.cons.injEq] at h1
        obtain ⟨rfl, rfl, _⟩ := h1
        rw [accepts, a2] at hy'
        cases hy'
  · rintro ⟨b, h⟩
    cases b with
    | true => exact ⟨[ch 'x'], _, _, rfl, ⟨.inr ⟨_, rfl, a1⟩, rfl⟩, [], _, _, rfl, ⟨.inl rfl, rfl⟩, [ch ','], w, _, rfl, ⟨⟨_, rfl, a4⟩, rfl⟩, h⟩
    | false => exact ⟨[], _, _, rfl, ⟨.inl rfl, rfl⟩, [ch 'x'], _, _, rfl, ⟨.inr ⟨_, rfl, a1⟩, rfl⟩, [ch ','], w, _, rfl, ⟨⟨_, rfl, a4⟩, rfl⟩, h⟩

/-- The memory holds the values `v` of the variables `0, …, n - 1`. -/
def Remembers (v : Nat → Bool) (n : Nat) (e : Memory) : Prop :=
  ∀ i, i < n → recall (2 * i + 1) e = (if v i then [ch 'x'] else []) ∧ recall (2 * i + 2) e = (if v i then [] else [ch 'x'])

theorem remembers_bit {v : Nat → Bool} {k : Nat} {e : Memory} (h : Remembers v k e) (b : Bool) : Remembers (fun i => if i = k then b else v i) (k + 1) (bitMemory k b ++ e) := by
  intro i hi
  by_cases hk : i = k
  · subst hk
    cases b <;> simp [bitMemory, recall]
  · have := h i (by omega)
    simp only [if_neg hk]
    have e1 : ¬ 2 * k + 2 = 2 * i + 1 := by omega
    have e2 : ¬ 2 * k + 1 = 2 * i + 1 := by omega
    have e3 : ¬ 2 * k + 2 = 2 * i + 2 := by omega
    have e4 : ¬ 2 * k + 1 = 2 * i + 2 := by omega
    cases b <;> simp only [bitMemory, List.cons_append, List.nil_append, recall, if_neg e1, if_neg e2, if_neg e3, if_neg e4] <;> exact this

theorem remembers_literal {v : Nat → Bool} {n : Nat} {e : Memory} (h : Remembers v n e) {l : Literal} (hl : l.var < n) (w : List Byte) :
    (SameText f.icase (recall l.group e) (ch 'x' :: w) ↔ l.Holds v ∧ w = []) ∧ (SameText f.icase (recall l.group e) [] ↔ ¬ l.Holds v) := by
  obtain ⟨h1, h2⟩ := h _ hl
  have hx : SameText f.icase [ch 'x'] (ch 'x' :: w) ↔ w = [] := by
    cases w <;> simp [SameText, CharEq]
  obtain ⟨i, p⟩ := l
  unfold Literal.group Literal.Holds
  simp only at h1 h2 ⊢
  cases hv : v i <;> cases p <;> simp [hv] at h1 h2 <;> simp [h1, h2, hx] <;> simp [SameText]

theorem says_clause {v : Nat → Bool} {n : Nat} {e : Memory} (h : Remembers v n e) {c : Clause} (hc : c.Within n) (l : List Ast) (w : List Byte) (e' : Memory) :
    SaysAll f (clauseAst c :: .lit (ch ',') :: l) e (ch 'x' :: ch ',' :: w) e' ↔ c.Holds v ∧ SaysAll f l e w e' := by
  obtain ⟨a1, a2, a3, a4⟩ := accept_x f.icase
  have hl : ∀ e u e', Says f (.lit (ch ',')) e u e' ↔ (∃ x, u = [x] ∧ accepts f (.lit (ch ',')) x = true) ∧ e' = e := fun _ _ _ => by simp only [Says]
  have hs : ∀ u t, Says f (clauseAst c) e u t ↔
      (SameText f.icase (recall c.first.group e) u ∨ SameText f.icase (recall c.second.group e) u ∨ SameText f.icase (recall c.third.group e) u) ∧ t = e := by
    intro u t
    simp only [clauseAst, Says, SaysAny, or_false, ← or_and_right]
  obtain ⟨c1, c2, c3⟩ := hc
  have r1 := remembers_literal (f := f) h c1
  have r2 := remembers_literal (f := f) h c2
  have r3 := remembers_literal (f := f) h c3
  simp only [SaysAll, hl, hs]
  constructor
  · rintro ⟨u, v', t, h1, ⟨hu, rfl⟩, u'', v'', t'', rfl, ⟨⟨x, rfl, hx⟩, rfl⟩, h2⟩
    cases u with
    | nil =>
      simp only [List.nil_append, List.cons_append, List.cons.injEq] at h1
      obtain ⟨rfl, _⟩ := h1
      rw [accepts, a3] at hx
      cases hx
    | cons y u =>
      simp only [List.cons_append, List.cons.injEq] at h1
      obtain ⟨rfl, h1⟩ := h1
      rw [(r1 u).1, (r2 u).1, (r3 u).1, ← or_and_right, ← or_and_right] at hu
      obtain ⟨hu, rfl⟩ := hu
      simp only [List.nil_append, List.cons.injEq] at h1
      obtain ⟨rfl, rfl⟩ := h1
      exact ⟨hu, h2⟩
  · rintro ⟨hh, h2⟩
    refine ⟨[ch 'x'], _, e, rfl, ⟨?_, rfl⟩, [ch ','], w, e, rfl, ⟨⟨_, rfl, a4⟩, rfl⟩, h2⟩
    rw [(r1 []).1, (r2 []).1, (r3 []).1, ← or_and_right, ← or_and_right]
    exact ⟨hh, rfl⟩

theorem says_clauses {v : Nat → Bool} {n : Nat} {e : Memory} (h : Remembers v n e) {φ : List Clause} (hφ : ∀ c ∈ φ, c.Within n) (e' : Memory) :
    SaysAll f (clauseParts φ) e (satText φ.length) e' ↔ Satisfies v φ ∧ e' = e := by
  induction φ with
  | nil =>
    show SaysAll f [] e [] e' ↔ _
    simp [SaysAll, Satisfies]
  | cons c φ ih =>
    rw [clauseParts, List.length_cons, satText, says_clause h (hφ c (by simp)), ih fun d hd => hφ d (List.mem_cons_of_mem _ hd)]
    simp only [Satisfies, List.mem_cons, forall_eq_or_imp, and_assoc]

theorem says_parts {n : Nat} {φ : List Clause} (m k : Nat) (hk : k + m = n) (hφ : ∀ c ∈ φ, c.Within n) {v : Nat → Bool} {e : Memory} (h : Remembers v k e) (e' : Memory)
    (hs : SaysAll f (satParts k m φ) e (satText (m + φ.length)) e') : ∃ v', Remembers v' n e' ∧ Satisfies v' φ := by
  induction m generalizing k v e with
  | zero =>
    obtain rfl : k = n := hk
    rw [satParts, Nat.zero_add, says_clauses h hφ] at hs
    obtain ⟨h1, rfl⟩ := hs
    exact ⟨v, h, h1⟩
  | succ m ih =>
    rw [show m + 1 + φ.length = m + φ.length + 1 by omega, satText, satParts, says_variable] at hs
    obtain ⟨b, hs⟩ := hs
    exact ih (k + 1) (by omega) (remembers_bit h b) hs

theorem parts_say {n : Nat} {φ : List Clause} (m k : Nat) (hk : k + m = n) (hφ : ∀ c ∈ φ, c.Within n) {v : Nat → Bool} {e : Memory} (h : Remembers v k e)
    (hv : Satisfies v φ) : ∃ e', SaysAll f (satParts k m φ) e (satText (m + φ.length)) e' := by
  induction m generalizing k e with
  | zero =>
    obtain rfl : k = n := hk
    refine ⟨e, ?_⟩
    rw [satParts, Nat.zero_add, says_clauses h hφ]
    exact ⟨hv, rfl⟩
  | succ m ih =>
    rw [show m + 1 + φ.length = m + φ.length + 1 by omega, satText, satParts]
    have h2 := remembers_bit h (v k)
    rw [show (fun i => if i = k then v k else v i) = v by funext i; split <;> simp_all] at h2
    obtain ⟨e', h3⟩ := ih (k + 1) (by omega) h2
    exact ⟨e', (says_variable _ _ _ _ _).2 ⟨v k, h3⟩⟩

end

end Mregex
