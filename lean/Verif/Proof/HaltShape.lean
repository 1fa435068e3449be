import Verif.Proof.HaltText
import Verif.Proof.Kept
import Verif.Proof.Usable
import Verif.Spec.Printing
import Verif.Spec.Static
import Verif.Props.Writable

/-!
# The expressions of `Spec/Halt` are regexes that the library can use
-/

namespace Mregex
open Spec Ast Turing.ToPartrec

/-! ### Parts without groups and references -/

inductive PlainPart : Ast → Prop
  | lit (c : Byte) : PlainPart (.lit c)
  | other (c : Byte) : PlainPart (otherA c)
  | any : PlainPart anyA
  | over (k : List Byte) : PlainPart (.rep .greedy 0 .inf (.set (k.map .lit)))
  | anything : PlainPart anythingA
  | maybe {a : Ast} : PlainPart a → PlainPart (.rep .greedy 0 (.fin 1) a)
  | seq {l : List Ast} : 2 ≤ l.length → (∀ a ∈ l, NotSeq a) → (∀ a ∈ l, PlainPart a) → PlainPart (.seq l)
  | alt {a : Ast} {l : List Ast} : l ≠ [] → NotAlt a → (∀ b ∈ a :: l, PlainPart b) → PlainPart (.alt (a :: l))

theorem set_lits_members : ∀ k : List Byte, SetMembers (k.map .lit)
  | [] => .nil
  | _ :: k => .lit (set_lits_members k)

theorem wordyAll_of {l : List Ast} (h : ∀ a ∈ l, wordy a = true) : wordyAll l = true := by
  induction l with
  | nil => rfl
  | cons a l ih => simp [wordyAll, h a (by simp), ih fun b hb => h b (by simp [hb])]

theorem noBackrefAll_of {l : List Ast} (h : ∀ a ∈ l, noBackref a = true) : noBackrefAll l = true := by
  induction l with
  | nil => rfl
  | cons a l ih => simp [noBackrefAll, h a (by simp), ih fun b hb => h b (by simp [hb])]

theorem groupIdsAll_none {l : List Ast} (h : ∀ a ∈ l, groupIds a = []) : groupIdsAll l = [] := by
  induction l with
  | nil => rfl
  | cons a l ih => simp [groupIdsAll, h a (by simp), ih fun b hb => h b (by simp [hb])]

theorem captureCountAll_none {l : List Ast} (h : ∀ a ∈ l, captureCount a = 0) : captureCountAll l = 0 := by
  induction l with
  | nil => rfl
  | cons a l ih => simp [captureCountAll, h a (by simp), ih fun b hb => h b (by simp [hb])]

theorem nameSpecAll_none {l : List Ast} (h : ∀ a ∈ l, nameSpec a = []) : nameSpecAll l = [] := by
  induction l with
  | nil => rfl
  | cons a l ih => simp [nameSpecAll, h a (by simp), ih fun b hb => h b (by simp [hb])]

theorem visitedOnceAny_of {k : Nat} {l : List Ast} (h : ∀ a ∈ l, visitedOnce k a = true) : visitedOnceAny k l = true := by
  induction l with
  | nil => rfl
  | cons a l ih => simp [visitedOnceAny, h a (by simp), ih fun b hb => h b (by simp [hb])]

theorem visitedOnceAll_none {k : Nat} {l : List Ast} (h : ∀ a ∈ l, visitedOnce k a = true) (h' : ∀ a ∈ l, groupIds a = []) : visitedOnceAll k l = true := by
  induction l with
  | nil => rfl
  | cons a l ih =>
    simp [visitedOnceAll, h a (by simp), h' a (by simp), ih (fun b hb => h b (by simp [hb])) fun b hb => h' b (by simp [hb])]

/-- What is known about parts without groups. -/
structure PlainFacts (a : Ast) : Prop where
  wordy : wordy a = true
  commits : commitsClosed a = true
  ids : groupIds a = []
  count : captureCount a = 0
  spec : nameSpec a = []
  refs : ∀ P X, refsTo P X a = true
  once : ∀ k, visitedOnce k a = true
  normal : Normal a
  ok : ∀ E r, Ok E r a

theorem ids_lits (k : List Byte) : groupIdsAll (k.map .lit) = [] := groupIdsAll_none (by simp [groupIds])
theorem count_lits (k : List Byte) : captureCountAll (k.map .lit) = 0 := captureCountAll_none (by simp [captureCount])
theorem spec_lits (k : List Byte) : nameSpecAll (k.map .lit) = [] := nameSpecAll_none (by simp [nameSpec])
theorem refs_lits (P : Nat → Bool) (X : List Nat) (k : List Byte) : refsToAll P X (k.map .lit) = true := refsToAll_of (by simp [refsTo])
theorem once_lits (i : Nat) (k : List Byte) : visitedOnceAny i (k.map .lit) = true := visitedOnceAny_of (by simp [visitedOnce])
theorem noBackref_lits (k : List Byte) : noBackrefAll (k.map .lit) = true := noBackrefAll_of (by simp [noBackref])

theorem ok_lits {E : Env} {r : Nat} (k : List Byte) : Ok E r (.set (k.map .lit)) :=
  .set (by simp [triv]) (fun a ha => by obtain ⟨c, _, rfl⟩ := List.mem_map.1 ha; exact .lit)

theorem facts_set (k : List Byte) : PlainFacts (.set (k.map .lit)) where
  wordy := rfl
  commits := by simp [commitsClosed, closed, groupIds, noBackref, ids_lits, noBackref_lits]
  ids := by simp [groupIds, ids_lits]
  count := by simp [captureCount, count_lits]
  spec := by simp [nameSpec, spec_lits]
  refs P X := by simp [refsTo, refs_lits]
  once i := by simp [visitedOnce, once_lits]
  normal := .set (set_lits_members k)
  ok _ _ := ok_lits k

theorem facts_neg (k : List Byte) : PlainFacts (.neg (.set (k.map .lit))) where
  wordy := rfl
  commits := by simp [commitsClosed, closed, groupIds, noBackref, ids_lits, noBackref_lits]
  ids := by simp [groupIds, ids_lits]
  count := by simp [captureCount, count_lits]
  spec := by simp [nameSpec, spec_lits]
  refs P X := by simp [refsTo, refs_lits]
  once i := by simp [visitedOnce, once_lits]
  normal := .negSet (set_lits_members k)
  ok _ _ := .neg (.inl rfl) (ok_lits k)

theorem facts_rep {a : Ast} (h : PlainFacts a) {hi : Bound} (hh : hi = .inf ∨ hi = .fin 1) : PlainFacts (.rep .greedy 0 hi a) where
  wordy := h.wordy
  commits := h.commits
  ids := h.ids
  count := h.count
  spec := h.spec
  refs := h.refs
  once k := by simp [visitedOnce, h.ids, h.once]
  normal := by
    rcases hh with rfl | rfl
    · exact .repInf (by decide) h.normal
    · exact .repFin (by decide) (by decide) h.normal
  ok E r := by
    rcases hh with rfl | rfl
    · exact .repInf (h.ok E r)
    · exact .repFin (by decide) (h.ok E r)

theorem plainPart_facts {a : Ast} (h : PlainPart a) : PlainFacts a := by
  induction h with
  | lit c => exact ⟨rfl, rfl, rfl, rfl, rfl, fun _ _ => rfl, fun _ => rfl, .lit, fun _ _ => .lit⟩
  | other c => exact facts_neg [c]
  | any => exact facts_neg []
  | over k => exact facts_rep (facts_set k) (.inl rfl)
  | anything => exact facts_rep (facts_neg []) (.inl rfl)
  | maybe _ ih => exact facts_rep ih (.inr rfl)
  | @seq l h1 h2 _ ih =>
    exact ⟨wordyAll_of fun a ha => (ih a ha).wordy, commitsClosedAll_of fun a ha => (ih a ha).commits, groupIdsAll_none fun a ha => (ih a ha).ids,
      captureCountAll_none fun a ha => (ih a ha).count, nameSpecAll_none fun a ha => (ih a ha).spec,
      fun P X => refsToAll_of fun a ha => (ih a ha).refs P X,
      fun k => visitedOnceAll_none (fun a ha => (ih a ha).once k) fun a ha => (ih a ha).ids, .seq h1 h2 fun a ha => (ih a ha).normal,
      fun E r => .seq (by rintro rfl; simp at h1) fun a ha => (ih a ha).ok E r⟩
  | @alt a l h1 h2 _ ih =>
    exact ⟨wordyAll_of fun a ha => (ih a ha).wordy, commitsClosedAll_of fun a ha => (ih a ha).commits, groupIdsAll_none fun a ha => (ih a ha).ids,
      captureCountAll_none fun a ha => (ih a ha).count, nameSpecAll_none fun a ha => (ih a ha).spec,
      fun P X => refsToAll_of fun a ha => (ih a ha).refs P X,
      fun k => visitedOnceAny_of (fun a ha => (ih a ha).once k), .alt h1 h2 fun a ha => (ih a ha).normal,
      fun E r => .alt (by simp) fun a ha => (ih a ha).ok E r⟩

theorem plain_differ : ∀ (u : List Byte), u ≠ [] → PlainPart (differA u) ∧ NotSeq (differA u)
  | [], h => absurd rfl h
  | [c], _ => ⟨.other c, fun l => by simp [differA, otherA]⟩
  | c :: d :: u, _ => by
    have ih := plain_differ (d :: u) (by simp)
    refine ⟨.alt (by simp) (fun l => by simp [otherA]) ?_, fun l => by simp [differA]⟩
    intro b hb
    simp only [List.mem_cons, List.not_mem_nil, or_false] at hb
    rcases hb with rfl | rfl
    · exact .other c
    · refine .seq (by simp) ?_ ?_ <;> intro a ha <;> simp only [List.mem_cons, List.not_mem_nil, or_false] at ha <;> rcases ha with rfl | rfl
      · exact fun l => by simp
      · exact ih.2
      · exact .lit c
      · exact ih.1

theorem plain_starts {c : Code} {k : Nat} : ∀ a ∈ startDoubts c k, PlainPart a := by
  have h1 := plain_differ (beforeNumber c) (by simp [beforeNumber])
  have h2 := plain_differ afterNumber (by simp [afterNumber])
  intro a ha
  simp only [startDoubts, List.mem_cons, List.not_mem_nil, or_false] at ha
  rcases ha with rfl | rfl | rfl
  · refine .seq (by simp) ?_ ?_ <;> intro a ha <;> simp only [List.mem_cons, List.not_mem_nil, or_false] at ha <;> rcases ha with rfl | rfl
    · exact h1.2
    · exact fun l => by simp [anythingA]
    · exact h1.1
    · exact .anything
  · refine .seq (by simp [beforeNumber]; omega) ?_ ?_ <;> intro a ha <;>
      simp only [List.mem_append, List.mem_map, List.mem_replicate, List.mem_cons, List.not_mem_nil, or_false] at ha <;>
      rcases ha with ⟨b, _, rfl⟩ | ⟨_, rfl⟩ | rfl | rfl
    · exact fun l => by simp
    · exact fun l => by simp
    · exact fun l => by simp [otherA]
    · exact fun l => by simp [anythingA]
    · exact .lit b
    · exact .maybe (.lit _)
    · exact .other _
    · exact .anything
  · refine .seq (by simp [beforeNumber]; omega) ?_ ?_ <;> intro a ha <;>
      simp only [List.mem_append, List.mem_map, List.mem_replicate, List.mem_cons, List.not_mem_nil, or_false] at ha <;>
      rcases ha with ⟨b, _, rfl⟩ | ⟨_, rfl⟩ | rfl | rfl
    · exact fun l => by simp
    · exact fun l => by simp
    · exact h2.2
    · exact fun l => by simp [anythingA]
    · exact .lit b
    · exact .lit _
    · exact h2.1
    · exact .anything

theorem plain_ends : ∀ a ∈ endDoubts, PlainPart a := by
  intro a ha
  simp only [endDoubts, List.mem_cons, List.not_mem_nil, or_false] at ha
  rcases ha with rfl | rfl | rfl
  · refine .seq (by simp) ?_ ?_ <;> intro a ha <;> simp only [List.mem_cons, List.not_mem_nil, or_false] at ha <;> rcases ha with rfl | rfl
    · exact fun l => by simp [anythingA]
    · exact fun l => by simp [otherA]
    · exact .anything
    · exact .other _
  · refine .seq (by simp) ?_ ?_ <;> intro a ha <;> simp only [List.mem_cons, List.not_mem_nil, or_false] at ha <;> rcases ha with rfl | rfl | rfl
    · exact fun l => by simp [anythingA]
    · exact fun l => by simp [otherA]
    · exact fun l => by simp [anyA]
    · exact .anything
    · exact .other _
    · exact .any
  · exact .maybe .any

/-! ### Mistakes -/

def varsOf : List Given → Nat
  | [] => 0
  | .lit _ :: l => varsOf l
  | .var _ :: l => varsOf l + 1

/-- Copies are of words of the left side. -/
def Scoped (n : Nat) (r : List Made) : Prop := ∀ i, Made.copy i ∈ r → i < n

theorem vars_append (l l' : List Given) : varsOf (l ++ l') = varsOf l + varsOf l' := by
  induction l with
  | nil => simp [varsOf]
  | cons g l ih => cases g <;> simp [varsOf, ih]; omega

theorem vars_split : ∀ {l : List Given} {i : Nat} {a b : Byte}, a ∈ charsOf i l → i < varsOf l ∧ varsOf (splitGiven i b l) = varsOf l + 1
  | [], _, _, _, h => by simp [charsOf] at h
  | .lit c :: l, i, a, b, h => vars_split (l := l) h
  | .var k :: l, 0, a, b, h => by simp [varsOf, splitGiven]
  | .var k :: l, i + 1, a, b, h => by
    have := vars_split (l := l) (b := b) h
    simp only [varsOf, splitGiven]
    omega

theorem scoped_split {n i : Nat} {a : Byte} {r : List Made} (hi : i < n) (h : Scoped n r) : Scoped (n + 1) (splitMade i a r) := by
  induction r with
  | nil => intro j hj; simp [splitMade] at hj
  | cons m r ih =>
    have ih := ih fun j hj => h j (by simp [hj])
    cases m with
    | lit c =>
      intro j hj
      simp only [splitMade, List.mem_cons, reduceCtorEq, false_or] at hj
      exact ih j hj
    | copy x =>
      have hx := h x (by simp)
      intro j hj
      simp only [splitMade, List.mem_append] at hj
      rcases hj with hj | hj
      · split at hj
        · simp at hj; omega
        · split at hj
          · simp at hj; omega
          · simp at hj; omega
      · exact ih j hj

theorem scoped_append {n : Nat} {r r' : List Made} (h : Scoped n r) (h' : Scoped n r') : Scoped n (r ++ r') := fun i hi => by
  rcases List.mem_append.1 hi with hi | hi
  · exact h i hi
  · exact h' i hi

/-- A mistake with at most 5 words. -/
def SlipFits (m : Slip) : Prop := Scoped (varsOf m.given) m.made ∧ varsOf m.given ≤ 5

theorem slips_fit {l : List Given} (hl : varsOf l ≤ 4) : ∀ {todo done : List Made}, Scoped (varsOf l) done → Scoped (varsOf l) todo →
    ∀ m ∈ slipsFrom l done todo, SlipFits m
  | [], done, h, _, m, hm => by
    simp only [slipsFrom, List.mem_singleton] at hm
    subst hm
    exact ⟨h, by simp only; omega⟩
  | .lit c :: t, done, h, h', m, hm => by
    simp only [slipsFrom, List.mem_cons] at hm
    rcases hm with rfl | hm
    · exact ⟨h, by simp only; omega⟩
    · exact slips_fit hl (scoped_append h fun i hi => by simp at hi) (fun i hi => h' i (by simp [hi])) m hm
  | .copy i :: t, done, h, h', m, hm => by
    simp only [slipsFrom, List.mem_append, List.mem_map] at hm
    rcases hm with ⟨a, ha, rfl⟩ | hm
    · have h1 := vars_split (b := a) ha
      refine ⟨?_, by simp only [h1.2]; omega⟩
      simp only [h1.2]
      exact scoped_append (scoped_split h1.1 h) fun j hj => by simp at hj; omega
    · exact slips_fit hl (scoped_append h fun j hj => by simp at hj; rw [hj]; exact h' i (by simp)) (fun i hi => h' i (by simp [hi])) m hm

theorem vars_job {q : Job} {l : List Given} : varsOf (jobL q ++ l) = varsOf l := by
  have : ∀ u : List Byte, varsOf (u.map .lit) = 0 := fun u => by
    induction u with
    | nil => rfl
    | cons c u ih => simpa [varsOf] using ih
  rw [vars_append, jobL, this, Nat.zero_add]

theorem scoped_job {n : Nat} {q : Job} {r : List Made} : Scoped n (jobR q ++ r) ↔ Scoped n r := by
  simp [Scoped, jobR]

theorem scoped_cons {n : Nat} {m : Made} {r : List Made} : Scoped n (m :: r) ↔ (∀ i, m = .copy i → i < n) ∧ Scoped n r := by
  simp only [Scoped, List.mem_cons]
  constructor
  · intro h
    exact ⟨fun i hi => h i (.inl hi.symm), fun i hi => h i (.inr hi)⟩
  · rintro ⟨h1, h2⟩ i (hi | hi)
    · exact h1 i hi.symm
    · exact h2 i hi

theorem scoped_nil {n : Nat} : Scoped n [] := fun i hi => by simp at hi

theorem rules_scoped {c : Code} {r : WordRule} (hr : r ∈ rulesOf c) : Scoped (varsOf r.1) r.2 ∧ varsOf r.1 ≤ 4 := by
  simp only [rulesOf, List.mem_append, List.mem_flatMap] at hr
  rcases hr with h | ⟨d, _, h | h⟩
  · simp only [otherRules, List.mem_cons, List.not_mem_nil, or_false] at h
    rcases h with rfl | rfl | rfl <;>
      simp [vars_job, scoped_job, varsOf, numsL, commaL, restL, onesL, commaR, scoped_cons, scoped_nil]
  · cases d <;> simp only [runRules, List.mem_cons, List.not_mem_nil, or_false] at h
    all_goals first
      | (subst h; simp [vars_job, scoped_job, varsOf, numsL, commaL, restL, onesL, commaR, scoped_cons, scoped_nil]; done)
      | (rcases h with rfl | rfl <;> simp [vars_job, scoped_job, varsOf, numsL, commaL, restL, onesL, commaR, scoped_cons, scoped_nil]; done)
      | (rcases h with rfl | rfl | rfl <;> simp [vars_job, scoped_job, varsOf, numsL, commaL, restL, onesL, commaR, scoped_cons, scoped_nil]; done)
  · simp only [goOnRules, List.mem_cons, List.not_mem_nil, or_false] at h
    rcases h with rfl | rfl | rfl | rfl | rfl <;>
      simp [vars_job, scoped_job, varsOf, numsL, commaL, restL, onesL, commaR, scoped_cons, scoped_nil]

theorem slip_fits {c : Code} {m : Slip} (hm : m ∈ (rulesOf c).flatMap fun r => slipsFrom r.1 [] r.2) : SlipFits m := by
  obtain ⟨r, hr, hm⟩ := List.mem_flatMap.1 hm
  have := rules_scoped hr
  exact slips_fit this.2 scoped_nil this.1 m hm

theorem mem_givens {n : Nat} : ∀ {l : List Given} {i : Nat} {a : Ast}, 1 ≤ i → i + varsOf l ≤ n + 1 → a ∈ givensA i l →
    (∃ c, a = .lit c) ∨ ∃ (j : Nat) (k : List Byte), 1 ≤ j ∧ j ≤ n ∧ a = .cap j none (.rep .greedy 0 .inf (.set (k.map .lit)))
  | [], _, _, _, _, h => by simp [givensA] at h
  | .lit c :: l, i, a, h1, h2, h => by
    simp only [givensA, List.mem_cons] at h
    rcases h with rfl | h
    · exact .inl ⟨c, rfl⟩
    · exact mem_givens (l := l) h1 h2 h
  | .var k :: l, i, a, h1, h2, h => by
    simp only [givensA, List.mem_cons] at h
    simp only [varsOf] at h2
    rcases h with rfl | h
    · exact .inr ⟨i, k, h1, by omega, rfl⟩
    · exact mem_givens (l := l) (by omega) (by omega) h

theorem mem_mades {n : Nat} : ∀ {r : List Made} {a : Ast}, Scoped n r → a ∈ madesA r → (∃ c, a = .lit c) ∨ ∃ i, i < n ∧ a = .backref (i + 1)
  | [], _, _, h => by simp [madesA] at h
  | .lit c :: r, a, h1, h => by
    simp only [madesA, List.mem_cons] at h
    rcases h with rfl | h
    · exact .inl ⟨c, rfl⟩
    · exact mem_mades (r := r) (fun i hi => h1 i (by simp [hi])) h
  | .copy i :: r, a, h1, h => by
    simp only [madesA, List.mem_cons] at h
    rcases h with rfl | h
    · exact .inr ⟨i, h1 i (by simp), rfl⟩
    · exact mem_mades (r := r) (fun i hi => h1 i (by simp [hi])) h

theorem mem_slip {m : Slip} (hm : SlipFits m) {a : Ast}
    (h : a ∈ anythingA :: .lit bar :: (givensA 1 m.given ++ .lit bar :: (madesA m.made ++ [otherA m.due, anythingA]))) :
    (PlainPart a ∧ NotSeq a) ∨ (∃ (j : Nat) (k : List Byte), 1 ≤ j ∧ j ≤ varsOf m.given ∧ a = .cap j none (.rep .greedy 0 .inf (.set (k.map .lit)))) ∨
      ∃ i, i < varsOf m.given ∧ a = .backref (i + 1) := by
  simp only [List.mem_cons, List.mem_append, List.not_mem_nil, or_false] at h
  rcases h with rfl | rfl | h | rfl | h | rfl | rfl
  · exact .inl ⟨.anything, fun l => by simp [anythingA]⟩
  · exact .inl ⟨.lit _, fun l => by simp⟩
  · rcases mem_givens (n := varsOf m.given) (Nat.le_refl _) (by omega) h with ⟨c, rfl⟩ | h
    · exact .inl ⟨.lit _, fun l => by simp⟩
    · exact .inr (.inl h)
  · exact .inl ⟨.lit _, fun l => by simp⟩
  · rcases mem_mades hm.1 h with ⟨c, rfl⟩ | h
    · exact .inl ⟨.lit _, fun l => by simp⟩
    · exact .inr (.inr h)
  · exact .inl ⟨.other _, fun l => by simp [otherA]⟩
  · exact .inl ⟨.anything, fun l => by simp [anythingA]⟩

theorem ids_givens : ∀ {l : List Given} {i j : Nat}, j ∈ groupIdsAll (givensA i l) → i ≤ j
  | [], _, _, h => by simp [givensA, groupIdsAll] at h
  | .lit c :: l, i, j, h => by
    simp only [givensA, groupIdsAll, groupIds, List.nil_append] at h
    exact ids_givens (l := l) h
  | .var k :: l, i, j, h => by
    simp only [givensA, groupIdsAll, groupIds, ids_lits, List.cons_append, List.nil_append, List.mem_cons] at h
    rcases h with rfl | h
    · exact Nat.le_refl _
    · have := ids_givens (l := l) h
      omega

theorem once_givens {x : Nat} {l' : List Ast} (h1 : groupIdsAll l' = []) (h2 : visitedOnceAll x l' = true) :
    ∀ {l : List Given} {i : Nat}, visitedOnceAll x (givensA i l ++ l') = true
  | [], i => by simpa [givensA] using h2
  | .lit c :: l, i => by
    simp only [givensA, List.cons_append, visitedOnceAll, visitedOnce, groupIds, once_givens h1 h2 (l := l)]
    rfl
  | .var k :: l, i => by
    have hx : x ≠ i ∨ ¬ x ∈ groupIdsAll (givensA (i + 1) l) := by
      by_cases h : x = i
      · right
        intro hx
        have := ids_givens hx
        omega
      · exact .inl h
    simp only [givensA, List.cons_append, visitedOnceAll, once_givens h1 h2 (l := l), visitedOnce, groupIds, ids_lits, once_lits, groupIdsAll_append, h1,
      List.append_nil, List.contains_cons, List.contains_nil, Bool.or_false, Bool.not_false, Bool.true_or, Bool.and_true, Bool.or_true, Bool.true_and]
    rcases hx with h | h
    · simp [h]
    · simp [h]

theorem once_slip {m : Slip} (k : Nat) : visitedOnce k (slipA m) = true := by
  have h : ∀ r : List Made, groupIdsAll (madesA r ++ [otherA m.due, anythingA]) = [] ∧ visitedOnceAll k (madesA r ++ [otherA m.due, anythingA]) = true := by
    intro r
    induction r with
    | nil => simp [madesA, groupIdsAll, groupIds, otherA, anythingA, anyA, visitedOnceAll, visitedOnce, visitedOnceAny]
    | cons b r ih => cases b <;> simp [madesA, groupIdsAll, groupIds, visitedOnceAll, visitedOnce, ih]
  rw [slipA, visitedOnce]
  have := once_givens (x := k) (l' := .lit bar :: (madesA m.made ++ [otherA m.due, anythingA])) (by simp [groupIdsAll, groupIds, h])
    (by simp [visitedOnceAll, visitedOnce, groupIds, h]) (l := m.given) (i := 1)
  have ha := plainPart_facts .anything
  rw [visitedOnceAll, visitedOnceAll, this, ha.once, ha.ids]
  rfl

theorem spec_slip {m : Slip} : nameSpec (slipA m) = List.replicate (varsOf m.given) none := by
  have h : ∀ r : List Made, nameSpecAll (madesA r ++ [otherA m.due, anythingA]) = [] := by
    intro r
    induction r with
    | nil => simp [madesA, nameSpecAll, nameSpec, otherA, anythingA, anyA]
    | cons b r ih => cases b <;> simp [madesA, nameSpecAll, nameSpec, ih]
  have h' : ∀ (l : List Given) (i : Nat), nameSpecAll (givensA i l) = List.replicate (varsOf l) none := by
    intro l
    induction l with
    | nil => intro i; rfl
    | cons g l ih =>
      intro i
      cases g with
      | lit c => simp [givensA, nameSpecAll, nameSpec, ih, varsOf]
      | var k => simp [givensA, nameSpecAll, nameSpec, ih, varsOf, spec_lits, List.replicate_succ]
  rw [slipA, nameSpec, nameSpecAll, nameSpecAll, nameSpecAll_app, h', nameSpecAll, h, (plainPart_facts .anything).spec]
  simp [nameSpec]

theorem index_slip {m : Slip} : index 1 (slipA m) = slipA m := by
  have h : ∀ (r : List Made) (o : Nat), indexSeq o (madesA r ++ [otherA m.due, anythingA]) = madesA r ++ [otherA m.due, anythingA] := by
    intro r
    induction r with
    | nil => intro o; simp [madesA, indexSeq, index, indexSame, otherA, anythingA, anyA]
    | cons b r ih => intro o; cases b <;> simp [madesA, indexSeq, index, ih]
  have h' : ∀ (l : List Given) (i : Nat) (l' : List Ast), (∀ o, indexSeq o l' = l') → indexSeq i (givensA i l ++ l') = givensA i l ++ l' := by
    intro l
    induction l with
    | nil => intro i l' hl; exact hl i
    | cons g l ih =>
      intro i l' hl
      cases g with
      | lit c => simp [givensA, indexSeq, index, captureCount, ih i l' hl]
      | var k =>
        simp [givensA, indexSeq, index, captureCount, count_lits, ih (i + 1) l' hl, indexSame_none _ _ (count_lits k)]
  have h1 := h' m.given 1 (.lit bar :: (madesA m.made ++ [otherA m.due, anythingA])) fun o => by simp [indexSeq, index, h]
  have ha := plainPart_facts .anything
  rw [slipA, index, indexSeq, indexSeq, index_none _ _ ha.count, ha.count]
  exact congrArg (fun l => Ast.seq (anythingA :: .lit bar :: l)) h1

/-! ### The whole expression -/

theorem mem_doubt {c : Code} {k : Nat} {a : Ast}
    (h : a ∈ startDoubts c k ++ (endDoubts ++ ((rulesOf c).flatMap fun r => slipsFrom r.1 [] r.2).map slipA)) :
    PlainPart a ∨ ∃ m, SlipFits m ∧ a = slipA m := by
  rcases List.mem_append.1 h with h | h
  · exact .inl (plain_starts a h)
  · rcases List.mem_append.1 h with h | h
    · exact .inl (plain_ends a h)
    · obtain ⟨m, hm, rfl⟩ := List.mem_map.1 h
      exact .inr ⟨m, slip_fits hm, rfl⟩

theorem wordy_doubt (c : Code) (k : Nat) : wordy (doubtA c k) = true := by
  rw [doubtA, wordy]
  refine wordyAll_of fun a ha => ?_
  rcases mem_doubt ha with h | ⟨m, hm, rfl⟩
  · exact (plainPart_facts h).wordy
  · rw [slipA, wordy]
    refine wordyAll_of fun a ha => ?_
    rcases mem_slip hm ha with h | ⟨j, k, _, _, rfl⟩ | ⟨i, _, rfl⟩
    · exact (plainPart_facts h.1).wordy
    · exact (plainPart_facts (.over k)).wordy
    · rfl

theorem traceable_doubt (c : Code) (k : Nat) : traceable (doubtA c k) = true := by
  have h1 : ∀ x, visitedOnce x (doubtA c k) = true := fun x => by
    rw [doubtA, visitedOnce]
    refine visitedOnceAny_of fun a ha => ?_
    rcases mem_doubt ha with h | ⟨m, hm, rfl⟩
    · exact (plainPart_facts h).once x
    · exact once_slip x
  rw [traceable, Bool.and_eq_true]
  constructor
  · rw [doubtA, commitsClosed]
    refine commitsClosedAll_of fun a ha => ?_
    rcases mem_doubt ha with h | ⟨m, hm, rfl⟩
    · exact (plainPart_facts h).commits
    · rw [slipA, commitsClosed]
      refine commitsClosedAll_of fun a ha => ?_
      rcases mem_slip hm ha with h | ⟨j, k, _, _, rfl⟩ | ⟨i, _, rfl⟩
      · exact (plainPart_facts h.1).commits
      · exact (plainPart_facts (.over k)).commits
      · rfl
  · simp only [h1]
    rw [doubtA, refsTo]
    refine refsToAll_of fun a ha => ?_
    rcases mem_doubt ha with h | ⟨m, hm, rfl⟩
    · exact (plainPart_facts h).refs _ _
    · rw [slipA, refsTo]
      refine refsToAll_of fun a ha => ?_
      rcases mem_slip hm ha with h | ⟨j, k, _, _, rfl⟩ | ⟨i, _, rfl⟩
      · exact (plainPart_facts h.1).refs _ _
      · exact (plainPart_facts (.over k)).refs _ _
      · rfl

theorem normal_doubt (c : Code) (k : Nat) : Normal (doubtA c k) := by
  have h0 : ∀ a ∈ startDoubts c k ++ (endDoubts ++ ((rulesOf c).flatMap fun r => slipsFrom r.1 [] r.2).map slipA), Normal a := fun a ha => by
    rcases mem_doubt ha with h | ⟨m, hm, rfl⟩
    · exact (plainPart_facts h).normal
    · refine .seq (by simp) ?_ ?_ <;> intro a ha <;> rcases mem_slip hm ha with h | ⟨j, k, _, _, rfl⟩ | ⟨i, hi, rfl⟩
      · exact h.2
      · exact fun l => by simp
      · exact fun l => by simp
      · exact (plainPart_facts h.1).normal
      · exact .cap (plainPart_facts (.over k)).normal
      · have := hm.2
        exact .backref (by omega)
  exact .alt (by simp) (fun l => by simp) h0

theorem index_doubt (c : Code) (k : Nat) : indexCaptures (doubtA c k) = doubtA c k := by
  rw [indexCaptures, doubtA, index]
  congr 1
  refine indexSame_self fun a ha => ?_
  rcases mem_doubt ha with h | ⟨m, hm, rfl⟩
  · exact index_none _ _ (plainPart_facts h).count
  · exact index_slip

theorem spec_doubt {c : Code} {k : Nat} {m : Slip} (hm : m ∈ (rulesOf c).flatMap fun r => slipsFrom r.1 [] r.2) :
    ∀ j, j ≤ varsOf m.given → (Regex.mk (doubtA c k) []).names[j]? = some none := by
  have h1 : ∀ x ∈ nameSpec (doubtA c k), x = none := by
    rw [doubtA, nameSpec, nameSpecAll_eq]
    intro x hx
    obtain ⟨a, ha, hx⟩ := List.mem_flatMap.1 hx
    rcases mem_doubt ha with h | ⟨m, hm, rfl⟩
    · rw [(plainPart_facts h).spec] at hx
      simp at hx
    · rw [spec_slip] at hx
      exact List.eq_of_mem_replicate hx
  have h2 : varsOf m.given ≤ (nameSpec (doubtA c k)).length := by
    have h3 : slipA m ∈ startDoubts c k ++ (endDoubts ++ ((rulesOf c).flatMap fun r => slipsFrom r.1 [] r.2).map slipA) :=
      List.mem_append_right _ (List.mem_append_right _ (List.mem_map_of_mem hm))
    obtain ⟨l1, l2, h4⟩ := List.append_of_mem h3
    rw [doubtA, nameSpec, h4, nameSpecAll_app, nameSpecAll, spec_slip]
    simp
    omega
  intro j hj
  cases j with
  | zero => rfl
  | succ j =>
    simp only [Regex.names, List.getElem?_cons_succ]
    rw [List.getElem?_eq_getElem (by omega)]
    exact congrArg some (h1 _ (List.getElem_mem _))

/-- The library can use the regex, with inputs that can be read backwards. -/
theorem ok_doubt (c : Code) (k : Nat) {cat : Cat} (hc : cat ≠ .forward) : (Regex.mk (doubtA c k) []).Ok cat := by
  intro s
  show Ok _ 0 (doubtA c k)
  rw [doubtA]
  refine .alt (by simp [startDoubts]) fun a ha => ?_
  rcases List.mem_append.1 ha with h | h
  · exact (plainPart_facts (plain_starts a h)).ok _ _
  · rcases List.mem_append.1 h with h | h
    · exact (plainPart_facts (plain_ends a h)).ok _ _
    · obtain ⟨m, hm, rfl⟩ := List.mem_map.1 h
      have hn := spec_doubt (k := k) hm
      refine .seq (by simp) fun a ha => ?_
      rcases mem_slip (slip_fits hm) ha with h | ⟨j, k', _, hj, rfl⟩ | ⟨i, hi, rfl⟩
      · exact (plainPart_facts h.1).ok _ _
      · exact .cap (hn j hj) (by omega) ((plainPart_facts (.over k')).ok _ _)
      · exact .backref hc (by
          have := hn (i + 1) (by omega)
          exact (List.getElem?_eq_some_iff.1 this).1)

end Mregex
