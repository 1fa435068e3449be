import Verif.Spec.Usable
import Verif.Proof.Sound
import Verif.Proof.Printing
import Verif.Proof.Numbering

/-!
# The static requirements as conditions on the parts of a regex
-/

namespace Mregex
open Ast Spec

/-- What a single node under `k` reversals has to satisfy. -/
def Fine (E : Env) (k : Nat) : Ast → Prop
  | .range a b => a.toNat ≤ b.toNat
  | .set l => ∀ a ∈ l, triv a = true
  | .neg a => triv a = true ∨ isAssertion a = true
  | .seq l | .alt l => l ≠ []
  | .rep _ lo (.fin hi) _ => lo ≤ hi
  | .cap id name _ => E.names[id]? = some name ∧ k ≤ 1
  | .look .behind _ => E.cat ≠ .forward
  | .bol => E.flags.multiline = true → E.cat ≠ .forward
  | .wordB => E.cat ≠ .forward
  | .backref id => E.cat ≠ .forward ∧ id < E.names.length
  | .namedBackref name => E.cat ≠ .forward ∧ E.names.count (some name) = 1
  | _ => True

/-- All parts. -/
def AllFine (E : Env) (r : Nat) (m : Bool) (a : Ast) : Prop := ∀ b k, Part b k r m a → Fine E k b

variable {E : Env} {r : Nat} {m : Bool}

theorem ok_triv {a : Ast} (ht : triv a = true) (h : Ok E r a) (r' : Nat) : Ok E r' (invert a) := by
  induction a using ind generalizing r with
  | lit => exact .lit
  | range => cases h with | range h => exact .range h
  | wildcard => exact .wildcard
  | set l ih =>
    cases h with | set h1 h2 => ?_
    simp only [invert, invertAll_eq]
    refine .set (fun b hb => ?_) (fun b hb => ?_)
    all_goals obtain ⟨a, ha, rfl⟩ := List.mem_map.1 hb
    · rw [triv_invert]; exact h1 a ha
    · exact ih a ha (h1 a ha) (h2 a ha)
  | neg a ih =>
    cases h with | neg h1 h2 => ?_
    simp only [triv, Bool.not_eq_true'] at ht
    have h3 : triv a = true := by simpa [ht] using h1
    exact .neg (by rw [triv_invert]; exact .inl h3) (ih h3 h2)
  | seq l ih =>
    match l, ht with
    | [a], ht =>
      cases h with | seq h1 h2 => ?_
      simp only [triv, trivSingle] at ht
      exact .seq (by simp [invertAll]) (by simpa [invertAll] using ih a (by simp) ht (h2 a (by simp)))
  | alt l ih =>
    cases h with | alt h1 h2 => ?_
    have h3 : ∀ a ∈ l, triv a = true := by
      clear ih h1 h2
      simp only [triv] at ht
      induction l with
      | nil => simp
      | cons a l ih =>
        cases l with
        | nil => simpa [trivAlt] using ht
        | cons b l =>
          simp only [trivAlt, Bool.and_eq_true] at ht
          intro x hx
          rcases List.mem_cons.1 hx with rfl | hx
          · exact ht.1
          · exact ih ht.2 x hx
    simp only [invert, invertAll_eq]
    refine .alt (by simpa using h1) (fun b hb => ?_)
    obtain ⟨a, ha, rfl⟩ := List.mem_map.1 hb
    exact ih a ha (h3 a ha) (h2 a ha)
  | rep m lo hi a ih =>
    simp only [triv, Bool.and_eq_true, beq_iff_eq] at ht
    obtain ⟨⟨rfl, rfl⟩, ht⟩ := ht
    cases h with | repFin h1 h2 => exact .repFin h1 (ih ht h2)
  | _ => simp [triv] at ht

theorem ok_behind {a : Ast} : Ok E r (.look .behind a) ↔ E.cat ≠ .forward ∧ Ok E (r + 1) (invert a) := by
  constructor
  · intro h
    cases h with
    | behindTriv h1 h2 h3 => exact ⟨h1, ok_triv h2 h3 _⟩
    | behind h1 h2 => exact ⟨h1, h2⟩
  · rintro ⟨h1, h2⟩; exact .behind h1 h2

/-- `a` or its mirror image. -/
def turn (m : Bool) (a : Ast) : Ast := if m then invert a else a

theorem turn_false : turn false = id := rfl
theorem turn_true : turn true = invert := rfl

theorem mem_turnList {b : Ast} {l : List Ast} : b ∈ (if m then (l.map invert).reverse else l) ↔ ∃ a ∈ l, b = turn m a := by
  cases m <;> simp [turn, eq_comm]

theorem triv_turn (a : Ast) : triv (turn m a) = triv a := by cases m <;> simp [turn, triv_invert]
theorem isAssertion_turn (a : Ast) : isAssertion (turn m a) = isAssertion a := by cases m <;> simp [turn, isAssertion_invert]

theorem allFine_list {c : List Ast → Ast} {l : List Ast} {P : Prop}
    (hp : ∀ b k, Part b k r m (c l) ↔ (b = c l ∧ k = r) ∨ ∃ a ∈ l, Part b k r m a) (hf : Fine E r (c l) ↔ P) :
    AllFine E r m (c l) ↔ P ∧ ∀ a ∈ l, AllFine E r m a := by
  constructor
  · intro h
    exact ⟨hf.1 (h _ _ ((hp _ _).2 (.inl ⟨rfl, rfl⟩))), fun a ha b k hb => h b k ((hp _ _).2 (.inr ⟨a, ha, hb⟩))⟩
  · rintro ⟨h1, h2⟩ b k hb
    rcases (hp _ _).1 hb with ⟨rfl, rfl⟩ | ⟨a, ha, hb⟩
    · exact hf.2 h1
    · exact h2 a ha b k hb

theorem allFine_leaf {a : Ast} (h : ∀ b k, Part b k r m a → b = a ∧ k = r) : AllFine E r m a ↔ Fine E r a := by
  constructor
  · exact fun h' => h' _ _ .here
  · intro h1 b k hb
    obtain ⟨rfl, rfl⟩ := h b k hb
    exact h1

theorem allFine_one {c a : Ast} {r' : Nat} {m' : Bool}
    (hp : ∀ b k, Part b k r m c ↔ (b = c ∧ k = r) ∨ Part b k r' m' a) :
    AllFine E r m c ↔ Fine E r c ∧ AllFine E r' m' a := by
  constructor
  · intro h
    exact ⟨h _ _ .here, fun b k hb => h b k ((hp _ _).2 (.inr hb))⟩
  · rintro ⟨h1, h2⟩ b k hb
    rcases (hp _ _).1 hb with ⟨rfl, rfl⟩ | hb
    · exact h1
    · exact h2 b k hb

theorem ok_iff_allFine (a : Ast) : ∀ {r : Nat} {m : Bool}, (m = true → E.cat ≠ .forward) → (Ok E r (turn m a) ↔ AllFine E r m a) := by
  induction a using ind with
  | empty => intro r m _; rw [allFine_leaf (by intro b k h; cases h; exact ⟨rfl, rfl⟩)]; cases m <;> simp only [turn, invert, Fine, if_true, iff_true] <;> exact .empty
  | lit c => intro r m _; rw [allFine_leaf (by intro b k h; cases h; exact ⟨rfl, rfl⟩)]; cases m <;> simp only [turn, invert, Fine, if_true, iff_true] <;> exact .lit
  | wildcard => intro r m _; rw [allFine_leaf (by intro b k h; cases h; exact ⟨rfl, rfl⟩)]; cases m <;> simp only [turn, invert, Fine, if_true, iff_true] <;> exact .wildcard
  | boi => intro r m _; rw [allFine_leaf (by intro b k h; cases h; exact ⟨rfl, rfl⟩)]; cases m <;> simp only [turn, invert, Fine, if_true, iff_true] <;> exact .boi
  | eol => intro r m _; rw [allFine_leaf (by intro b k h; cases h; exact ⟨rfl, rfl⟩)]; cases m <;> simp only [turn, invert, Fine, if_true, iff_true] <;> exact .eol
  | eoi => intro r m _; rw [allFine_leaf (by intro b k h; cases h; exact ⟨rfl, rfl⟩)]; cases m <;> simp only [turn, invert, Fine, if_true, iff_true] <;> exact .eoi
  | range x y =>
    intro r m _; rw [allFine_leaf (by intro b k h; cases h; exact ⟨rfl, rfl⟩)]
    have : turn m (.range x y) = .range x y := by cases m <;> rfl
    rw [this]
    exact ⟨fun h => by cases h; assumption, fun h => .range h⟩
  | bol =>
    intro r m _; rw [allFine_leaf (by intro b k h; cases h; exact ⟨rfl, rfl⟩)]
    have : turn m .bol = .bol := by cases m <;> rfl
    rw [this]
    exact ⟨fun h => by cases h; assumption, fun h => .bol h⟩
  | wordB =>
    intro r m _; rw [allFine_leaf (by intro b k h; cases h; exact ⟨rfl, rfl⟩)]
    have : turn m .wordB = .wordB := by cases m <;> rfl
    rw [this]
    exact ⟨fun h => by cases h; assumption, fun h => .wordB h⟩
  | backref id =>
    intro r m _; rw [allFine_leaf (by intro b k h; cases h; exact ⟨rfl, rfl⟩)]
    have : turn m (.backref id) = .backref id := by cases m <;> rfl
    rw [this]
    exact ⟨fun h => by cases h; exact ⟨by assumption, by assumption⟩, fun h => .backref h.1 h.2⟩
  | namedBackref n =>
    intro r m _; rw [allFine_leaf (by intro b k h; cases h; exact ⟨rfl, rfl⟩)]
    have : turn m (.namedBackref n) = .namedBackref n := by cases m <;> rfl
    rw [this]
    exact ⟨fun h => by cases h; exact ⟨by assumption, by assumption⟩, fun h => .namedBackref h.1 h.2⟩
  | set l ih =>
    intro r m hm
    rw [allFine_list (c := .set) (l := l) (P := ∀ a ∈ l, triv a = true) ?_ Iff.rfl]
    · have e : turn m (.set l) = .set (l.map (turn m)) := by cases m <;> simp [turn_false, turn_true, invert, invertAll_eq]
      rw [e]
      constructor
      · intro h
        cases h with | set h1 h2 => ?_
        exact ⟨fun a ha => by rw [← triv_turn (m := m)]; exact h1 _ (List.mem_map_of_mem ha), fun a ha => (ih a ha hm).1 (h2 _ (List.mem_map_of_mem ha))⟩
      · rintro ⟨h1, h2⟩
        refine .set (fun b hb => ?_) (fun b hb => ?_)
        all_goals obtain ⟨a, ha, rfl⟩ := List.mem_map.1 hb
        · rw [triv_turn]; exact h1 a ha
        · exact (ih a ha hm).2 (h2 a ha)
    · intro b k
      constructor
      · intro h
        cases h with
        | here => exact .inl ⟨rfl, rfl⟩
        | set ha h => exact .inr ⟨_, ha, h⟩
      · rintro (⟨rfl, rfl⟩ | ⟨a, ha, h⟩)
        · exact .here
        · exact .set ha h
  | seq l ih =>
    intro r m hm
    rw [allFine_list (c := .seq) (l := l) (P := l ≠ []) ?_ Iff.rfl]
    · have e : turn m (.seq l) = .seq (if m then (l.map invert).reverse else l) := by cases m <;> simp [turn, invert, invertAll_eq]
      have en : (if m then (l.map invert).reverse else l) = [] ↔ l = [] := by cases m <;> simp
      rw [e]
      constructor
      · intro h
        cases h with | seq h1 h2 => ?_
        exact ⟨fun h => h1 (en.2 h), fun a ha => (ih a ha hm).1 (h2 _ (mem_turnList.2 ⟨a, ha, rfl⟩))⟩
      · rintro ⟨h1, h2⟩
        refine .seq (fun h => h1 (en.1 h)) (fun b hb => ?_)
        obtain ⟨a, ha, rfl⟩ := mem_turnList.1 hb
        exact (ih a ha hm).2 (h2 a ha)
    · intro b k
      constructor
      · intro h
        cases h with
        | here => exact .inl ⟨rfl, rfl⟩
        | seq ha h => exact .inr ⟨_, ha, h⟩
      · rintro (⟨rfl, rfl⟩ | ⟨a, ha, h⟩)
        · exact .here
        · exact .seq ha h
  | alt l ih =>
    intro r m hm
    rw [allFine_list (c := .alt) (l := l) (P := l ≠ []) ?_ Iff.rfl]
    · have e : turn m (.alt l) = .alt (l.map (turn m)) := by cases m <;> simp [turn_false, turn_true, invert, invertAll_eq]
      rw [e]
      constructor
      · intro h
        cases h with | alt h1 h2 => ?_
        exact ⟨by simpa using h1, fun a ha => (ih a ha hm).1 (h2 _ (List.mem_map_of_mem ha))⟩
      · rintro ⟨h1, h2⟩
        refine .alt (by simpa using h1) (fun b hb => ?_)
        obtain ⟨a, ha, rfl⟩ := List.mem_map.1 hb
        exact (ih a ha hm).2 (h2 a ha)
    · intro b k
      constructor
      · intro h
        cases h with
        | here => exact .inl ⟨rfl, rfl⟩
        | alt ha h => exact .inr ⟨_, ha, h⟩
      · rintro (⟨rfl, rfl⟩ | ⟨a, ha, h⟩)
        · exact .here
        · exact .alt ha h
  | neg a ih =>
    intro r m hm
    rw [allFine_one (a := a) (r' := r) (m' := m) ?_, ← ih hm]
    · have e : turn m (.neg a) = .neg (turn m a) := by cases m <;> rfl
      rw [e]
      constructor
      · intro h
        cases h with | neg h1 h2 => ?_
        rw [triv_turn, isAssertion_turn] at h1
        exact ⟨h1, h2⟩
      · rintro ⟨h1, h2⟩
        refine .neg ?_ h2
        rw [triv_turn, isAssertion_turn]
        exact h1
    · intro b k
      constructor
      · intro h
        cases h with
        | here => exact .inl ⟨rfl, rfl⟩
        | neg h => exact .inr h
      · rintro (⟨rfl, rfl⟩ | h)
        · exact .here
        · exact .neg h
  | cap id n a ih =>
    intro r m hm
    rw [allFine_one (a := a) (r' := r) (m' := m) ?_, ← ih hm]
    · have e : turn m (.cap id n a) = .cap id n (turn m a) := by cases m <;> rfl
      rw [e]
      constructor
      · intro h
        cases h with | cap h1 h2 h3 => exact ⟨⟨h1, h2⟩, h3⟩
      · rintro ⟨⟨h1, h2⟩, h3⟩
        exact .cap h1 h2 h3
    · intro b k
      constructor
      · intro h
        cases h with
        | here => exact .inl ⟨rfl, rfl⟩
        | cap h => exact .inr h
      · rintro (⟨rfl, rfl⟩ | h)
        · exact .here
        · exact .cap h
  | rep q lo hi a ih =>
    intro r m hm
    rw [allFine_one (a := a) (r' := r) (m' := m) ?_, ← ih hm]
    · have e : turn m (.rep q lo hi a) = .rep q lo hi (turn m a) := by cases m <;> rfl
      rw [e]
      cases hi with
      | fin hi =>
        constructor
        · intro h
          cases h with | repFin h1 h2 => exact ⟨h1, h2⟩
        · rintro ⟨h1, h2⟩
          exact .repFin h1 h2
      | inf =>
        constructor
        · intro h
          cases h with | repInf h2 => exact ⟨trivial, h2⟩
        · rintro ⟨h1, h2⟩
          exact .repInf h2
    · intro b k
      constructor
      · intro h
        cases h with
        | here => exact .inl ⟨rfl, rfl⟩
        | rep h => exact .inr h
      · rintro (⟨rfl, rfl⟩ | h)
        · exact .here
        · exact .rep h
  | look d a ih =>
    intro r m hm
    cases d <;> cases m
    · -- ahead
      rw [allFine_one (a := a) (r' := r) (m' := false) ?_, ← ih (m := false) (by simp)]
      · exact ⟨fun h => by cases h with | ahead h => exact ⟨trivial, h⟩, fun h => .ahead h.2⟩
      · intro b k
        constructor
        · intro h
          cases h with
          | here => exact .inl ⟨rfl, rfl⟩
          | ahead h => exact .inr h
        · rintro (⟨rfl, rfl⟩ | h)
          · exact .here
          · exact .ahead h
    · -- mirrored ahead
      rw [allFine_one (a := a) (r' := r + 1) (m' := true) ?_, ← ih (m := true) hm]
      · have e : turn true (.look .ahead a) = .look .behind a := rfl
        rw [e, ok_behind]
        exact ⟨fun h => ⟨trivial, h.2⟩, fun h => ⟨hm rfl, h.2⟩⟩
      · intro b k
        constructor
        · intro h
          cases h with
          | here => exact .inl ⟨rfl, rfl⟩
          | mirroredAhead h => exact .inr h
        · rintro (⟨rfl, rfl⟩ | h)
          · exact .here
          · exact .mirroredAhead h
    · -- behind
      rw [allFine_one (a := a) (r' := r + 1) (m' := true) ?_]
      · have e : turn false (.look .behind a) = .look .behind a := rfl
        rw [e, ok_behind]
        constructor
        · rintro ⟨h1, h2⟩
          exact ⟨h1, (ih (m := true) (fun _ => h1)).1 h2⟩
        · rintro ⟨h1, h2⟩
          exact ⟨h1, (ih (m := true) (fun _ => h1)).2 h2⟩
      · intro b k
        constructor
        · intro h
          cases h with
          | here => exact .inl ⟨rfl, rfl⟩
          | behind h => exact .inr h
        · rintro (⟨rfl, rfl⟩ | h)
          · exact .here
          · exact .behind h
    · -- mirrored behind
      rw [allFine_one (a := a) (r' := r) (m' := false) ?_, ← ih (m := false) (by simp)]
      · have e : turn true (.look .behind a) = .look .ahead a := rfl
        rw [e]
        exact ⟨fun h => by cases h with | ahead h => exact ⟨hm rfl, h⟩, fun h => .ahead h.2⟩
      · intro b k
        constructor
        · intro h
          cases h with
          | here => exact .inl ⟨rfl, rfl⟩
          | mirroredBehind h => exact .inr h
        · rintro (⟨rfl, rfl⟩ | h)
          · exact .here
          · exact .mirroredBehind h

/-! ### Trees in normal form -/

mutual
/-- Requirements on sets, negations and lists of parts. -/
def shaped : Ast → Bool
  | .set l => l.all triv && shapedAll l
  | .neg a => (triv a || isAssertion a) && shaped a
  | .seq l | .alt l => !l.isEmpty && shapedAll l
  | .cap _ _ a | .rep _ _ _ a | .look _ a => shaped a
  | _ => true
def shapedAll : List Ast → Bool
  | [] => true
  | a :: l => shaped a && shapedAll l
end

theorem shapedAll_iff {l : List Ast} : shapedAll l = true ↔ ∀ a ∈ l, shaped a = true := by
  induction l with
  | nil => simp [shapedAll]
  | cons a l ih => simp [shapedAll, ih]

theorem shaped_part {a b : Ast} {k r : Nat} {m : Bool} (h : Part b k r m a) (hs : shaped a = true) : shaped b = true := by
  induction h with
  | here => exact hs
  | neg _ ih => simp only [shaped, Bool.and_eq_true] at hs; exact ih hs.2
  | cap _ ih => exact ih hs
  | rep _ ih => exact ih hs
  | set ha _ ih => simp only [shaped, Bool.and_eq_true, shapedAll_iff] at hs; exact ih (hs.2 _ ha)
  | seq ha _ ih => simp only [shaped, Bool.and_eq_true, shapedAll_iff] at hs; exact ih (hs.2 _ ha)
  | alt ha _ ih => simp only [shaped, Bool.and_eq_true, shapedAll_iff] at hs; exact ih (hs.2 _ ha)
  | ahead _ ih => exact ih hs
  | behind _ ih => exact ih hs
  | mirroredAhead _ ih => exact ih hs
  | mirroredBehind _ ih => exact ih hs

theorem setMembers_shaped {l : List Ast} (h : SetMembers l) : ∀ a ∈ l, triv a = true ∧ shaped a = true := by
  induction h with
  | nil => simp
  | lit _ ih =>
    intro a ha
    rcases List.mem_cons.1 ha with rfl | ha
    · exact ⟨rfl, rfl⟩
    · exact ih a ha
  | range _ ih =>
    intro a ha
    rcases List.mem_cons.1 ha with rfl | ha
    · exact ⟨rfl, rfl⟩
    · exact ih a ha
  | neg _ hx ih =>
    intro a ha
    rcases List.mem_cons.1 ha with rfl | ha
    · simp only [classes, List.mem_cons, Prod.mk.injEq, List.not_mem_nil, or_false] at hx
      rcases hx with ⟨_, h⟩ | ⟨_, h⟩ | ⟨_, h⟩ | ⟨_, h⟩ | ⟨_, h⟩ | ⟨_, h⟩ | ⟨_, h⟩ | ⟨_, h⟩ <;> first | (cases h; exact ⟨rfl, rfl⟩) | cases h
    · exact ih a ha
  | white _ ih =>
    intro a ha
    rcases List.mem_append.1 ha with h | ha
    · clear ha
      revert a
      decide
    · exact ih a ha

theorem normal_shaped {a : Ast} (h : Normal a) : shaped a = true := by
  induction h with
  | set h =>
    have h := setMembers_shaped h
    simp only [shaped, Bool.and_eq_true, shapedAll_iff, List.all_eq_true]
    exact ⟨fun a ha => (h a ha).1, fun a ha => (h a ha).2⟩
  | negSet h =>
    have h := setMembers_shaped h
    simp only [shaped, Bool.and_eq_true, shapedAll_iff, List.all_eq_true]
    exact ⟨rfl, fun a ha => (h a ha).1, fun a ha => (h a ha).2⟩
  | seq h _ _ ih =>
    simp only [shaped, Bool.and_eq_true, shapedAll_iff]
    refine ⟨?_, ih⟩
    cases ‹List Ast› <;> simp_all
  | alt h _ _ ih =>
    simp only [shaped, Bool.and_eq_true, shapedAll_iff]
    exact ⟨rfl, ih⟩
  | cap _ ih => exact ih
  | namedCap _ _ ih => exact ih
  | repFin _ _ _ ih => exact ih
  | repInf _ _ ih => exact ih
  | look _ ih => exact ih
  | negLook _ ih => simpa [shaped, isAssertion] using ih
  | _ => rfl

/-! ### Numbers of groups -/

mutual
theorem groupIds_bounds : ∀ (o : Nat) (a : Ast), ∀ k ∈ groupIds (index o a), o ≤ k ∧ k < o + captureCount a
  | o, .cap _ n a => by
    intro k hk
    simp only [index, groupIds, List.mem_cons] at hk
    simp only [captureCount]
    rcases hk with rfl | hk
    · omega
    · have := groupIds_bounds (o + 1) a k hk; omega
  | o, .seq l => by simpa [index, groupIds, captureCount] using groupIds_boundsSeq o l
  | o, .alt l => by simpa [index, groupIds, captureCount] using groupIds_boundsSame o l
  | o, .set l => by simpa [index, groupIds, captureCount] using groupIds_boundsSame o l
  | o, .neg a => by simpa [index, groupIds, captureCount] using groupIds_bounds o a
  | o, .rep _ _ _ a => by simpa [index, groupIds, captureCount] using groupIds_bounds o a
  | o, .look _ a => by simpa [index, groupIds, captureCount] using groupIds_bounds o a
  | _, .empty | _, .lit _ | _, .range _ _ | _, .wildcard | _, .bol | _, .boi | _, .eol | _, .eoi | _, .wordB | _, .backref _
  | _, .namedBackref _ => by simp [index, groupIds]
theorem groupIds_boundsSeq : ∀ (o : Nat) (l : List Ast), ∀ k ∈ groupIdsAll (indexSeq o l), o ≤ k ∧ k < o + captureCountAll l
  | _, [] => by simp [indexSeq, groupIdsAll]
  | o, a :: l => by
    intro k hk
    simp only [indexSeq, groupIdsAll, List.mem_append] at hk
    simp only [captureCountAll]
    rcases hk with hk | hk
    · have := groupIds_bounds o a k hk; omega
    · have := groupIds_boundsSeq _ l k hk; omega
theorem groupIds_boundsSame : ∀ (o : Nat) (l : List Ast), ∀ k ∈ groupIdsAll (indexSame o l), o ≤ k ∧ k < o + captureCountAll l
  | _, [] => by simp [indexSame, groupIdsAll]
  | o, a :: l => by
    intro k hk
    simp only [indexSame, groupIdsAll, List.mem_append] at hk
    simp only [captureCountAll]
    rcases hk with hk | hk
    · have := groupIds_bounds o a k hk; omega
    · have := groupIds_boundsSame _ l k hk; omega
end

theorem groupIdsAll_mem {k : Nat} {l : List Ast} : k ∈ groupIdsAll l ↔ ∃ a ∈ l, k ∈ groupIds a := by
  induction l with
  | nil => simp [groupIdsAll]
  | cons a l ih => simp [groupIdsAll, ih]

theorem part_groupIds {id : Nat} {n : GroupName} {b a : Ast} {k r : Nat} {m : Bool} (h : Part (.cap id n b) k r m a) : id ∈ groupIds a := by
  induction h with
  | here => simp [groupIds]
  | cap _ ih => simp [groupIds, ih]
  | set ha _ ih => exact groupIdsAll_mem.2 ⟨_, ha, ih⟩
  | seq ha _ ih => exact groupIdsAll_mem.2 ⟨_, ha, ih⟩
  | alt ha _ ih => exact groupIdsAll_mem.2 ⟨_, ha, ih⟩
  | neg _ ih => exact ih
  | rep _ ih => exact ih
  | ahead _ ih => exact ih
  | behind _ ih => exact ih
  | mirroredAhead _ ih => exact ih
  | mirroredBehind _ ih => exact ih

theorem part_nameSpec {id : Nat} {n : GroupName} {b a : Ast} {k r : Nat} {m : Bool} (h : Part (.cap id n b) k r m a) : HasGroup a id n := by
  induction h with
  | here => exact .here
  | cap _ ih => exact .cap ih
  | set ha _ ih => exact .set ha ih
  | seq ha _ ih => exact .seq ha ih
  | alt ha _ ih => exact .alt ha ih
  | neg _ ih => exact .neg ih
  | rep _ ih => exact .rep ih
  | ahead _ ih => exact .look ih
  | behind _ ih => exact .look ih
  | mirroredAhead _ ih => exact .look ih
  | mirroredBehind _ ih => exact .look ih

end Mregex
