import Verif.Proof.Refine

/-!
# Properties of `ends`, and the matcher refines it
-/

namespace Mregex
open Ast Spec

/-! ### Lists that present the same positions in the same order, up to repetitions -/

def FEq (l l' : List Nat) : Prop := ∀ G : Nat → Option Nat, l.findSome? G = l'.findSome? G

theorem FEq.refl (l : List Nat) : FEq l l := fun _ => rfl
theorem FEq.of_eq {l l' : List Nat} (h : l = l') : FEq l l' := h ▸ .refl l
theorem FEq.symm {l l' : List Nat} (h : FEq l l') : FEq l' l := fun G => (h G).symm
theorem FEq.trans {l l' l'' : List Nat} (h : FEq l l') (h' : FEq l' l'') : FEq l l'' :=
  fun G => (h G).trans (h' G)

theorem mem_iff_findSome? {l : List Nat} {q : Nat} :
    q ∈ l ↔ (l.findSome? (fun x => if x = q then some x else none)).isSome = true := by
  rw [List.findSome?_isSome_iff]
  constructor
  · intro h; exact ⟨q, h, by simp⟩
  · rintro ⟨x, hx, h⟩
    split at h
    · next e => exact e ▸ hx
    · simp at h

theorem FEq.mem {l l' : List Nat} (h : FEq l l') {q : Nat} : q ∈ l ↔ q ∈ l' := by
  rw [mem_iff_findSome?, mem_iff_findSome?, h]

theorem findSome?_some (l : List Nat) : l.findSome? some = l.head? := by cases l <;> simp

theorem FEq.head? {l l' : List Nat} (h : FEq l l') : l.head? = l'.head? := by
  rw [← findSome?_some, ← findSome?_some, h]

theorem FEq.isEmpty {l l' : List Nat} (h : FEq l l') : l.isEmpty = l'.isEmpty := by
  have := h.head?
  cases l <;> cases l' <;> simp_all

theorem FEq.take_one {l l' : List Nat} (h : FEq l l') : l.take 1 = l'.take 1 := by
  have := h.head?
  cases l <;> cases l' <;> simp_all

theorem FEq.append {l₁ l₂ l₁' l₂' : List Nat} (h : FEq l₁ l₁') (h' : FEq l₂ l₂') :
    FEq (l₁ ++ l₂) (l₁' ++ l₂') := by
  intro G
  rw [List.findSome?_append, List.findSome?_append, h, h']

theorem FEq.flatMap {l l' : List Nat} {g g' : Nat → List Nat} (h : FEq l l') (hg : ∀ q, FEq (g q) (g' q)) :
    FEq (l.flatMap g) (l'.flatMap g') := by
  intro G
  rw [findSome?_flatMap', findSome?_flatMap', h]
  congr 1
  funext q
  exact hg q G

theorem findSome?_filter' (l : List Nat) (P : Nat → Bool) (G : Nat → Option Nat) :
    (l.filter P).findSome? G = l.findSome? (fun q => if P q then G q else none) := by
  induction l with
  | nil => rfl
  | cons a l ih =>
    by_cases h : P a = true <;> simp [h, List.findSome?_cons, ih]

theorem FEq.filter {l l' : List Nat} (h : FEq l l') (P : Nat → Bool) : FEq (l.filter P) (l'.filter P) := by
  intro G
  rw [findSome?_filter', findSome?_filter', h]

section
variable {E : Env} {r : Nat} {I : Ctx → Prop}

theorem Den.congrE {m : Matcher} {g g' : Nat → List Nat} (h : Den E I m g)
    (hg : ∀ p, p ≤ E.inp.length → FEq (g p) (g' p)) : Den E I m g' := by
  intro p c cont G hp hc hk
  rw [← hg p hp G]
  exact h p c cont G hp hc (fun q c' hq => hk q c' ((hg p hp).mem.1 hq))

section quant
variable {g g' : Nat → List Nat} (hg : ∀ p, FEq (g p) (g' p))
include hg

theorem exactly_feq (k p : Nat) : FEq (exactly g k p) (exactly g' k p) := by
  induction k generalizing p with
  | zero => exact .refl _
  | succ k ih => exact (hg p).flatMap ih

theorem greedyUpTo_feq (k p : Nat) : FEq (greedyUpTo g k p) (greedyUpTo g' k p) := by
  induction k generalizing p with
  | zero => exact .refl _
  | succ k ih => exact ((hg p).flatMap ih).append (.refl _)

theorem lazyUpTo_feq (k p : Nat) : FEq (lazyUpTo g k p) (lazyUpTo g' k p) := by
  induction k generalizing p with
  | zero => exact .refl _
  | succ k ih => exact (FEq.refl _).append ((hg p).flatMap ih)

theorem greedyStar_feq (k p : Nat) : FEq (greedyStar g k p) (greedyStar g' k p) := by
  induction k generalizing p with
  | zero => exact .refl _
  | succ k ih => exact (((hg p).filter _).flatMap ih).append (.refl _)

theorem lazyStar_feq (k p : Nat) : FEq (lazyStar g k p) (lazyStar g' k p) := by
  induction k generalizing p with
  | zero => exact .refl _
  | succ k ih => exact (FEq.refl _).append (((hg p).filter _).flatMap ih)

theorem possessiveUpTo_feq (k p : Nat) : possessiveUpTo g k p = possessiveUpTo g' k p := by
  induction k generalizing p with
  | zero => rfl
  | succ k ih =>
    have := (hg p).head?
    unfold possessiveUpTo
    cases h : g p <;> cases h' : g' p <;> simp_all

theorem possessiveStar_feq (k p : Nat) : possessiveStar g k p = possessiveStar g' k p := by
  induction k generalizing p with
  | zero => rfl
  | succ k ih =>
    have := (hg p).head?
    unfold possessiveStar
    cases h : g p <;> cases h' : g' p <;> simp_all

theorem extra_feq (n : Nat) (m : Mode) (u : Bool) (k : Option Nat) (p : Nat) :
    FEq (extra n m u g k p) (extra n m u g' k p) := by
  have h1 := greedyUpTo_feq hg
  have h2 := lazyUpTo_feq hg
  have h3 := greedyStar_feq hg
  have h4 := lazyStar_feq hg
  have h5 := fun k p => FEq.of_eq (possessiveUpTo_feq hg k p)
  have h6 := fun k p => FEq.of_eq (possessiveStar_feq hg k p)
  cases k <;> cases m <;> cases u <;> simp only [extra] <;> first | apply h1 | apply h2 | apply h3 | apply h4 | apply h5 | apply h6

theorem quantified_feq (n : Nat) (m : Mode) (u : Bool) (lo : Nat) (hi : Bound) (p : Nat) :
    FEq (quantified n m u lo hi g p) (quantified n m u lo hi g' p) := by
  unfold quantified
  refine FEq.flatMap ?_ (fun q => extra_feq hg _ _ _ _ _)
  cases m
  · exact exactly_feq hg lo p
  · exact exactly_feq hg lo p
  · exact .of_eq (exactly_feq hg lo p).take_one

end quant

/-! ### Membership -/

abbrev Mem (g : Nat → List Nat) : Nat → Nat → Prop := fun p q => q ∈ g p

theorem mem_exactly {g : Nat → List Nat} {k p q : Nat} : q ∈ exactly g k p ↔ Pow (Mem g) k p q := by
  induction k generalizing p with
  | zero => simp only [exactly, List.mem_singleton, Pow]; exact eq_comm
  | succ k ih => simp only [exactly, List.mem_flatMap, Pow, ih]

theorem mem_greedyUpTo {g : Nat → List Nat} {k p q : Nat} :
    q ∈ greedyUpTo g k p ↔ ∃ i, i ≤ k ∧ Pow (Mem g) i p q := by
  induction k generalizing p with
  | zero =>
    simp only [greedyUpTo, List.mem_singleton]
    constructor
    · rintro rfl; exact ⟨0, Nat.le_refl _, rfl⟩
    · rintro ⟨i, hi, h⟩
      have : i = 0 := by omega
      subst this; exact h.symm
  | succ k ih =>
    simp only [greedyUpTo, List.mem_append, List.mem_flatMap, List.mem_singleton, ih]
    constructor
    · rintro (⟨t, h1, i, hi, h2⟩ | rfl)
      · exact ⟨i + 1, by omega, t, h1, h2⟩
      · exact ⟨0, by omega, rfl⟩
    · rintro ⟨i, hi, h⟩
      cases i with
      | zero => exact .inr h.symm
      | succ i => obtain ⟨t, h1, h2⟩ := h; exact .inl ⟨t, h1, i, by omega, h2⟩

theorem mem_lazyUpTo {g : Nat → List Nat} {k p q : Nat} : q ∈ lazyUpTo g k p ↔ q ∈ greedyUpTo g k p := by
  induction k generalizing p with
  | zero => simp [lazyUpTo, greedyUpTo]
  | succ k ih =>
    simp only [lazyUpTo, greedyUpTo, List.mem_append, List.mem_flatMap, List.mem_singleton, ih]
    exact or_comm

theorem mem_lazyStar {g : Nat → List Nat} {k p q : Nat} : q ∈ lazyStar g k p ↔ q ∈ greedyStar g k p := by
  induction k generalizing p with
  | zero => simp [lazyStar, greedyStar]
  | succ k ih =>
    simp only [lazyStar, greedyStar, List.mem_append, List.mem_flatMap, List.mem_singleton, ih]
    exact or_comm

theorem greedyStar_pow {g : Nat → List Nat} {k p q : Nat} (h : q ∈ greedyStar g k p) :
    ∃ i, Pow (Mem g) i p q := by
  induction k generalizing p with
  | zero => simp [greedyStar] at h
  | succ k ih =>
    simp only [greedyStar, List.mem_append, List.mem_flatMap, List.mem_singleton, List.mem_filter] at h
    rcases h with ⟨t, ⟨h1, _⟩, h2⟩ | rfl
    · obtain ⟨i, h3⟩ := ih h2; exact ⟨i + 1, t, h1, h3⟩
    · exact ⟨0, rfl⟩

theorem possessiveUpTo_pow {g : Nat → List Nat} {k p q : Nat} (h : q ∈ possessiveUpTo g k p) :
    ∃ i, i ≤ k ∧ Pow (Mem g) i p q := by
  induction k generalizing p with
  | zero => simp only [possessiveUpTo, List.mem_singleton] at h; exact ⟨0, Nat.le_refl _, h.symm⟩
  | succ k ih =>
    unfold possessiveUpTo at h
    split at h
    · simp only [List.mem_singleton] at h; exact ⟨0, by omega, h.symm⟩
    · next t l ht =>
      obtain ⟨i, hi, h⟩ := ih h
      exact ⟨i + 1, by omega, t, by simp [Mem, ht], h⟩

theorem possessiveStar_pow {g : Nat → List Nat} {k p q : Nat} (h : q ∈ possessiveStar g k p) :
    ∃ i, Pow (Mem g) i p q := by
  induction k generalizing p with
  | zero => simp [possessiveStar] at h
  | succ k ih =>
    unfold possessiveStar at h
    split at h
    · simp only [List.mem_singleton] at h; exact ⟨0, h.symm⟩
    · next t l ht =>
      split at h
      · simp only [List.mem_singleton] at h; exact ⟨0, h.symm⟩
      · obtain ⟨i, h⟩ := ih h
        exact ⟨i + 1, t, by simp [Mem, ht], h⟩

theorem mem_extra {n : Nat} {m : Mode} {u : Bool} {g : Nat → List Nat} {k : Option Nat} {p q : Nat}
    (h : q ∈ extra n m u g k p) : ∃ i, (∀ b, k = some b → i ≤ b) ∧ Pow (Mem g) i p q := by
  cases k with
  | none =>
    have : q ∈ greedyStar g (n + 1) p ∨ q ∈ possessiveStar g (n + 1) p := by
      cases m <;> cases u <;> simp only [extra, mem_lazyStar] at h <;> simp [h]
    rcases this with h | h
    · obtain ⟨i, h⟩ := greedyStar_pow h; exact ⟨i, by simp, h⟩
    · obtain ⟨i, h⟩ := possessiveStar_pow h; exact ⟨i, by simp, h⟩
  | some b =>
    have : q ∈ greedyUpTo g b p ∨ q ∈ possessiveUpTo g b p := by
      cases m <;> cases u <;> simp only [extra, mem_lazyUpTo] at h <;> simp [h]
    rcases this with h | h
    · obtain ⟨i, h1, h⟩ := mem_greedyUpTo.1 h; exact ⟨i, by simpa using h1, h⟩
    · obtain ⟨i, h1, h⟩ := possessiveUpTo_pow h; exact ⟨i, by simpa using h1, h⟩

theorem mem_quantified {n : Nat} {m : Mode} {u : Bool} {lo : Nat} {hi : Bound} {g : Nat → List Nat} {p q : Nat}
    (h : q ∈ quantified n m u lo hi g p) :
    ∃ i, lo ≤ i ∧ (∀ b, hi = .fin b → lo ≤ b → i ≤ b) ∧ Pow (Mem g) i p q := by
  simp only [quantified, List.mem_flatMap] at h
  obtain ⟨t, h1, h2⟩ := h
  have h1' : t ∈ exactly g lo p := by
    cases m
    · exact h1
    · exact h1
    · exact List.mem_of_mem_take h1
  obtain ⟨i, hi', h2⟩ := mem_extra h2
  refine ⟨lo + i, by omega, ?_, (mem_exactly.1 h1').comp h2⟩
  rintro b rfl hb
  have := hi' (b - lo) rfl
  omega

/-! ### Positions -/

theorem ends_inside {fwd : Bool} (hf : fwd = (r % 2 == 0)) (a : Ast) (inv : Bool) :
    Inside E r (ends E.flags E.inp a fwd inv) := by
  have htest : ∀ b : Bool, Inside E r (fun p => test b p) := by
    intro b p q hp hq
    cases b <;> simp [test] at hq
    subst hq; exact .refl hp
  intro p q hp h
  induction a using ind generalizing inv p q with
  | empty => simp only [ends, List.mem_singleton] at h; subst h; exact .refl hp
  | lit => simp only [ends] at h; exact inside_oneChar hf _ p q hp h
  | range => simp only [ends] at h; exact inside_oneChar hf _ p q hp h
  | wildcard => simp only [ends] at h; exact inside_oneChar hf _ p q hp h
  | set => simp only [ends] at h; exact inside_oneChar hf _ p q hp h
  | neg a ih =>
    simp only [ends] at h
    split at h
    · exact htest _ p q hp h
    · exact inside_oneChar hf _ p q hp h
  | seq l ih =>
    simp only [ends] at h
    induction l generalizing p q with
    | nil => simp only [endsAll, List.mem_singleton] at h; subst h; exact .refl hp
    | cons a l ihl =>
      have ihl' := @ihl (fun b hb => ih b (List.mem_cons_of_mem _ hb))
      simp only [endsAll] at h
      split at h
      · obtain ⟨t, h1, h2⟩ := List.mem_flatMap.1 h
        have := ihl' p t hp h1
        exact this.trans (ih a (by simp) inv t q this.right_le h2)
      · obtain ⟨t, h1, h2⟩ := List.mem_flatMap.1 h
        have := ih a (by simp) inv p t hp h1
        exact this.trans (ihl' t q this.right_le h2)
  | alt l ih =>
    simp only [ends] at h
    induction l with
    | nil => simp [endsAny] at h
    | cons a l ihl =>
      simp only [endsAny, List.mem_append] at h
      rcases h with h | h
      · exact ih a (by simp) inv p q hp h
      · exact ihl (fun b hb => ih b (List.mem_cons_of_mem _ hb)) h
  | cap id n a ih => simp only [ends] at h; exact ih inv p q hp h
  | rep m lo hi a ih =>
    simp only [ends] at h
    obtain ⟨i, _, _, h⟩ := mem_quantified h
    exact Pow.reach (fun p q hp h => ih inv p q hp h) hp h
  | look d a ih => simp only [ends] at h; split at h <;> exact htest _ p q hp h
  | bol => simp only [ends] at h; exact htest _ p q hp h
  | boi => simp only [ends] at h; exact htest _ p q hp h
  | eol => simp only [ends] at h; exact htest _ p q hp h
  | eoi => simp only [ends] at h; exact htest _ p q hp h
  | wordB => simp only [ends] at h; exact htest _ p q hp h
  | backref => simp [ends] at h
  | namedBackref => simp [ends] at h

theorem endsAll_inside {fwd : Bool} (hf : fwd = (r % 2 == 0)) (l : List Ast) (inv : Bool) :
    Inside E r (endsAll E.flags E.inp l fwd inv) := by
  intro p q hp hq
  exact ends_inside hf (.seq l) inv p q hp (by simpa only [ends] using hq)

theorem ends_ne {fwd : Bool} (hf : fwd = (r % 2 == 0)) {a : Ast} (hz : zlm a = false) {inv : Bool} {p q : Nat}
    (hp : p ≤ E.inp.length) (h : q ∈ ends E.flags E.inp a fwd inv p) : q ≠ p := by
  have hone : ∀ {P : Byte → Bool} {q : Nat}, q ∈ oneChar E.inp fwd P p → q ≠ p := by
    intro P q hq
    obtain ⟨rfl, h0⟩ := oneChar_ne hf hp hq
    exact Env.next_ne hp h0
  induction a using ind generalizing inv p q with
  | lit => simp only [ends] at h; exact hone h
  | range => simp only [ends] at h; exact hone h
  | wildcard => simp only [ends] at h; exact hone h
  | set => simp only [ends] at h; exact hone h
  | neg a ih =>
    simp only [ends, assertion_eq] at h
    simp only [zlm] at hz
    rw [hz] at h
    exact hone (by simpa using h)
  | seq l ih =>
    simp only [ends] at h
    simp only [zlm] at hz
    clear hone
    induction l generalizing p q with
    | nil => simp [zlmAll] at hz
    | cons a l ihl =>
      have ihl' := fun hz p q hp h => @ihl (fun b hb => ih b (List.mem_cons_of_mem _ hb)) hz p q hp h
      have hone : ∀ {p : Nat} {P : Byte → Bool} {q : Nat}, p ≤ E.inp.length → q ∈ oneChar E.inp fwd P p → q ≠ p := by
        intro p P q hp hq
        obtain ⟨rfl, h0⟩ := oneChar_ne hf hp hq
        exact Env.next_ne hp h0
      simp only [endsAll] at h
      simp only [zlmAll, Bool.and_eq_false_iff] at hz
      split at h
      · obtain ⟨t, h1, h2⟩ := List.mem_flatMap.1 h
        have r1 := endsAll_inside hf l inv p t hp h1
        have r2 := ends_inside hf a inv t q r1.right_le h2
        rintro rfl
        have := r1.antisymm r2
        subst this
        rcases hz with hz | hz
        · exact ih a (by simp) hz hp h2 (hone hp) rfl
        · exact ihl' hz q q hp h1 rfl
      · obtain ⟨t, h1, h2⟩ := List.mem_flatMap.1 h
        have r1 := ends_inside hf a inv p t hp h1
        have r2 := endsAll_inside hf l inv t q r1.right_le h2
        rintro rfl
        have := r1.antisymm r2
        subst this
        rcases hz with hz | hz
        · exact ih a (by simp) hz hp h1 (hone hp) rfl
        · exact ihl' hz q q hp h2 rfl
  | alt l ih =>
    simp only [ends] at h
    simp only [zlm] at hz
    induction l with
    | nil => simp [endsAny] at h
    | cons a l ihl =>
      simp only [endsAny, List.mem_append] at h
      simp only [zlmAny, Bool.or_eq_false_iff] at hz
      rcases h with h | h
      · exact ih a (by simp) hz.1 hp h hone
      · exact ihl (fun b hb => ih b (List.mem_cons_of_mem _ hb)) hz.2 h
  | cap id n a ih =>
    simp only [ends] at h
    simp only [zlm] at hz
    exact ih hz hp h hone
  | rep m lo hi a ih =>
    simp only [ends] at h
    simp only [zlm, Bool.or_eq_false_iff, beq_eq_false_iff_ne] at hz
    obtain ⟨i, hlo, _, h⟩ := mem_quantified h
    match i with
    | 0 => omega
    | i + 1 =>
      obtain ⟨t, h1, h2⟩ := h
      have r1 := ends_inside hf a inv p t hp h1
      have r2 := Pow.reach (fun p q hp h => ends_inside hf a inv p q hp h) r1.right_le h2
      rintro rfl
      have := r1.antisymm r2
      subst this
      exact ih hz.2 hp h1 hone rfl
  | _ => simp [zlm] at hz

theorem oneChar_or (s : List Byte) (fwd : Bool) (P Q : Byte → Bool) (p : Nat) :
    FEq (oneChar s fwd P p ++ oneChar s fwd Q p) (oneChar s fwd (fun x => P x || Q x) p) := by
  unfold oneChar
  cases readChar s fwd p with
  | none => exact .refl _
  | some xq =>
    obtain ⟨x, q⟩ := xq
    intro G
    dsimp only
    by_cases hP : P x = true <;> by_cases hQ : Q x = true <;> simp [hP, hQ]
    simp only [List.findSome?_cons, List.findSome?_nil]
    cases G q <;> rfl

theorem oneChar_false (s : List Byte) (fwd : Bool) (p : Nat) : oneChar s fwd (fun _ => false) p = [] := by
  unfold oneChar
  cases readChar s fwd p <;> rfl

/-- A trivially matchable node reads one character. -/
theorem ends_triv {a : Ast} (ht : triv a = true) (f : Flags) (s : List Byte) (fwd inv : Bool) (p : Nat) :
    FEq (ends f s a fwd inv p) (oneChar s fwd (accepts f a) p) := by
  induction a using ind generalizing p with
  | lit => simp only [ends]; exact .refl _
  | range => simp only [ends]; exact .refl _
  | wildcard => simp only [ends]; exact .refl _
  | set => simp only [ends]; exact .refl _
  | neg a ih =>
    simp only [triv, Bool.not_eq_true'] at ht
    simp only [ends, assertion_eq, ht]
    exact .refl _
  | seq l ih =>
    match l with
    | [] => simp [triv, trivSingle] at ht
    | [a] =>
      simp only [triv, trivSingle] at ht
      have e : accepts f (.seq [a]) = accepts f a := by funext x; simp [accepts, acceptsOnly]
      rw [e]
      refine FEq.trans (.of_eq ?_) (ih a (by simp) ht p)
      simp only [ends, endsAll]
      cases inv <;> simp
    | a :: b :: l => simp [triv, trivSingle] at ht
  | alt l ih =>
    simp only [triv, trivAlt_eq, Bool.and_eq_true] at ht
    replace ht := ht.2
    rw [show accepts f (.alt l) = acceptsAny f l by funext x; simp only [accepts]]
    simp only [ends]
    induction l with
    | nil =>
      have : acceptsAny f [] = fun _ => false := by funext x; simp [acceptsAny]
      rw [this, oneChar_false]
      simp only [endsAny]
      exact .refl _
    | cons a l ihl =>
      simp only [List.all_cons, Bool.and_eq_true] at ht
      have : acceptsAny f (a :: l) = fun x => accepts f a x || acceptsAny f l x := by
        funext x; simp [acceptsAny]
      rw [this]
      refine FEq.trans ?_ (oneChar_or _ _ _ _ _)
      simp only [endsAny]
      exact (ih a (by simp) ht.1 p).append (ihl (fun b hb => ih b (List.mem_cons_of_mem _ hb)) ht.2)
  | rep m lo hi a ih =>
    simp only [triv, Bool.and_eq_true, beq_iff_eq] at ht
    obtain ⟨⟨rfl, rfl⟩, ht⟩ := ht
    have e : accepts f (.rep m 1 (.fin 1) a) = accepts f a := by funext x; simp [accepts]
    rw [e]
    simp only [ends]
    refine (quantified_feq (ih ht) _ _ _ _ _ _).trans (.of_eq ?_)
    have e1 : exactly (oneChar s fwd (accepts f a)) 1 p = oneChar s fwd (accepts f a) p := by simp [exactly]
    simp only [quantified, Nat.sub_self, e1]
    rw [flatMap_congr' (fun q _ => extra_zero q), flatMap_singleton']
    cases m
    · rfl
    · rfl
    · exact take_one_short (oneChar_short ..)
  | look d a ih => simp [triv] at ht
  | cap id n a ih => simp [triv] at ht
  | _ => simp [triv] at ht

/-! ### Mirroring -/

theorem endsAll_append (f : Flags) (s : List Byte) (l l' : List Ast) (fwd inv : Bool) (p : Nat) :
    endsAll f s (l ++ l') fwd inv p =
      if inv then (endsAll f s l' fwd inv p).flatMap (endsAll f s l fwd inv)
      else (endsAll f s l fwd inv p).flatMap (endsAll f s l' fwd inv) := by
  induction l generalizing p with
  | nil =>
    have e : endsAll f s [] fwd inv = fun p => [p] := by funext p; simp [endsAll]
    cases inv <;> simp [e]
  | cons a l ih =>
    cases inv with
    | false =>
      simp only [List.cons_append, endsAll, Bool.false_eq_true, if_false] at *
      rw [List.flatMap_assoc]
      exact flatMap_congr' (fun q _ => ih q)
    | true =>
      simp only [List.cons_append, endsAll, if_true] at *
      rw [ih, List.flatMap_assoc]

theorem accepts_invert (f : Flags) (a : Ast) : accepts f (invert a) = accepts f a := by
  funext x
  rw [← matchOne_eq_accepts, ← matchOne_eq_accepts, matchOne_invert]

theorem ends_invert (f : Flags) (s : List Byte) (a : Ast) (fwd inv : Bool) :
    ends f s (invert a) fwd inv = ends f s a fwd (!inv) := by
  induction a using ind generalizing fwd inv with
  | seq l ih =>
    funext p
    simp only [invert, ends, invertAll_eq]
    induction l generalizing p with
    | nil => simp [endsAll]
    | cons a l ihl =>
      have ihl' := ihl (fun b hb => ih b (List.mem_cons_of_mem _ hb))
      have e : endsAll f s (List.map invert l).reverse fwd inv = endsAll f s l fwd (!inv) := funext ihl'
      simp only [List.map_cons, List.reverse_cons]
      rw [endsAll_append]
      have e1 : endsAll f s [invert a] fwd inv = ends f s a fwd (!inv) := by
        funext q
        simp only [endsAll]
        cases inv <;> simp [ih a (by simp)]
      rw [e, e1]
      cases inv <;> simp [endsAll]
  | alt l ih =>
    funext p
    simp only [invert, ends, invertAll_eq]
    induction l with
    | nil => simp [endsAny]
    | cons a l ihl =>
      simp only [List.map_cons, endsAny]
      rw [ih a (by simp), ihl (fun b hb => ih b (List.mem_cons_of_mem _ hb))]
  | cap id n a ih => funext p; simp only [invert, ends, ih]
  | rep m lo hi a ih => funext p; simp only [invert, ends, ih]
  | neg a ih =>
    funext p
    have e : accepts f (.neg (invert a)) = accepts f (.neg a) := by
      simpa [invert] using accepts_invert f (.neg a)
    simp only [invert, ends, assertion_eq, isAssertion_invert, ih, e]
  | set l ih =>
    funext p
    have e : accepts f (.set (invertAll l)) = accepts f (.set l) := by
      simpa [invert] using accepts_invert f (.set l)
    simp only [invert, ends, e]
  | look d a ih => funext p; cases d <;> cases inv <;> simp [invert, ends]
  | _ => funext p; simp only [invert, ends]

/-! ### Sequences and alternations -/

theorem charSeq_feq {f : Flags} {s : List Byte} {fwd : Bool} {l : List Ast} (hl : areTriv l = true) (p : Nat) :
    FEq (charSeq f s fwd l p) (endsAll f s l fwd false p) := by
  induction l generalizing p with
  | nil => simp only [charSeq, endsAll]; exact .refl _
  | cons a l ih =>
    simp only [areTriv, List.all_cons, Bool.and_eq_true] at hl
    simp only [charSeq, endsAll, Bool.false_eq_true, if_false]
    exact (ends_triv hl.1 f s fwd false p).symm.flatMap (ih hl.2)

theorem den_seqMatch {fwd : Bool} (hf : fwd = (r % 2 == 0)) {l : List Ast} {m : Ast → Matcher} (hne : l ≠ [])
    (h : ∀ a ∈ l, Den E I (m a) (ends E.flags E.inp a fwd false)) :
    Den E I (seqMatch E r m l) (endsAll E.flags E.inp l fwd false) := by
  match l with
  | [] => exact absurd rfl hne
  | a :: l =>
    induction l generalizing a with
    | nil =>
      refine (h a (by simp)).congr (fun p _ => ?_)
      simp only [endsAll, Bool.false_eq_true, if_false]
      exact (flatMap_singleton' _).symm
    | cons b l ih =>
      unfold seqMatch
      split
      · next ht => exact (Den.seqTriv hf _).congrE (fun p _ => charSeq_feq ht p)
      · refine ((h a (by simp)).comp (ih b (by simp) (fun x hx => h x (List.mem_cons_of_mem _ hx)))
          (fun p q hp hq => (ends_inside hf a false p q hp hq).right_le)).congr (fun p _ => ?_)
        simp [endsAll]

theorem den_altMatch {fwd : Bool} (hf : fwd = (r % 2 == 0)) {l : List Ast} {m : Ast → Matcher} (hne : l ≠ [])
    (h : ∀ a ∈ l, Den E I (m a) (ends E.flags E.inp a fwd false)) :
    Den E I (altMatch E r m l) (endsAny E.flags E.inp l fwd false) := by
  match l with
  | [] => exact absurd rfl hne
  | a :: l =>
    induction l generalizing a with
    | nil =>
      refine (h a (by simp)).congr (fun p _ => ?_)
      simp [endsAny]
    | cons b l ih =>
      unfold altMatch
      split
      · next ht =>
        refine (Den.triv hf _).congrE (fun p _ => ?_)
        have e : accepts E.flags (.set (a :: b :: l)) = accepts E.flags (.alt (a :: b :: l)) := by
          funext x; simp only [accepts]
        rw [e]
        refine (ends_triv (a := .alt (a :: b :: l)) ?_ E.flags E.inp fwd false p).symm.trans (.of_eq ?_)
        · simpa [triv, trivAlt_eq, areTriv] using ht
        · simp only [ends]
      · refine ((h a (by simp)).orElse (ih b (by simp) (fun x hx => h x (List.mem_cons_of_mem _ hx)))).congr
          (fun p _ => ?_)
        simp only [endsAny]

theorem Den.assert {pred : Nat → Option Bool} {b : Nat → Bool}
    (h : ∀ p, p ≤ E.inp.length → pred p = some (b p)) : Den E I (assertMatch pred) (fun p => test (b p) p) := by
  intro p c cont G hp hc hk
  unfold assertMatch
  rw [h p hp]
  dsimp only at hk ⊢
  cases hb : b p with
  | false => simpa [test] using view_nonMatch hc
  | true => rw [hb] at hk; simpa [test] using hk p c (by simp [test]) hc

theorem Den.look {m : Matcher} {g : Nat → List Nat} (h : Den E I m g) :
    Den E I (lookMatch m) (fun p => test (!(g p).isEmpty) p) := by
  intro p c cont G hp hc hk
  unfold lookMatch
  dsimp only at hk ⊢
  have hs := h.success hp hc
  cases hgp : g p with
  | nil =>
    rw [hgp] at hs
    exact hs.onMatch (fun q c' hq => by simp at hq) (fun c' _ hc' => by simpa [test] using view_nonMatch hc')
  | cons q l =>
    rw [hgp] at hs hk
    refine hs.onMatch (fun q' c' _ hc' => ?_) (fun c' hq => by simp at hq)
    simpa [test] using hk p c' (by simp [test]) hc'

theorem Den.negAssert {m : Matcher} {g : Nat → List Nat} (h : Den E I m g) :
    Den E I (negAssertMatch m) (fun p => test ((g p).isEmpty) p) := by
  intro p c cont G hp hc hk
  unfold negAssertMatch
  dsimp only at hk ⊢
  have hs := h.success hp hc
  cases hgp : g p with
  | nil =>
    rw [hgp] at hs hk
    refine hs.onMatch (fun q c' hq => by simp at hq) (fun c' _ hc' => ?_)
    simpa [test] using hk p c' (by simp [test]) hc'
  | cons q l =>
    rw [hgp] at hs
    exact hs.onMatch (fun q' c' _ hc' => by simpa [test] using view_nonMatch hc') (fun c' hq => by simp at hq)

/-- The invariant is preserved by everything the captures below `a` may do. -/
def CapStable (E : Env) (I : Ctx → Prop) (r : Nat) (a : Ast) : Prop :=
  ∀ r' id b, CapAt r a r' id b →
    (∀ c, I c → I (clearCapture id c)) ∧
    (∀ c p q, I c → p ≤ E.inp.length → q ∈ ends E.flags E.inp b (r' % 2 == 0) false p →
      I (c.set id (some (if r' = 0 then (p, q) else (q, p)))))

theorem den_capMatch {id : Nat} {name : GroupName} {m : Matcher} {g : Nat → List Nat} (h : Den E I m g)
    (hclear : ∀ c, I c → I (clearCapture id c))
    (hset : ∀ c p q, I c → p ≤ E.inp.length → q ∈ g p →
      I (c.set id (some (if r = 0 then (p, q) else (q, p)))))
    (hlen : ∀ c, I c → c.length = E.names.length) (hn : E.names[id]? = some name) (hr : r ≤ 1) :
    Den E I (capMatch E r id name m) g := by
  intro p c cont G hp hc hk
  unfold capMatch
  have hid : id < E.names.length := (List.getElem?_eq_some_iff.1 hn).1
  rw [show (g p).findSome? G = ((g p).findSome? G).or none by simp]
  refine View.orElse (h p c _ G hp hc (fun q c' hq hc' => ?_)) (fun c' hc' => view_nonMatch (hclear c' hc'))
  unfold setCapture
  rw [if_pos ⟨hn, hr, by rw [hlen c' hc']; exact hid⟩]
  exact hk q _ hq (hset _ _ _ hc' hp hq)

/-! ### Anchors -/

theorem isBreakAt_eq {s : List Byte} {p : Nat} {x : Byte} (h : s[p]? = some x) : isBreakAt s p = isLinebreak x := by
  unfold isBreakAt; rw [h]; rfl

theorem beginPred_eq {fwd : Bool} (hf : fwd = (r % 2 == 0)) {multi : Bool}
    (h : multi = true → E.flags.multiline = true → E.cat ≠ .forward) {p : Nat} (hp : p ≤ E.inp.length) :
    beginPred E r multi p = some (atStart E.inp fwd (multi && E.flags.multiline) p) := by
  subst hf
  unfold beginPred atStart Env.atBegin
  rcases Nat.mod_two_eq_zero_or_one r with h0 | h0
  · simp only [h0, if_true, beq_self_eq_true]
    cases hm : multi && E.flags.multiline with
    | false => by_cases hp0 : p = 0 <;> simp [hp0]
    | true =>
      simp only [Bool.and_eq_true] at hm
      have hc := h hm.1 hm.2
      unfold Env.derefPrev
      cases p with
      | zero => simp
      | succ k =>
        simp only [if_neg hc, h0]
        have : E.inp[k]? = some E.inp[k] := List.getElem?_eq_getElem (by omega)
        simp [before, isBreakAt, this, isLinebreak]
  · have e : (r % 2 == 0) = false := by simp [h0]
    simp only [h0]
    cases hm : multi && E.flags.multiline with
    | false => by_cases hp0 : p = E.inp.length <;> simp [hp0]
    | true =>
      simp only [Bool.and_eq_true] at hm
      have hc := h hm.1 hm.2
      unfold Env.derefPrev
      by_cases hp0 : p = E.inp.length
      · simp [hp0]
      · simp only [if_neg hc, h0]
        have : E.inp[p]? = some E.inp[p] := List.getElem?_eq_getElem (by omega)
        simp [isBreakAt, this, isLinebreak, hp0]

theorem endPred_eq {fwd : Bool} (hf : fwd = (r % 2 == 0)) {multi : Bool} {p : Nat} (hp : p ≤ E.inp.length) :
    endPred E r multi p = some (atStop E.inp fwd (multi && E.flags.multiline) p) := by
  subst hf
  unfold endPred atStop atStart Env.atEnd
  rcases Nat.mod_two_eq_zero_or_one r with h0 | h0
  · simp only [h0, if_true, beq_self_eq_true, Bool.not_true]
    cases hm : multi && E.flags.multiline with
    | false => by_cases hp0 : p = E.inp.length <;> simp [hp0]
    | true =>
      unfold Env.deref
      by_cases hp0 : p = E.inp.length
      · simp [hp0]
      · have : E.inp[p]? = some E.inp[p] := List.getElem?_eq_getElem (by omega)
        simp [isBreakAt, this, isLinebreak, hp0, h0]
  · have e : (r % 2 == 0) = false := by simp [h0]
    simp only [h0]
    cases hm : multi && E.flags.multiline with
    | false => by_cases hp0 : p = 0 <;> simp [hp0]
    | true =>
      unfold Env.deref
      cases p with
      | zero => simp
      | succ k =>
        have : E.inp[k]? = some E.inp[k] := List.getElem?_eq_getElem (by omega)
        simp [before, isBreakAt, this, isLinebreak, h0]

theorem word_isWord (f : Flags) (x : Byte) : matchOne f word x =
    (inRange 48#8 57#8 x || inRange 65#8 90#8 x || x == 95#8 || inRange 97#8 122#8 x) := by
  rw [Bool.eq_iff_iff, wordChar_iff]
  simp only [WordChar, inRange, Bool.or_eq_true, Bool.and_eq_true, decide_eq_true_eq, beq_iff_eq,
    ← BitVec.toNat_inj]
  simp
  omega

theorem wordBoundaryPred_eq (hc : E.cat ≠ .forward) {p : Nat} (hp : p ≤ E.inp.length) :
    wordBoundaryPred E r p = some (before (isWordAt E.inp) p != isWordAt E.inp p) := by
  have hat : ∀ k, k < E.inp.length → (E.inp[k]?.map (matchOne E.flags word)) = some (isWordAt E.inp k) := by
    intro k hk
    unfold isWordAt
    rw [List.getElem?_eq_getElem hk]
    simp [word_isWord]
  have hb : (if p = 0 then some false else E.inp[p - 1]?.map (matchOne E.flags word)) =
      some (before (isWordAt E.inp) p) := by
    cases p with
    | zero => rfl
    | succ k => simpa [before] using hat k (by omega)
  have ha : (if p = E.inp.length then some false else E.inp[p]?.map (matchOne E.flags word)) =
      some (isWordAt E.inp p) := by
    by_cases h : p = E.inp.length
    · simp [h, isWordAt]
    · rw [if_neg h]; exact hat p (by omega)
  unfold wordBoundaryPred Env.atBegin Env.atEnd Env.derefPrev Env.deref
  rw [if_neg hc]
  rcases Nat.mod_two_eq_zero_or_one r with h0 | h0
  · simp only [h0, if_true]
    have e1 : (if (p == 0) = true then some false else
        Option.map (matchOne E.flags word) (if p = 0 then none else E.inp[p - 1]?)) =
        some (before (isWordAt E.inp) p) := by
      rw [← hb]; by_cases hp0 : p = 0 <;> simp [hp0]
    have e2 : (if (p == E.inp.length) = true then some false else E.inp[p]?.map (matchOne E.flags word)) =
        some (isWordAt E.inp p) := by rw [← ha]; simp
    rw [e1, e2]
  · simp only [h0, Nat.one_ne_zero, if_false]
    have e1 : (if (p == 0) = true then some false else
        Option.map (matchOne E.flags word) (if p = 0 then none else E.inp[p - 1]?)) =
        some (before (isWordAt E.inp) p) := by
      rw [← hb]; by_cases hp0 : p = 0 <;> simp [hp0]
    have e2 : (if (p == E.inp.length) = true then some false else E.inp[p]?.map (matchOne E.flags word)) =
        some (isWordAt E.inp p) := by rw [← ha]; simp
    rw [e1, e2]
    dsimp only
    cases before (isWordAt E.inp) p <;> cases isWordAt E.inp p <;> rfl

theorem fwd_succ (r : Nat) : ((r + 1) % 2 == 0) = !(r % 2 == 0) := by
  rcases Nat.mod_two_eq_zero_or_one r with h | h
  · have h' : (r + 1) % 2 = 1 := by omega
    simp [h, h']
  · have h' : (r + 1) % 2 = 0 := by omega
    simp [h, h']

theorem oneChar_isEmpty {r : Nat} {fwd : Bool} (hf : fwd = (r % 2 == 0)) {a : Ast} {p : Nat} (hp : p ≤ E.inp.length) :
    lookaheadTrivPred E r a p = some (!(oneChar E.inp fwd (accepts E.flags a) p).isEmpty) := by
  unfold lookaheadTrivPred
  by_cases h0 : E.remaining r p = 0
  · rw [if_pos ((Env.atEnd_iff hp).2 h0), oneChar_end hf hp h0]; rfl
  · rw [if_neg (by rw [Env.atEnd_iff hp]; exact h0)]
    obtain ⟨x, hx⟩ := Env.deref_some hp h0
    rw [hx, oneChar_next hf hp h0 hx]
    simp only [Option.map_some, matchOne_eq_accepts]
    cases accepts E.flags a x <;> rfl

theorem lookbehindTriv_eq (hcat : E.cat ≠ .forward) {r : Nat} {a : Ast} {p : Nat} :
    lookbehindTrivPred E r a p = lookaheadTrivPred E (r + 1) a p := by
  unfold lookbehindTrivPred lookaheadTrivPred
  rw [atBegin_eq, derefPrev_eq hcat]

theorem noBackrefAll_eq (l : List Ast) : noBackrefAll l = l.all noBackref := by
  induction l with
  | nil => rfl
  | cons a l ih => simp [noBackrefAll, ih]

theorem noBackref_invert (a : Ast) : noBackref (invert a) = noBackref a := by
  induction a using ind with
  | seq l ih =>
    simp only [invert, noBackref, noBackrefAll_eq, invertAll_eq, List.all_reverse, List.all_map]
    exact all_congr' ih
  | alt l ih =>
    simp only [invert, noBackref, noBackrefAll_eq, invertAll_eq, List.all_map]
    exact all_congr' ih
  | set l ih =>
    simp only [invert, noBackref, noBackrefAll_eq, invertAll_eq, List.all_map]
    exact all_congr' ih
  | cap id n a ih => simpa only [invert, noBackref] using ih
  | rep m lo hi a ih => simpa only [invert, noBackref] using ih
  | neg a ih => simpa only [invert, noBackref] using ih
  | look d a ih => cases d <;> simp only [invert, noBackref]
  | _ => simp only [invert, noBackref]

/-- The matcher tries the positions of `ends` in order. -/
theorem mtch_den (hlen : ∀ c, I c → c.length = E.names.length) :
    ∀ fuel a r, Ok E r a → noBackref a = true → a.depth + E.inp.length + 1 ≤ fuel → CapStable E I r a →
      Den E I (mtch E fuel a r) (ends E.flags E.inp a (r % 2 == 0) false) := by
  intro fuel
  induction fuel with
  | zero => intro a r _ _ h; omega
  | succ k ih =>
    intro a r hok hnb hfuel hcl
    have hrep : ∀ m lo hi b, Ok E r b → noBackref b = true → b.depth + E.inp.length + 1 ≤ k → CapStable E I r b →
        (∀ h, hi = .fin h → lo ≤ h) →
        Den E I (repMatch E r k m lo hi b (mtch E k b r))
          (quantified E.inp.length m E.flags.ungreedy lo hi (ends E.flags E.inp b (r % 2 == 0) false)) := by
      intro m lo hi b hb hnb hk hcl hlo
      have hd := ih b r hb hnb hk hcl
      by_cases ht : triv b = true
      · have he := fun p => ends_triv ht E.flags E.inp (r % 2 == 0) false p
        have hd' := hd.congrE (fun p _ => he p)
        refine (den_repMatch (mode := m) (lo := lo) (hi := hi) rfl hd' (inside_oneChar rfl _) ?_ (fun _ => rfl)
          (by omega) hlo).congrE (fun p _ => quantified_feq (fun q => (he q).symm) _ _ _ _ _ _)
        intro _ p q hp hq
        obtain ⟨rfl, h0⟩ := oneChar_ne rfl hp hq
        exact Env.next_ne hp h0
      · exact den_repMatch rfl hd (ends_inside rfl b false) (fun hz p q hp hq => ends_ne rfl hz hp hq)
          (fun h => absurd h ht) (by omega) hlo
    unfold mtch
    cases hok with
    | empty => dsimp only; exact Den.id.congr (fun p _ => by simp only [ends])
    | lit => dsimp only; exact (Den.triv rfl _).congr (fun p _ => by simp only [ends])
    | range => dsimp only; exact (Den.triv rfl _).congr (fun p _ => by simp only [ends])
    | wildcard => dsimp only; exact (Den.triv rfl _).congr (fun p _ => by simp only [ends])
    | set => dsimp only; exact (Den.triv rfl _).congr (fun p _ => by simp only [ends])
    | @neg _ b hb hok =>
      simp only [depth] at hfuel
      simp only [noBackref] at hnb
      dsimp only
      split
      · next ha =>
        have := ih b r hok hnb (by omega) (fun r' id b' h => hcl r' id b' (.neg h))
        exact this.negAssert.congr (fun p _ => by simp only [ends, assertion_eq, ha, if_true])
      · next ha =>
        refine (Den.triv rfl _).congr (fun p _ => ?_)
        simp only [ends, assertion_eq]
        rw [if_neg ha]
    | @seq _ l hne hl =>
      simp only [depth] at hfuel
      simp only [noBackref, noBackrefAll_eq, List.all_eq_true] at hnb
      dsimp only
      refine (den_seqMatch rfl hne (fun b hb => ?_)).congr (fun p _ => by simp only [ends])
      have := depth_le_all hb
      exact ih b r (hl b hb) (hnb b hb) (by omega) (fun r' id b' h => hcl r' id b' (.seq hb h))
    | @alt _ l hne hl =>
      simp only [depth] at hfuel
      simp only [noBackref, noBackrefAll_eq, List.all_eq_true] at hnb
      dsimp only
      refine (den_altMatch rfl hne (fun b hb => ?_)).congr (fun p _ => by simp only [ends])
      have := depth_le_all hb
      exact ih b r (hl b hb) (hnb b hb) (by omega) (fun r' id b' h => hcl r' id b' (.alt hb h))
    | @cap _ id name b hn hr hok =>
      simp only [depth] at hfuel
      simp only [noBackref] at hnb
      dsimp only
      have := ih b r hok hnb (by omega) (fun r' id b' h => hcl r' id b' (.cap h))
      have hh := hcl r id b .here
      exact (den_capMatch this hh.1 hh.2 hlen hn hr).congr (fun p _ => by simp only [ends])
    | @repFin _ m lo hi b hlo hok =>
      simp only [depth] at hfuel
      simp only [noBackref] at hnb
      dsimp only
      exact (hrep m lo _ b hok hnb (by omega) (fun r' id b' h => hcl r' id b' (.rep h))
        (fun h e => by cases e; exact hlo)).congr (fun p _ => by simp only [ends])
    | @repInf _ m lo b hok =>
      simp only [depth] at hfuel
      simp only [noBackref] at hnb
      dsimp only
      exact (hrep m lo _ b hok hnb (by omega) (fun r' id b' h => hcl r' id b' (.rep h))
        (fun h e => by cases e)).congr (fun p _ => by simp only [ends])
    | @ahead _ b hok =>
      simp only [depth] at hfuel
      simp only [noBackref] at hnb
      dsimp only
      split
      · next ht =>
        refine (Den.assert (fun p hp => oneChar_isEmpty (E := E) (r := r) (a := b) rfl hp)).congr (fun p _ => ?_)
        simp only [ends, (ends_triv ht E.flags E.inp (r % 2 == 0) false p).isEmpty]
        rfl
      · refine (ih b r hok hnb (by omega) (fun r' id b' h => hcl r' id b' (.ahead h))).look.congr (fun p _ => ?_)
        simp only [ends]
        rfl
    | @behindTriv _ b hcat ht hok =>
      dsimp only
      rw [if_pos ht]
      refine (Den.assert (b := fun p => !(oneChar E.inp (!(r % 2 == 0)) (accepts E.flags b) p).isEmpty)
        (fun p hp => ?_)).congr (fun p _ => ?_)
      · rw [lookbehindTriv_eq hcat]
        exact oneChar_isEmpty (fwd_succ r).symm hp
      · simp only [ends, (ends_triv ht E.flags E.inp (!(r % 2 == 0)) true p).isEmpty]
        rfl
    | @behind _ b hcat hok =>
      simp only [depth] at hfuel
      simp only [noBackref] at hnb
      dsimp only
      split
      · next ht =>
        refine (Den.assert (b := fun p => !(oneChar E.inp (!(r % 2 == 0)) (accepts E.flags b) p).isEmpty)
          (fun p hp => ?_)).congr (fun p _ => ?_)
        · rw [lookbehindTriv_eq hcat]
          exact oneChar_isEmpty (fwd_succ r).symm hp
        · simp only [ends, (ends_triv ht E.flags E.inp (!(r % 2 == 0)) true p).isEmpty]
          rfl
      · refine ((ih (invert b) (r + 1) hok (by rw [noBackref_invert]; exact hnb) (by rw [depth_invert]; omega)
          (fun r' id b' h => hcl r' id b' (.behind h))).look).congr (fun p _ => ?_)
        rw [ends_invert, fwd_succ]
        simp only [ends]
        rfl
    | bol h =>
      dsimp only
      exact (Den.assert (fun p hp => beginPred_eq rfl (fun _ => h) hp)).congr
        (fun p _ => by simp only [ends, Bool.true_and])
    | boi =>
      dsimp only
      exact (Den.assert (fun p hp => beginPred_eq rfl (by simp) hp)).congr
        (fun p _ => by simp only [ends, Bool.false_and])
    | eol =>
      dsimp only
      exact (Den.assert (fun p hp => endPred_eq rfl hp)).congr
        (fun p _ => by simp only [ends, Bool.true_and])
    | eoi =>
      dsimp only
      exact (Den.assert (fun p hp => endPred_eq rfl hp)).congr
        (fun p _ => by simp only [ends, Bool.false_and])
    | wordB h =>
      dsimp only
      exact (Den.assert (fun p hp => wordBoundaryPred_eq h hp)).congr (fun p _ => by simp only [ends])
    | backref => simp [noBackref] at hnb
    | namedBackref => simp [noBackref] at hnb

end
end Mregex
