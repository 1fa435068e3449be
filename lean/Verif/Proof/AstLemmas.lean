import Verif.Model.Methods

/-!
# Induction principle and list forms of the mutually recursive functions
-/

namespace Mregex
namespace Ast

/-- Structural induction with membership hypotheses for lists of children. -/
theorem ind {P : Ast → Prop} (empty : P .empty) (lit : ∀ c, P (.lit c)) (range : ∀ a b, P (.range a b))
    (wildcard : P .wildcard) (set : ∀ l, (∀ a ∈ l, P a) → P (.set l)) (neg : ∀ a, P a → P (.neg a))
    (seq : ∀ l, (∀ a ∈ l, P a) → P (.seq l)) (alt : ∀ l, (∀ a ∈ l, P a) → P (.alt l))
    (cap : ∀ id name a, P a → P (.cap id name a)) (rep : ∀ m lo hi a, P a → P (.rep m lo hi a))
    (look : ∀ d a, P a → P (.look d a)) (bol : P .bol) (boi : P .boi) (eol : P .eol) (eoi : P .eoi)
    (wordB : P .wordB) (backref : ∀ id, P (.backref id)) (namedBackref : ∀ n, P (.namedBackref n))
    (a : Ast) : P a :=
  Ast.rec (motive_1 := P) (motive_2 := fun l => ∀ a ∈ l, P a)
    empty lit range wildcard (fun l h => set l h) (fun a h => neg a h) (fun l h => seq l h) (fun l h => alt l h)
    (fun id n a h => cap id n a h) (fun m lo hi a h => rep m lo hi a h) (fun d a h => look d a h)
    bol boi eol eoi wordB backref namedBackref
    (fun a h => by cases h)
    (fun a l ha hl b hb => by
      rcases List.mem_cons.1 hb with rfl | hb
      · exact ha
      · exact hl b hb) a

theorem zlmAll_eq (l : List Ast) : zlmAll l = l.all zlm := by
  induction l with
  | nil => rfl
  | cons a l ih => simp [zlmAll, ih]

theorem zlmAny_eq (l : List Ast) : zlmAny l = l.any zlm := by
  induction l with
  | nil => rfl
  | cons a l ih => simp [zlmAny, ih]

theorem invertAll_eq (l : List Ast) : invertAll l = l.map invert := by
  induction l with
  | nil => rfl
  | cons a l ih => simp [invertAll, ih]

theorem trivAlt_eq (l : List Ast) : trivAlt l = (!l.isEmpty && l.all triv) := by
  induction l with
  | nil => rfl
  | cons a l ih =>
    cases l with
    | nil => simp [trivAlt]
    | cons b l => simp only [trivAlt, ih]; simp

theorem trivSingle_eq (l : List Ast) : trivSingle l = (l.length == 1 && l.all triv) := by
  match l with
  | [] => rfl
  | [a] => simp [trivSingle]
  | a :: b :: l => simp [trivSingle]

theorem matchAny_eq (f : Flags) (l : List Ast) (x : Byte) : matchAny f l x = l.any (matchOne f · x) := by
  induction l with
  | nil => rfl
  | cons a l ih => simp [matchAny, ih]

theorem depth_pos (a : Ast) : 0 < a.depth := by
  cases a <;> simp [depth]

theorem depth_le_all {a : Ast} {l : List Ast} (h : a ∈ l) : a.depth ≤ depthAll l := by
  induction l with
  | nil => cases h
  | cons b l ih =>
    rcases List.mem_cons.1 h with rfl | h
    · simp [depthAll]; omega
    · have := ih h; simp [depthAll]; omega

theorem depthAll_le {l : List Ast} {k : Nat} (h : ∀ a ∈ l, a.depth ≤ k) : depthAll l ≤ k := by
  induction l with
  | nil => simp [depthAll]
  | cons b l ih =>
    have := ih (fun a ha => h a (List.mem_cons_of_mem _ ha))
    have := h b (List.mem_cons_self ..)
    simp [depthAll]; omega

theorem all_congr' {α : Type} {l : List α} {f g : α → Bool} (h : ∀ a ∈ l, f a = g a) : l.all f = l.all g := by
  induction l with
  | nil => rfl
  | cons a l ih =>
    rw [List.all_cons, List.all_cons, h a (by simp), ih (fun b hb => h b (by simp [hb]))]

theorem any_congr' {α : Type} {l : List α} {f g : α → Bool} (h : ∀ a ∈ l, f a = g a) : l.any f = l.any g := by
  induction l with
  | nil => rfl
  | cons a l ih =>
    rw [List.any_cons, List.any_cons, h a (by simp), ih (fun b hb => h b (by simp [hb]))]

/-! ### `invert` preserves the traits -/

theorem isAssertion_invert (a : Ast) : isAssertion (invert a) = isAssertion a := by
  induction a using ind with
  | seq l ih =>
    match l with
    | [] => simp [invert, invertAll, isAssertion]
    | [a] => simp [invert, invertAll, isAssertion, ih]
    | a :: b :: l =>
      simp only [invert, isAssertion]
      have h2 : (invertAll (a :: b :: l)).reverse.length = l.length + 2 := by simp [invertAll_eq]
      generalize (invertAll (a :: b :: l)).reverse = L at h2
      match L with
      | [] => simp at h2
      | [_] => simp at h2
      | _ :: _ :: _ => simp [isAssertion]
  | alt l ih =>
    match l with
    | [] => simp [invert, invertAll, isAssertion]
    | [a] => simp [invert, invertAll, isAssertion, ih]
    | a :: b :: l => simp [invert, invertAll, isAssertion]
  | look d a ih => cases d <;> simp [invert, isAssertion]
  | neg a ih => simpa [invert, isAssertion] using ih
  | rep m lo hi a ih => simp [invert, isAssertion, ih]
  | _ => simp [invert, isAssertion]

theorem triv_invert (a : Ast) : triv (invert a) = triv a := by
  induction a using ind with
  | seq l ih =>
    simp only [invert, triv, trivSingle_eq, invertAll_eq, List.length_reverse, List.length_map, List.all_reverse,
      List.all_map]
    congr 1
    exact all_congr' ih
  | alt l ih =>
    simp only [invert, triv, trivAlt_eq, invertAll_eq, List.isEmpty_map, List.all_map]
    congr 1
    exact all_congr' ih
  | look d a ih => cases d <;> simp [invert, triv]
  | neg a ih => simp [invert, triv, isAssertion_invert]
  | rep m lo hi a ih => simp [invert, triv, ih]
  | _ => simp [invert, triv]

theorem zlm_invert (a : Ast) : zlm (invert a) = zlm a := by
  induction a using ind with
  | seq l ih =>
    simp only [invert, zlm, zlmAll_eq, invertAll_eq, List.all_reverse, List.all_map]
    exact all_congr' ih
  | alt l ih =>
    simp only [invert, zlm, zlmAny_eq, invertAll_eq, List.any_map]
    exact any_congr' ih
  | look d a ih => cases d <;> simp [invert, zlm]
  | neg a ih => simp [invert, zlm, isAssertion_invert]
  | rep m lo hi a ih => simp [invert, zlm, ih]
  | cap id n a ih => simp [invert, zlm, ih]
  | _ => simp [invert, zlm]

theorem matchOne_invert (f : Flags) (a : Ast) (x : Byte) : matchOne f (invert a) x = matchOne f a x := by
  induction a using ind with
  | seq l ih =>
    match l with
    | [] => simp [invert, invertAll, matchOne]
    | [a] => simp [invert, invertAll, matchOne, matchSingle, ih]
    | a :: b :: l =>
      simp only [invert, matchOne]
      have h2 : (invertAll (a :: b :: l)).reverse.length = l.length + 2 := by simp [invertAll_eq]
      generalize (invertAll (a :: b :: l)).reverse = L at h2
      match L with
      | [] => simp at h2
      | [_] => simp at h2
      | _ :: _ :: _ => simp [matchSingle]
  | alt l ih =>
    simp only [invert, matchOne, matchAny_eq, invertAll_eq, List.any_map]
    exact any_congr' ih
  | set l ih =>
    simp only [invert, matchOne, matchAny_eq, invertAll_eq, List.any_map]
    exact any_congr' ih
  | look d a ih => cases d <;> simp [invert, matchOne]
  | neg a ih => simp [invert, matchOne, ih]
  | rep m lo hi a ih => simp [invert, matchOne, ih]
  | cap id n a ih => simp [invert, matchOne]
  | _ => simp [invert]

theorem depthAll_append (l l' : List Ast) : depthAll (l ++ l') = max (depthAll l) (depthAll l') := by
  induction l with
  | nil => simp [depthAll]
  | cons a l ih => simp [depthAll, ih, Nat.max_assoc]

theorem depthAll_reverse (l : List Ast) : depthAll l.reverse = depthAll l := by
  induction l with
  | nil => rfl
  | cons a l ih => simp [depthAll_append, depthAll, ih]; omega

theorem depthAll_invertAll {l : List Ast} (ih : ∀ a ∈ l, depth (invert a) = depth a) :
    depthAll (invertAll l) = depthAll l := by
  induction l with
  | nil => rfl
  | cons a l ih' =>
    simp only [invertAll, depthAll]
    rw [ih a (List.mem_cons_self ..), ih' (fun b hb => ih b (List.mem_cons_of_mem _ hb))]

theorem depth_invert (a : Ast) : depth (invert a) = depth a := by
  induction a using ind with
  | seq l ih => simp [invert, depth, depthAll_reverse, depthAll_invertAll ih]
  | alt l ih => simp [invert, depth, depthAll_invertAll ih]
  | set l ih => simp [invert, depth, depthAll_invertAll ih]
  | look d a ih => cases d <;> simp [invert, depth]
  | neg a ih => simp [invert, depth, ih]
  | rep m lo hi a ih => simp [invert, depth, ih]
  | cap id n a ih => simp [invert, depth, ih]
  | _ => simp [invert]

theorem invert_invert (a : Ast) : invert (invert a) = a := by
  induction a using ind with
  | seq l ih =>
    simp only [invert, invertAll_eq, List.map_reverse, List.reverse_reverse, List.map_map, Ast.seq.injEq]
    exact (List.map_congr_left ih).trans (List.map_id _)
  | alt l ih =>
    simp only [invert, invertAll_eq, List.map_map, Ast.alt.injEq]
    exact (List.map_congr_left ih).trans (List.map_id _)
  | set l ih =>
    simp only [invert, invertAll_eq, List.map_map, Ast.set.injEq]
    exact (List.map_congr_left ih).trans (List.map_id _)
  | look d a ih => cases d <;> simp [invert]
  | neg a ih => simp [invert, ih]
  | rep m lo hi a ih => simp [invert, ih]
  | cap id n a ih => simp [invert, ih]
  | _ => simp [invert]

/-- A trivially matchable node is neither an assertion nor a zero-length matcher. -/
theorem isAssertion_of_triv {a : Ast} (h : triv a = true) : isAssertion a = false := by
  induction a using ind with
  | seq l ih =>
    match l with
    | [] => simp [isAssertion]
    | [a] => simp [triv, trivSingle] at h; simpa [isAssertion] using ih a (by simp) h
    | a :: b :: l => simp [isAssertion]
  | alt l ih =>
    match l with
    | [] => simp [isAssertion]
    | [a] => simp [triv, trivAlt] at h; simpa [isAssertion] using ih a (by simp) h
    | a :: b :: l => simp [isAssertion]
  | neg a ih => simp only [triv, Bool.not_eq_true'] at h; simpa [isAssertion] using h
  | rep m lo hi a ih => simp [triv] at h; simp [isAssertion, ih h.2]
  | look d a ih => simp [triv] at h
  | _ => simp_all [isAssertion, triv]

theorem zlm_of_triv {a : Ast} (h : triv a = true) : zlm a = false := by
  induction a using ind with
  | seq l ih =>
    match l with
    | [] => simp [triv, trivSingle] at h
    | [a] => simp [triv, trivSingle] at h; simpa [zlm, zlmAll] using ih a (by simp) h
    | a :: b :: l => simp [triv, trivSingle] at h
  | alt l ih =>
    simp only [triv, trivAlt_eq, Bool.and_eq_true, List.all_eq_true] at h
    simp only [zlm, zlmAny_eq, List.any_eq_false]
    intro a ha
    simp [ih a ha (h.2 a ha)]
  | neg a ih => simp only [triv, Bool.not_eq_true'] at h; simpa [zlm] using h
  | rep m lo hi a ih => simp [triv] at h; simp [zlm, ih h.2, h.1]
  | look d a ih => simp [triv] at h
  | cap id n a ih => simp [triv] at h
  | _ => simp_all [zlm, triv]

end Ast
end Mregex
