import Verif.Proof.Oblivious
import Verif.Proof.Variants
import Verif.Spec.Branches

/-!
# Alternations without references
-/

namespace Mregex
open Ast Spec

/-- Rewriting in parallel; dissolved branches are kept in parentheses of their own, so that the nesting does not change. -/
inductive Al : Ast → Ast → Prop
  | refl (a : Ast) : Al a a
  | seq (xs : List (Ast × Ast)) : (∀ x ∈ xs, Al x.1 x.2) → Al (.seq (xs.map Prod.fst)) (.seq (xs.map Prod.snd))
  | alt (xs : List (Ast × Ast)) : (∀ x ∈ xs, Al x.1 x.2) → Al (.alt (xs.map Prod.fst)) (.alt (xs.map Prod.snd))
  | cap {a b : Ast} (id : Nat) (name : GroupName) : Al a b → Al (.cap id name a) (.cap id name b)
  | rep {a b : Ast} (m : Mode) (lo : Nat) (hi : Bound) : Al a b → Al (.rep m lo hi a) (.rep m lo hi b)
  | look {a b : Ast} (d : LookDir) : Al a b → Al (.look d a) (.look d b)
  | neg {a b : Ast} : isAssertion a = true → Al a b → Al (.neg a) (.neg b)
  | dissolve (pre l post : List Ast) : l ≠ [] → Al (.alt (pre ++ .alt l :: post)) (.alt (pre ++ l.map (fun x => .alt [x]) ++ post))
  | twice (pre : List Ast) (a : Ast) (post : List Ast) : captureCount a = 0 → pre ++ post ≠ [] ∨ isAssertion a = false →
      Al (.alt (pre ++ a :: a :: post)) (.alt (pre ++ a :: post))

theorem captureCountAll_append (l l' : List Ast) : captureCountAll (l ++ l') = captureCountAll l + captureCountAll l' := by
  induction l with
  | nil => simp [captureCountAll]
  | cons a l ih => simp [captureCountAll, ih, Nat.add_assoc]

theorem captureCountAll_reverse (l : List Ast) : captureCountAll l.reverse = captureCountAll l := by
  induction l with
  | nil => rfl
  | cons a l ih => simp [captureCountAll, captureCountAll_append, ih, Nat.add_comm]

theorem captureCountAll_invertAll {l : List Ast} (ih : ∀ a ∈ l, captureCount (invert a) = captureCount a) :
    captureCountAll (invertAll l) = captureCountAll l := by
  induction l with
  | nil => rfl
  | cons a l ih' =>
    simp only [invertAll, captureCountAll]
    rw [ih a (List.mem_cons_self ..), ih' (fun b hb => ih b (List.mem_cons_of_mem _ hb))]

theorem captureCount_invert (a : Ast) : captureCount (invert a) = captureCount a := by
  induction a using ind with
  | seq l ih => simp [invert, captureCount, captureCountAll_reverse, captureCountAll_invertAll ih]
  | alt l ih => simp [invert, captureCount, captureCountAll_invertAll ih]
  | set l ih => simp [invert, captureCount, captureCountAll_invertAll ih]
  | look d a ih => cases d <;> simp [invert, captureCount]
  | neg a ih => simp [invert, captureCount, ih]
  | rep m lo hi a ih => simp [invert, captureCount, ih]
  | cap id n a ih => simp [invert, captureCount, ih]
  | _ => simp [invert]

theorem pairs_self (l : List Ast) : l = (l.map (fun a => (a, a))).map Prod.fst ∧ l = (l.map (fun a => (a, a))).map Prod.snd := by
  constructor <;> simp [Function.comp_def]

theorem Al.invert {a b : Ast} (h : Al a b) : Al (invert a) (invert b) := by
  induction h with
  | refl a => exact .refl _
  | seq xs _ ih =>
    have := Al.seq (xs.map (fun x => (Ast.invert x.1, Ast.invert x.2))).reverse (by
      intro y hy
      obtain ⟨x, hx, rfl⟩ := List.mem_map.1 (List.mem_reverse.1 hy)
      exact ih x hx)
    simpa only [Ast.invert, invertAll_eq, List.map_reverse, List.map_map, Function.comp_def] using this
  | alt xs _ ih =>
    have := Al.alt (xs.map (fun x => (Ast.invert x.1, Ast.invert x.2))) (by
      intro y hy
      obtain ⟨x, hx, rfl⟩ := List.mem_map.1 hy
      exact ih x hx)
    simpa only [Ast.invert, invertAll_eq, List.map_map, Function.comp_def] using this
  | cap id name _ ih => exact .cap id name ih
  | rep m lo hi _ ih => exact .rep m lo hi ih
  | look d h _ => cases d <;> exact .look _ h
  | neg ha _ ih => exact .neg (by rw [isAssertion_invert]; exact ha) ih
  | dissolve pre l post hl =>
    have := Al.dissolve (pre.map Ast.invert) (l.map Ast.invert) (post.map Ast.invert) (by simpa using hl)
    simpa only [Ast.invert, invertAll_eq, List.map_append, List.map_cons, List.map_nil, List.map_map, Function.comp_def] using this
  | twice pre a post hc ha =>
    have := Al.twice (pre.map Ast.invert) (Ast.invert a) (post.map Ast.invert) (by rw [captureCount_invert]; exact hc)
      (by rw [isAssertion_invert, ← List.map_append]; simpa using ha)
    simpa only [Ast.invert, invertAll_eq, List.map_append, List.map_cons, List.map_nil, List.map_map, Function.comp_def] using this

theorem map_any_congr {α : Type} (xs : List (α × α)) (f : α → Bool) (h : ∀ x ∈ xs, f x.1 = f x.2) :
    (xs.map Prod.fst).any f = (xs.map Prod.snd).any f := by
  rw [List.any_map, List.any_map]; exact any_congr' h

theorem map_all_congr {α : Type} (xs : List (α × α)) (f : α → Bool) (h : ∀ x ∈ xs, f x.1 = f x.2) :
    (xs.map Prod.fst).all f = (xs.map Prod.snd).all f := by
  rw [List.all_map, List.all_map]; exact all_congr' h

theorem Al.traits (f : Flags) {a b : Ast} (h : Al a b) : SameTraits f a b := by
  induction h with
  | refl a => exact .refl f a
  | seq xs _ ih =>
    refine ⟨?_, ?_, ?_, fun ht x => ?_⟩
    · simp only [zlm, zlmAll_eq]; exact map_all_congr _ _ (fun x hx => (ih x hx).zlm)
    · simp only [triv, trivSingle_eq, List.length_map]; rw [map_all_congr _ _ (fun x hx => (ih x hx).triv)]
    · simp only [isAssertion_seq, List.length_map]; rw [map_all_congr _ _ (fun x hx => (ih x hx).asrt)]
    · match xs, ht, ih with
      | [y], ht, ih => exact (ih y (by simp)).one (by simpa [triv, trivSingle] using ht) x
      | [], _, _ => rfl
      | _ :: _ :: _, ht, _ => simp [triv, trivSingle] at ht
  | alt xs _ ih =>
    have e : (xs.map Prod.fst).isEmpty = (xs.map Prod.snd).isEmpty := by simp
    refine ⟨?_, ?_, ?_, fun ht x => ?_⟩
    · simp only [zlm, zlmAny_eq]; exact map_any_congr _ _ (fun x hx => (ih x hx).zlm)
    · simp only [triv, trivAlt_eq, e]; rw [map_all_congr _ _ (fun x hx => (ih x hx).triv)]
    · simp only [isAssertion_alt, List.length_map]; rw [map_all_congr _ _ (fun x hx => (ih x hx).asrt)]
    · simp only [matchOne, matchAny_eq]
      simp only [triv, trivAlt_eq, Bool.and_eq_true, List.all_map, List.all_eq_true] at ht
      exact map_any_congr _ _ (fun y hy => (ih y hy).one (ht.2 y hy) x)
  | cap id name _ ih => exact ⟨ih.zlm, rfl, rfl, fun ht => by simp [triv] at ht⟩
  | rep m lo hi _ ih =>
    refine ⟨by simp only [zlm, ih.zlm], by simp only [triv, ih.triv], by simp only [isAssertion, ih.asrt], fun ht x => ?_⟩
    simp only [triv, Bool.and_eq_true] at ht
    simp only [matchOne, ih.one ht.2 x]
  | look d _ _ => exact ⟨rfl, rfl, rfl, fun ht => by simp [triv] at ht⟩
  | neg ha _ ih =>
    exact ⟨by simp only [zlm, ih.asrt], by simp only [triv, ih.asrt], by simp only [isAssertion, ih.asrt],
      fun ht => by simp [triv, ha] at ht⟩
  | dissolve pre l post hl =>
    have e1 : ∀ g : Ast → Bool, (∀ a, g (.alt [a]) = g a) → (l.map (fun x => Ast.alt [x])).all g = l.all g := by
      intro g hg; rw [List.all_map]; exact all_congr' (fun x _ => hg x)
    have e2 : ∀ g : Ast → Bool, (∀ a, g (.alt [a]) = g a) → (l.map (fun x => Ast.alt [x])).any g = l.any g := by
      intro g hg; rw [List.any_map]; exact any_congr' (fun x _ => hg x)
    have hl' : l.isEmpty = false := by simpa using hl
    have z := e2 Ast.zlm (fun a => by simp [zlm, zlmAny])
    have t := e1 Ast.triv (fun a => by simp [triv, trivAlt])
    have q := e1 Ast.isAssertion (fun a => by simp [isAssertion_alt])
    refine ⟨?_, ?_, ?_, fun ht x => ?_⟩
    · simp only [zlm, zlmAny_eq, List.any_append, List.any_cons, z, Bool.or_assoc]
    · simp only [triv, trivAlt_eq, List.all_append, List.all_cons, t, hl']
      cases pre <;> cases l <;> simp_all [Bool.and_assoc]
    · simp only [isAssertion_alt, List.all_append, List.all_cons, q, List.length_append, List.length_cons, List.length_map]
      have : 0 < l.length := List.length_pos_iff.2 hl
      by_cases h1 : l.length = 1
      · simp [h1, Nat.add_assoc, Nat.add_comm 1, Bool.and_assoc]
      · have h2 : (pre.length + l.length + post.length == 1) = false := beq_eq_false_iff_ne.2 (by omega)
        simp [h2, beq_eq_false_iff_ne.2 h1]
    · have o := e2 (fun a => matchOne f a x) (fun a => by simp [matchOne, matchAny])
      simp only [matchOne, matchAny_eq, List.any_append, List.any_cons, o, Bool.or_assoc]
  | twice pre a post hc ha =>
    refine ⟨?_, ?_, ?_, fun ht x => ?_⟩
    · simp only [zlm, zlmAny_eq, List.any_append, List.any_cons]; cases zlm a <;> simp
    · simp only [triv, trivAlt_eq, List.all_append, List.all_cons]; cases triv a <;> cases pre <;> simp
    · simp only [isAssertion_alt, List.all_append, List.all_cons, List.length_append, List.length_cons]
      have h1 : (pre.length + (post.length + 1 + 1) == 1) = false := beq_eq_false_iff_ne.2 (by omega)
      rw [h1, Bool.false_and]
      rcases ha with ha | ha
      · have : 0 < (pre ++ post).length := List.length_pos_iff.2 ha
        rw [List.length_append] at this
        have h2 : (pre.length + (post.length + 1) == 1) = false := beq_eq_false_iff_ne.2 (by omega)
        rw [h2, Bool.false_and]
      · simp [ha]
    · simp only [matchOne, matchAny_eq, List.any_append, List.any_cons]; cases matchOne f a x <;> simp

theorem Al.noBackref {a b : Ast} (h : Al a b) : noBackref a = noBackref b := by
  induction h with
  | refl a => rfl
  | seq xs _ ih | alt xs _ ih => simp only [Spec.noBackref, noBackrefAll_eq]; exact map_all_congr _ _ ih
  | cap _ _ _ ih | rep _ _ _ _ ih | look _ _ ih | neg _ _ ih => exact ih
  | dissolve pre l post _ =>
    simp [Spec.noBackref, noBackrefAll_eq, Function.comp_def]
  | twice pre a post _ _ =>
    simp only [Spec.noBackref, noBackrefAll_eq, List.all_append, List.all_cons]
    cases Spec.noBackref a <;> simp

theorem Al.depth {a b : Ast} (h : Al a b) : a.depth = b.depth := by
  have key : ∀ xs : List (Ast × Ast), (∀ x ∈ xs, x.1.depth = x.2.depth) → depthAll (xs.map Prod.fst) = depthAll (xs.map Prod.snd) := by
    intro xs h
    induction xs with
    | nil => rfl
    | cons x xs ih => simp only [List.map_cons, depthAll, h x (by simp), ih (fun y hy => h y (by simp [hy]))]
  induction h with
  | refl a => rfl
  | seq xs _ ih | alt xs _ ih => simp only [Ast.depth, key xs ih]
  | cap _ _ _ ih | rep _ _ _ _ ih | look _ _ ih | neg _ _ ih => simp only [Ast.depth, ih]
  | dissolve pre l post hl =>
    have : ∀ l : List Ast, l ≠ [] → depthAll (l.map (fun x => Ast.alt [x])) = depthAll l + 1 := by
      intro l
      induction l with
      | nil => exact fun h => absurd rfl h
      | cons x l ih =>
        intro _
        by_cases h : l = []
        · subst h; simp [depthAll, Ast.depth]
        · simp [depthAll, Ast.depth, ih h]
    simp [Ast.depth, depthAll_append, depthAll, this l hl, Nat.max_assoc]
  | twice pre a post _ _ => simp [Ast.depth, depthAll_append, depthAll, ← Nat.max_assoc]

theorem Al.names {a b : Ast} (h : Al a b) : nameSpec a = nameSpec b := by
  have key : ∀ xs : List (Ast × Ast), (∀ x ∈ xs, nameSpec x.1 = nameSpec x.2) →
      nameSpecAll (xs.map Prod.fst) = nameSpecAll (xs.map Prod.snd) := by
    intro xs h
    induction xs with
    | nil => rfl
    | cons x xs ih => simp only [List.map_cons, nameSpecAll, h x (by simp), ih (fun y hy => h y (by simp [hy]))]
  induction h with
  | refl a => rfl
  | seq xs _ ih | alt xs _ ih => simp only [nameSpec, key xs ih]
  | cap _ _ _ ih | rep _ _ _ _ ih | look _ _ ih | neg _ _ ih => simp only [nameSpec, ih]
  | dissolve pre l post hl =>
    have : ∀ l : List Ast, nameSpecAll (l.map (fun x => Ast.alt [x])) = nameSpecAll l := by
      intro l
      induction l with
      | nil => rfl
      | cons x l ih => simp [nameSpecAll, nameSpec, ih]
    simp [nameSpec, nameSpecAll_app, nameSpecAll, this l]
  | twice pre a post hc _ => simp [nameSpec, nameSpecAll_app, nameSpecAll, nameSpec_nil a hc]

theorem Al.ok {E : Env} {a b : Ast} (h : Al a b) : ∀ r, (Ok E r a ↔ Ok E r b) ∧ (Ok E r (Ast.invert a) ↔ Ok E r (Ast.invert b)) := by
  have key : ∀ (f : Ast → Ast) (r : Nat) (xs : List (Ast × Ast)), (∀ x ∈ xs, Ok E r (f x.1) ↔ Ok E r (f x.2)) →
      (((xs.map Prod.fst) ≠ [] ∧ ∀ a ∈ xs.map Prod.fst, Ok E r (f a)) ↔ ((xs.map Prod.snd) ≠ [] ∧ ∀ a ∈ xs.map Prod.snd, Ok E r (f a))) := by
    intro f r xs h
    refine and_congr (by simp) ⟨fun hx a ha => ?_, fun hx a ha => ?_⟩ <;> obtain ⟨y, hy, rfl⟩ := List.mem_map.1 ha
    · exact (h y hy).1 (hx _ (List.mem_map.2 ⟨y, hy, rfl⟩))
    · exact (h y hy).2 (hx _ (List.mem_map.2 ⟨y, hy, rfl⟩))
  have one : ∀ r x, Ok E r (.alt [x]) ↔ Ok E r x := fun r x => by rw [ok_alt]; simp
  have diss : ∀ r (pre l post : List Ast), l ≠ [] →
      (Ok E r (.alt (pre ++ .alt l :: post)) ↔ Ok E r (.alt (pre ++ l.map (fun x => .alt [x]) ++ post))) := by
    intro r pre l post hl
    rw [ok_alt, ok_alt]
    refine and_congr (by simp [hl]) ?_
    rw [all_mid, ok_alt]
    simp only [List.forall_mem_append, List.forall_mem_map, one]
    exact ⟨fun h => ⟨⟨h.1, h.2.1.2⟩, h.2.2⟩, fun h => ⟨h.1.1, ⟨hl, h.1.2⟩, h.2⟩⟩
  have tw : ∀ r (pre : List Ast) (a : Ast) (post : List Ast), (Ok E r (.alt (pre ++ a :: a :: post)) ↔ Ok E r (.alt (pre ++ a :: post))) := by
    intro r pre a post
    rw [ok_alt, ok_alt]
    refine and_congr (by simp) ?_
    simp only [List.forall_mem_append, List.forall_mem_cons]
    exact ⟨fun h => ⟨h.1, h.2.2⟩, fun h => ⟨h.1, h.2.1, h.2⟩⟩
  induction h with
  | refl a => exact fun r => ⟨Iff.rfl, Iff.rfl⟩
  | seq xs _ ih =>
    intro r
    refine ⟨by rw [ok_seq, ok_seq]; exact key id r xs (fun x hx => (ih x hx r).1), ?_⟩
    simp only [Ast.invert, invertAll_eq, ok_seq, List.mem_reverse, ne_eq, List.reverse_eq_nil_iff, List.forall_mem_map, List.map_eq_nil_iff]
    have := key Ast.invert r xs (fun x hx => (ih x hx r).2)
    simpa only [ne_eq, List.map_eq_nil_iff, List.forall_mem_map] using this
  | alt xs _ ih =>
    intro r
    refine ⟨by rw [ok_alt, ok_alt]; exact key id r xs (fun x hx => (ih x hx r).1), ?_⟩
    simp only [Ast.invert, invertAll_eq, ok_alt, ne_eq, List.forall_mem_map, List.map_eq_nil_iff]
    have := key Ast.invert r xs (fun x hx => (ih x hx r).2)
    simpa only [ne_eq, List.map_eq_nil_iff, List.forall_mem_map] using this
  | cap id name _ ih =>
    have : ∀ r a, Ok E r (.cap id name a) ↔ E.names[id]? = some name ∧ r ≤ 1 ∧ Ok E r a :=
      fun r a => ⟨fun | .cap h h' h'' => ⟨h, h', h''⟩, fun ⟨h, h', h''⟩ => .cap h h' h''⟩
    intro r
    exact ⟨by rw [this, this, (ih r).1], by simp only [Ast.invert]; rw [this, this, (ih r).2]⟩
  | rep m lo hi _ ih =>
    intro r
    exact ⟨by rw [ok_rep, ok_rep, (ih r).1], by simp only [Ast.invert]; rw [ok_rep, ok_rep, (ih r).2]⟩
  | look d _ ih =>
    have : ∀ r a, Ok E r (.look .ahead a) ↔ Ok E r a := fun r a => ⟨fun | .ahead h => h, .ahead⟩
    intro r
    have h1 : ∀ {a b : Ast}, (Ok E r a ↔ Ok E r b) → (Ok E r (.look .ahead a) ↔ Ok E r (.look .ahead b)) :=
      fun h => by rw [this, this, h]
    have h2 : ∀ {a b : Ast}, (Ok E (r + 1) (Ast.invert a) ↔ Ok E (r + 1) (Ast.invert b)) →
        (Ok E r (.look .behind a) ↔ Ok E r (.look .behind b)) := fun h => by rw [twin_ok_behind', twin_ok_behind', h]
    cases d with
    | ahead => exact ⟨h1 (ih r).1, h2 (ih (r + 1)).2⟩
    | behind => exact ⟨h2 (ih (r + 1)).2, h1 (ih r).1⟩
  | @neg a b ha h ih =>
    intro r
    have t := h.traits {}
    refine ⟨by rw [ok_neg, ok_neg, (ih r).1, t.triv, t.asrt], ?_⟩
    simp only [Ast.invert]
    rw [ok_neg, ok_neg, (ih r).2, triv_invert, triv_invert, isAssertion_invert, isAssertion_invert, t.triv, t.asrt]
  | dissolve pre l post hl =>
    intro r
    refine ⟨diss r pre l post hl, ?_⟩
    have := diss r (pre.map Ast.invert) (l.map Ast.invert) (post.map Ast.invert) (by simpa using hl)
    simpa only [Ast.invert, invertAll_eq, List.map_append, List.map_cons, List.map_nil, List.map_map, Function.comp_def] using this
  | twice pre a post _ _ =>
    intro r
    refine ⟨tw r pre a post, ?_⟩
    have := tw r (pre.map Ast.invert) (Ast.invert a) (post.map Ast.invert)
    simpa only [Ast.invert, invertAll_eq, List.map_append, List.map_cons, List.map_nil, List.map_map, Function.comp_def] using this

section
variable {N : Nat} {E : Env}

theorem rel_app {l l' m m' : List Matcher} (h : MRel N (orAll l) (orAll l')) (h2 : MRel N (orAll m) (orAll m')) :
    MRel N (orAll (l ++ m)) (orAll (l' ++ m')) := by
  intro k k' hk p
  simp only [orAll_append]
  exact rel_orElse h h2 k k' hk p

theorem orAll_single {m m' : Matcher} (h : MRel N m m') : MRel N (orAll [m]) m' := rel_fail_right h

theorem rel_cons {m m' : Matcher} {l l' : List Matcher} (h : MRel N m m') (h2 : MRel N (orAll l) (orAll l')) :
    MRel N (orAll (m :: l)) (orAll (m' :: l')) := rel_orElse h h2

/-- Matchers without references follow plans, and rewritten expressions the same ones. -/
theorem rel_mtch : ∀ (F : Nat) (a b : Ast) (r : Nat), Al a b → noBackref a = true → a.depth ≤ F → MRel N (mtch E F a r) (mtch E F b r) := by
  intro F
  induction F with
  | zero => intro a b r _ _ h; exact absurd (depth_pos a) (by omega)
  | succ F ih =>
    have self : ∀ a r, noBackref a = true → a.depth ≤ F → MRel N (mtch E F a r) (mtch E F a r) := fun a r h h' => ih a a r (.refl a) h h'
    have ralt : ∀ (l : List Ast) (r : Nat), l ≠ [] → (∀ a ∈ l, noBackref a = true) → (∀ a ∈ l, a.depth ≤ F) →
        MRel N (mtch E (F + 1) (.alt l) r) (orAll (l.map (fun a => mtch E F a r))) := by
      intro l r hl hb hd
      refine rel_altMatch r l hl (fun a ha => self a r (hb a ha) (hd a ha)) (fun a ha ht => ?_)
      rw [mtch_triv ht (hd a ha)]
      exact rel_triv r (fun _ => rfl)
    have dmem : ∀ {l : List Ast}, depthAll l + 1 ≤ F + 1 → ∀ a ∈ l, a.depth ≤ F := fun h a ha => by
      have := depth_le_all ha; omega
    have rself : ∀ (l : List Ast) (r : Nat), (∀ a ∈ l, noBackref a = true) → (∀ a ∈ l, a.depth ≤ F) →
        MRel N (orAll (l.map (fun a => mtch E F a r))) (orAll (l.map (fun a => mtch E F a r))) := by
      intro l r hb hd
      have := rel_orAll (N := N) ((l.map (fun a => mtch E F a r)).map (fun m => (m, m))) (fun x hx => by
        simp only [List.map_map, List.mem_map, Function.comp_def] at hx
        obtain ⟨a, ha, rfl⟩ := hx
        exact self a r (hb a ha) (hd a ha))
      simpa [Function.comp_def] using this
    have pairs : ∀ (xs : List (Ast × Ast)) (r : Nat), (∀ x ∈ xs, Al x.1 x.2) → (∀ x ∈ xs, noBackref x.1 = true) →
        (∀ x ∈ xs, x.1.depth ≤ F) → MRel N (mtch E (F + 1) (.alt (xs.map Prod.fst)) r) (mtch E (F + 1) (.alt (xs.map Prod.snd)) r) := by
      intro xs r hx hb hd
      by_cases hn : xs = []
      · subst hn; exact fun _ _ _ _ => .ub
      refine (ralt _ r (by simpa using hn) (by simpa using hb) (by simpa using hd)).trans (MRel.trans ?_ (MRel.symm (ralt _ r (by simpa using hn) ?_ ?_)))
      · have := rel_orAll (N := N) (xs.map (fun x => (mtch E F x.1 r, mtch E F x.2 r))) (fun y hy => by
          obtain ⟨x, hx', rfl⟩ := List.mem_map.1 hy
          exact ih x.1 x.2 r (hx x hx') (hb x hx') (hd x hx'))
        simpa [Function.comp_def] using this
      · intro a ha
        obtain ⟨x, hx', rfl⟩ := List.mem_map.1 ha
        rw [← (hx x hx').noBackref]; exact hb x hx'
      · intro a ha
        obtain ⟨x, hx', rfl⟩ := List.mem_map.1 ha
        rw [← (hx x hx').depth]; exact hd x hx'
    have rseq : ∀ (xs : List (Ast × Ast)) (r : Nat), (∀ x ∈ xs, Al x.1 x.2) → (∀ x ∈ xs, noBackref x.1 = true) →
        (∀ x ∈ xs, x.1.depth ≤ F) → MRel N (mtch E (F + 1) (.seq (xs.map Prod.fst)) r) (mtch E (F + 1) (.seq (xs.map Prod.snd)) r) :=
      fun xs r hx hb hd => rel_seqMatch r xs (fun x hx' => (hx x hx').traits _) (fun x hx' => ih x.1 x.2 r (hx x hx') (hb x hx') (hd x hx'))
    have rneg : ∀ (a b : Ast) (r : Nat), Al a b → noBackref a = true → a.depth ≤ F → isAssertion a = true →
        MRel N (mtch E (F + 1) (.neg a) r) (mtch E (F + 1) (.neg b) r) := by
      intro a b r h hb hd ha
      simp only [mtch, ← (h.traits {}).asrt, ha, if_true]
      exact rel_negAssert (ih a b r h hb hd)
    have rlook : ∀ (d : LookDir) (a b : Ast) (r : Nat), Al a b → noBackref a = true → a.depth ≤ F →
        MRel N (mtch E (F + 1) (.look d a) r) (mtch E (F + 1) (.look d b) r) := by
      intro d a b r h hb hd
      have t := h.traits E.flags
      cases d with
      | ahead =>
        simp only [mtch, ← t.triv]
        split
        · next ht => exact rel_assert (fun p => by simp only [lookaheadTrivPred, funext (t.one ht)])
        · exact rel_look (ih a b r h hb hd)
      | behind =>
        simp only [mtch, ← t.triv]
        split
        · next ht => exact rel_assert (fun p => by simp only [lookbehindTrivPred, funext (t.one ht)])
        · split
          · exact fun _ _ _ _ => .ub
          · refine rel_look (ih _ _ _ h.invert ?_ (by rw [depth_invert]; exact hd))
            rw [noBackref_invert]; exact hb
    intro a b r h hb hd
    cases h with
    | seq xs hx =>
      simp only [noBackref, noBackrefAll_eq, List.all_map, List.all_eq_true] at hb
      exact rseq xs r hx hb (fun x hx' => dmem hd x.1 (List.mem_map.2 ⟨x, hx', rfl⟩))
    | alt xs hx =>
      simp only [noBackref, noBackrefAll_eq, List.all_map, List.all_eq_true] at hb
      exact pairs xs r hx hb (fun x hx' => dmem hd x.1 (List.mem_map.2 ⟨x, hx', rfl⟩))
    | cap id name h => exact rel_capMatch r id name (ih _ _ r h hb (Nat.le_of_succ_le_succ hd))
    | rep m lo hi h => exact rel_repMatch r F m lo hi (h.traits _) (ih _ _ r h hb (Nat.le_of_succ_le_succ hd))
    | look d h => exact rlook d _ _ r h hb (Nat.le_of_succ_le_succ hd)
    | neg ha h => exact rneg _ _ r h hb (Nat.le_of_succ_le_succ hd) ha
    | dissolve pre l post hl =>
      have hd' := (Al.dissolve pre l post hl).depth ▸ hd
      have hb' := (Al.dissolve pre l post hl).noBackref ▸ hb
      simp only [noBackref, noBackrefAll_eq, List.all_eq_true] at hb hb'
      have hd := dmem hd
      have hd' := dmem hd'
      refine (ralt _ r (by simp) hb hd).trans (MRel.trans ?_ (MRel.symm (ralt _ r (by simp [hl]) hb' hd')))
      have hF : (Ast.alt l).depth ≤ F := hd (.alt l) (by simp)
      have hF' := depth_pos (.alt l)
      obtain ⟨G, rfl⟩ : ∃ G, F = G + 1 := ⟨F - 1, by omega⟩
      have hdl : ∀ a ∈ l, a.depth ≤ G := fun a ha => by
        have := depth_le_all ha
        simp only [depth] at hF; omega
      have hbl : ∀ a ∈ l, noBackref a = true := by
        have := hb (.alt l) (by simp)
        simpa only [noBackref, noBackrefAll_eq, List.all_eq_true] using this
      simp only [List.map_append, List.map_cons, List.append_assoc]
      refine rel_app (rself _ r (fun a ha => hb a (by simp [ha])) (fun a ha => hd a (by simp [ha]))) ?_
      rw [show mtch E (G + 1) (.alt l) r :: post.map (fun a => mtch E (G + 1) a r) =
        [mtch E (G + 1) (.alt l) r] ++ post.map (fun a => mtch E (G + 1) a r) from rfl]
      refine rel_app ?_ (rself _ r (fun a ha => hb a (by simp [ha])) (fun a ha => hd a (by simp [ha])))
      refine orAll_single ?_
      simp only [List.map_map, Function.comp_def]
      have e : ∀ x, mtch E (G + 1) (.alt [x]) r = mtch E G x r := fun x => rfl
      simp only [e]
      have sub : ∀ a ∈ l, MRel N (mtch E G a r) (mtch E G a r) := by
        intro a ha
        have := ih (.alt [a]) (.alt [a]) r (.refl _) (by simp [noBackref, noBackrefAll, hbl a ha]) (by
          have := hdl a ha; simp only [depth, depthAll]; omega)
        exact this
      refine rel_altMatch r l hl sub (fun a ha ht => ?_)
      rw [mtch_triv ht (hdl a ha)]
      exact rel_triv r (fun _ => rfl)
    | twice pre a post hc ha =>
      have hd' := (Al.twice pre a post hc ha).depth ▸ hd
      have hb' := (Al.twice pre a post hc ha).noBackref ▸ hb
      simp only [noBackref, noBackrefAll_eq, List.all_eq_true] at hb hb'
      have hd := dmem hd
      have hd' := dmem hd'
      refine (ralt _ r (by simp) hb hd).trans (MRel.trans ?_ (MRel.symm (ralt _ r (by simp) hb' hd')))
      have sa := self a r (hb a (by simp)) (hd a (by simp))
      simp only [List.map_append, List.map_cons]
      refine rel_app (rself _ r (fun a ha => hb a (by simp [ha])) (fun a ha => hd a (by simp [ha]))) ?_
      refine MRel.symm ?_
      have sp := rself post r (fun a ha => hb a (by simp [ha])) (fun a ha => hd a (by simp [ha]))
      intro k k' hk p
      show FRel N (fun c => (mtch E F a r p c k).orElse (fun c' => orAll _ p c' k))
        (fun c => (mtch E F a r p c k').orElse (fun c' => (mtch E F a r p c' k').orElse (fun c'' => orAll _ p c'' k')))
      simp only [← orElse_assoc']
      exact (FRel.twice (sa k k' hk p) (sa k k' hk p)).orElse (sp k k' hk p)
    | refl a =>
      match a, hb, hd with
      | .empty, _, _ => exact .id
      | .lit _, _, _ | .range _ _, _, _ | .wildcard, _, _ | .set _, _, _ => exact rel_triv r (fun _ => rfl)
      | .bol, _, _ | .boi, _, _ | .eol, _, _ | .eoi, _, _ | .wordB, _, _ => exact rel_assert (fun _ => rfl)
      | .backref _, hb, _ => simp [noBackref] at hb
      | .namedBackref _, hb, _ => simp [noBackref] at hb
      | .neg a, hb, hd =>
        cases ha : isAssertion a with
        | true => exact rneg a a r (.refl a) hb (Nat.le_of_succ_le_succ hd) ha
        | false => simp only [mtch, ha]; exact rel_triv r (fun _ => rfl)
      | .cap id name a, hb, hd => exact rel_capMatch r id name (self _ r hb (Nat.le_of_succ_le_succ hd))
      | .rep m lo hi a, hb, hd => exact rel_repMatch r F m lo hi (.refl _ _) (self _ r hb (Nat.le_of_succ_le_succ hd))
      | .look d a, hb, hd => exact rlook d a a r (.refl a) hb (Nat.le_of_succ_le_succ hd)
      | .seq l, hb, hd =>
        simp only [noBackref, noBackrefAll_eq, List.all_eq_true] at hb
        have hd := dmem hd
        have := rseq (l.map (fun a => (a, a))) r (fun x hx => by obtain ⟨a, _, rfl⟩ := List.mem_map.1 hx; exact .refl a)
          (fun x hx => by obtain ⟨a, ha, rfl⟩ := List.mem_map.1 hx; exact hb a ha)
          (fun x hx => by obtain ⟨a, ha, rfl⟩ := List.mem_map.1 hx; exact hd a ha)
        simpa [Function.comp_def] using this
      | .alt l, hb, hd =>
        simp only [noBackref, noBackrefAll_eq, List.all_eq_true] at hb
        have hd := dmem hd
        have := pairs (l.map (fun a => (a, a))) r (fun x hx => by obtain ⟨a, _, rfl⟩ := List.mem_map.1 hx; exact .refl a)
          (fun x hx => by obtain ⟨a, ha, rfl⟩ := List.mem_map.1 hx; exact hb a ha)
          (fun x hx => by obtain ⟨a, ha, rfl⟩ := List.mem_map.1 hx; exact hd a ha)
        simpa [Function.comp_def] using this

/-! ### Methods -/

theorem setGroup0_rel {c : Ctx} {o o' : Out} {pl : Plan} (h : Follows c o pl) (h' : Follows c o' pl) (cur : Nat) :
    SameResult (setGroup0 cur o) (setGroup0 cur o') := by
  cases pl with
  | hit q w => cases h; cases h'; exact .hit
  | miss w =>
    obtain ⟨q, rfl⟩ := h
    obtain ⟨q', rfl⟩ := h'
    exact .miss (tail_set_zero _ _ _)
  | ub => cases h; cases h'; exact .ub
  | diverge => cases h; cases h'; exact .diverge

theorem rel_invoke (M : Method) {n : Nat} {m m' : Matcher} (hm : MRel N m m') (cur : Nat) {c : Ctx} (hc : c.length = N) :
    SameResult (invokeWith M n m cur c) (invokeWith M n m' cur c) := by
  cases M with
  | «match» => obtain ⟨pl, h⟩ := hm _ _ (.equals n) cur; exact setGroup0_rel (h c hc).1 (h c hc).2 cur
  | matchPrefix => obtain ⟨pl, h⟩ := hm _ _ .success cur; exact setGroup0_rel (h c hc).1 (h c hc).2 cur
  | search =>
    show SameResult (searchWith n m (n - cur + 1) cur c) (searchWith n m' (n - cur + 1) cur c)
    generalize n - cur + 1 = k
    induction k generalizing cur c with
    | zero => exact .diverge
    | succ k ih =>
      unfold searchWith
      obtain ⟨pl, h⟩ := hm _ _ .success cur
      obtain ⟨h1, h2⟩ := h c hc
      cases pl with
      | hit q w => simp only [Follows] at h1 h2; rw [h1, h2]; exact .hit
      | ub => simp only [Follows] at h1 h2; rw [h1, h2]; exact .ub
      | diverge => simp only [Follows] at h1 h2; rw [h1, h2]; exact .diverge
      | miss w =>
        obtain ⟨q, h1⟩ := h1
        obtain ⟨q', h2⟩ := h2
        dsimp only at h1 h2
        rw [h1, h2]
        simp only [Bool.false_eq_true, if_false]
        by_cases he : cur = n
        · rw [if_pos he, if_pos he]; exact .miss rfl
        · rw [if_neg he, if_neg he]
          exact ih _ (by rw [Writes.length_app, hc])

theorem al_invoke {a b : Ast} (h : Al a b) (hb : noBackref a = true) (M : Method) (cur : Nat) (c : Ctx) :
    SameResult (M.invoke E (fuelFor a E.inp) a cur c) (M.invoke E (fuelFor b E.inp) b cur c) := by
  rw [invoke_eq_with, invoke_eq_with, fuelFor, fuelFor, ← h.depth]
  exact rel_invoke M (rel_mtch _ a b 0 h hb (by omega)) cur rfl

end

/-! ### Without the padding -/

theorem variant_unpad (f : Flags) (inv : Bool) (pre l post : List Ast) :
    Variant f inv (.alt (pre ++ l.map (fun x => .alt [x]) ++ post)) (.alt (pre ++ l ++ post)) := by
  induction l generalizing pre with
  | nil => exact .refl _ _
  | cons x l ih =>
    have := Variant.alt pre (l.map (fun x => .alt [x]) ++ post) (Variant.branch (f := f) inv x)
    have h2 := ih (pre ++ [x])
    simp only [List.map_cons, List.append_assoc, List.cons_append, List.nil_append] at this h2 ⊢
    exact this.trans h2

theorem rebranch_al {a b : Ast} (h : Rebranch a b) : ∃ b', Al a b' ∧ ∀ f inv, Variant f inv b' b := by
  have mid : ∀ (pre post : List Ast) (a b : Ast), Al a b →
      ∃ xs : List (Ast × Ast), (∀ x ∈ xs, Al x.1 x.2) ∧ xs.map Prod.fst = pre ++ a :: post ∧ xs.map Prod.snd = pre ++ b :: post := by
    intro pre post a b h
    refine ⟨pre.map (fun x => (x, x)) ++ (a, b) :: post.map (fun x => (x, x)), ?_, by simp [Function.comp_def], by simp [Function.comp_def]⟩
    intro x hx
    simp only [List.mem_append, List.mem_cons, List.mem_map] at hx
    rcases hx with ⟨y, _, rfl⟩ | rfl | ⟨y, _, rfl⟩
    · exact .refl y
    · exact h
    · exact .refl y
  induction h with
  | seq pre post _ ih =>
    obtain ⟨b', h, hv⟩ := ih
    obtain ⟨xs, hx, e, e'⟩ := mid pre post _ _ h
    exact ⟨.seq (pre ++ b' :: post), by rw [← e, ← e']; exact .seq xs hx, fun f inv => .seq pre post (hv f inv)⟩
  | alt pre post _ ih =>
    obtain ⟨b', h, hv⟩ := ih
    obtain ⟨xs, hx, e, e'⟩ := mid pre post _ _ h
    exact ⟨.alt (pre ++ b' :: post), by rw [← e, ← e']; exact .alt xs hx, fun f inv => .alt pre post (hv f inv)⟩
  | cap id name _ ih => obtain ⟨b', h, hv⟩ := ih; exact ⟨_, .cap id name h, fun f inv => .cap id name (hv f inv)⟩
  | rep m lo hi _ ih => obtain ⟨b', h, hv⟩ := ih; exact ⟨_, .rep m lo hi h, fun f inv => .rep m lo hi (hv f inv)⟩
  | look d _ ih =>
    obtain ⟨b', h, hv⟩ := ih
    refine ⟨_, .look d h, fun f inv => ?_⟩
    cases d with
    | ahead => exact .ahead (hv f inv)
    | behind => exact .behind (hv f _)
  | neg ht _ ih =>
    obtain ⟨b', h, hv⟩ := ih
    refine ⟨_, .neg ht.asrt h, fun f inv => .neg ?_ (hv f inv)⟩
    rw [test_iff, ← (h.traits {}).asrt]; exact ht.asrt
  | dissolve pre l post hl => exact ⟨_, .dissolve pre l post hl, fun f inv => variant_unpad f inv pre l post⟩
  | twice pre a post hc ha =>
    refine ⟨_, .twice pre a post hc (ha.imp_right (fun h => ?_)), fun f inv => .refl _ _⟩
    rw [test_iff] at h; simpa using h

end Mregex
