import Verif.Proof.WalksMain
import Verif.Proof.PathMethods
import Verif.Proof.TrailsMain

/-!
# The methods follow the walks
-/

namespace Mregex.Walk
open Ast Spec

/-- The groups in lookarounds and possessive constructs. -/
abbrev Within (a : Ast) (k : Nat) : Prop := outside k a = false

section
variable {R : Regex} {cat : Cat} {s : List Byte} {N L : Nat → Prop}

theorem agrees_init : Agrees (R.env cat s) N L [] [] (initCtx R.names) := by
  refine ⟨length_init _, fun k g _ hg => ?_⟩
  rw [getElem?_init hg]
  simp [held, NoText]

theorem denC_root (hR : R.Ok cat) (ht : followable R.ast = true) :
    DenC (R.env cat s) (Again R.ast) (Within R.ast) [] (Start (R.env cat s) (Again R.ast) (groupIds R.ast))
      (mtch (R.env cat s) (fuelFor R.ast s) R.ast 0) (walks (Flags.ofList R.flags) s R.ast 0 false) := by
  refine (mtch_walks (E := R.env cat s) (P := fun k => visitedOnce k R.ast && outside k R.ast) (Q := fun k => visitedOnce k R.ast) (fun k h => ?_)
    (fun k h => by simpa using h) _ R.ast [] [] 0 (hR s) ht
    (fun i h => by simpa using h) (fun i h => by simpa using h) (Nat.le_refl _)).pre (fun x hx => ⟨hx.1, hx.2, by simp⟩)
  rw [Bool.and_eq_true] at h
  exact ⟨by simp [h.1], by simp [h.2]⟩

variable (hd : DenC (R.env cat s) N L [] (Start (R.env cat s) N (groupIds R.ast))
  (mtch (R.env cat s) (fuelFor R.ast s) R.ast 0) (walks (Flags.ofList R.flags) s R.ast 0 false))
include hd

theorem full_view {c : Ctx} (hc : Agrees (R.env cat s) N L [] [] c) :
    ViewS (fun y q c => q = y.1 ∧ Agrees (R.env cat s) N L [] y.2 c) (Agrees (R.env cat s) N L [] [])
      (mtch (R.env cat s) (fuelFor R.ast s) R.ast 0 0 c (equals s.length)) ((walks (Flags.ofList R.flags) s R.ast 0 false (0, [])).find? (fun y => y.1 == s.length)) := by
  have h := hd Place (fun y q c => q = y.1 ∧ Agrees (R.env cat s) N L [] y.2 c) (0, []) c
    (equals s.length) (fun y => if y.1 == s.length then some y else none) (start_root (Nat.zero_le _)) hc (fun y c' _ hc' => ?_)
  · have e : ∀ l : List Place, l.findSome? (fun y => if y.1 == s.length then some y else none) = l.find? (fun y => y.1 == s.length) := by
      intro l
      induction l with
      | nil => rfl
      | cons y l ih => cases h : y.1 == s.length <;> simp_all [List.find?_cons, List.findSome?_cons]
    rw [e] at h
    exact h
  · cases hy : y.1 == s.length with
    | true => simpa [ViewS, Post, equals, hy] using hc'
    | false => simpa [ViewS, Post, equals, hy] using hc'

theorem prefix_walks {i : Nat} (hi : i ≤ s.length) {c : Ctx} (hc : Agrees (R.env cat s) N L [] [] c) :
    ViewS (fun y q c => q = y.1 ∧ Agrees (R.env cat s) N L [] y.2 c) (Agrees (R.env cat s) N L [] [])
      (mtch (R.env cat s) (fuelFor R.ast s) R.ast 0 i c success) (walks (Flags.ofList R.flags) s R.ast 0 false (i, [])).head? := by
  have h := hd Place (fun y q c => q = y.1 ∧ Agrees (R.env cat s) N L [] y.2 c) (i, []) c
    success (fun y => some y) (start_root hi) hc (fun y c' _ hc' => ?_)
  · have e : ∀ l : List Place, l.findSome? (fun y => some y) = l.head? := by
      intro l
      cases l <;> simp
    rw [e] at h
    exact h
  · simpa [ViewS, Post, success] using hc'

/-- The first walk from a position at or after `i`. -/
def searchWalk (f : Flags) (s : List Byte) (a : Ast) (i : Nat) : Option (Nat × Place) :=
  (List.range' i (s.length + 1 - i)).findSome? (fun j => (walks f s a 0 false (j, [])).head?.map (j, ·))

theorem search_walks : ∀ k cur c, cur ≤ s.length → k = s.length - cur + 1 → Agrees (R.env cat s) N L [] [] c →
    Post (fun q c' => ∃ i y c'', searchWalk (Flags.ofList R.flags) s R.ast cur = some (i, y) ∧ q = y.1 ∧
        Agrees (R.env cat s) N L [] y.2 c'' ∧ c' = c''.set 0 (some (i, q)))
      (fun q c' => q = s.length ∧ searchWalk (Flags.ofList R.flags) s R.ast cur = none ∧ Agrees (R.env cat s) N L [] [] c')
      (searchLoop (R.env cat s) (fuelFor R.ast s) R.ast k cur c) := by
  intro k
  induction k with
  | zero => intro cur c _ h; omega
  | succ k ih =>
    intro cur c hcur hk hc
    have h := prefix_walks hd hcur hc
    have hs : searchWalk (Flags.ofList R.flags) s R.ast cur = ((walks (Flags.ofList R.flags) s R.ast 0 false (cur, [])).head?.map (cur, ·)).or
        (searchWalk (Flags.ofList R.flags) s R.ast (cur + 1)) := by
      unfold searchWalk
      rw [show s.length + 1 - cur = (s.length + 1 - (cur + 1)) + 1 by omega, List.range'_succ, List.findSome?_cons]
      cases (walks (Flags.ofList R.flags) s R.ast 0 false (cur, [])).head? <;> rfl
    rw [hs]
    unfold searchLoop
    match hm : mtch (R.env cat s) (fuelFor R.ast s) R.ast 0 cur c success with
    | .ok ⟨q, true⟩ c' =>
      rw [hm] at h
      simp only [ViewS, Post, if_true] at h ⊢
      obtain ⟨y, h1, h2, h3⟩ := h
      exact ⟨cur, y, c', by simp [h1], h2, h3, rfl⟩
    | .ok ⟨q, false⟩ c' =>
      rw [hm] at h
      simp only [ViewS, Post, Bool.false_eq_true, if_false] at h ⊢
      rw [h.1]
      simp only [Option.map_none, Option.none_or]
      by_cases he : cur = s.length
      · have : cur = (R.env cat s).inp.length := he
        simp only [this, if_true, nonMatch]
        refine ⟨rfl, ?_, h.2⟩
        unfold searchWalk
        rw [show s.length + 1 - ((R.env cat s).inp.length + 1) = 0 by simp [Regex.env]]
        rfl
      · have : cur ≠ (R.env cat s).inp.length := he
        simp only [this, if_false]
        exact ih (cur + 1) c' (by omega) (by omega) h.2
    | .ub => rw [hm] at h; exact False.elim h
    | .diverge => rw [hm] at h; exact False.elim h

/-- What a method finds is the walk, and the groups agree with it up to `N` and `L`. -/
theorem method_agrees (M : Method) : ∃ res, R.invoke M cat s = some res ∧
    ((∃ i y, methodWalk (Flags.ofList R.flags) s R.ast M = some (i, y) ∧ res.matched = true ∧ res.group 0 = some (some (i, y.1)) ∧
        ∃ c, Agrees (R.env cat s) N L [] y.2 c ∧ res.groups = c.set 0 (some (i, y.1))) ∨
      (methodWalk (Flags.ofList R.flags) s R.ast M = none ∧ res.matched = false ∧ ∃ c v, Agrees (R.env cat s) N L [] [] c ∧ (res.groups = c ∨ res.groups = c.set 0 v))) := by
  have h0 : ∀ {c : Ctx} {ev : List Event} {v : Cap}, Agrees (R.env cat s) N L [] ev c → (c.set 0 v)[0]? = some v := by
    intro c ev v h
    have : c.length = R.names.length := h.1
    rw [List.getElem?_set_self (by rw [this]; simp [Regex.names])]
  cases M with
  | «match» =>
    rcases (full_view (s := s) hd agrees_init).elim with ⟨q, c, h1, y, h2, rfl, h3⟩ | ⟨q, c, h1, h2, h3⟩
    · refine ⟨⟨c.set 0 (some (0, y.1)), true⟩, ?_, .inl ⟨0, y, ?_, rfl, h0 h3, c, h3, rfl⟩⟩
      · simp only [Regex.invoke, Method.invoke, matchMethod, show (R.env cat s).inp = s from rfl, h1, setGroup0]
      · simp only [methodWalk, h2, Option.map_some]
    · refine ⟨⟨c.set 0 (some (0, q)), false⟩, ?_, .inr ⟨?_, rfl, c, _, h3, .inr rfl⟩⟩
      · simp only [Regex.invoke, Method.invoke, matchMethod, show (R.env cat s).inp = s from rfl, h1, setGroup0]
      · simp only [methodWalk, h2, Option.map_none]
  | matchPrefix =>
    rcases (prefix_walks (s := s) hd (Nat.zero_le _) agrees_init).elim with ⟨q, c, h1, y, h2, rfl, h3⟩ | ⟨q, c, h1, h2, h3⟩
    · refine ⟨⟨c.set 0 (some (0, y.1)), true⟩, ?_, .inl ⟨0, y, ?_, rfl, h0 h3, c, h3, rfl⟩⟩
      · simp only [Regex.invoke, Method.invoke, prefixMethod, h1, setGroup0]
      · simp only [methodWalk, h2, Option.map_some]
    · refine ⟨⟨c.set 0 (some (0, q)), false⟩, ?_, .inr ⟨?_, rfl, c, _, h3, .inr rfl⟩⟩
      · simp only [Regex.invoke, Method.invoke, prefixMethod, h1, setGroup0]
      · simp only [methodWalk, h2, Option.map_none]
  | search =>
    rcases (search_walks (s := s) hd _ 0 _ (Nat.zero_le _) rfl agrees_init).elim with
      ⟨q, c, h1, i, y, c', h2, rfl, h3, rfl⟩ | ⟨q, c, h1, rfl, h2, h3⟩
    · refine ⟨⟨c'.set 0 (some (i, y.1)), true⟩, ?_, .inl ⟨i, y, h2, rfl, h0 h3, c', h3, rfl⟩⟩
      simp only [Regex.invoke, Method.invoke, searchMethod, show (R.env cat s).inp = s from rfl, h1]
    · refine ⟨⟨c, false⟩, ?_, .inr ⟨h2, rfl, c, none, h3, .inl rfl⟩⟩
      simp only [Regex.invoke, Method.invoke, searchMethod, show (R.env cat s).inp = s from rfl, h1]

end
/-! ### Walks and paths -/

theorem copies_true (ic : Bool) (s : List Byte) (w : List Byte) : ∀ p,
    copies ic s true w p = if beginsWith ic w (s.drop p) then [p + w.length] else [] := by
  induction w with
  | nil => intro p; simp [copies, beginsWith]
  | cons x w ih =>
    intro p
    simp only [copies, oneChar, readChar, if_true]
    cases h : s[p]? with
    | none =>
      have : s.drop p = [] := List.drop_eq_nil_iff.2 (List.getElem?_eq_none_iff.1 h)
      simp [this, beginsWith]
    | some y =>
      obtain ⟨hp, rfl⟩ := List.getElem?_eq_some_iff.1 h
      rw [List.drop_eq_getElem_cons hp]
      simp only [beginsWith]
      cases hc : sameChar ic x s[p] with
      | true =>
        have hc' := hc
        simp only [sameChar] at hc'
        simp [hc, hc', ih, Nat.add_assoc, Nat.add_comm 1 w.length]
      | false =>
        have hc' := hc
        simp only [sameChar] at hc'
        simp [hc, hc']

theorem walks_eq_paths {f : Flags} {s : List Byte} (a : Ast) (h : commitsClosed a = true) : walks f s a 0 false = paths f s a := by
  have hclosed : ∀ a : Ast, closed a = true → walks f s a 0 false = paths f s a := by
    intro a h
    simp only [closed, Bool.and_eq_true, List.isEmpty_iff] at h
    funext ⟨p, ev⟩
    rw [walks_closed h.1 h.2, paths_closed h.1 h.2]; rfl
  induction a using ind with
  | seq l ih =>
    simp only [commitsClosed] at h
    funext x
    simp only [walks, paths]
    induction l generalizing x with
    | nil => rfl
    | cons a l ihl =>
      simp only [commitsClosedAll, Bool.and_eq_true] at h
      rw [walksAll, pathsAll, if_neg (by simp), ih a (by simp) h.1]
      congr 1
      funext y
      exact ihl (fun b hb => ih b (by simp [hb])) h.2 y
  | alt l ih =>
    simp only [commitsClosed] at h
    funext x
    simp only [walks, paths]
    induction l generalizing x with
    | nil => rfl
    | cons a l ihl =>
      simp only [commitsClosedAll, Bool.and_eq_true] at h
      rw [walksAny, pathsAny, ih a (by simp) h.1]
      congr 1
      exact ihl (fun b hb => ih b (by simp [hb])) h.2 x
  | cap id n a ih =>
    simp only [commitsClosed] at h
    funext x
    simp only [walks, paths, ih h, show (0 : Nat) % 2 = 0 from rfl, if_true]
  | rep m lo hi a ih =>
    cases m with
    | possessive => exact hclosed _ (by simpa [closed, commitsClosed, groupIds, noBackref] using h)
    | _ =>
      simp only [commitsClosed] at h
      funext x
      simp only [walks, paths, ih h]
      cases hi <;> rfl
  | backref k =>
    funext x
    rw [walks, paths, if_pos rfl, show ((0 : Nat) % 2 == 0) = true from rfl, copies_true]
    split <;> rfl
  | _ => exact hclosed _ (by simpa [commitsClosed] using h)

theorem methodWalk_path {f : Flags} {s : List Byte} {a : Ast} (h : commitsClosed a = true) (M : Method) : methodWalk f s a M = methodPath f s a M := by
  cases M <;> simp only [methodWalk, methodPath, fullPath, prefixPath, searchPath, walks_eq_paths a h, Nat.sub_zero]

theorem outside_of_closed (k : Nat) (a : Ast) (h : commitsClosed a = true) : outside k a = true := by
  induction a using ind with
  | seq l ih | alt l ih =>
    simp only [commitsClosed] at h
    simp only [outside]
    induction l with
    | nil => rfl
    | cons a l ihl =>
      simp only [commitsClosedAll, Bool.and_eq_true] at h
      simp only [outsideAll, Bool.and_eq_true]
      exact ⟨ih a (by simp) h.1, ihl (fun b hb => ih b (by simp [hb])) h.2⟩
  | cap id n a ih => simp only [commitsClosed] at h; simp only [outside]; exact ih h
  | rep m lo hi a ih =>
    cases m with
    | possessive =>
      simp only [commitsClosed, closed, Bool.and_eq_true, List.isEmpty_iff] at h
      simp [outside, h.1]
    | _ => simp only [commitsClosed] at h; simp only [outside]; exact ih h
  | backref k => simp [outside, groupIds]
  | _ => simp_all [commitsClosed, closed, outside, groupIds]

theorem refsAfter_of_refsTo {P P' Q : Nat → Bool} (hP : ∀ k, P k = true → P' k = true) (a : Ast) :
    ∀ X D inv, refsTo P X a = true → refsAfter P' Q X D inv a = true := by
  induction a using ind with
  | seq l ih =>
    intro X D inv h
    simp only [refsTo] at h
    simp only [refsAfter]
    induction l generalizing D with
    | nil => rfl
    | cons a l ihl =>
      simp only [refsToAll, Bool.and_eq_true] at h
      simp only [refsAfterAll, Bool.and_eq_true]
      exact ⟨ih a (by simp) X _ inv h.1, ihl (fun b hb => ih b (by simp [hb])) _ h.2⟩
  | alt l ih | set l ih =>
    intro X D inv h
    simp only [refsTo] at h
    simp only [refsAfter]
    induction l with
    | nil => rfl
    | cons a l ihl =>
      simp only [refsToAll, Bool.and_eq_true] at h
      simp only [refsAfterAny, Bool.and_eq_true]
      exact ⟨ih a (by simp) X _ inv h.1, ihl (fun b hb => ih b (by simp [hb])) h.2⟩
  | backref k =>
    intro X D inv h
    simp only [refsTo, Bool.and_eq_true] at h
    simp [refsAfter, hP k h.1] at h ⊢
    exact h.2
  | cap id n a ih => intro X D inv h; simp only [refsTo] at h; simp only [refsAfter]; exact ih _ _ _ h
  | neg a ih | rep m lo hi a ih | look d a ih => intro X D inv h; simp only [refsTo] at h; simp only [refsAfter]; exact ih _ _ _ h
  | namedBackref n => intro X D inv h; simp [refsTo] at h
  | _ => intro X D inv h; rfl

theorem followable_of_traceable {a : Ast} (h : traceable a = true) : followable a = true := by
  simp only [traceable, Bool.and_eq_true] at h
  exact refsAfter_of_refsTo (fun k hk => by simp [hk, outside_of_closed k a h.1]) a [] [] false h.2

/-! ### Walks and trails -/

section
variable {P : Place → List Place} {g : Nat → List Place} (h : ∀ p e, P (p, e) = onto e (g p))
include h

theorem possessiveP_onto (n : Nat) : ∀ p e, possessiveP P n (p, e) = onto e (possessiveT g n p) := by
  induction n with
  | zero => intro p e; simp [possessiveP, possessiveT, onto]
  | succ n ih =>
    intro p e
    rw [possessiveP, possessiveT, h]
    cases g p with
    | nil => simp [onto]
    | cons y l => simp [onto, thenT, ih, Function.comp_def]

theorem possessiveStarP_onto (n : Nat) : ∀ p e, possessiveStarP P n (p, e) = onto e (possessiveStarT g n p) := by
  induction n with
  | zero => intro p e; rfl
  | succ n ih =>
    intro p e
    rw [possessiveStarP, possessiveStarT, h]
    cases g p with
    | nil => simp [onto]
    | cons y l =>
      simp only [onto, List.map_cons]
      split
      · simp
      · simp [thenT, ih, onto, Function.comp_def]

end

/-- Without references walks are trails. -/
theorem walks_trails {f : Flags} {s : List Byte} {a : Ast} (hb : noBackref a = true) (r : Nat) (inv : Bool) (p : Nat) (e : List Event) :
    walks f s a r inv (p, e) = onto e (trails f s a (r % 2 == 0) inv p) := by
  have hplain : ∀ l : List Nat, l.map (fun q => ((q, e) : Place)) = onto e (l.map (·, [])) := by
    intro l
    simp [onto, Function.comp_def]
  induction a using ind generalizing r inv p e with
  | seq l ih =>
    simp only [walks, trails]
    simp only [noBackref] at hb
    induction l generalizing p e with
    | nil => simp [walksAll, trailsAll, onto]
    | cons a l ihl =>
      simp only [noBackrefAll, Bool.and_eq_true] at hb
      have hpl : ∀ (e : List Event) (l : List Nat), l.map (fun q => ((q, e) : Place)) = onto e (l.map (·, [])) := by
        intro e l
        simp [onto, Function.comp_def]
      have ihl := fun p e => ihl (fun b hb => ih b (List.mem_cons_of_mem _ hb)) hb.2 p e (hpl e)
      have iha := fun p e => ih a (by simp) hb.1 r inv p e (hpl e)
      rw [walksAll, trailsAll]
      split
      · rw [ihl]
        exact onto_thenT iha e
      · rw [iha]
        exact onto_thenT ihl e
  | alt l ih =>
    simp only [walks, trails]
    simp only [noBackref] at hb
    induction l with
    | nil => rfl
    | cons a l ihl =>
      simp only [noBackrefAll, Bool.and_eq_true] at hb
      simp only [walksAny, trailsAny, onto, List.map_append]
      rw [ih a (by simp) hb.1 r inv p e hplain, ihl (fun b hb => ih b (List.mem_cons_of_mem _ hb)) hb.2]
  | cap id n a ih =>
    simp only [noBackref] at hb
    simp only [walks, trails]
    rw [ih hb r inv p e hplain, onto, onto, List.map_map, List.map_map]
    refine List.map_congr_left (fun y _ => ?_)
    rcases Nat.mod_two_eq_zero_or_one r with h | h <;> simp [h]
  | rep m lo hi a ih =>
    simp only [noBackref] at hb
    have hpl : ∀ (e : List Event) (l : List Nat), l.map (fun q => ((q, e) : Place)) = onto e (l.map (·, [])) := by
      intro e l
      simp [onto, Function.comp_def]
    have ih := fun p e => ih hb r inv p e (hpl e)
    by_cases hm : m = .possessive
    · subst hm
      simp only [walks, trails, quantifiedT]
      rw [timesP_onto ih, onto, ← List.map_take]
      refine onto_thenT (fun p e => ?_) e
      cases hi with
      | fin h => simp only [extraT]; exact possessiveP_onto ih _ _ _
      | inf => simp only [extraT]; exact possessiveStarP_onto ih _ _ _
    · rw [walks_rep hm, trails]
      exact quantifiedP_onto ih hm s.length f.ungreedy lo hi p e
  | look d a ih =>
    simp only [noBackref] at hb
    have e' : ((r + 1) % 2 == 0) = !(r % 2 == 0) := by
      rcases Nat.mod_two_eq_zero_or_one r with h | h
      · rw [show (r + 1) % 2 = 1 by omega, h]; rfl
      · rw [show (r + 1) % 2 = 0 by omega, h]; rfl
    simp only [walks, trails, ih hb _ _ p e hplain, e']
    split
    · simp [onto, List.map_take, Function.comp_def]
    · simp [onto, List.map_take, Function.comp_def]
  | neg a ih =>
    simp only [noBackref] at hb
    rw [walks, trails]
    split
    · rw [ih hb r inv p e hplain]
      cases trails f s a (r % 2 == 0) inv p <;> simp [onto]
    · next h => rw [ends, if_neg h]; exact hplain _
  | backref k => simp [noBackref] at hb
  | namedBackref n => simp [noBackref] at hb
  | _ => simp only [walks, trails]; exact hplain _

theorem methodWalk_trail {f : Flags} {s : List Byte} {a : Ast} (hb : noBackref a = true) (M : Method) : methodWalk f s a M = methodTrail f s a M := by
  have h : ∀ p, walks f s a 0 false (p, []) = trails f s a true false p := by
    intro p
    rw [walks_trails hb, onto]
    simp
  cases M with
  | «match» => simp only [methodWalk, methodTrail, h]
  | matchPrefix => simp only [methodWalk, methodTrail, h]
  | search => simp only [methodWalk, methodTrail, searchTrail, h, Nat.sub_zero]

theorem refsAfter_of_noBackref {P Q : Nat → Bool} (a : Ast) (h : noBackref a = true) : ∀ X D inv, refsAfter P Q X D inv a = true := by
  induction a using ind with
  | seq l ih =>
    intro X D inv
    simp only [noBackref] at h
    simp only [refsAfter]
    induction l generalizing D with
    | nil => rfl
    | cons a l ihl =>
      simp only [noBackrefAll, Bool.and_eq_true] at h
      simp only [refsAfterAll, Bool.and_eq_true]
      exact ⟨ih a (by simp) h.1 X _ inv, ihl (fun b hb => ih b (by simp [hb])) h.2 _⟩
  | alt l ih | set l ih =>
    intro X D inv
    simp only [noBackref] at h
    simp only [refsAfter]
    induction l with
    | nil => rfl
    | cons a l ihl =>
      simp only [noBackrefAll, Bool.and_eq_true] at h
      simp only [refsAfterAny, Bool.and_eq_true]
      exact ⟨ih a (by simp) h.1 X D inv, ihl (fun b hb => ih b (by simp [hb])) h.2⟩
  | cap id n a ih => intro X D inv; simp only [noBackref] at h; simp only [refsAfter]; exact ih h _ _ _
  | neg a ih | rep m lo hi a ih | look d a ih => intro X D inv; simp only [noBackref] at h; simp only [refsAfter]; exact ih h _ _ _
  | backref k | namedBackref n => simp [noBackref] at h
  | _ => intro X D inv; rfl

theorem followable_of_noBackref {a : Ast} (h : noBackref a = true) : followable a = true := refsAfter_of_noBackref a h [] [] false

end Mregex.Walk
