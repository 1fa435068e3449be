import Verif.Proof.AstLemmas
import Verif.Spec.Swap

/-!
# Environments that the matcher cannot tell apart
-/

namespace Mregex
open Ast Spec

theorem swapGreedAll_eq (b : Bool) (l : List Ast) : swapGreedAll b l = l.map (swapGreed b) := by
  induction l with
  | nil => rfl
  | cons a l ih => simp [swapGreedAll, ih]

theorem map_eq_self {α : Type} {f : α → α} {l : List α} (h : ∀ a ∈ l, f a = a) : l.map f = l := by
  induction l with
  | nil => rfl
  | cons a l ih => rw [List.map_cons, h a (by simp), ih (fun b hb => h b (by simp [hb]))]

theorem swapGreed_false (a : Ast) : swapGreed false a = a := by
  induction a using ind with
  | rep m lo hi a ih => cases m <;> simp [swapGreed, swapMode, ih]
  | seq l ih => simp only [swapGreed, swapGreedAll_eq, map_eq_self ih]
  | alt l ih => simp only [swapGreed, swapGreedAll_eq, map_eq_self ih]
  | set l ih => simp only [swapGreed, swapGreedAll_eq, map_eq_self ih]
  | neg a ih => simp [swapGreed, ih]
  | cap id n a ih => simp [swapGreed, ih]
  | look d a ih => simp [swapGreed, ih]
  | _ => simp [swapGreed]

theorem swapMode_poss (b : Bool) (m : Mode) : (swapMode b m = .possessive) ↔ m = .possessive := by
  cases b <;> cases m <;> simp [swapMode]

theorem isAssertion_swap (b : Bool) (a : Ast) : isAssertion (swapGreed b a) = isAssertion a := by
  induction a using ind with
  | rep m lo hi a ih =>
    have hm : (swapMode b m != .possessive) = (m != .possessive) := by cases b <;> cases m <;> rfl
    simp only [swapGreed, isAssertion, ih, hm]
  | seq l ih =>
    match l with
    | [] => rfl
    | [a] => simpa only [swapGreed, swapGreedAll, isAssertion] using ih a (by simp)
    | _ :: _ :: _ => rfl
  | alt l ih =>
    match l with
    | [] => rfl
    | [a] => simpa only [swapGreed, swapGreedAll, isAssertion] using ih a (by simp)
    | _ :: _ :: _ => rfl
  | neg a ih => simpa only [swapGreed, isAssertion] using ih
  | _ => simp only [swapGreed, isAssertion]

theorem triv_swap (b : Bool) (a : Ast) : triv (swapGreed b a) = triv a := by
  induction a using ind with
  | rep m lo hi a ih => simp only [swapGreed, triv, ih]
  | seq l ih =>
    simp only [swapGreed, triv, trivSingle_eq, swapGreedAll_eq, List.length_map, List.all_map]
    exact congrArg _ (all_congr' ih)
  | alt l ih =>
    simp only [swapGreed, triv, trivAlt_eq, swapGreedAll_eq, List.isEmpty_map, List.all_map]
    exact congrArg _ (all_congr' ih)
  | neg a ih => simp only [swapGreed, triv, isAssertion_swap]
  | _ => simp only [swapGreed, triv]

theorem areTriv_swap (b : Bool) (l : List Ast) : areTriv (l.map (swapGreed b)) = areTriv l := by
  simp only [areTriv, List.all_map]
  exact all_congr' (fun a _ => triv_swap b a)

theorem zlm_swap (b : Bool) (a : Ast) : zlm (swapGreed b a) = zlm a := by
  induction a using ind with
  | rep m lo hi a ih => simp only [swapGreed, zlm, ih]
  | seq l ih =>
    simp only [swapGreed, zlm, zlmAll_eq, swapGreedAll_eq, List.all_map]
    exact all_congr' ih
  | alt l ih =>
    simp only [swapGreed, zlm, zlmAny_eq, swapGreedAll_eq, List.any_map]
    exact any_congr' ih
  | neg a ih => simp only [swapGreed, zlm, isAssertion_swap]
  | cap id n a ih => simpa only [swapGreed, zlm] using ih
  | _ => simp only [swapGreed, zlm]

theorem invert_swap (b : Bool) (a : Ast) : invert (swapGreed b a) = swapGreed b (invert a) := by
  induction a using ind with
  | rep m lo hi a ih => simp only [swapGreed, invert, ih]
  | seq l ih =>
    simp only [swapGreed, invert, invertAll_eq, swapGreedAll_eq, List.map_map, List.map_reverse]
    exact congrArg (fun l => Ast.seq (List.reverse l)) (List.map_congr_left (fun a ha => ih a ha))
  | alt l ih =>
    simp only [swapGreed, invert, invertAll_eq, swapGreedAll_eq, List.map_map]
    exact congrArg Ast.alt (List.map_congr_left (fun a ha => ih a ha))
  | set l ih =>
    simp only [swapGreed, invert, invertAll_eq, swapGreedAll_eq, List.map_map]
    exact congrArg Ast.set (List.map_congr_left (fun a ha => ih a ha))
  | neg a ih => simp only [swapGreed, invert, ih]
  | cap id n a ih => simp only [swapGreed, invert, ih]
  | look d a ih => cases d <;> simp only [swapGreed, invert]
  | _ => simp only [swapGreed, invert]

theorem matchSingle_eq (f : Flags) (l : List Ast) (x : Byte) :
    matchSingle f l x = (decide (l.length = 1) && l.any (matchOne f · x)) := by
  match l with
  | [] => rfl
  | [a] => simp [matchSingle]
  | _ :: _ :: _ => simp [matchSingle]

theorem matchOne_swap (f : Flags) (b : Bool) (a : Ast) (x : Byte) : matchOne f (swapGreed b a) x = matchOne f a x := by
  induction a using ind with
  | rep m lo hi a ih => simp only [swapGreed, matchOne, ih]
  | seq l ih =>
    simp only [swapGreed, matchOne, matchSingle_eq, swapGreedAll_eq, List.length_map, List.any_map]
    exact congrArg _ (any_congr' ih)
  | alt l ih =>
    simp only [swapGreed, matchOne, matchAny_eq, swapGreedAll_eq, List.any_map]
    exact any_congr' ih
  | set l ih =>
    simp only [swapGreed, matchOne, matchAny_eq, swapGreedAll_eq, List.any_map]
    exact any_congr' ih
  | neg a ih => simp only [swapGreed, matchOne, ih]
  | _ => simp only [swapGreed, matchOne]

theorem depth_swap (b : Bool) (a : Ast) : depth (swapGreed b a) = depth a := by
  have hl : ∀ l : List Ast, (∀ a ∈ l, depth (swapGreed b a) = depth a) →
      depthAll (l.map (swapGreed b)) = depthAll l := by
    intro l h
    induction l with
    | nil => rfl
    | cons a l ih => simp only [List.map_cons, depthAll, h a (by simp), ih (fun b hb => h b (by simp [hb]))]
  induction a using ind with
  | rep m lo hi a ih => simp only [swapGreed, depth, ih]
  | seq l ih => simp only [swapGreed, depth, swapGreedAll_eq, hl l ih]
  | alt l ih => simp only [swapGreed, depth, swapGreedAll_eq, hl l ih]
  | set l ih => simp only [swapGreed, depth, swapGreedAll_eq, hl l ih]
  | neg a ih => simp only [swapGreed, depth, ih]
  | cap id n a ih => simp only [swapGreed, depth, ih]
  | look d a ih => simp only [swapGreed, depth, ih]
  | _ => simp only [swapGreed, depth]

theorem nameSpec_swap (b : Bool) (a : Ast) : nameSpec (swapGreed b a) = nameSpec a := by
  have hl : ∀ l : List Ast, (∀ a ∈ l, nameSpec (swapGreed b a) = nameSpec a) →
      nameSpecAll (l.map (swapGreed b)) = nameSpecAll l := by
    intro l h
    induction l with
    | nil => rfl
    | cons a l ih => simp only [List.map_cons, nameSpecAll, h a (by simp), ih (fun b hb => h b (by simp [hb]))]
  induction a using ind with
  | rep m lo hi a ih => simp only [swapGreed, nameSpec, ih]
  | seq l ih => simp only [swapGreed, nameSpec, swapGreedAll_eq, hl l ih]
  | alt l ih => simp only [swapGreed, nameSpec, swapGreedAll_eq, hl l ih]
  | set l ih => simp only [swapGreed, nameSpec, swapGreedAll_eq, hl l ih]
  | neg a ih => simp only [swapGreed, nameSpec, ih]
  | cap id n a ih => simp only [swapGreed, nameSpec, ih]
  | look d a ih => simp only [swapGreed, nameSpec, ih]
  | _ => simp only [swapGreed, nameSpec]

/-- `E'` is like `E` for the matcher (with greedy and lazy exchanged if `b`). -/
structure EnvEq (b : Bool) (E E' : Env) : Prop where
  len : E.inp.length = E'.inp.length
  names : E.names = E'.names
  cat : E.cat = E'.cat
  multi : E.flags.multiline = E'.flags.multiline
  ungreedy : E'.flags.ungreedy = Bool.xor b E.flags.ungreedy
  one : ∀ (i : Nat) x x', E.inp[i]? = some x → E'.inp[i]? = some x' → ∀ a, matchOne E.flags a x = matchOne E'.flags a x'
  brk : ∀ (i : Nat) x x', E.inp[i]? = some x → E'.inp[i]? = some x' → isLinebreak x = isLinebreak x'
  ref : ∀ (i j : Nat) x y x' y', E.inp[i]? = some x → E.inp[j]? = some y → E'.inp[i]? = some x' → E'.inp[j]? = some y' →
    backrefEquals E.flags.icase x y = backrefEquals E'.flags.icase x' y'

section
variable {b : Bool} {E E' : Env} (h : EnvEq b E E')
include h

/-- The characters at the same place. -/
def Same (E E' : Env) (o o' : Option Byte) : Prop :=
  (o = none ∧ o' = none) ∨ ∃ (i : Nat) (x x' : Byte), E.inp[i]? = some x ∧ E'.inp[i]? = some x' ∧ o = some x ∧ o' = some x'

theorem EnvEq.get (i : Nat) : Same E E' E.inp[i]? E'.inp[i]? := by
  by_cases hi : i < E.inp.length
  · exact .inr ⟨i, _, _, List.getElem?_eq_getElem hi, List.getElem?_eq_getElem (h.len ▸ hi), List.getElem?_eq_getElem hi,
      List.getElem?_eq_getElem (h.len ▸ hi)⟩
  · have := h.len
    exact .inl ⟨List.getElem?_eq_none (by omega), List.getElem?_eq_none (by omega)⟩

theorem EnvEq.deref (r p : Nat) : Same E E' (E.deref r p) (E'.deref r p) := by
  unfold Env.deref
  split
  · exact h.get p
  · split
    · exact .inl ⟨rfl, rfl⟩
    · exact h.get _

theorem EnvEq.derefPrev (r p : Nat) : Same E E' (E.derefPrev r p) (E'.derefPrev r p) := by
  unfold Env.derefPrev
  rw [← h.cat]
  split
  · exact .inl ⟨rfl, rfl⟩
  · split
    · split
      · exact .inl ⟨rfl, rfl⟩
      · exact h.get _
    · exact h.get p

theorem EnvEq.atEnd (r p : Nat) : E'.atEnd r p = E.atEnd r p := by unfold Env.atEnd; rw [h.len]
theorem EnvEq.atBegin (r p : Nat) : E'.atBegin r p = E.atBegin r p := by unfold Env.atBegin; rw [h.len]

theorem EnvEq.distLoop (r : Nat) : ∀ k p, E'.distLoop r k p = E.distLoop r k p := by
  intro k
  induction k with
  | zero => intro p; rfl
  | succ k ih => intro p; simp only [Env.distLoop, h.atEnd, ih]

theorem EnvEq.distanceLessThan (r N p : Nat) : E'.distanceLessThan r N p = E.distanceLessThan r N p := by
  unfold Env.distanceLessThan
  rw [← h.cat]
  cases E.cat with
  | randomAccess => simp only [Env.remaining, h.len]; rfl
  | _ => simp only [h.distLoop]

theorem EnvEq.one' {i : Nat} {x x' : Byte} (h1 : E.inp[i]? = some x) (h2 : E'.inp[i]? = some x') (a : Ast) :
    matchOne E'.flags (swapGreed b a) x' = matchOne E.flags a x := by
  rw [matchOne_swap]; exact (h.one i x x' h1 h2 a).symm

theorem EnvEq.trivMatch (r : Nat) (a : Ast) : trivMatch E' r (swapGreed b a) = trivMatch E r a := by
  funext p c cont
  unfold Mregex.trivMatch
  rw [h.atEnd]
  rcases h.deref r p with ⟨h1, h2⟩ | ⟨i, x, x', h1, h2, h3, h4⟩
  · simp only [h1, h2]
  · simp only [h3, h4, h.one' h1 h2]

theorem EnvEq.runTriv (r : Nat) : ∀ l p, runTriv E' r (l.map (swapGreed b)) p = runTriv E r l p := by
  intro l
  induction l with
  | nil => intro p; rfl
  | cons a l ih =>
    intro p
    simp only [List.map_cons, Mregex.runTriv]
    rcases h.deref r p with ⟨h1, h2⟩ | ⟨i, x, x', h1, h2, h3, h4⟩
    · simp only [h1, h2]
    · simp only [h3, h4, h.one' h1 h2, ih]

theorem EnvEq.seqTriv (r : Nat) (l : List Ast) : seqTriv E' r (l.map (swapGreed b)) = seqTriv E r l := by
  funext p c cont
  simp only [Mregex.seqTriv, h.distanceLessThan, h.runTriv, List.length_map, ← h.cat]

theorem EnvEq.seqMatch (r : Nat) {m m' : Ast → Matcher} (l : List Ast) (hm : ∀ a ∈ l, m' (swapGreed b a) = m a) :
    seqMatch E' r m' (l.map (swapGreed b)) = seqMatch E r m l := by
  induction l with
  | nil => rfl
  | cons a l ih =>
    match l with
    | [] => exact hm a (by simp)
    | a' :: l =>
      have ih := ih (fun x hx => hm x (List.mem_cons_of_mem _ hx))
      have h1 := areTriv_swap b (a :: a' :: l)
      have h2 := h.seqTriv r (a :: a' :: l)
      simp only [List.map_cons] at h1 h2 ih ⊢
      unfold Mregex.seqMatch
      rw [h1, h2, hm a (by simp), ih]

theorem EnvEq.altMatch (r : Nat) {m m' : Ast → Matcher} (l : List Ast) (hm : ∀ a ∈ l, m' (swapGreed b a) = m a) :
    altMatch E' r m' (l.map (swapGreed b)) = altMatch E r m l := by
  induction l with
  | nil => rfl
  | cons a l ih =>
    match l with
    | [] => exact hm a (by simp)
    | a' :: l =>
      have ih := ih (fun x hx => hm x (List.mem_cons_of_mem _ hx))
      have h1 := areTriv_swap b (a :: a' :: l)
      have h2 := h.trivMatch r (.set (a :: a' :: l))
      simp only [swapGreed, swapGreedAll_eq, List.map_cons] at h1 h2 ih ⊢
      unfold Mregex.altMatch
      rw [h1, h2, hm a (by simp), ih]

theorem EnvEq.capMatch (r id : Nat) (name : GroupName) (m : Matcher) :
    capMatch E' r id name m = capMatch E r id name m := by
  funext p c cont
  simp only [Mregex.capMatch, setCapture, h.names]

theorem EnvEq.fixedTriv (r : Nat) (a : Ast) (N : Nat) : fixedTriv E' r (swapGreed b a) N = fixedTriv E r a N := by
  funext p c cont
  have := h.runTriv r (List.replicate N a)
  rw [List.map_replicate] at this
  simp only [Mregex.fixedTriv, h.distanceLessThan, this, ← h.cat]

omit h in
theorem unrolled_eq (m : Matcher) : ∀ N, N ≠ 0 → unrolled m N = nonUnrolled m N
  | 0 => fun h => absurd rfl h
  | 1 => fun _ => rfl
  | N + 2 => fun _ => by
    funext p c cont
    simp only [unrolled, nonUnrolled, unrolled_eq m (N + 1) (by omega)]

theorem EnvEq.fixedMatch (r : Nat) (mode : Mode) (a : Ast) (m : Matcher) (N : Nat) :
    fixedMatch E' r (swapMode b mode) (swapGreed b a) m N = fixedMatch E r mode a m N := by
  unfold Mregex.fixedMatch
  simp only [swapMode_poss, triv_swap]
  split
  · rfl
  · next h0 =>
    have hb : ∀ E'' : Env, fixedBacktracking E'' r = fun a m N => if triv a then Mregex.fixedTriv E'' r a N else
        if E''.flags.unroll then unrolled m N else nonUnrolled m N := fun _ => rfl
    simp only [hb, triv_swap, h.fixedTriv, unrolled_eq m N h0, ite_self]

theorem EnvEq.possTriv (r : Nat) (a : Ast) (inf : Bool) :
    ∀ k, possTriv E' r (swapGreed b a) inf k = possTriv E r a inf k := by
  intro k
  induction k with
  | zero => rfl
  | succ k ih =>
    funext p c cont
    simp only [Mregex.possTriv, h.atEnd]
    rcases h.deref r p with ⟨h1, h2⟩ | ⟨i, x, x', h1, h2, h3, h4⟩
    · simp only [h1, h2]
    · simp only [h3, h4, h.one' h1 h2, ih]

theorem EnvEq.lazyTriv (r : Nat) (a : Ast) (inf : Bool) :
    ∀ k, lazyTriv E' r (swapGreed b a) inf k = lazyTriv E r a inf k := by
  intro k
  induction k with
  | zero => rfl
  | succ k ih =>
    funext p c cont
    simp only [Mregex.lazyTriv, h.atEnd]
    rcases h.deref r p with ⟨h1, h2⟩ | ⟨i, x, x', h1, h2, h3, h4⟩
    · simp only [h1, h2]
    · simp only [h3, h4, h.one' h1 h2, ih]

theorem EnvEq.betweenBounds (r : Nat) (mode : Mode) (a : Ast) (m : Matcher) (inf : Bool) (k : Nat) :
    betweenBounds E' r (swapMode b mode) (swapGreed b a) m inf k = betweenBounds E r mode a m inf k := by
  have hx : mode ≠ .possessive → Bool.xor (swapMode b mode == .greedy) E'.flags.ungreedy =
      Bool.xor (mode == .greedy) E.flags.ungreedy := by
    rw [h.ungreedy]
    cases b <;> cases mode <;> cases E.flags.ungreedy <;> simp [swapMode]
  unfold Mregex.betweenBounds
  simp only [swapMode_poss, triv_swap, zlm_swap, h.possTriv, h.lazyTriv]
  split
  · rfl
  · next hm =>
    have hg : greedyTriv E' r (swapGreed b a) inf k = greedyTriv E r a inf k := by
      funext p c cont; simp only [greedyTriv, h.possTriv]
    rw [hx hm, h.cat, hg]

theorem EnvEq.repMatch (r fuel : Nat) (mode : Mode) (lo : Nat) (hi : Bound) (a : Ast) (m : Matcher) :
    repMatch E' r fuel (swapMode b mode) lo hi (swapGreed b a) m = repMatch E r fuel mode lo hi a m := by
  unfold Mregex.repMatch
  cases hi <;> simp only [h.fixedMatch, h.betweenBounds]

theorem EnvEq.backrefLoop (r : Nat) (l l' : List Byte)
    (hl : ∃ is : List Nat, l = is.filterMap (E.inp[·]?) ∧ l' = is.filterMap (E'.inp[·]?)) :
    ∀ p, backrefLoop E' r l' p = backrefLoop E r l p := by
  obtain ⟨is, rfl, rfl⟩ := hl
  induction is with
  | nil => intro p; rfl
  | cons i is ih =>
    intro p
    rcases h.get i with ⟨h1, h2⟩ | ⟨j, y, y', h1, h2, h3, h4⟩
    · simpa only [List.filterMap_cons, h1, h2] using ih p
    · simp only [List.filterMap_cons, h3, h4, Mregex.backrefLoop]
      rcases h.deref r p with ⟨h5, h6⟩ | ⟨k, x, x', h5, h6, h7, h8⟩
      · simp only [h5, h6]
      · simp only [h7, h8, h.ref j k y x y' x' h1 h5 h2 h6, ih]

omit h in
theorem capText_filterMap (s : List Byte) (g : Cap) :
    ∃ is : List Nat, (g = none ∧ is = [] ∨ ∃ b e, g = some (b, e) ∧ is = (List.range (e - b)).map (b + ·)) ∧
      capText s g = is.filterMap (s[·]?) := by
  match g with
  | none => exact ⟨[], .inl ⟨rfl, rfl⟩, rfl⟩
  | some (b, e) =>
    refine ⟨_, .inr ⟨b, e, rfl, rfl⟩, ?_⟩
    simp only [capText]
    generalize e - b = k
    induction k generalizing b with
    | zero => simp
    | succ k ih =>
      rw [List.range_succ, List.map_append, List.filterMap_append, ← ih, List.take_add_one]
      simp only [List.getElem?_drop, List.map_cons, List.map_nil, List.filterMap_cons, List.filterMap_nil]
      cases s[b + k]? <;> rfl

omit h in
theorem EnvEq.capText (g : Cap) :
    ∃ is : List Nat, Mregex.capText E.inp g = is.filterMap (E.inp[·]?) ∧ Mregex.capText E'.inp g = is.filterMap (E'.inp[·]?) := by
  obtain ⟨is, h1, h2⟩ := capText_filterMap E.inp g
  obtain ⟨is', h1', h2'⟩ := capText_filterMap E'.inp g
  have : is = is' := by
    rcases h1 with ⟨rfl, rfl⟩ | ⟨b, e, rfl, rfl⟩
    · rcases h1' with ⟨_, rfl⟩ | ⟨b, e, h, _⟩
      · rfl
      · cases h
    · rcases h1' with ⟨h, _⟩ | ⟨b', e', h, rfl⟩
      · cases h
      · cases h; rfl
  exact ⟨is, h2, this ▸ h2'⟩

theorem EnvEq.backrefMatch (r : Nat) (g : Cap) : backrefMatch E' r g = backrefMatch E r g := by
  funext p c cont
  obtain ⟨is, h1, h2⟩ := EnvEq.capText (E := E) (E' := E') g
  have hlen : (Mregex.capText E'.inp g).length = (Mregex.capText E.inp g).length := by
    rw [h1, h2]
    clear h1 h2
    induction is with
    | nil => rfl
    | cons i is ih =>
      rcases h.get i with ⟨h1, h2⟩ | ⟨j, y, y', h1, h2, h3, h4⟩
      · simpa only [List.filterMap_cons, h1, h2] using ih
      · simpa only [List.filterMap_cons, h3, h4, List.length_cons, Nat.add_right_cancel_iff] using ih
  have hloop : Mregex.backrefLoop E' r (if r = 0 then Mregex.capText E'.inp g else (Mregex.capText E'.inp g).reverse) p =
      Mregex.backrefLoop E r (if r = 0 then Mregex.capText E.inp g else (Mregex.capText E.inp g).reverse) p := by
    refine h.backrefLoop r _ _ ?_ p
    split
    · exact ⟨is, h1, h2⟩
    · exact ⟨is.reverse, by rw [h1, List.filterMap_reverse], by rw [h2, List.filterMap_reverse]⟩
  simp only [Mregex.backrefMatch, hlen, hloop, h.distanceLessThan, ← h.cat]

theorem EnvEq.map_one {o o' : Option Byte} (ho : Same E E' o o') (a : Ast) :
    o'.map (matchOne E'.flags (swapGreed b a)) = o.map (matchOne E.flags a) := by
  rcases ho with ⟨rfl, rfl⟩ | ⟨i, x, x', h1, h2, rfl, rfl⟩
  · rfl
  · simp only [Option.map_some, h.one' h1 h2]

theorem EnvEq.map_brk {o o' : Option Byte} (ho : Same E E' o o') : o'.map isLinebreak = o.map isLinebreak := by
  rcases ho with ⟨rfl, rfl⟩ | ⟨i, x, x', h1, h2, rfl, rfl⟩
  · rfl
  · simp only [Option.map_some, h.brk i x x' h1 h2]

theorem EnvEq.mtch : ∀ fuel a r, mtch E' fuel (swapGreed b a) r = mtch E fuel a r := by
  intro fuel
  induction fuel with
  | zero => intro a r; rfl
  | succ k ih =>
    intro a r
    cases a with
    | empty => rfl
    | lit c => simpa only [swapGreed, Mregex.mtch] using h.trivMatch r (.lit c)
    | range x y => simpa only [swapGreed, Mregex.mtch] using h.trivMatch r (.range x y)
    | wildcard => simpa only [swapGreed, Mregex.mtch] using h.trivMatch r .wildcard
    | set l => simpa only [swapGreed, Mregex.mtch] using h.trivMatch r (.set l)
    | neg a =>
      have := h.trivMatch r (.neg a)
      simp only [swapGreed] at this
      simp only [swapGreed, Mregex.mtch, isAssertion_swap, ih, this]
    | seq l =>
      simp only [swapGreed, Mregex.mtch, swapGreedAll_eq]
      exact h.seqMatch r l (fun a _ => ih a r)
    | alt l =>
      simp only [swapGreed, Mregex.mtch, swapGreedAll_eq]
      exact h.altMatch r l (fun a _ => ih a r)
    | cap id n a => simp only [swapGreed, Mregex.mtch, ih, h.capMatch]
    | rep m lo hi a => simp only [swapGreed, Mregex.mtch, ih, h.repMatch]
    | look d a =>
      cases d with
      | ahead =>
        have : lookaheadTrivPred E' r (swapGreed b a) = lookaheadTrivPred E r a := by
          funext p; simp only [lookaheadTrivPred, h.atEnd, h.map_one (h.deref r p)]
        simp only [swapGreed, Mregex.mtch, ih, triv_swap, this]
      | behind =>
        have : lookbehindTrivPred E' r (swapGreed b a) = lookbehindTrivPred E r a := by
          funext p; simp only [lookbehindTrivPred, h.atBegin, h.map_one (h.derefPrev r p)]
        simp only [swapGreed, Mregex.mtch, triv_swap, this, invert_swap, ih, h.cat]
    | bol =>
      have : beginPred E' r true = beginPred E r true := by
        funext p; simp only [beginPred, h.atBegin, h.map_brk (h.derefPrev r p), h.multi]
      simp only [swapGreed, Mregex.mtch, this]
    | boi =>
      have : beginPred E' r false = beginPred E r false := by
        funext p; simp only [beginPred, h.atBegin, h.map_brk (h.derefPrev r p), h.multi]
      simp only [swapGreed, Mregex.mtch, this]
    | eol =>
      have : endPred E' r true = endPred E r true := by
        funext p; simp only [endPred, h.atEnd, h.map_brk (h.deref r p), h.multi]
      simp only [swapGreed, Mregex.mtch, this]
    | eoi =>
      have : endPred E' r false = endPred E r false := by
        funext p; simp only [endPred, h.atEnd, h.map_brk (h.deref r p), h.multi]
      simp only [swapGreed, Mregex.mtch, this]
    | wordB =>
      have : wordBoundaryPred E' r = wordBoundaryPred E r := by
        funext p
        have h1 := h.map_one (h.derefPrev r p) word
        have h2 := h.map_one (h.deref r p) word
        have hw : swapGreed b word = word := by simp [word, swapGreed, swapGreedAll, lower, upper, digit]
        rw [hw] at h1 h2
        simp only [wordBoundaryPred, h.atEnd, h.atBegin, h1, h2]
      simp only [swapGreed, Mregex.mtch, this]
    | backref id => simp only [swapGreed, Mregex.mtch, h.backrefMatch]
    | namedBackref n => simp only [swapGreed, Mregex.mtch, h.backrefMatch, h.names]

theorem EnvEq.invoke (M : Method) (fuel : Nat) (a : Ast) (cur : Nat) (c : Ctx) :
    M.invoke E' fuel (swapGreed b a) cur c = M.invoke E fuel a cur c := by
  cases M with
  | «match» => simp only [Method.invoke, matchMethod, h.mtch, h.len]
  | matchPrefix => simp only [Method.invoke, prefixMethod, h.mtch]
  | search =>
    simp only [Method.invoke, searchMethod, ← h.len]
    generalize E.inp.length - cur + 1 = k
    induction k generalizing cur c with
    | zero => rfl
    | succ k ih =>
      unfold searchLoop
      simp only [h.mtch, ih, h.len]

end

/-- Regexes and inputs with indistinguishable environments give the same results. -/
theorem invoke_envEq {b : Bool} {R R' : Regex} {cat cat' : Cat} {s s' : List Byte} (h : EnvEq b (R.env cat s) (R'.env cat' s'))
    (ha : R'.ast = swapGreed b R.ast) (M : Method) : R'.invoke M cat' s' = R.invoke M cat s := by
  have hf : fuelFor R'.ast s' = fuelFor R.ast s := by
    have := h.len
    simp only [Regex.env] at this
    simp only [fuelFor, ha, depth_swap, this]
  have hn : R'.names = R.names := by simp only [Regex.names, ha, nameSpec_swap]
  have := h.invoke M (fuelFor R.ast s) R.ast 0 (initCtx R.names)
  rw [ha] at hf
  simp only [Regex.invoke, hn, ha, hf, this]

end Mregex
