import Verif.Proof.Natural
import Verif.Proof.Flatten
import Verif.Proof.Congr
import Verif.Spec.Possessive

/-!
# Possessive quantifiers as atomic groups
-/

namespace Mregex
open Ast Spec

theorem expandAll_eq (l : List Ast) : expandPossessiveAll l = l.map expandPossessive := by
  induction l with
  | nil => rfl
  | cons a l ih => simp [expandPossessiveAll, ih]

/-- Nodes that the combinators cannot tell apart. -/
structure Alike (a b : Ast) : Prop where
  triv : triv a = triv b
  zlm : zlm a = zlm b
  asrt : isAssertion a = isAssertion b
  one : ∀ f x, matchOne f a x = matchOne f b x

theorem alike_expand (a : Ast) : Alike (expandPossessive a) a := by
  induction a using ind with
  | rep m lo hi a ih =>
    unfold expandPossessive
    split
    · next h =>
      obtain ⟨rfl, h⟩ := h
      simp only [expandable, Bool.and_eq_true, Bool.not_eq_true'] at h
      have h1 := h.1
      refine ⟨?_, ?_, ?_, ?_⟩
      · simp [Ast.atomic, Ast.triv, h1]
      · simp [Ast.atomic, Ast.zlm, ih.zlm]
      · simp [Ast.atomic, Ast.isAssertion]
      · intro f x; simp [Ast.atomic, matchOne, h1]
    · exact ⟨by simp [Ast.triv, ih.triv], by simp [Ast.zlm, ih.zlm], by simp [Ast.isAssertion, ih.asrt],
        fun f x => by simp [matchOne, ih.one]⟩
  | seq l ih =>
    refine ⟨?_, ?_, ?_, ?_⟩
    · simp only [expandPossessive, Ast.triv, trivSingle_eq, expandAll_eq, List.length_map, List.all_map]
      exact congrArg _ (all_congr' (fun a ha => (ih a ha).triv))
    · simp only [expandPossessive, Ast.zlm, zlmAll_eq, expandAll_eq, List.all_map]
      exact all_congr' (fun a ha => (ih a ha).zlm)
    · match l with
      | [] => rfl
      | [a] => simpa only [expandPossessive, expandPossessiveAll, Ast.isAssertion] using (ih a (by simp)).asrt
      | _ :: _ :: _ => rfl
    · intro f x
      simp only [expandPossessive, matchOne, matchSingle_eq, expandAll_eq, List.length_map, List.any_map]
      exact congrArg _ (any_congr' (fun a ha => (ih a ha).one f x))
  | alt l ih =>
    refine ⟨?_, ?_, ?_, ?_⟩
    · simp only [expandPossessive, Ast.triv, trivAlt_eq, expandAll_eq, List.isEmpty_map, List.all_map]
      exact congrArg _ (all_congr' (fun a ha => (ih a ha).triv))
    · simp only [expandPossessive, Ast.zlm, zlmAny_eq, expandAll_eq, List.any_map]
      exact any_congr' (fun a ha => (ih a ha).zlm)
    · match l with
      | [] => rfl
      | [a] => simpa only [expandPossessive, expandPossessiveAll, Ast.isAssertion] using (ih a (by simp)).asrt
      | _ :: _ :: _ => rfl
    · intro f x
      simp only [expandPossessive, matchOne, matchAny_eq, expandAll_eq, List.any_map]
      exact any_congr' (fun a ha => (ih a ha).one f x)
  | neg a ih =>
    exact ⟨by simp [expandPossessive, Ast.triv, ih.asrt], by simp [expandPossessive, Ast.zlm, ih.asrt],
      by simp [expandPossessive, Ast.isAssertion, ih.asrt], fun f x => by simp [expandPossessive, matchOne, ih.one]⟩
  | cap id n a ih => exact ⟨by simp [expandPossessive, Ast.triv], by simp [expandPossessive, Ast.zlm, ih.zlm],
      by simp [expandPossessive, Ast.isAssertion], fun f x => by simp [expandPossessive, matchOne]⟩
  | look d a ih => exact ⟨by simp [expandPossessive, Ast.triv], by simp [expandPossessive, Ast.zlm],
      by simp [expandPossessive, Ast.isAssertion], fun f x => by simp [expandPossessive, matchOne]⟩
  | _ => exact ⟨by simp [expandPossessive], by simp [expandPossessive], by simp [expandPossessive],
      fun f x => by simp [expandPossessive]⟩

theorem expandable_alike {lo : Nat} {hi : Bound} {a b : Ast} (h : zlm a = zlm b) :
    expandable lo hi a = expandable lo hi b := by simp [expandable, h]

theorem zlm_invert' (a : Ast) : zlm (invert a) = zlm a := by
  induction a using ind with
  | rep m lo hi a ih => simp only [invert, zlm, ih]
  | seq l ih =>
    simp only [invert, zlm, zlmAll_eq, invertAll_eq, List.all_reverse, List.all_map]
    exact all_congr' ih
  | alt l ih =>
    simp only [invert, zlm, zlmAny_eq, invertAll_eq, List.any_map]
    exact any_congr' ih
  | neg a ih => simp only [invert, zlm, isAssertion_invert]
  | cap id n a ih => simpa only [invert, zlm] using ih
  | look d a ih => cases d <;> simp only [invert, zlm]
  | _ => simp only [invert, zlm]

theorem invert_expand (a : Ast) : invert (expandPossessive a) = expandPossessive (invert a) := by
  induction a using ind with
  | rep m lo hi a ih =>
    simp only [invert]
    unfold expandPossessive
    rw [expandable_alike (zlm_invert' a)]
    split <;> simp [atomic, invert, ih]
  | seq l ih =>
    simp only [expandPossessive, invert, invertAll_eq, expandAll_eq, List.map_map, List.map_reverse]
    exact congrArg (fun l => Ast.seq (List.reverse l)) (List.map_congr_left (fun a ha => ih a ha))
  | alt l ih =>
    simp only [expandPossessive, invert, invertAll_eq, expandAll_eq, List.map_map]
    exact congrArg Ast.alt (List.map_congr_left (fun a ha => ih a ha))
  | neg a ih => simp only [expandPossessive, invert, ih]
  | cap id n a ih => simp only [expandPossessive, invert, ih]
  | look d a ih => cases d <;> simp only [expandPossessive, invert]
  | _ => simp only [expandPossessive, invert]

theorem nameSpec_expand (a : Ast) : nameSpec (expandPossessive a) = nameSpec a := by
  have hl : ∀ l : List Ast, (∀ a ∈ l, nameSpec (expandPossessive a) = nameSpec a) →
      nameSpecAll (l.map expandPossessive) = nameSpecAll l := by
    intro l h
    induction l with
    | nil => rfl
    | cons a l ih => simp only [List.map_cons, nameSpecAll, h a (by simp), ih (fun b hb => h b (by simp [hb]))]
  induction a using ind with
  | rep m lo hi a ih => unfold expandPossessive; split <;> simp only [atomic, nameSpec, ih]
  | seq l ih => simp only [expandPossessive, nameSpec, expandAll_eq, hl l ih]
  | alt l ih => simp only [expandPossessive, nameSpec, expandAll_eq, hl l ih]
  | neg a ih => simp only [expandPossessive, nameSpec, ih]
  | cap id n a ih => simp only [expandPossessive, nameSpec, ih]
  | look d a ih => simp only [expandPossessive, nameSpec, ih]
  | _ => simp only [expandPossessive]

theorem ok_expand {E : Env} {r : Nat} {a : Ast} (h : Ok E r a) : Ok E r (expandPossessive a) := by
  induction h with
  | seq h _ ih =>
    simp only [expandPossessive, expandAll_eq]
    refine .seq (by simpa using h) (fun a ha => ?_)
    obtain ⟨b, hb, rfl⟩ := List.mem_map.1 ha
    exact ih b hb
  | alt h _ ih =>
    simp only [expandPossessive, expandAll_eq]
    refine .alt (by simpa using h) (fun a ha => ?_)
    obtain ⟨b, hb, rfl⟩ := List.mem_map.1 ha
    exact ih b hb
  | neg h _ ih =>
    simp only [expandPossessive]
    rw [← (alike_expand _).triv, ← (alike_expand _).asrt] at h
    exact .neg h ih
  | cap h1 h2 _ ih => exact .cap h1 h2 ih
  | repFin h _ ih =>
    unfold expandPossessive
    split
    · exact .repFin (Nat.le_refl 1) (.repFin h ih)
    · exact .repFin h ih
  | repInf _ ih =>
    unfold expandPossessive
    split
    · exact .repFin (Nat.le_refl 1) (.repInf ih)
    · exact .repInf ih
  | ahead _ ih => exact .ahead ih
  | behindTriv h1 h2 _ ih =>
    exact .behindTriv h1 (by rw [(alike_expand _).triv]; exact h2) ih
  | behind h1 _ ih => exact .behind h1 (by rw [invert_expand]; exact ih)
  | set h1 h2 _ => unfold expandPossessive; exact .set h1 h2
  | _ => unfold expandPossessive; constructor <;> assumption

section
variable {E : Env} {r : Nat}

theorem trivMatch_alike {a b : Ast} (h : ∀ f x, matchOne f a x = matchOne f b x) : trivMatch E r a = trivMatch E r b := by
  funext p c cont
  unfold trivMatch
  simp only [h]

theorem runTriv_alike {l : List Ast} (g : Ast → Ast) (h : ∀ a ∈ l, ∀ f x, matchOne f (g a) x = matchOne f a x) :
    ∀ p, runTriv E r (l.map g) p = runTriv E r l p := by
  induction l with
  | nil => intro p; rfl
  | cons a l ih =>
    intro p
    simp only [List.map_cons, runTriv, h a (by simp), ih (fun b hb => h b (by simp [hb]))]

theorem fixedTriv_alike {a b : Ast} (h : ∀ f x, matchOne f b x = matchOne f a x) (N : Nat) :
    fixedTriv E r b N = fixedTriv E r a N := by
  funext p c cont
  have := runTriv_alike (E := E) (r := r) (l := List.replicate N a) (fun _ => b) (fun a' ha => by
    rw [List.eq_of_mem_replicate ha]; exact h)
  rw [List.map_replicate] at this
  simp only [fixedTriv, this]

theorem fixedMatch_alike {a b : Ast} (h : Alike b a) (mode : Mode) (m : Matcher) (N : Nat) :
    fixedMatch E r mode b m N = fixedMatch E r mode a m N := by
  unfold fixedMatch fixedBacktracking
  rw [h.triv, fixedTriv_alike h.one]

theorem possTriv_alike {a b : Ast} (h : ∀ f x, matchOne f b x = matchOne f a x) (inf : Bool) (n : Nat) :
    possTriv E r b inf n = possTriv E r a inf n := by
  induction n with
  | zero => rfl
  | succ n ih => funext p c cont; simp only [possTriv, h, ih]

theorem lazyTriv_alike {a b : Ast} (h : ∀ f x, matchOne f b x = matchOne f a x) (inf : Bool) (n : Nat) :
    lazyTriv E r b inf n = lazyTriv E r a inf n := by
  induction n with
  | zero => rfl
  | succ n ih => funext p c cont; simp only [lazyTriv, h, ih]

theorem betweenBounds_alike {a b : Ast} (h : Alike b a) (mode : Mode) (m : Matcher) (inf : Bool) (n : Nat) :
    betweenBounds E r mode b m inf n = betweenBounds E r mode a m inf n := by
  have hg : greedyTriv E r b inf n = greedyTriv E r a inf n := by
    funext p c cont; simp only [greedyTriv, possTriv_alike h.one]
  unfold betweenBounds
  rw [h.triv, h.zlm, possTriv_alike h.one, lazyTriv_alike h.one, hg]

theorem repMatch_alike {a b : Ast} (h : Alike b a) (fuel : Nat) (mode : Mode) (lo : Nat) (hi : Bound) (m : Matcher) :
    repMatch E r fuel mode lo hi b m = repMatch E r fuel mode lo hi a m := by
  unfold repMatch
  cases hi <;> simp only [fixedMatch_alike h, betweenBounds_alike h]

theorem areTriv_map {g : Ast → Ast} (h : ∀ a, Alike (g a) a) (l : List Ast) : areTriv (l.map g) = areTriv l := by
  simp only [areTriv, List.all_map]
  exact all_congr' (fun a _ => (h a).triv)

theorem seqMatch_alike {g : Ast → Ast} (h : ∀ a, Alike (g a) a) (m : Ast → Matcher) (l : List Ast) :
    seqMatch E r m (l.map g) = seqMatch E r (fun a => m (g a)) l := by
  induction l with
  | nil => rfl
  | cons a l ih =>
    match l with
    | [] => rfl
    | a' :: l =>
      have h1 := areTriv_map h (a :: a' :: l)
      have h2 : seqTriv E r ((a :: a' :: l).map g) = seqTriv E r (a :: a' :: l) := by
        funext p c cont
        simp only [seqTriv, List.length_map, runTriv_alike g (fun a _ => (h a).one)]
      simp only [List.map_cons] at h1 h2 ih ⊢
      unfold seqMatch
      rw [h1, h2, ih]

theorem altMatch_alike {g : Ast → Ast} (h : ∀ a, Alike (g a) a) (m : Ast → Matcher) (l : List Ast) :
    altMatch E r m (l.map g) = altMatch E r (fun a => m (g a)) l := by
  induction l with
  | nil => rfl
  | cons a l ih =>
    match l with
    | [] => rfl
    | a' :: l =>
      have h1 := areTriv_map h (a :: a' :: l)
      have h2 : trivMatch E r (.set ((a :: a' :: l).map g)) = trivMatch E r (.set (a :: a' :: l)) := by
        refine trivMatch_alike (fun f x => ?_)
        simp only [matchOne, matchAny_eq, List.any_map]
        exact any_congr' (fun a _ => (h a).one f x)
      simp only [List.map_cons] at h1 h2 ih ⊢
      unfold altMatch
      rw [h1, h2, ih]

end

theorem Matcher.Le.refl' (E : Env) (n : Nat) (a : Ast) (r : Nat) : Matcher.Le (mtch E n a r) (mtch E n a r) :=
  mtch_le E n n a r (Nat.le_refl n)

theorem triv_atomic_arg {lo : Nat} {hi : Bound} {a b : Ast} (h : expandable lo hi a = true) (mode : Mode) :
    triv (.rep mode lo hi b) = false := by
  simp only [expandable, Bool.and_eq_true, Bool.not_eq_true'] at h
  simp [triv, h.1]

/-- With enough fuel, an atomic group around a greedy quantifier is the possessive quantifier. -/
theorem mtch_atomic_greedy (E : Env) (hu : E.flags.ungreedy = false) {lo : Nat} {hi : Bound} {a : Ast}
    (h : expandable lo hi a = true) {n : Nat} (hn : a.depth ≤ n) (r : Nat) :
    mtch E (n + 2) (atomic (.rep .greedy lo hi a)) r = repMatch E r n .possessive lo hi a (mtch E n a r) := by
  funext p c k
  have e : mtch E (n + 2) (atomic (.rep .greedy lo hi a)) r p c k =
      (mtch E (n + 1) (.rep .greedy lo hi a) r p c success).onMatch k (fun c' => nonMatch p c') := by
    rw [atomic, mtch]
    simp [repMatch, fixedMatch, triv_atomic_arg h]
  rw [e, repMatch_possessive (mtch_natural E n a r) (fun ht => mtch_triv ht hn r) hu (fun hi => ?_)]
  · rfl
  · subst hi
    simp only [expandable, Bool.and_eq_true, Bool.not_eq_true'] at h
    simpa using h.2

theorem mtch_expand (E : Env) (hu : E.flags.ungreedy = false) (n : Nat) :
    ∀ a r n', 2 * n + (expandPossessive a).depth ≤ n' → Matcher.Le (mtch E n a r) (mtch E n' (expandPossessive a) r) := by
  induction n with
  | zero => exact fun _ _ _ _ _ _ _ _ _ => .inl rfl
  | succ n ih =>
    intro a r n' hn
    obtain ⟨n', rfl⟩ : ∃ i, n' = i + 1 := ⟨n' - 1, by omega⟩
    cases a with
    | seq l =>
      simp only [expandPossessive, expandAll_eq, depth] at hn ⊢
      unfold mtch
      dsimp only
      rw [seqMatch_alike alike_expand]
      refine seqMatch_le (fun a ha => ih a r n' ?_)
      have := depth_le_all (List.mem_map_of_mem (f := expandPossessive) ha)
      omega
    | alt l =>
      simp only [expandPossessive, expandAll_eq, depth] at hn ⊢
      unfold mtch
      dsimp only
      rw [altMatch_alike alike_expand]
      refine altMatch_le (fun a ha => ih a r n' ?_)
      have := depth_le_all (List.mem_map_of_mem (f := expandPossessive) ha)
      omega
    | neg a =>
      simp only [expandPossessive, depth] at hn ⊢
      unfold mtch
      dsimp only
      rw [(alike_expand a).asrt]
      split
      · exact negAssertMatch_le (ih a r n' (by omega))
      · rw [trivMatch_alike (a := .neg (expandPossessive a)) (b := .neg a) (fun f x => by simp only [matchOne, (alike_expand a).one])]
        exact trivMatch_le _
    | cap id nm a =>
      simp only [expandPossessive, depth] at hn ⊢
      exact capMatch_le (ih a r n' (by omega))
    | look d a =>
      simp only [expandPossessive, depth] at hn ⊢
      cases d with
      | ahead =>
        have : lookaheadTrivPred E r (expandPossessive a) = lookaheadTrivPred E r a := by
          funext p
          have : matchOne E.flags (expandPossessive a) = matchOne E.flags a := funext ((alike_expand a).one E.flags)
          simp only [lookaheadTrivPred, this]
        unfold mtch
        dsimp only
        rw [(alike_expand a).triv, this]
        split
        · exact assertMatch_le _
        · exact lookMatch_le (ih a r n' (by omega))
      | behind =>
        have : lookbehindTrivPred E r (expandPossessive a) = lookbehindTrivPred E r a := by
          funext p
          have : matchOne E.flags (expandPossessive a) = matchOne E.flags a := funext ((alike_expand a).one E.flags)
          simp only [lookbehindTrivPred, this]
        unfold mtch
        dsimp only
        rw [(alike_expand a).triv, this, invert_expand]
        split
        · exact assertMatch_le _
        · split
          · exact fun _ _ _ _ _ => .refl _
          · refine lookMatch_le (ih (invert a) (r + 1) n' ?_)
            rw [← invert_expand, depth_invert]
            omega
    | rep m lo hi a =>
      unfold expandPossessive at hn ⊢
      split at hn
      · next h =>
        rw [if_pos h]
        obtain ⟨rfl, h⟩ := h
        simp only [atomic, depth] at hn
        obtain ⟨n', rfl⟩ : ∃ i, n' = i + 1 := ⟨n' - 1, by omega⟩
        rw [mtch_atomic_greedy E hu (by rw [expandable_alike (alike_expand a).zlm]; exact h) (by omega), repMatch_alike (alike_expand a)]
        exact repMatch_le (by omega) _ _ _ _ (ih a r n' (by omega))
      · next h =>
        rw [if_neg h]
        simp only [depth] at hn
        show Matcher.Le (repMatch E r n m lo hi a (mtch E n a r)) (repMatch E r n' m lo hi (expandPossessive a) (mtch E n' (expandPossessive a) r))
        rw [repMatch_alike (alike_expand a)]
        exact repMatch_le (by omega) _ _ _ _ (ih a r n' (by omega))
    | _ => unfold expandPossessive; exact mtch_le E _ _ _ _ (by omega)

end Mregex
