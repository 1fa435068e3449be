import Verif.Spec.Groups
import Verif.Proof.CaptureLemmas
import Verif.Proof.Congr

/-!
# Names of groups
-/

namespace Mregex
open Ast Spec

theorem hasGroup_invert {a : Ast} {k : Nat} {name : GroupName} (h : HasGroup a k name) : HasGroup (invert a) k name := by
  induction h with
  | here => exact .here
  | cap _ ih => exact .cap ih
  | neg _ ih => exact .neg ih
  | rep _ ih => exact .rep ih
  | @look k name d a h _ => cases d <;> exact .look h
  | seq hm _ ih =>
    simp only [invert, invertAll_eq]
    exact .seq (List.mem_reverse.2 (List.mem_map_of_mem hm)) ih
  | alt hm _ ih =>
    simp only [invert, invertAll_eq]
    exact .alt (List.mem_map_of_mem hm) ih
  | set hm _ ih =>
    simp only [invert, invertAll_eq]
    exact .set (List.mem_map_of_mem hm) ih

/-- What the library demands of a regex makes names and numbers fit together. -/
theorem ok_name {E : Env} {r : Nat} {a : Ast} (h : Ok E r a) {k : Nat} {name : GroupName} (hg : HasGroup a k name) : E.names[k]? = some name := by
  induction h with
  | set _ _ ih => cases hg with | set hm h => exact ih _ hm h
  | neg _ _ ih => cases hg with | neg h => exact ih h
  | seq _ _ ih => cases hg with | seq hm h => exact ih _ hm h
  | alt _ _ ih => cases hg with | alt hm h => exact ih _ hm h
  | cap hn _ _ ih =>
    cases hg with
    | here => exact hn
    | cap h => exact ih h
  | repFin _ _ ih => cases hg with | rep h => exact ih h
  | repInf _ ih => cases hg with | rep h => exact ih h
  | ahead _ ih => cases hg with | look h => exact ih h
  | behindTriv _ _ _ ih => cases hg with | look h => exact ih h
  | behind _ _ ih => cases hg with | look h => exact ih (hasGroup_invert h)
  | _ => cases hg

theorem idxOf_of_count {names : List GroupName} {n : GroupName} : ∀ {k : Nat}, names.count n = 1 → names[k]? = some n → names.idxOf n = k := by
  induction names with
  | nil => intro k h _; simp at h
  | cons x l ih =>
    intro k hc hk
    by_cases hx : x = n
    · subst hx
      cases k with
      | zero => simp
      | succ k =>
        exfalso
        have hm : x ∈ l := List.mem_of_getElem? (by simpa using hk)
        have := List.count_pos_iff.2 hm
        simp only [List.count_cons_self] at hc
        omega
    · cases k with
      | zero => exact absurd (by simpa using hk) hx
      | succ k =>
        rw [List.count_cons_of_ne hx] at hc
        simp [List.idxOf_cons, beq_false_of_ne hx, ih hc (by simpa using hk)]

theorem nameIndex_eq {names : List GroupName} {name : List Byte} {k : Nat} (hc : names.count (some name) = 1) (hk : names[k]? = some (some name)) : nameIndex names name = some k := by
  simp [nameIndex, hc, idxOf_of_count hc hk]

section
variable (name : List Byte) (k : Nat)

theorem byNumberAll_eq (l : List Ast) : byNumberAll name k l = l.map (byNumber name k) := by
  induction l with
  | nil => rfl
  | cons a l ih => simp [byNumberAll, ih]

theorem isAssertion_num (a : Ast) : isAssertion (byNumber name k a) = isAssertion a := by
  induction a using ind with
  | rep m lo hi a ih => simp only [byNumber, isAssertion, ih]
  | seq l ih =>
    match l with
    | [] => rfl
    | [a] => simpa only [byNumber, byNumberAll, isAssertion] using ih a (by simp)
    | _ :: _ :: _ => rfl
  | alt l ih =>
    match l with
    | [] => rfl
    | [a] => simpa only [byNumber, byNumberAll, isAssertion] using ih a (by simp)
    | _ :: _ :: _ => rfl
  | neg a ih => simpa only [byNumber, isAssertion] using ih
  | namedBackref n => simp only [byNumber]; split <;> rfl
  | _ => simp only [byNumber, isAssertion]

theorem triv_num (a : Ast) : triv (byNumber name k a) = triv a := by
  induction a using ind with
  | rep m lo hi a ih => simp only [byNumber, triv, ih]
  | seq l ih =>
    simp only [byNumber, triv, trivSingle_eq, byNumberAll_eq, List.length_map, List.all_map]
    exact congrArg _ (all_congr' ih)
  | alt l ih =>
    simp only [byNumber, triv, trivAlt_eq, byNumberAll_eq, List.isEmpty_map, List.all_map]
    exact congrArg _ (all_congr' ih)
  | neg a ih => simp only [byNumber, triv, isAssertion_num]
  | namedBackref n => simp only [byNumber]; split <;> rfl
  | _ => simp only [byNumber, triv]

theorem areTriv_num (l : List Ast) : areTriv (l.map (byNumber name k)) = areTriv l := by
  simp only [areTriv, List.all_map]
  exact all_congr' (fun a _ => triv_num name k a)

theorem zlm_num (a : Ast) : zlm (byNumber name k a) = zlm a := by
  induction a using ind with
  | rep m lo hi a ih => simp only [byNumber, zlm, ih]
  | seq l ih =>
    simp only [byNumber, zlm, zlmAll_eq, byNumberAll_eq, List.all_map]
    exact all_congr' ih
  | alt l ih =>
    simp only [byNumber, zlm, zlmAny_eq, byNumberAll_eq, List.any_map]
    exact any_congr' ih
  | neg a ih => simp only [byNumber, zlm, isAssertion_num]
  | cap id n a ih => simpa only [byNumber, zlm] using ih
  | namedBackref n => simp only [byNumber]; split <;> rfl
  | _ => simp only [byNumber, zlm]

theorem invert_num (a : Ast) : invert (byNumber name k a) = byNumber name k (invert a) := by
  induction a using ind with
  | rep m lo hi a ih => simp only [byNumber, invert, ih]
  | seq l ih =>
    simp only [byNumber, invert, invertAll_eq, byNumberAll_eq, List.map_map, List.map_reverse]
    exact congrArg (fun l => Ast.seq (List.reverse l)) (List.map_congr_left (fun a ha => ih a ha))
  | alt l ih =>
    simp only [byNumber, invert, invertAll_eq, byNumberAll_eq, List.map_map]
    exact congrArg Ast.alt (List.map_congr_left (fun a ha => ih a ha))
  | set l ih =>
    simp only [byNumber, invert, invertAll_eq, byNumberAll_eq, List.map_map]
    exact congrArg Ast.set (List.map_congr_left (fun a ha => ih a ha))
  | neg a ih => simp only [byNumber, invert, ih]
  | cap id n a ih => simp only [byNumber, invert, ih]
  | look d a ih => cases d <;> simp only [byNumber, invert]
  | namedBackref n => simp only [byNumber, invert]; split <;> rfl
  | _ => simp only [byNumber, invert]

theorem matchOne_num (f : Flags) (a : Ast) (x : Byte) : matchOne f (byNumber name k a) x = matchOne f a x := by
  induction a using ind with
  | rep m lo hi a ih => simp only [byNumber, matchOne, ih]
  | seq l ih =>
    simp only [byNumber, matchOne, matchSingle_eq, byNumberAll_eq, List.length_map, List.any_map]
    exact congrArg _ (any_congr' ih)
  | alt l ih =>
    simp only [byNumber, matchOne, matchAny_eq, byNumberAll_eq, List.any_map]
    exact any_congr' ih
  | set l ih =>
    simp only [byNumber, matchOne, matchAny_eq, byNumberAll_eq, List.any_map]
    exact any_congr' ih
  | neg a ih => simp only [byNumber, matchOne, ih]
  | namedBackref n => simp only [byNumber]; split <;> rfl
  | _ => simp only [byNumber, matchOne]

theorem depth_num (a : Ast) : depth (byNumber name k a) = depth a := by
  have hl : ∀ l : List Ast, (∀ a ∈ l, depth (byNumber name k a) = depth a) →
      depthAll (l.map (byNumber name k)) = depthAll l := by
    intro l h
    induction l with
    | nil => rfl
    | cons a l ih => simp only [List.map_cons, depthAll, h a (by simp), ih (fun b hb => h b (by simp [hb]))]
  induction a using ind with
  | rep m lo hi a ih => simp only [byNumber, depth, ih]
  | seq l ih => simp only [byNumber, depth, byNumberAll_eq, hl l ih]
  | alt l ih => simp only [byNumber, depth, byNumberAll_eq, hl l ih]
  | set l ih => simp only [byNumber, depth, byNumberAll_eq, hl l ih]
  | neg a ih => simp only [byNumber, depth, ih]
  | cap id n a ih => simp only [byNumber, depth, ih]
  | look d a ih => simp only [byNumber, depth, ih]
  | namedBackref n => simp only [byNumber]; split <;> rfl
  | _ => simp only [byNumber, depth]

theorem nameSpec_num (a : Ast) : nameSpec (byNumber name k a) = nameSpec a := by
  have hl : ∀ l : List Ast, (∀ a ∈ l, nameSpec (byNumber name k a) = nameSpec a) →
      nameSpecAll (l.map (byNumber name k)) = nameSpecAll l := by
    intro l h
    induction l with
    | nil => rfl
    | cons a l ih => simp only [List.map_cons, nameSpecAll, h a (by simp), ih (fun b hb => h b (by simp [hb]))]
  induction a using ind with
  | rep m lo hi a ih => simp only [byNumber, nameSpec, ih]
  | seq l ih => simp only [byNumber, nameSpec, byNumberAll_eq, hl l ih]
  | alt l ih => simp only [byNumber, nameSpec, byNumberAll_eq, hl l ih]
  | set l ih => simp only [byNumber, nameSpec, byNumberAll_eq, hl l ih]
  | neg a ih => simp only [byNumber, nameSpec, ih]
  | cap id n a ih => simp only [byNumber, nameSpec, ih]
  | look d a ih => simp only [byNumber, nameSpec, ih]
  | namedBackref n => simp only [byNumber]; split <;> rfl
  | _ => simp only [byNumber, nameSpec]

variable (E : Env) (r : Nat)

theorem trivMatch_num (a : Ast) : trivMatch E r (byNumber name k a) = trivMatch E r a := by
  funext p c cont
  simp only [trivMatch, matchOne_num]

theorem runTriv_num : ∀ l p, runTriv E r (l.map (byNumber name k)) p = runTriv E r l p := by
  intro l
  induction l with
  | nil => intro p; rfl
  | cons a l ih => intro p; simp only [List.map_cons, runTriv, matchOne_num, ih]

theorem seqMatch_num {m m' : Ast → Matcher} (l : List Ast) (hm : ∀ a ∈ l, m' (byNumber name k a) = m a) :
    seqMatch E r m' (l.map (byNumber name k)) = seqMatch E r m l := by
  induction l with
  | nil => rfl
  | cons a l ih =>
    match l with
    | [] => exact hm a (by simp)
    | a' :: l =>
      have ih := ih (fun x hx => hm x (List.mem_cons_of_mem _ hx))
      have h1 := areTriv_num name k (a :: a' :: l)
      have h2 : seqTriv E r ((a :: a' :: l).map (byNumber name k)) = seqTriv E r (a :: a' :: l) := by
        funext p c cont
        simp only [seqTriv, runTriv_num, List.length_map]
      simp only [List.map_cons] at h1 h2 ih ⊢
      unfold Mregex.seqMatch
      rw [h1, h2, hm a (by simp), ih]

theorem altMatch_num {m m' : Ast → Matcher} (l : List Ast) (hm : ∀ a ∈ l, m' (byNumber name k a) = m a) :
    altMatch E r m' (l.map (byNumber name k)) = altMatch E r m l := by
  induction l with
  | nil => rfl
  | cons a l ih =>
    match l with
    | [] => exact hm a (by simp)
    | a' :: l =>
      have ih := ih (fun x hx => hm x (List.mem_cons_of_mem _ hx))
      have h1 := areTriv_num name k (a :: a' :: l)
      have h2 := trivMatch_num name k E r (.set (a :: a' :: l))
      simp only [byNumber, byNumberAll_eq, List.map_cons] at h1 h2 ih ⊢
      unfold Mregex.altMatch
      rw [h1, h2, hm a (by simp), ih]

theorem repMatch_num (fuel : Nat) (mode : Mode) (lo : Nat) (hi : Bound) (a : Ast) (m : Matcher) :
    repMatch E r fuel mode lo hi (byNumber name k a) m = repMatch E r fuel mode lo hi a m := by
  have hft : ∀ N, fixedTriv E r (byNumber name k a) N = fixedTriv E r a N := by
    intro N; funext p c cont
    have := runTriv_num name k E r (List.replicate N a)
    rw [List.map_replicate] at this
    simp only [fixedTriv, this]
  have hf : ∀ N, fixedMatch E r mode (byNumber name k a) m N = fixedMatch E r mode a m N := by
    intro N; simp only [fixedMatch, fixedBacktracking, triv_num, hft]
  have hp : ∀ inf k', possTriv E r (byNumber name k a) inf k' = possTriv E r a inf k' := by
    intro inf k'
    induction k' with
    | zero => rfl
    | succ k' ih => funext p c cont; simp only [possTriv, matchOne_num, ih]
  have hz : ∀ inf k', lazyTriv E r (byNumber name k a) inf k' = lazyTriv E r a inf k' := by
    intro inf k'
    induction k' with
    | zero => rfl
    | succ k' ih => funext p c cont; simp only [lazyTriv, matchOne_num, ih]
  have hg : ∀ inf k', greedyTriv E r (byNumber name k a) inf k' = greedyTriv E r a inf k' := by
    intro inf k'; funext p c cont; simp only [greedyTriv, hp]
  have hb : ∀ inf k', betweenBounds E r mode (byNumber name k a) m inf k' = betweenBounds E r mode a m inf k' := by
    intro inf k'; simp only [betweenBounds, triv_num, zlm_num, hp, hz, hg]
  unfold Mregex.repMatch
  cases hi <;> simp only [hf, hb]

variable {E}

/-- The matcher does not care whether a group is referred to by name or by number. -/
theorem mtch_num (hk : nameIndex E.names name = some k) : ∀ fuel a r, mtch E fuel (byNumber name k a) r = mtch E fuel a r := by
  intro fuel
  induction fuel with
  | zero => intro a r; rfl
  | succ n ih =>
    intro a r
    cases a with
    | set l => simpa only [byNumber, Mregex.mtch] using trivMatch_num name k E r (.set l)
    | neg a =>
      have := trivMatch_num name k E r (.neg a)
      simp only [byNumber] at this
      simp only [byNumber, Mregex.mtch, isAssertion_num, ih, this]
    | seq l =>
      simp only [byNumber, Mregex.mtch, byNumberAll_eq]
      exact seqMatch_num name k E r l (fun a _ => ih a r)
    | alt l =>
      simp only [byNumber, Mregex.mtch, byNumberAll_eq]
      exact altMatch_num name k E r l (fun a _ => ih a r)
    | cap id nm a => simp only [byNumber, Mregex.mtch, ih]
    | rep m lo hi a => simp only [byNumber, Mregex.mtch, ih, repMatch_num]
    | look d a =>
      cases d with
      | ahead =>
        have : lookaheadTrivPred E r (byNumber name k a) = lookaheadTrivPred E r a := by
          funext p; simp only [lookaheadTrivPred, funext (matchOne_num name k E.flags a)]
        simp only [byNumber, Mregex.mtch, ih, triv_num, this]
      | behind =>
        have : lookbehindTrivPred E r (byNumber name k a) = lookbehindTrivPred E r a := by
          funext p; simp only [lookbehindTrivPred, funext (matchOne_num name k E.flags a)]
        simp only [byNumber, Mregex.mtch, triv_num, this, invert_num, ih]
    | namedBackref nm =>
      by_cases h : nm = name
      · subst h
        simp only [byNumber, if_true, Mregex.mtch, hk]
      · simp only [byNumber, if_neg h]
    | _ => simp only [byNumber]
end

/-- A whole method call. -/
theorem invoke_num {R : Regex} {name : List Byte} {k : Nat} (hk : nameIndex R.names name = some k) (M : Method) (cat : Cat) (s : List Byte) : (Regex.mk (byNumber name k R.ast) R.flags).invoke M cat s = R.invoke M cat s := by
  have hn : Regex.names ⟨byNumber name k R.ast, R.flags⟩ = R.names := by simp only [Regex.names, nameSpec_num]
  have he : Regex.env ⟨byNumber name k R.ast, R.flags⟩ cat s = R.env cat s := by simp only [Regex.env, hn]
  have hf : fuelFor (byNumber name k R.ast) s = fuelFor R.ast s := by simp only [fuelFor, depth_num]
  have hm : ∀ fuel r, mtch (R.env cat s) fuel (byNumber name k R.ast) r = mtch (R.env cat s) fuel R.ast r := fun fuel r => mtch_num name k hk fuel R.ast r
  have hs : ∀ fuel n p c, searchLoop (R.env cat s) fuel (byNumber name k R.ast) n p c = searchLoop (R.env cat s) fuel R.ast n p c := by
    intro fuel n
    induction n with
    | zero => intro p c; rfl
    | succ n ih => intro p c; simp only [searchLoop, hm, ih]
  unfold Regex.invoke
  simp only [hn, he, hf]
  cases M <;> simp only [Method.invoke, matchMethod, prefixMethod, searchMethod, hm, hs]

end Mregex
