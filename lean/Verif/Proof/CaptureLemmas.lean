import Verif.Proof.MethodLemmas
import Verif.Spec.Groups

/-!
# Where captures sit, and the invariants they preserve
-/

namespace Mregex
open Ast Spec

theorem groupIdsAll_eq (l : List Ast) : groupIdsAll l = l.flatMap groupIds := by
  induction l with
  | nil => rfl
  | cons a l ih => simp [groupIdsAll, ih]

theorem mem_groupIds_invert (a : Ast) (k : Nat) : k ∈ groupIds (invert a) ↔ k ∈ groupIds a := by
  induction a using ind with
  | seq l ih =>
    simp only [invert, groupIds, groupIdsAll_eq, invertAll_eq, List.mem_flatMap, List.mem_reverse, List.mem_map]
    constructor
    · rintro ⟨_, ⟨a, ha, rfl⟩, h⟩; exact ⟨a, ha, (ih a ha).1 h⟩
    · rintro ⟨a, ha, h⟩; exact ⟨_, ⟨a, ha, rfl⟩, (ih a ha).2 h⟩
  | alt l ih =>
    simp only [invert, groupIds, groupIdsAll_eq, invertAll_eq, List.mem_flatMap, List.mem_map]
    constructor
    · rintro ⟨_, ⟨a, ha, rfl⟩, h⟩; exact ⟨a, ha, (ih a ha).1 h⟩
    · rintro ⟨a, ha, h⟩; exact ⟨_, ⟨a, ha, rfl⟩, (ih a ha).2 h⟩
  | set l ih =>
    simp only [invert, groupIds, groupIdsAll_eq, invertAll_eq, List.mem_flatMap, List.mem_map]
    constructor
    · rintro ⟨_, ⟨a, ha, rfl⟩, h⟩; exact ⟨a, ha, (ih a ha).1 h⟩
    · rintro ⟨a, ha, h⟩; exact ⟨_, ⟨a, ha, rfl⟩, (ih a ha).2 h⟩
  | cap id n a ih => simp only [invert, groupIds, List.mem_cons, ih]
  | rep m lo hi a ih => simpa only [invert, groupIds] using ih
  | neg a ih => simpa only [invert, groupIds] using ih
  | look d a ih => cases d <;> simp only [invert, groupIds]
  | _ => simp only [invert, groupIds]

theorem capAt_groupIds {r : Nat} {a : Ast} {r' id : Nat} {b : Ast} (h : CapAt r a r' id b) : id ∈ groupIds a := by
  induction h with
  | here => simp [groupIds]
  | cap _ ih => simp [groupIds, ih]
  | neg _ ih => simpa [groupIds] using ih
  | rep _ ih => simpa [groupIds] using ih
  | seq ha _ ih => simp only [groupIds, groupIdsAll_eq, List.mem_flatMap]; exact ⟨_, ha, ih⟩
  | alt ha _ ih => simp only [groupIds, groupIdsAll_eq, List.mem_flatMap]; exact ⟨_, ha, ih⟩
  | ahead _ ih => simpa [groupIds] using ih
  | behind _ ih => simpa [groupIds, mem_groupIds_invert] using ih

theorem groupBody_groupIds {a : Ast} {id : Nat} {b : Ast} (h : GroupBody a id b) : id ∈ groupIds a := by
  induction h with
  | here => simp [groupIds]
  | cap _ ih => simp [groupIds, ih]
  | neg _ ih => simpa [groupIds] using ih
  | rep _ ih => simpa [groupIds] using ih
  | seq ha _ ih => simp only [groupIds, groupIdsAll_eq, List.mem_flatMap]; exact ⟨_, ha, ih⟩
  | alt ha _ ih => simp only [groupIds, groupIdsAll_eq, List.mem_flatMap]; exact ⟨_, ha, ih⟩
  | set ha _ ih => simp only [groupIds, groupIdsAll_eq, List.mem_flatMap]; exact ⟨_, ha, ih⟩
  | look _ ih => simpa [groupIds] using ih

theorem not_capAt_of_triv {a : Ast} (hw : wf a = true) (ht : triv a = true) {r r' id : Nat} {b : Ast} :
    ¬ CapAt r a r' id b := by
  induction a using ind generalizing r with
  | neg a ih =>
    intro h; cases h with | neg h => ?_
    simp only [wf, Bool.and_eq_true, Bool.or_eq_true] at hw
    simp only [triv, Bool.not_eq_true'] at ht
    rcases hw.1 with h1 | h1
    · exact ih hw.2 h1 h
    · rw [h1] at ht; cases ht
  | seq l ih =>
    intro h; cases h with | seq ha h => ?_
    simp only [wf, wfAll_eq, Bool.and_eq_true, List.all_eq_true] at hw
    simp only [triv, trivSingle_eq, Bool.and_eq_true, List.all_eq_true] at ht
    exact ih _ ha (hw.2 _ ha) (ht.2 _ ha) h
  | alt l ih =>
    intro h; cases h with | alt ha h => ?_
    simp only [wf, wfAll_eq, Bool.and_eq_true, List.all_eq_true] at hw
    simp only [triv, trivAlt_eq, Bool.and_eq_true, List.all_eq_true] at ht
    exact ih _ ha (hw.2 _ ha) (ht.2 _ ha) h
  | rep m lo hi a ih =>
    intro h; cases h with | rep h => ?_
    simp only [triv, Bool.and_eq_true] at ht
    refine ih ?_ ht.2 h
    cases hi <;> simp only [wf, Bool.and_eq_true] at hw
    · exact hw.2
    · exact hw
  | _ => intro h; first | (simp [triv] at ht; done) | cases h

theorem capAt_le_one {E : Env} {r : Nat} {a : Ast} {r' id : Nat} {b : Ast} (hok : Ok E r a)
    (h : CapAt r a r' id b) : r' ≤ 1 := by
  induction h with
  | here => cases hok; assumption
  | cap _ ih => cases hok; exact ih ‹_›
  | neg _ ih => cases hok; exact ih ‹_›
  | rep _ ih => cases hok <;> exact ih ‹_›
  | seq ha _ ih => cases hok with | seq _ h => exact ih (h _ ha)
  | alt ha _ ih => cases hok with | alt _ h => exact ih (h _ ha)
  | ahead _ ih => cases hok; exact ih ‹_›
  | behind h ih =>
    cases hok with
    | behindTriv _ ht h' =>
      exact absurd h (not_capAt_of_triv (by rw [wf_invert]; exact wf_of_ok h') (by rw [triv_invert]; exact ht))
    | behind _ h' => exact ih h'

/-- All captured ranges lie inside of the input. -/
def InBounds (E : Env) (c : Ctx) : Prop :=
  c.length = E.names.length ∧ ∀ k b e : Nat, c[k]? = some (some (b, e)) → b ≤ e ∧ e ≤ E.inp.length

theorem InBounds.set {E : Env} {c : Ctx} (h : InBounds E c) {id b e : Nat} (hb : b ≤ e) (he : e ≤ E.inp.length) :
    InBounds E (c.set id (some (b, e))) := by
  refine ⟨by simpa using h.1, fun k b' e' hk => ?_⟩
  rw [List.getElem?_set] at hk
  split at hk
  · split at hk
    · simp only [Option.some.injEq, Prod.mk.injEq] at hk
      obtain ⟨rfl, rfl⟩ := hk
      exact ⟨hb, he⟩
    · simp at hk
  · exact h.2 _ _ _ hk

theorem getElem?_clearCapture {id k : Nat} {c : Ctx} {b e : Nat} (h : (clearCapture id c)[k]? = some (some (b, e))) :
    ∃ e', c[k]? = some (some (b, e')) ∧ (e = e' ∨ e = b) := by
  rw [clearCapture, List.getElem?_modify] at h
  match hc : c[k]? with
  | none => simp [hc] at h
  | some none => by_cases hk : id = k <;> simp [hc, Cap.clear, hk] at h
  | some (some (b', e')) =>
    by_cases hk : id = k
    · simp only [hc, hk, if_true, Cap.clear, Option.map_eq_map, Option.map_some, Option.some.injEq, Prod.mk.injEq] at h
      exact ⟨e', by rw [h.1], .inr (by omega)⟩
    · simp only [hc, hk, if_false, Option.map_eq_map, Option.map_some, Option.some.injEq, Prod.mk.injEq] at h
      exact ⟨e', by rw [h.1], .inl (by omega)⟩

theorem InBounds.clear {E : Env} {c : Ctx} (h : InBounds E c) {id : Nat} : InBounds E (clearCapture id c) := by
  refine ⟨by simpa [length_clear] using h.1, fun k b e hk => ?_⟩
  obtain ⟨e', h1, h2⟩ := getElem?_clearCapture hk
  have := h.2 _ _ _ h1
  omega

theorem capClosed_inBounds {E : Env} {r : Nat} {a : Ast} (hok : Ok E r a) : CapClosed E (InBounds E) r a := by
  intro r' id b h
  refine ⟨fun c hc => hc.clear, fun c p q hc hp ho => ?_⟩
  have hr := capAt_le_one hok h
  have := over_reach hp ho
  unfold Env.Reach at this
  split
  · exact hc.set (by omega) (by omega)
  · exact hc.set (by omega) (by omega)

theorem inBounds_init {E : Env} : InBounds E (initCtx E.names) := by
  refine ⟨by simp [initCtx], fun k b e h => ?_⟩
  simp only [initCtx, List.getElem?_map, Option.map_eq_some_iff] at h
  obtain ⟨_, _, h⟩ := h
  cases h

theorem length_init (names : List GroupName) : (initCtx names).length = names.length := by simp [initCtx]

theorem getElem?_init {names : List GroupName} {k : Nat} {g : Cap} (h : (initCtx names)[k]? = some g) : g = none := by
  simp only [initCtx, List.getElem?_map, Option.map_eq_some_iff] at h
  obtain ⟨_, _, h⟩ := h
  exact h.symm

/-- Group 0 is not touched. -/
theorem capClosed_zero {E : Env} {r : Nat} {a : Ast} (h0 : 0 ∉ groupIds a) :
    CapClosed E (fun c => c.length = E.names.length ∧ c[0]? = some none) r a := by
  intro r' id b h
  have hid : id ≠ 0 := fun e => h0 (e ▸ capAt_groupIds h)
  refine ⟨fun c hc => ⟨by simpa [length_clear] using hc.1, ?_⟩, fun c p q hc _ _ => ⟨by simpa using hc.1, ?_⟩⟩
  · rw [clearCapture, List.getElem?_modify, hc.2]; simp [hid]
  · rw [List.getElem?_set, if_neg hid]; exact hc.2

/-! ### Reading off the results of the methods -/

theorem Regex.invoke_eq {R : Regex} {M : Method} {cat : Cat} {s : List Byte} {res : Result}
    (h : R.invoke M cat s = some res) :
    ∃ q, M.invoke (R.env cat s) (fuelFor R.ast s) R.ast 0 (initCtx R.names) = .ok ⟨q, res.matched⟩ res.groups := by
  unfold Regex.invoke at h
  split at h
  · next r c hm =>
    cases h
    exact ⟨r.pos, hm⟩
  · cases h

theorem setGroup0_ok {cur : Nat} {o : Out} {q : Nat} {b : Bool} {c : Ctx} (h : setGroup0 cur o = .ok ⟨q, b⟩ c) :
    ∃ c', o = .ok ⟨q, b⟩ c' ∧ c = c'.set 0 (some (cur, q)) := by
  cases o with
  | ok r c' => simp only [setGroup0, Out.ok.injEq] at h; exact ⟨c', by rw [← h.1], by rw [← h.2, h.1]⟩
  | ub => simp [setGroup0] at h
  | diverge => simp [setGroup0] at h

theorem Regex.match_eq {R : Regex} {cat : Cat} {s : List Byte} {res : Result} (h : R.match s cat = some res) :
    ∃ q c, mtch (R.env cat s) (fuelFor R.ast s) R.ast 0 0 (initCtx R.names) (equals s.length) = .ok ⟨q, res.matched⟩ c ∧
      res.groups = c.set 0 (some (0, q)) := by
  obtain ⟨q, hq⟩ := Regex.invoke_eq h
  obtain ⟨c, h1, h2⟩ := setGroup0_ok hq
  exact ⟨q, c, h1, h2⟩

theorem Regex.matchPrefix_eq {R : Regex} {cat : Cat} {s : List Byte} {res : Result}
    (h : R.matchPrefix s cat = some res) :
    ∃ q c, mtch (R.env cat s) (fuelFor R.ast s) R.ast 0 0 (initCtx R.names) success = .ok ⟨q, res.matched⟩ c ∧
      res.groups = c.set 0 (some (0, q)) := by
  obtain ⟨q, hq⟩ := Regex.invoke_eq h
  obtain ⟨c, h1, h2⟩ := setGroup0_ok hq
  exact ⟨q, c, h1, h2⟩

theorem Regex.search_eq {R : Regex} {cat : Cat} {s : List Byte} {res : Result} (h : R.search s cat = some res) :
    ∃ q, searchLoop (R.env cat s) (fuelFor R.ast s) R.ast (s.length + 1) 0 (initCtx R.names) =
      .ok ⟨q, res.matched⟩ res.groups := by
  exact Regex.invoke_eq h

theorem Post.elim {S F : Nat → Ctx → Prop} {o : Out} (h : Post S F o) :
    (∃ q c, o = .ok ⟨q, true⟩ c ∧ S q c) ∨ (∃ q c, o = .ok ⟨q, false⟩ c ∧ F q c) := by
  match o with
  | .ok ⟨q, true⟩ c => exact .inl ⟨q, c, rfl, by simpa [Post] using h⟩
  | .ok ⟨q, false⟩ c => exact .inr ⟨q, c, rfl, by simpa [Post] using h⟩
  | .ub => exact h.elim
  | .diverge => exact h.elim

theorem Post.of_true {S F : Nat → Ctx → Prop} {q : Nat} {c : Ctx} (h : Post S F (.ok ⟨q, true⟩ c)) : S q c := by
  simpa [Post] using h

theorem Post.of_false {S F : Nat → Ctx → Prop} {q : Nat} {c : Ctx} (h : Post S F (.ok ⟨q, false⟩ c)) : F q c := by
  simpa [Post] using h

section
variable {R : Regex} {cat : Cat} {s : List Byte} {I : Ctx → Prop} (hlen : ∀ c, I c → c.length = R.names.length)
  (hR : R.Ok cat) (hcl : CapClosed (R.env cat s) I 0 R.ast) {cur : Nat} {c : Ctx} (hcur : cur ≤ s.length) (hc : I c)
include hlen hR hcl hcur hc

theorem Regex.match_post :
    Post (fun q c' => q = s.length ∧ Over (R.env cat s) R.ast 0 false cur q ∧ I c') (FailP (R.env cat s) 0 I cur)
      (mtch (R.env cat s) (fuelFor R.ast s) R.ast 0 cur c (equals s.length)) :=
  match_safe hlen (hR s) (Nat.le_refl _) hcl hcur hc

theorem Regex.prefix_post :
    Post (fun q c' => Over (R.env cat s) R.ast 0 false cur q ∧ I c') (FailP (R.env cat s) 0 I cur)
      (mtch (R.env cat s) (fuelFor R.ast s) R.ast 0 cur c success) :=
  prefix_safe hlen (hR s) (Nat.le_refl _) hcl hcur hc

theorem Regex.search_post :
    Post (fun q c' => ∃ i c'', cur ≤ i ∧ i ≤ s.length ∧ Over (R.env cat s) R.ast 0 false i q ∧ I c'' ∧
        c' = c''.set 0 (some (i, q)))
      (fun q c' => q = s.length ∧ I c')
      (searchLoop (R.env cat s) (fuelFor R.ast s) R.ast (s.length - cur + 1) cur c) :=
  search_safe hlen (hR s) (Nat.le_refl _) hcl _ cur c hcur (Nat.le_refl _) hc

end

section
variable {R : Regex} {cat : Cat} {s : List Byte} {I : Ctx → Prop} (hlen : ∀ c, I c → c.length = R.names.length)
  (hR : R.Ok cat) (hnb : noBackref R.ast = true) (hcl : CapStable (R.env cat s) I 0 R.ast) {cur : Nat} {c : Ctx}
  (hcur : cur ≤ s.length) (hc : I c)
include hlen hR hnb hcl hcur hc

theorem Regex.match_view :
    View I (mtch (R.env cat s) (fuelFor R.ast s) R.ast 0 cur c (equals s.length))
      (if s.length ∈ ends (Flags.ofList R.flags) s R.ast true false cur then some s.length else none) :=
  Mregex.match_view hlen (hR s) hnb (Nat.le_refl _) hcl hcur hc

theorem Regex.prefix_view :
    View I (mtch (R.env cat s) (fuelFor R.ast s) R.ast 0 cur c success)
      (ends (Flags.ofList R.flags) s R.ast true false cur).head? :=
  attempt_view hlen (hR s) hnb (Nat.le_refl _) hcl hcur hc

theorem Regex.search_view :
    Post (fun q c' => ∃ i c'', firstFrom (ends (Flags.ofList R.flags) s R.ast true false) (s.length - cur + 1) cur =
        some (i, q) ∧ I c'' ∧ c' = c''.set 0 (some (i, q)))
      (fun q c' => q = s.length ∧
        firstFrom (ends (Flags.ofList R.flags) s R.ast true false) (s.length - cur + 1) cur = none ∧ I c')
      (searchLoop (R.env cat s) (fuelFor R.ast s) R.ast (s.length - cur + 1) cur c) :=
  Mregex.search_view hlen (hR s) hnb (Nat.le_refl _) hcl _ cur c hcur rfl hc

end

end Mregex
