import Verif.Proof.Hat
import Verif.Proof.Sound
import Verif.Spec.Variants

/-!
# Notational variants
-/

namespace Mregex
open Ast Spec

/-! ### Classes and tests -/

theorem CharClass.triv {a : Ast} (h : CharClass a) : triv a = true := by
  induction h with
  | lit | range | wildcard | set => simp [Ast.triv]
  | neg h ih => simp [Ast.triv, isAssertion_of_triv ih]
  | one _ ih => simpa [Ast.triv, trivSingle] using ih
  | @alt l hl _ ih =>
    simp only [Ast.triv, trivAlt_eq, Bool.and_eq_true, Bool.not_eq_true', List.all_eq_true]
    exact ⟨by simpa using hl, ih⟩
  | once _ ih => simpa [Ast.triv] using ih

theorem CharClass.ok {E : Env} {r : Nat} {a : Ast} (h : CharClass a) : Ok E r a := by
  induction h with
  | lit => exact .lit
  | range h => exact .range h
  | wildcard => exact .wildcard
  | set h ih => exact .set (fun a ha => (h a ha).triv) ih
  | neg h ih => exact .neg (.inl h.triv) ih
  | one _ ih => exact .seq (by simp) (fun a ha => by cases List.mem_singleton.1 ha; exact ih)
  | alt hl _ ih => exact .alt hl ih
  | once _ ih => exact .repFin (Nat.le_refl _) ih

theorem charClass_of_ok {E : Env} {r : Nat} {a : Ast} (hok : Ok E r a) (ht : triv a = true) : CharClass a := by
  induction a using ind generalizing r with
  | lit x => exact .lit x
  | range x y => cases hok with | range h => exact .range h
  | wildcard => exact .wildcard
  | set l ih => cases hok with | set h1 h2 => exact .set (fun a ha => ih a ha (h2 a ha) (h1 a ha))
  | neg a ih =>
    cases hok with
    | neg h1 h2 =>
      have ha : isAssertion a = false := by simpa [triv] using ht
      exact .neg (ih h2 (by simpa [ha] using h1))
  | seq l ih =>
    cases hok with
    | seq hl h =>
      simp only [triv, trivSingle_eq, Bool.and_eq_true, beq_iff_eq] at ht
      match l, ht with
      | [a], ht => exact .one (ih a (by simp) (h a (by simp)) (by simpa using ht.2))
  | alt l ih =>
    cases hok with
    | alt hl h =>
      simp only [triv, trivAlt_eq, Bool.and_eq_true, List.all_eq_true] at ht
      exact .alt hl (fun a ha => ih a ha (h a ha) (ht.2 a ha))
  | rep m lo hi a ih =>
    simp only [triv, Bool.and_eq_true, beq_iff_eq] at ht
    obtain ⟨⟨rfl, rfl⟩, ht⟩ := ht
    exact .once (ih (body_of_ok hok) ht)
  | _ => simp [triv] at ht

theorem CharClass.invert {a : Ast} (h : CharClass a) : CharClass (invert a) := by
  induction h with
  | lit x => exact .lit x
  | range h => exact .range h
  | wildcard => exact .wildcard
  | set h ih =>
    simp only [Ast.invert, invertAll_eq]
    exact .set (fun a ha => by obtain ⟨b, hb, rfl⟩ := List.mem_map.1 ha; exact ih b hb)
  | neg h ih => exact .neg ih
  | one _ ih => exact .one ih
  | alt hl _ ih =>
    simp only [Ast.invert, invertAll_eq]
    exact .alt (by simpa using hl) (fun a ha => by obtain ⟨b, hb, rfl⟩ := List.mem_map.1 ha; exact ih b hb)
  | once _ ih => exact .once ih

theorem charClass_invert {a : Ast} : CharClass (invert a) ↔ CharClass a :=
  ⟨fun h => by have := h.invert; rwa [invert_invert] at this, CharClass.invert⟩

theorem CharClass.one_iff {f : Flags} {a : Ast} (h : CharClass a) (x : Byte) : Matches f [x] a 0 1 ↔ matchOne f a x = true := by
  rw [matches_triv (wf_of_ok (E := ⟨[], f, .forward, []⟩) (r := 0) h.ok) h.triv, matchOne_eq_accepts]
  simp [CharAt]

theorem Anchor.invert {a : Ast} (h : Anchor a) : invert a = a := by cases h <;> rfl

theorem Anchor.asrt {a : Ast} (h : Anchor a) : isAssertion a = true := by cases h <;> rfl

theorem Test.asrt {a : Ast} (h : Test a) : isAssertion a = true := by
  induction h with
  | anchor h => exact h.asrt
  | look => rfl
  | neg _ ih => exact ih
  | one _ ih => exact ih
  | branch _ ih => exact ih
  | once hm _ ih => simpa [isAssertion, hm] using ih

theorem test_iff {a : Ast} : Test a ↔ isAssertion a = true := by
  refine ⟨Test.asrt, fun h => ?_⟩
  induction a using ind with
  | bol => exact .anchor .bol
  | boi => exact .anchor .boi
  | eol => exact .anchor .eol
  | eoi => exact .anchor .eoi
  | wordB => exact .anchor .wordB
  | look d a => exact .look d a
  | neg a ih => exact .neg (ih h)
  | seq l ih =>
    match l, h with
    | [a], h => exact .one (ih a (by simp) h)
  | alt l ih =>
    match l, h with
    | [a], h => exact .branch (ih a (by simp) h)
  | rep m lo hi a ih =>
    simp only [isAssertion, Bool.and_eq_true, beq_iff_eq, bne_iff_ne, ne_eq] at h
    obtain ⟨⟨⟨hm, rfl⟩, rfl⟩, h⟩ := h
    exact .once hm (ih h)
  | _ => simp [isAssertion] at h

theorem triv_of_asrt {a : Ast} (h : isAssertion a = true) : triv a = false := by
  cases ht : triv a with
  | false => rfl
  | true => rw [isAssertion_of_triv ht] at h; cases h

theorem zlm_of_asrt {a : Ast} (h : isAssertion a = true) : zlm a = true := by
  induction a using ind with
  | neg a ih => exact h
  | seq l ih =>
    match l, h with
    | [a], h => simp [zlm, zlmAll, ih a (by simp) h]
  | alt l ih =>
    match l, h with
    | [a], h => simp [zlm, zlmAny, ih a (by simp) h]
  | rep m lo hi a ih =>
    simp only [isAssertion, Bool.and_eq_true] at h
    simp [zlm, ih h.2]
  | bol | boi | eol | eoi | wordB | look => rfl
  | _ => simp [isAssertion] at h

theorem lookMatch_lookMatch (m : Matcher) : lookMatch (lookMatch m) = lookMatch m := by
  funext p c k
  unfold lookMatch
  match m p c success with
  | .ok ⟨_, true⟩ _ | .ok ⟨_, false⟩ _ | .ub | .diverge => rfl

theorem lookMatch_neg (m : Matcher) : lookMatch (negAssertMatch m) = negAssertMatch m := by
  funext p c k
  unfold lookMatch negAssertMatch
  match m p c success with
  | .ok ⟨_, true⟩ _ | .ok ⟨_, false⟩ _ | .ub | .diverge => rfl

theorem neg_neg_match (m : Matcher) : negAssertMatch (negAssertMatch m) = lookMatch m := by
  funext p c k
  unfold lookMatch negAssertMatch
  match m p c success with
  | .ok ⟨_, true⟩ _ | .ok ⟨_, false⟩ _ | .ub | .diverge => rfl

theorem lookMatch_assert (pred : Nat → Option Bool) : lookMatch (assertMatch pred) = assertMatch pred := by
  funext p c k
  unfold lookMatch assertMatch
  match pred p with
  | none | some true | some false => rfl

/-- A test does not move. -/
theorem lookMatch_test {E : Env} {a : Ast} (h : isAssertion a = true) (fuel r : Nat) : lookMatch (mtch E fuel a r) = mtch E fuel a r := by
  induction a using ind generalizing fuel with
  | bol | boi | eol | eoi | wordB => cases fuel <;> first | rfl | exact lookMatch_assert _
  | look d a =>
    cases fuel with
    | zero => rfl
    | succ k =>
      cases d <;> simp only [mtch]
      · split
        · exact lookMatch_assert _
        · exact lookMatch_lookMatch _
      · split
        · exact lookMatch_assert _
        · split
          · rfl
          · exact lookMatch_lookMatch _
  | neg a ih =>
    cases fuel with
    | zero => rfl
    | succ k =>
      simp only [mtch]
      rw [if_pos (show isAssertion a = true from h)]
      exact lookMatch_neg _
  | seq l ih =>
    match l, h with
    | [a], h =>
      cases fuel with
      | zero => rfl
      | succ k => exact ih a (by simp) h k
  | alt l ih =>
    match l, h with
    | [a], h =>
      cases fuel with
      | zero => rfl
      | succ k => exact ih a (by simp) h k
  | rep m lo hi a ih =>
    simp only [isAssertion, Bool.and_eq_true, beq_iff_eq, bne_iff_ne, ne_eq] at h
    obtain ⟨⟨⟨hm, rfl⟩, rfl⟩, h⟩ := h
    cases fuel with
    | zero => rfl
    | succ k =>
      simp only [mtch, repMatch, fixedMatch, if_true, hm, false_and, if_false, Nat.one_ne_zero]
      exact ih h k
  | _ => simp [isAssertion] at h

/-! ### Twins -/

/-- What the surrounding expression needs to know to exchange `a` and `b`. -/
structure Facts (E : Env) (r : Nat) (a b : Ast) : Prop where
  zlm : zlm a = zlm b
  triv : triv a = triv b
  asrt : isAssertion a = isAssertion b
  one : Ast.triv a = true → ∀ x, matchOne E.flags a x = matchOne E.flags b x
  sim : MSim E.inp.length (H E r a) (H E r b)

def Twin (E : Env) (a b : Ast) : Prop := ∀ r, (Ok E r a ↔ Ok E r b) ∧ (Ok E r a → Facts E r a b)

section
variable {E : Env}

theorem Twin.refl (a : Ast) : Twin E a a := fun _ => ⟨Iff.rfl, fun h => ⟨rfl, rfl, rfl, fun _ _ => rfl, H_self h⟩⟩

theorem Facts.symm {r : Nat} {a b : Ast} (h : Facts E r a b) : Facts E r b a :=
  ⟨h.zlm.symm, h.triv.symm, h.asrt.symm, fun ht x => (h.one (h.triv.trans ht) x).symm, h.sim.symm⟩

theorem Twin.symm {a b : Ast} (h : Twin E a b) : Twin E b a :=
  fun r => ⟨(h r).1.symm, fun hb => ((h r).2 ((h r).1.2 hb)).symm⟩

theorem Twin.trans {a b c : Ast} (h : Twin E a b) (h' : Twin E b c) : Twin E a c :=
  fun r => ⟨(h r).1.trans (h' r).1, fun ha => by
    have f := (h r).2 ha
    have f' := (h' r).2 ((h r).1.1 ha)
    exact ⟨f.zlm.trans f'.zlm, f.triv.trans f'.triv, f.asrt.trans f'.asrt,
      fun ht x => (f.one ht x).trans (f'.one (f.triv.symm.trans ht) x), f.sim.trans f'.sim⟩⟩

theorem trivMatch_one {r : Nat} {a b : Ast} (h : ∀ x, matchOne E.flags a x = matchOne E.flags b x) : trivMatch E r a = trivMatch E r b := by
  funext p c k
  unfold trivMatch
  simp only [h]

theorem twin_class {a b : Ast} (ha : CharClass a) (hb : CharClass b) (h : ∀ x, Matches E.flags [x] a 0 1 ↔ Matches E.flags [x] b 0 1) :
    Twin E a b := by
  intro r
  have h1 : ∀ x, matchOne E.flags a x = matchOne E.flags b x := by
    intro x
    have := h x
    rw [ha.one_iff, hb.one_iff] at this
    exact Bool.eq_iff_iff.2 this
  refine ⟨⟨fun _ => hb.ok, fun _ => ha.ok⟩, fun hok => ⟨?_, ?_, ?_, fun _ => h1, ?_⟩⟩
  · rw [zlm_of_triv ha.triv, zlm_of_triv hb.triv]
  · rw [ha.triv, hb.triv]
  · rw [isAssertion_of_triv ha.triv, isAssertion_of_triv hb.triv]
  · rw [H_triv ha.triv, H_triv hb.triv, trivMatch_one h1]
    exact msim_hat (msim_triv (cat' := E.cat) r b)

theorem msim_chain_append {n : Nat} {l l' m m' : List Matcher} (h : MSim n (chain l) (chain m)) (h' : MSim n (chain l') (chain m')) :
    MSim n (chain (l ++ l')) (chain (m ++ m')) := by
  intro p c k k' hp hk
  rw [chain_append, chain_append]
  exact h.comp h' p c k k' hp hk

theorem all_mid {P : Ast → Prop} {pre post : List Ast} {a : Ast} :
    (∀ x ∈ pre ++ a :: post, P x) ↔ (∀ x ∈ pre, P x) ∧ P a ∧ ∀ x ∈ post, P x := by
  simp only [List.mem_append, List.mem_cons]
  constructor
  · exact fun h => ⟨fun x hx => h x (.inl hx), h a (.inr (.inl rfl)), fun x hx => h x (.inr (.inr hx))⟩
  · rintro ⟨h1, h2, h3⟩ x (hx | rfl | hx)
    · exact h1 x hx
    · exact h2
    · exact h3 x hx

theorem ok_seq {r : Nat} {l : List Ast} : Ok E r (.seq l) ↔ l ≠ [] ∧ ∀ a ∈ l, Ok E r a :=
  ⟨fun h => by cases h with | seq h1 h2 => exact ⟨h1, h2⟩, fun h => .seq h.1 h.2⟩

theorem ok_alt {r : Nat} {l : List Ast} : Ok E r (.alt l) ↔ l ≠ [] ∧ ∀ a ∈ l, Ok E r a :=
  ⟨fun h => by cases h with | alt h1 h2 => exact ⟨h1, h2⟩, fun h => .alt h.1 h.2⟩

theorem ok_rep {r : Nat} {m : Mode} {lo : Nat} {hi : Bound} {a : Ast} :
    Ok E r (.rep m lo hi a) ↔ (∀ h, hi = .fin h → lo ≤ h) ∧ Ok E r a := by
  refine ⟨fun h => ⟨lo_le_of_ok h, body_of_ok h⟩, fun h => ?_⟩
  cases hi with
  | fin n => exact .repFin (h.1 n rfl) h.2
  | inf => exact .repInf h.2

theorem isAssertion_seq (l : List Ast) : isAssertion (.seq l) = (l.length == 1 && l.all isAssertion) := by
  match l with
  | [] | [_] | _ :: _ :: _ => simp [isAssertion]

theorem isAssertion_alt (l : List Ast) : isAssertion (.alt l) = (l.length == 1 && l.all isAssertion) := by
  match l with
  | [] | [_] | _ :: _ :: _ => simp [isAssertion]

theorem msim_chain_mid {r : Nat} {pre post : List Ast} {m m' : Matcher} (h : MSim E.inp.length m m') (h1 : ∀ x ∈ pre, Ok E r x)
    (h2 : ∀ x ∈ post, Ok E r x) :
    MSim E.inp.length (chain (pre.map (H E r) ++ m :: post.map (H E r))) (chain (pre.map (H E r) ++ m' :: post.map (H E r))) :=
  msim_chain_append (msim_chain pre (fun x hx => H_self (h1 x hx)))
    (h.comp (msim_chain post (fun x hx => H_self (h2 x hx))))

theorem twin_seq {a b : Ast} (pre post : List Ast) (h : Twin E a b) : Twin E (.seq (pre ++ a :: post)) (.seq (pre ++ b :: post)) := by
  intro r
  refine ⟨by rw [ok_seq, ok_seq, all_mid, all_mid, (h r).1]; simp, fun hok => ?_⟩
  obtain ⟨_, hok⟩ := ok_seq.1 hok
  obtain ⟨h1, h2, h3⟩ := all_mid.1 hok
  have f := (h r).2 h2
  have hok' : ∀ x ∈ pre ++ b :: post, Ok E r x := all_mid.2 ⟨h1, (h r).1.1 h2, h3⟩
  have hz : zlm (.seq (pre ++ a :: post)) = zlm (.seq (pre ++ b :: post)) := by
    simp [zlm, zlmAll_eq, f.zlm]
  refine ⟨hz, by simp [triv, trivSingle_eq, f.triv], by simp [isAssertion_seq, f.asrt], ?_, ?_⟩
  · intro ht x
    simp only [triv, trivSingle_eq, Bool.and_eq_true, beq_iff_eq, List.length_append, List.length_cons] at ht
    have e1 : pre = [] := List.eq_nil_of_length_eq_zero (by omega)
    have e2 : post = [] := List.eq_nil_of_length_eq_zero (by omega)
    subst e1 e2
    simp only [List.nil_append, matchOne, matchSingle]
    exact f.one (by simpa using ht.2) x
  · refine (H_seq (by simp) hok).trans (MSim.trans ?_ (H_seq (by simp) hok').symm)
    rw [hz]
    refine msim_hat ?_
    rw [List.map_append, List.map_append, List.map_cons, List.map_cons]
    exact msim_chain_mid f.sim h1 h3

theorem twin_alt {a b : Ast} (pre post : List Ast) (h : Twin E a b) : Twin E (.alt (pre ++ a :: post)) (.alt (pre ++ b :: post)) := by
  intro r
  refine ⟨by rw [ok_alt, ok_alt, all_mid, all_mid, (h r).1]; simp, fun hok => ?_⟩
  obtain ⟨_, hok⟩ := ok_alt.1 hok
  obtain ⟨h1, h2, h3⟩ := all_mid.1 hok
  have f := (h r).2 h2
  have hok' : ∀ x ∈ pre ++ b :: post, Ok E r x := all_mid.2 ⟨h1, (h r).1.1 h2, h3⟩
  have hz : zlm (.alt (pre ++ a :: post)) = zlm (.alt (pre ++ b :: post)) := by
    simp [zlm, zlmAny_eq, f.zlm]
  refine ⟨hz, by simp only [triv, trivAlt_eq, List.all_append, List.all_cons, f.triv]; cases pre <;> rfl,
    by simp [isAssertion_alt, f.asrt], ?_, ?_⟩
  · intro ht x
    simp only [triv, trivAlt_eq, List.all_append, List.all_cons, Bool.and_eq_true] at ht
    simp only [matchOne, matchAny_eq, List.any_append, List.any_cons, f.one ht.2.2.1 x]
  · refine (H_alt (by simp) hok).trans (MSim.trans ?_ (H_alt (by simp) hok').symm)
    rw [hz]
    refine msim_hat (msim_alts pre post f.triv f.one ?_ f.sim)
    rintro x (hx | hx)
    · exact H_self (h1 x hx)
    · exact H_self (h3 x hx)

theorem twin_cap {a b : Ast} (id : Nat) (name : GroupName) (h : Twin E a b) : Twin E (.cap id name a) (.cap id name b) := by
  intro r
  have hiff : Ok E r (.cap id name a) ↔ Ok E r (.cap id name b) := by
    constructor <;> intro hok
    · cases hok with | cap h1 h2 h3 => exact .cap h1 h2 ((h r).1.1 h3)
    · cases hok with | cap h1 h2 h3 => exact .cap h1 h2 ((h r).1.2 h3)
  refine ⟨hiff, fun hok => ?_⟩
  have hb := H_cap (hiff.1 hok)
  have ha := H_cap hok
  cases hok with
  | cap h1 h2 h3 =>
    have f := (h r).2 h3
    refine ⟨by simp only [zlm, f.zlm], rfl, rfl, fun ht => by simp [triv] at ht, ha.trans (MSim.trans ?_ hb.symm)⟩
    rw [f.zlm]
    exact msim_hat (msim_capMatch (cat' := E.cat) r id name f.sim)

theorem fixedTriv_one {r : Nat} {a b : Ast} (h : ∀ x, matchOne E.flags a x = matchOne E.flags b x) (N : Nat) :
    fixedTriv E r a N = fixedTriv E r b N := by
  have : ∀ N p, runTriv E r (List.replicate N a) p = runTriv E r (List.replicate N b) p := by
    intro N
    induction N with
    | zero => exact fun _ => rfl
    | succ N ih => intro p; simp only [List.replicate_succ, runTriv, h, ih]
  funext p c k
  unfold fixedTriv
  rw [this]

theorem possTriv_one {r : Nat} {a b : Ast} (h : ∀ x, matchOne E.flags a x = matchOne E.flags b x) (inf : Bool) (n : Nat) :
    possTriv E r a inf n = possTriv E r b inf n := by
  induction n with
  | zero => rfl
  | succ n ih => funext p c cont; simp only [possTriv, h, ih]

theorem lazyTriv_one {r : Nat} {a b : Ast} (h : ∀ x, matchOne E.flags a x = matchOne E.flags b x) (inf : Bool) (n : Nat) :
    lazyTriv E r a inf n = lazyTriv E r b inf n := by
  induction n with
  | zero => rfl
  | succ n ih => funext p c cont; simp only [lazyTriv, h, ih]

/-- A repetition depends on the traits, the one-character test and the matcher of its body. -/
theorem repMatch_facts {r : Nat} {a b : Ast} (f : Facts E r a b) (F : Nat) (mode : Mode) (lo : Nat) (hi : Bound) (m : Matcher) :
    repMatch E r F mode lo hi a m = repMatch E r F mode lo hi b m := by
  have hfix : ∀ N, fixedMatch E r mode a m N = fixedMatch E r mode b m N := by
    intro N
    unfold fixedMatch fixedBacktracking
    rw [f.triv]
    cases ht : triv b with
    | false => rfl
    | true => rw [fixedTriv_one (f.one (f.triv.trans ht))]
  have hbet : ∀ inf k, betweenBounds E r mode a m inf k = betweenBounds E r mode b m inf k := by
    intro inf k
    unfold betweenBounds
    rw [f.triv, f.zlm]
    cases ht : triv b with
    | false => rfl
    | true =>
      have h1 := f.one (f.triv.trans ht)
      have hg : greedyTriv E r a inf k = greedyTriv E r b inf k := by
        funext p c cont; simp only [greedyTriv, possTriv_one h1]
      rw [possTriv_one h1, lazyTriv_one h1, hg]
  unfold repMatch
  cases hi <;> simp only [hfix, hbet]

theorem twin_rep {a b : Ast} (m : Mode) (lo : Nat) (hi : Bound) (h : Twin E a b) : Twin E (.rep m lo hi a) (.rep m lo hi b) := by
  intro r
  have hiff : Ok E r (.rep m lo hi a) ↔ Ok E r (.rep m lo hi b) := by rw [ok_rep, ok_rep, (h r).1]
  refine ⟨hiff, fun hok => ?_⟩
  have hok' := hiff.1 hok
  have f := (h r).2 (body_of_ok hok)
  have hz : zlm (.rep m lo hi a) = zlm (.rep m lo hi b) := by simp only [zlm, f.zlm]
  refine ⟨hz, by simp only [triv, f.triv], by simp only [isAssertion, f.asrt], ?_, ?_⟩
  · intro ht x
    simp only [triv, Bool.and_eq_true] at ht
    simp only [matchOne, f.one ht.2 x]
  · obtain ⟨F, hF⟩ : ∃ F, F = max a.depth b.depth + E.inp.length + 1 := ⟨_, rfl⟩
    cases ht : triv a with
    | false =>
      refine (H_rep hok ht (F := F) (by omega)).trans (MSim.trans ?_ (H_rep hok' (f.triv.symm.trans ht) (F := F) (by omega)).symm)
      rw [hz, ← repMatch_facts f]
      exact msim_hat (msim_repMatch (cat' := E.cat) r F m lo hi a f.sim (fun h => by rw [ht] at h; cases h))
    | true =>
      refine (H_fuel hok (fuel := F + 1) (by simp only [depth]; omega)).trans
        (MSim.trans ?_ (H_fuel hok' (fuel := F + 1) (by simp only [depth]; omega)).symm)
      have hm := msim_self hok' (fuel := F + 1) (by simp only [depth]; omega)
      rw [hz]
      refine msim_hat ?_
      simp only [mtch] at hm ⊢
      rw [mtch_triv ht (by omega), repMatch_facts f, trivMatch_one (f.one ht), ← mtch_triv (f.triv.symm.trans ht) (fuel := F) (by omega)]
      exact hm

theorem twin_ahead {a b : Ast} (h : Twin E a b) : Twin E (.look .ahead a) (.look .ahead b) := by
  intro r
  have hiff : Ok E r (.look .ahead a) ↔ Ok E r (.look .ahead b) := by
    constructor <;> intro hok
    · cases hok with | ahead h1 => exact .ahead ((h r).1.1 h1)
    · cases hok with | ahead h1 => exact .ahead ((h r).1.2 h1)
  refine ⟨hiff, fun hok => ?_⟩
  have hok' := hiff.1 hok
  cases hok with
  | ahead h1 =>
    have f := (h r).2 h1
    refine ⟨rfl, rfl, rfl, fun ht => by simp [triv] at ht, ?_⟩
    cases ht : triv a with
    | false =>
      exact (H_ahead h1 ht).trans ((msim_hat (msim_look f.sim)).trans (H_ahead ((h r).1.1 h1) (f.triv.symm.trans ht)).symm)
    | true =>
      have hp : lookaheadTrivPred E r a = lookaheadTrivPred E r b := by
        funext p; unfold lookaheadTrivPred; simp only [show matchOne E.flags a = matchOne E.flags b from funext (f.one ht)]
      have hs := H_self hok'
      have : H E r (.look .ahead a) = H E r (.look .ahead b) := by
        unfold H
        simp only [mtch, depth, ht, f.triv.symm.trans ht, if_true, hp, zlm]
      rw [this]
      exact hs

theorem twin_ok_behind {r : Nat} {a : Ast} : Ok E r (.look .behind a) ↔ E.cat ≠ .forward ∧ (CharClass a ∨ Ok E (r + 1) (invert a)) := by
  constructor
  · intro h
    cases h with
    | behindTriv h1 h2 h3 => exact ⟨h1, .inl (charClass_of_ok h3 h2)⟩
    | behind h1 h2 => exact ⟨h1, .inr h2⟩
  · rintro ⟨h1, h | h⟩
    · exact .behindTriv h1 h.triv h.ok
    · exact .behind h1 h

theorem twin_ok_behind' {r : Nat} {a : Ast} : Ok E r (.look .behind a) ↔ E.cat ≠ .forward ∧ Ok E (r + 1) (invert a) := by
  rw [twin_ok_behind]
  refine and_congr_right fun _ => ⟨?_, .inr⟩
  rintro (h | h)
  · exact h.invert.ok
  · exact h

theorem twin_behind {a b : Ast} (h : Twin E (invert a) (invert b)) : Twin E (.look .behind a) (.look .behind b) := by
  intro r
  have hiff : Ok E r (.look .behind a) ↔ Ok E r (.look .behind b) := by
    rw [twin_ok_behind', twin_ok_behind', (h (r + 1)).1]
  refine ⟨hiff, fun hok => ?_⟩
  have hok' := hiff.1 hok
  obtain ⟨hc, h1⟩ := twin_ok_behind'.1 hok
  have f := (h (r + 1)).2 h1
  have ft : triv a = triv b := by have := f.triv; rwa [triv_invert, triv_invert] at this
  refine ⟨rfl, rfl, rfl, fun ht => by simp [triv] at ht, ?_⟩
  cases ht : triv a with
  | false =>
    exact (H_behind hc h1 ht).trans ((msim_hat (msim_look f.sim)).trans
      (H_behind hc ((h (r + 1)).1.1 h1) (ft.symm.trans ht)).symm)
  | true =>
    have h1 : ∀ x, matchOne E.flags a x = matchOne E.flags b x := fun x => by
      have := f.one (by rw [triv_invert]; exact ht) x
      rwa [matchOne_invert, matchOne_invert] at this
    have hp : lookbehindTrivPred E r a = lookbehindTrivPred E r b := by
      funext p; unfold lookbehindTrivPred; simp only [show matchOne E.flags a = matchOne E.flags b from funext h1]
    have hs := H_self hok'
    have : H E r (.look .behind a) = H E r (.look .behind b) := by
      unfold H
      simp only [mtch, depth, ht, ft.symm.trans ht, if_true, hp, zlm]
    rw [this]
    exact hs

theorem ok_neg {r : Nat} {a : Ast} : Ok E r (.neg a) ↔ (triv a = true ∨ isAssertion a = true) ∧ Ok E r a :=
  ⟨fun h => by cases h with | neg h1 h2 => exact ⟨h1, h2⟩, fun h => .neg h.1 h.2⟩

theorem twin_neg {a b : Ast} (ha : isAssertion a = true) (h : Twin E a b) : Twin E (.neg a) (.neg b) := by
  intro r
  have hiff : Ok E r (.neg a) ↔ Ok E r (.neg b) := by
    rw [ok_neg, ok_neg]
    constructor
    · rintro ⟨h1, h2⟩
      have f := (h r).2 h2
      exact ⟨by rwa [← f.triv, ← f.asrt], (h r).1.1 h2⟩
    · rintro ⟨h1, h2⟩
      have f := (h r).2 ((h r).1.2 h2)
      exact ⟨by rwa [f.triv, f.asrt], (h r).1.2 h2⟩
  refine ⟨hiff, fun hok => ?_⟩
  obtain ⟨_, h2⟩ := ok_neg.1 hok
  have f := (h r).2 h2
  refine ⟨by simp only [zlm, f.asrt], by simp only [triv, f.asrt], by simp only [isAssertion, f.asrt],
    fun ht => by simp [triv, ha] at ht, ?_⟩
  exact (H_neg h2 ha).trans ((msim_hat (msim_negAssert f.sim)).trans (H_neg ((h r).1.1 h2) (f.asrt.symm.trans ha)).symm)

/-! ### Laws -/

/-- Nodes that are given the matcher of their only child. -/
theorem twin_of_mtch {a b : Ast} (hok : ∀ r, Ok E r a ↔ Ok E r b) (hz : zlm a = zlm b) (ht : triv a = triv b)
    (ha : isAssertion a = isAssertion b) (h1 : triv a = true → ∀ x, matchOne E.flags a x = matchOne E.flags b x)
    (hm : ∀ F r, Ok E r b → b.depth + E.inp.length + 1 ≤ F → mtch E (F + 1) a r = mtch E F b r) : Twin E a b := by
  intro r
  refine ⟨hok r, fun h => ⟨hz, ht, ha, h1, ?_⟩⟩
  have hb := (hok r).1 h
  obtain ⟨F, hF⟩ : ∃ F, F = max a.depth b.depth + E.inp.length + 1 := ⟨_, rfl⟩
  refine (H_fuel h (fuel := F + 1) (by omega)).trans (MSim.trans ?_ (H_fuel hb (fuel := F) (by omega)).symm)
  rw [hm F r hb (by omega), hz]
  exact msim_hat (msim_self hb (by omega))

theorem twin_one (a : Ast) : Twin E (.seq [a]) a := by
  refine twin_of_mtch (fun r => ?_) ?_ ?_ rfl (fun _ _ => rfl) (fun _ _ _ _ => rfl)
  · rw [ok_seq]; simp
  · simp [zlm, zlmAll]
  · simp [triv, trivSingle]

theorem twin_branch (a : Ast) : Twin E (.alt [a]) a := by
  refine twin_of_mtch (fun r => ?_) ?_ ?_ rfl (fun _ _ => ?_) (fun _ _ _ _ => rfl)
  · rw [ok_alt]; simp
  · simp [zlm, zlmAny]
  · simp [triv, trivAlt]
  · simp [matchOne, matchAny]

theorem twin_once {m : Mode} (hm : m ≠ .possessive) (a : Ast) : Twin E (.rep m 1 (.fin 1) a) a := by
  refine twin_of_mtch (fun r => ?_) ?_ ?_ ?_ (fun _ _ => ?_) (fun F r _ _ => ?_)
  · rw [ok_rep]; simp
  · simp [zlm]
  · simp [triv]
  · simp [isAssertion, hm]
  · simp [matchOne]
  · simp only [mtch, repMatch, fixedMatch, if_true, hm, false_and, if_false, Nat.one_ne_zero]

theorem twin_exactly (n : Nat) (a : Ast) : Twin E (.rep .lazy n (.fin n) a) (.rep .greedy n (.fin n) a) := by
  intro r
  have hiff : Ok E r (.rep .lazy n (.fin n) a) ↔ Ok E r (.rep .greedy n (.fin n) a) := by rw [ok_rep, ok_rep]
  refine ⟨hiff, fun hok => ⟨rfl, by simp [triv], rfl, fun _ _ => rfl, ?_⟩⟩
  have hs := H_self hok
  have : H E r (.rep .lazy n (.fin n) a) = H E r (.rep .greedy n (.fin n) a) := by
    unfold H
    simp only [mtch, depth, repMatch, fixedMatch, if_true, zlm, reduceCtorEq, false_and, if_false]
  rw [← this]
  exact hs

theorem twin_test {a : Ast} (ha : isAssertion a = true) : Twin E (.look .ahead a) a := by
  refine twin_of_mtch (fun r => ?_) ?_ ?_ ?_ ?_ (fun F r _ _ => ?_)
  · exact ⟨fun h => by cases h with | ahead h => exact h, .ahead⟩
  · simp [zlm, zlm_of_asrt ha]
  · simp [triv, triv_of_asrt ha]
  · simp [isAssertion, ha]
  · intro h; simp [triv] at h
  · simp only [mtch, triv_of_asrt ha, Bool.false_eq_true, if_false]
    exact lookMatch_test ha F r

theorem twin_doubleNeg {a : Ast} (ha : isAssertion a = true) : Twin E (.neg (.neg a)) a := by
  refine Twin.trans ?_ (twin_test ha)
  intro r
  have hiff : Ok E r (.neg (.neg a)) ↔ Ok E r (.look .ahead a) := by
    rw [ok_neg, ok_neg]
    constructor
    · exact fun h => .ahead h.2.2
    · intro h; cases h with | ahead h => exact ⟨.inr ha, .inr ha, h⟩
  refine ⟨hiff, fun hok => ⟨by simp [zlm, isAssertion, ha], by simp [triv, isAssertion, ha], by simp [isAssertion, ha],
    fun ht => by simp [triv, isAssertion, ha] at ht, ?_⟩⟩
  have hok' := hiff.1 hok
  cases hok' with
  | ahead h =>
    obtain ⟨F, hF⟩ : ∃ F, F = a.depth + E.inp.length + 1 := ⟨_, rfl⟩
    refine (H_fuel hok (fuel := F + 1 + 1) (by simp only [depth]; omega)).trans
      (MSim.trans ?_ (H_fuel (.ahead h) (fuel := F + 1) (by simp only [depth]; omega)).symm)
    have hm := msim_self (E := E) (r := r) (a := .look .ahead a) (.ahead h) (fuel := F + 1) (by simp only [depth]; omega)
    have hz : zlm (.neg (.neg a)) = zlm (.look .ahead a) := by simp [zlm, isAssertion, ha]
    rw [hz]
    refine msim_hat ?_
    simp only [mtch, triv_of_asrt ha, ha, isAssertion, if_true, Bool.false_eq_true, if_false, neg_neg_match] at hm ⊢
    exact hm

/-- A part that behaves like some parts in a row. -/
theorem msim_splice {r : Nat} {pre l post : List Ast} {x : Ast} (hx : Ok E r x) (hz : zlm x = l.all zlm)
    (h : MSim E.inp.length (H E r x) (hat E r (zlm x) (chain (l.map (H E r))))) (h1 : ∀ y ∈ pre, Ok E r y) (h2 : ∀ y ∈ l, Ok E r y)
    (h3 : ∀ y ∈ post, Ok E r y) (hne : pre ++ l ++ post ≠ []) :
    MSim E.inp.length (H E r (.seq (pre ++ x :: post))) (H E r (.seq (pre ++ l ++ post))) := by
  have hok : ∀ y ∈ pre ++ x :: post, Ok E r y := all_mid.2 ⟨h1, hx, h3⟩
  have hok' : ∀ y ∈ pre ++ l ++ post, Ok E r y := by
    simp only [List.mem_append]
    rintro y ((hy | hy) | hy)
    · exact h1 y hy
    · exact h2 y hy
    · exact h3 y hy
  have hza : zlm (.seq (pre ++ x :: post)) = (pre ++ l ++ post).all zlm := by
    simp [zlm, zlmAll_eq, hz]
  have hzb : zlm (.seq (pre ++ l ++ post)) = (pre ++ l ++ post).all zlm := by simp only [zlm, zlmAll_eq]
  refine (H_seq (by simp) hok).trans (MSim.trans ?_ (H_seq hne hok').symm)
  rw [hza, hzb, List.map_append, List.map_cons]
  refine (msim_hat (msim_chain_mid h h1 h3)).trans ?_
  have e : chain ((pre ++ l ++ post).map (H E r)) =
      chain (pre.map (H E r) ++ chain (l.map (H E r)) :: post.map (H E r)) := by
    funext p c k
    simp only [List.map_append, chain_append, chain]
  rw [e]
  have hc : ∀ l : List Ast, Matcher.Le (chain (l.map (H E r))) (chain (l.map (H E r))) :=
    fun l => chain_le l (fun a _ => H_mono a)
  refine hat_sim ?_ ?_ ?_
  · intro p c k k' hk
    simp only [chain_append, chain]
    exact hc pre p c _ _ (fun q c' => hat_le (hc l) q c' _ _ (fun q' c'' => hc post q' c'' _ _ hk))
  · have h1' := safe_chain (E := E) (r := r) (l := pre) (fun x hx => H_safe (h1 x hx))
    have h2' : Safe E r (LenI E) (hat E r (zlm x) (chain (l.map (H E r)))) (RZ E r (zlm x)) := by
      rw [hz]
      exact hat_safe (safe_chain (E := E) (r := r) (l := l) (fun x hx => H_safe (h2 x hx)))
    have h3' := safe_chain (E := E) (r := r) (l := post) (fun x hx => H_safe (h3 x hx))
    have := (h1'.comp (h2'.comp h3' (fun p q _ h => h.1)) (fun p q _ h => h.1)).mono
      (R' := RZ E r ((pre ++ l ++ post).all zlm)) (by
        rintro p q _ ⟨t, ht, u, hu, hq⟩
        refine (ht.comp (hu.comp hq)).weaken (fun h => ?_)
        simpa [hz, and_assoc] using h)
    intro p0 p c cont S hp hc hcont
    simp only [chain_append, chain]
    exact this p0 p c cont S hp hc hcont
  · exact msim_chain_mid h.right h1 h3

/-- Sequences of two and more parts have no traits. -/
theorem seq_traits {l : List Ast} (h : 2 ≤ l.length) : triv (.seq l) = false ∧ isAssertion (.seq l) = false := by
  have n1 : ¬ l.length = 1 := by omega
  simp only [triv, trivSingle_eq, isAssertion_seq, beq_eq_false_iff_ne.2 n1, Bool.false_and, and_self]

theorem facts_long {r : Nat} {l l' : List Ast} (h : 2 ≤ l.length) (h' : 2 ≤ l'.length) (hz : l.all zlm = l'.all zlm)
    (hs : MSim E.inp.length (H E r (.seq l)) (H E r (.seq l'))) : Facts E r (.seq l) (.seq l') := by
  have t := seq_traits h
  have t' := seq_traits h'
  exact ⟨by simpa only [zlm, zlmAll_eq] using hz, t.1.trans t'.1.symm, t.2.trans t'.2.symm,
    fun ht => (by rw [t.1] at ht; cases ht), hs⟩

theorem twin_nested (pre l post : List Ast) (hl : l ≠ []) :
    Twin E (.seq (pre ++ .seq l :: post)) (.seq (pre ++ l ++ post)) := by
  intro r
  have hiff : Ok E r (.seq (pre ++ .seq l :: post)) ↔ Ok E r (.seq (pre ++ l ++ post)) := by
    rw [ok_seq, ok_seq, all_mid, ok_seq]
    simp only [List.forall_mem_append, and_assoc]
    simp [hl]
  refine ⟨hiff, fun hok => ?_⟩
  obtain ⟨hne', hok'⟩ := ok_seq.1 (hiff.1 hok)
  obtain ⟨hne, hok⟩ := ok_seq.1 hok
  obtain ⟨h1, h2, h3⟩ := all_mid.1 hok
  have hl' := (ok_seq.1 h2).2
  have hlen : (pre ++ .seq l :: post).length = 1 ∨ 2 ≤ (pre ++ .seq l :: post).length ∧ 2 ≤ (pre ++ l ++ post).length := by
    have : l.length ≠ 0 := by simpa using hl
    simp only [List.length_append, List.length_cons]
    omega
  rcases hlen with hlen | ⟨hlen, hlen'⟩
  · simp only [List.length_append, List.length_cons] at hlen
    have e1 : pre = [] := List.eq_nil_of_length_eq_zero (by omega)
    have e2 : post = [] := List.eq_nil_of_length_eq_zero (by omega)
    subst e1 e2
    simp only [List.nil_append, List.append_nil] at hok ⊢
    exact ((twin_one (.seq l)) r).2 (.seq (by simp) hok)
  · exact facts_long hlen hlen' (by simp [zlm, zlmAll_eq]) (msim_splice h2 (by simp only [zlm, zlmAll_eq]) (H_seq hl hl') h1 hl' h3 hne')

theorem twin_empty (pre post : List Ast) (hlen : 2 ≤ (pre ++ post).length) :
    Twin E (.seq (pre ++ .empty :: post)) (.seq (pre ++ post)) := by
  intro r
  have hne' : pre ++ post ≠ [] := fun h => by rw [h] at hlen; simp at hlen
  have hiff : Ok E r (.seq (pre ++ .empty :: post)) ↔ Ok E r (.seq (pre ++ post)) := by
    rw [ok_seq, ok_seq, all_mid]
    simp only [List.forall_mem_append]
    exact ⟨fun h => ⟨hne', h.2.1, h.2.2.2⟩, fun h => ⟨by simp, h.2.1, .empty, h.2.2⟩⟩
  refine ⟨hiff, fun hok => ?_⟩
  obtain ⟨h1, _, h3⟩ := all_mid.1 (ok_seq.1 hok).2
  have hs : MSim E.inp.length (H E r .empty) (hat E r (zlm .empty) (chain (([] : List Ast).map (H E r)))) := msim_hat .id
  have hm := msim_splice (l := []) (.empty) rfl hs h1 (fun _ h => by cases h) h3 (by simpa using hne')
  rw [List.append_nil] at hm
  have hlen' : 2 ≤ (pre ++ .empty :: post).length := by simp only [List.length_append, List.length_cons] at hlen ⊢; omega
  exact facts_long hlen' hlen (by simp [zlm]) hm

theorem runTriv_rep_chain (r : Nat) (a : Ast) (N : Nat) :
    MSim E.inp.length (fixedTriv E r a N) (chain ((List.replicate N a).map (trivMatch E r))) := by
  refine MSim.trans ?_ (msim_seqTriv_chain r (List.replicate N a))
  intro p c k k' hp hk
  unfold fixedTriv seqTriv
  rw [List.length_replicate]
  split
  · exact .nonMatch
  · cases hr : runTriv E r (List.replicate N a) p with
    | ub => exact .ub
    | done q => exact hk q c (runTriv_le _ _ _ hp hr)
    | fail q => dsimp only; split <;> exact .miss

theorem unrolled_chain (m : Matcher) (N : Nat) : unrolled m N = chain (List.replicate N m) := by
  match N with
  | 0 => rfl
  | 1 => rfl
  | N + 2 =>
    funext p c k
    simp only [unrolled, List.replicate_succ, chain, unrolled_chain m (N + 1)]

theorem nonUnrolled_chain (m : Matcher) (N : Nat) : nonUnrolled m (N + 1) = chain (List.replicate (N + 1) m) := by
  match N with
  | 0 => rfl
  | N + 1 =>
    funext p c k
    simp only [nonUnrolled, List.replicate_succ, chain, nonUnrolled_chain m N]

theorem all_replicate (f : Ast → Bool) (n : Nat) (a : Ast) : (List.replicate (n + 1) a).all f = f a := by
  induction n with
  | zero => simp
  | succ n ih => rw [List.replicate_succ, List.all_cons, ih, Bool.and_self]

theorem twin_copies {m : Mode} (hm : m ≠ .possessive) (n : Nat) (a : Ast) :
    Twin E (.rep m (n + 2) (.fin (n + 2)) a) (.seq (List.replicate (n + 2) a)) := by
  intro r
  have hne : List.replicate (n + 2) a ≠ [] := by simp
  have hiff : Ok E r (.rep m (n + 2) (.fin (n + 2)) a) ↔ Ok E r (.seq (List.replicate (n + 2) a)) := by
    rw [ok_rep, ok_seq]
    constructor
    · exact fun h => ⟨hne, fun x hx => by rw [List.eq_of_mem_replicate hx]; exact h.2⟩
    · exact fun h => ⟨fun h e => by cases e; exact Nat.le_refl _, h.2 a (by simp)⟩
  refine ⟨hiff, fun hok => ?_⟩
  have hok' := hiff.1 hok
  have hb := body_of_ok hok
  have hz : zlm (.rep m (n + 2) (.fin (n + 2)) a) = zlm (.seq (List.replicate (n + 2) a)) := by
    simp only [zlm, zlmAll_eq]
    rw [all_replicate]
    simp
  have t := seq_traits (l := List.replicate (n + 2) a) (by simp)
  have t0 : triv (.rep m (n + 2) (.fin (n + 2)) a) = false := by simp [triv]
  refine ⟨hz, t0.trans t.1.symm, ?_, fun ht => (by rw [t0] at ht; cases ht), ?_⟩
  · rw [t.2]; simp [isAssertion]
  · obtain ⟨F, hF⟩ : ∃ F, F = a.depth + E.inp.length + 1 := ⟨_, rfl⟩
    have hd : depthAll (List.replicate (n + 2) a) ≤ a.depth := depthAll_le (fun x hx => by
      rw [List.eq_of_mem_replicate hx]; exact Nat.le_refl _)
    refine (H_fuel hok (fuel := F + 1) (by simp only [depth]; omega)).trans
      (MSim.trans ?_ (H_fuel hok' (fuel := F + 1) (by simp only [depth]; omega)).symm)
    rw [hz]
    refine msim_hat (MSim.trans ?_ (msim_seq hne (fun x hx => by rw [List.eq_of_mem_replicate hx]; exact hb)
      (fun x hx => by rw [List.eq_of_mem_replicate hx]; omega)).symm)
    have hs := msim_self hb (fuel := F) (by omega)
    simp only [mtch, repMatch, if_true, fixedMatch, Nat.add_one_ne_zero, hm, if_false, fixedBacktracking]
    have hcs : MSim E.inp.length (chain (List.replicate (n + 2) (mtch E F a r)))
        (chain ((List.replicate (n + 2) a).map fun a => mtch E F a r)) := by
      have := msim_chain (n := E.inp.length) (f := fun a => mtch E F a r) (g := fun a => mtch E F a r) (List.replicate (n + 2) a)
        (fun x hx => by rw [List.eq_of_mem_replicate hx]; exact hs)
      rwa [List.map_replicate] at this ⊢
    simp only [show (n + 2 = 1) = False by simp, if_false]
    split
    · next ht =>
      refine (runTriv_rep_chain r a (n + 2)).trans ?_
      rw [List.map_replicate, List.map_replicate, mtch_triv ht (by omega)]
      have := msim_chain (n := E.inp.length) (f := trivMatch E r) (g := trivMatch E r) (List.replicate (n + 2) a)
        (fun x _ => msim_triv (cat' := E.cat) r x)
      rwa [List.map_replicate] at this
    · split
      · rw [unrolled_chain]; exact hcs
      · rw [nonUnrolled_chain]; exact hcs

/-! ### Branches in branches -/

theorem alt_traits {l : List Ast} (h : 2 ≤ l.length) (ht : l.all triv = false) : triv (.alt l) = false ∧ isAssertion (.alt l) = false := by
  have n1 : ¬ l.length = 1 := by omega
  simp only [triv, trivAlt_eq, isAssertion_alt, beq_eq_false_iff_ne.2 n1, Bool.false_and, ht, Bool.and_false, and_self]

/-- Branches before a matcher. -/
def orPre (m : Ast → Matcher) : List Ast → Matcher → Matcher
  | [], k => k
  | a :: l, k => fun p c cont => (m a p c cont).orElse (fun c' => orPre m l k p c' cont)

theorem altMatch_pre {r : Nat} {m : Ast → Matcher} {l : List Ast} (hl : l ≠ []) (ht : l.all triv = false) (pre : List Ast) :
    altMatch E r m (pre ++ l) = orPre m pre (altMatch E r m l) := by
  induction pre with
  | nil => rfl
  | cons a pre ih =>
    obtain ⟨b, t, e⟩ := List.exists_cons_of_ne_nil (l := pre ++ l) (by simp [hl])
    have hn : areTriv (a :: b :: t) = false := by
      rw [← e]; simp only [areTriv, List.all_cons, List.all_append, ht, Bool.and_false]
    simp only [List.cons_append, orPre, ← ih]
    rw [e]
    simp only [altMatch, hn, Bool.false_eq_true, if_false]

theorem orPre_append (m : Ast → Matcher) (l l' : List Ast) (k : Matcher) : orPre m (l ++ l') k = orPre m l (orPre m l' k) := by
  induction l with
  | nil => rfl
  | cons a l ih => simp only [List.cons_append, orPre, ih]

theorem orPre_orElse (m : Ast → Matcher) (l : List Ast) (k k' : Matcher) (p : Nat) (c : Ctx) (cont : Cont) :
    (orPre m l k p c cont).orElse (fun c' => k' p c' cont) = orPre m l (fun p c cont => (k p c cont).orElse (fun c' => k' p c' cont)) p c cont := by
  induction l generalizing c with
  | nil => rfl
  | cons a l ih => simp only [orPre, orElse_assoc, ih]

theorem orPre_le {m m' : Ast → Matcher} {k k' : Matcher} (l : List Ast) (h : ∀ a ∈ l, Matcher.Le (m a) (m' a)) (hk : k.Le k') :
    Matcher.Le (orPre m l k) (orPre m' l k') := by
  induction l with
  | nil => exact hk
  | cons a l ih =>
    intro p c cont cont' hc
    exact (h a (by simp) p c _ _ hc).orElse (fun c' => ih (fun b hb => h b (by simp [hb])) p c' _ _ hc)

/-- Parentheses around branches before others. -/
theorem mtch_branches_le {r F : Nat} {pre l post : List Ast} {x : Ast} (hx : triv x = false) :
    Matcher.Le (mtch E (F + 2) (.alt (pre ++ .alt (l ++ [x]) :: post)) r) (mtch E (F + 2) (.alt (pre ++ l ++ x :: post)) r) := by
  have ht : triv (.alt (l ++ [x])) = false := by simp [triv, trivAlt_eq, hx]
  have e1 : mtch E (F + 2) (.alt (pre ++ .alt (l ++ [x]) :: post)) r =
      orPre (fun a => mtch E (F + 1) a r) pre (altMatch E r (fun a => mtch E (F + 1) a r) (.alt (l ++ [x]) :: post)) := by
    rw [← altMatch_pre (by simp) (by simp [ht])]; rfl
  have e2 : mtch E (F + 2) (.alt (pre ++ l ++ x :: post)) r =
      orPre (fun a => mtch E (F + 1) a r) (pre ++ l) (altMatch E r (fun a => mtch E (F + 1) a r) (x :: post)) := by
    rw [← altMatch_pre (by simp) (by simp [hx])]; rfl
  have e3 : mtch E (F + 1) (.alt (l ++ [x])) r = orPre (fun a => mtch E F a r) l (mtch E F x r) := by
    rw [show mtch E F x r = altMatch E r (fun a => mtch E F a r) [x] from rfl, ← altMatch_pre (by simp) (by simp [hx])]; rfl
  have hle : ∀ a, Matcher.Le (mtch E F a r) (mtch E (F + 1) a r) := fun a => mtch_le E _ _ a r (by omega)
  have hself : ∀ a, Matcher.Le (mtch E (F + 1) a r) (mtch E (F + 1) a r) := fun a => mtch_le E _ _ a r (by omega)
  rw [e1, e2, orPre_append]
  refine orPre_le pre (fun a _ => hself a) ?_
  cases post with
  | nil =>
    show Matcher.Le (mtch E (F + 1) (.alt (l ++ [x])) r) (orPre _ l (mtch E (F + 1) x r))
    rw [e3]
    exact orPre_le l (fun a _ => hle a) (hle x)
  | cons b post =>
    have n1 : areTriv (.alt (l ++ [x]) :: b :: post) = false := by simp [areTriv, ht]
    have n2 : areTriv (x :: b :: post) = false := by simp [areTriv, hx]
    simp only [altMatch, n1, n2, Bool.false_eq_true, if_false]
    rw [e3]
    intro p c cont cont' hc
    dsimp only
    rw [orPre_orElse _ l _ (altMatch E r (fun a => mtch E (F + 1) a r) (b :: post))]
    refine orPre_le l (fun a _ => hle a) ?_ p c cont cont' hc
    intro p c cont cont' hc
    exact (hle x p c _ _ hc).orElse (fun c' => altMatch_le (fun a _ => hself a) p c' _ _ hc)

/-- Parentheses around the last branches. -/
theorem mtch_last_le {r F : Nat} {pre l : List Ast} (hl : l ≠ []) (ht : l.all triv = false) :
    Matcher.Le (mtch E (F + 2) (.alt (pre ++ [.alt l])) r) (mtch E (F + 2) (.alt (pre ++ l)) r) := by
  have ht' : triv (.alt l) = false := by simp only [triv, trivAlt_eq, ht, Bool.and_false]
  have e1 : mtch E (F + 2) (.alt (pre ++ [.alt l])) r =
      orPre (fun a => mtch E (F + 1) a r) pre (altMatch E r (fun a => mtch E F a r) l) := by
    have : altMatch E r (fun a => mtch E F a r) l = altMatch E r (fun a => mtch E (F + 1) a r) [.alt l] := rfl
    rw [this, ← altMatch_pre (by simp) (by simp [ht'])]; rfl
  have e2 : mtch E (F + 2) (.alt (pre ++ l)) r =
      orPre (fun a => mtch E (F + 1) a r) pre (altMatch E r (fun a => mtch E (F + 1) a r) l) := by
    rw [← altMatch_pre hl ht]; rfl
  rw [e1, e2]
  exact orPre_le pre (fun a _ => mtch_le E _ _ a r (by omega)) (altMatch_le (fun a _ => mtch_le E _ _ a r (by omega)))

/-- Alternations of two and more branches that are not all characters. -/
theorem twin_alts {l l' : List Ast} (hok : ∀ r, Ok E r (.alt l) ↔ Ok E r (.alt l')) (hz : l.any zlm = l'.any zlm)
    (h : ∀ r, Ok E r (.alt l) → 2 ≤ l.length ∧ 2 ≤ l'.length ∧ l.all triv = false ∧ l'.all triv = false ∧
      ∀ F, Matcher.Le (mtch E (F + 2) (.alt l) r) (mtch E (F + 2) (.alt l') r)) : Twin E (.alt l) (.alt l') := by
  intro r
  refine ⟨hok r, fun ha => ?_⟩
  have hb := (hok r).1 ha
  obtain ⟨n1, n2, t1, t2, hle⟩ := h r ha
  have f1 := alt_traits n1 t1
  have f2 := alt_traits n2 t2
  have hz' : zlm (.alt l) = zlm (.alt l') := by simp only [zlm, zlmAny_eq, hz]
  refine ⟨hz', f1.1.trans f2.1.symm, f1.2.trans f2.2.symm, fun ht => (by rw [f1.1] at ht; cases ht), ?_⟩
  obtain ⟨F, hF⟩ : ∃ F, F = max (depth (.alt l)) (depth (.alt l')) + E.inp.length + 1 := ⟨_, rfl⟩
  refine (H_fuel ha (fuel := F + 2) (by omega)).trans (MSim.trans ?_ (H_fuel hb (fuel := F + 2) (by omega)).symm)
  rw [← hz']
  exact hat_sim (hle F) (mtch_rz ha (by omega)) (msim_self ha (by omega))

theorem twin_branches {pre l post : List Ast} {x : Ast} (hx : ¬ CharClass x) :
    Twin E (.alt (pre ++ .alt (l ++ [x]) :: post)) (.alt (pre ++ l ++ x :: post)) := by
  by_cases hlen : pre.length + l.length + post.length = 0
  · have e1 : pre = [] := List.eq_nil_of_length_eq_zero (by omega)
    have e2 : l = [] := List.eq_nil_of_length_eq_zero (by omega)
    have e3 : post = [] := List.eq_nil_of_length_eq_zero (by omega)
    subst e1 e2 e3
    exact twin_branch _
  by_cases hpp : pre = [] ∧ post = []
  · obtain ⟨rfl, rfl⟩ := hpp
    simpa using twin_branch (E := E) (.alt (l ++ [x]))
  have hcount : pre.length + post.length ≠ 0 := by
    intro h
    exact hpp ⟨List.eq_nil_of_length_eq_zero (by omega), List.eq_nil_of_length_eq_zero (by omega)⟩
  have hok : ∀ r, Ok E r (.alt (pre ++ .alt (l ++ [x]) :: post)) ↔ Ok E r (.alt (pre ++ l ++ x :: post)) := by
    intro r
    rw [ok_alt, ok_alt, all_mid, ok_alt]
    simp [or_imp, forall_and, and_assoc]
    
  refine twin_alts hok (by simp [zlm, zlmAny_eq, Bool.or_assoc]) (fun r h => ?_)
  have hxk : triv x = false := by
    cases ht : triv x with
    | false => rfl
    | true => exact absurd (charClass_of_ok ((ok_alt.1 ((hok r).1 h)).2 x (by simp)) ht) hx
  exact ⟨by simp only [List.length_append, List.length_cons]; omega, by simp only [List.length_append, List.length_cons]; omega,
    by simp [triv, trivAlt_eq, hxk], by simp [hxk], fun F => mtch_branches_le hxk⟩

theorem twin_lastBranches {pre l : List Ast} {x : Ast} (hxl : x ∈ l) (hx : ¬ CharClass x) :
    Twin E (.alt (pre ++ [.alt l])) (.alt (pre ++ l)) := by
  by_cases hpp : pre = []
  · subst hpp
    exact twin_branch _
  have hl : l ≠ [] := List.ne_nil_of_mem hxl
  have h1 : pre.length ≠ 0 := by simpa using hpp
  have h2 : l.length ≠ 0 := by simpa using hl
  have hok : ∀ r, Ok E r (.alt (pre ++ [.alt l])) ↔ Ok E r (.alt (pre ++ l)) := by
    intro r
    rw [ok_alt, ok_alt, all_mid, ok_alt]
    simp [or_imp, forall_and, hpp, hl]
  refine twin_alts hok (by simp [zlm, zlmAny_eq]) (fun r h => ?_)
  have ht : l.all triv = false := by
    cases ht : l.all triv with
    | false => rfl
    | true =>
      have := List.all_eq_true.1 ht x hxl
      exact absurd (charClass_of_ok ((ok_alt.1 ((hok r).1 h)).2 x (by simp [hxl])) this) hx
  refine ⟨by simp only [List.length_append, List.length_cons]; omega, by simp only [List.length_append]; omega,
    ?_, ?_, fun F => mtch_last_le hl ht⟩
  · simp only [List.all_append, List.all_cons, triv, trivAlt_eq, ht, Bool.and_false, Bool.false_and]
  · simp only [List.all_append, ht, Bool.and_false]

/-- Read in the direction `inv`. -/
def dirAst (inv : Bool) (a : Ast) : Ast := if inv then invert a else a

theorem dirAst_not (inv : Bool) (a : Ast) : dirAst (!inv) a = invert (dirAst inv a) := by
  cases inv <;> simp [dirAst, invert_invert]

theorem twin_of_variant {f : Flags} {inv : Bool} {a b : Ast} (h : Variant f inv a b) (hf : E.flags = f) :
    Twin E (dirAst inv a) (dirAst inv b) := by
  subst hf
  induction h with
  | refl => exact .refl _
  | symm _ ih => exact ih.symm
  | trans _ _ ih ih' => exact ih.trans ih'
  | @seq inv a b pre post _ ih =>
    cases inv
    · exact twin_seq pre post ih
    · simp only [dirAst, if_true, invert, invertAll_eq, List.map_append, List.map_cons, List.reverse_append, List.reverse_cons,
        List.append_assoc, List.singleton_append] at ih ⊢
      exact twin_seq _ _ ih
  | @alt inv a b pre post _ ih =>
    cases inv
    · exact twin_alt pre post ih
    · simp only [dirAst, if_true, invert, invertAll_eq, List.map_append, List.map_cons] at ih ⊢
      exact twin_alt _ _ ih
  | @cap inv a b id name _ ih => cases inv <;> exact twin_cap id name ih
  | @rep inv a b m lo hi _ ih => cases inv <;> exact twin_rep m lo hi ih
  | @ahead inv a b _ ih =>
    cases inv
    · exact twin_ahead ih
    · exact twin_behind ih
  | @behind inv a b _ ih =>
    cases inv
    · exact twin_behind ih
    · exact twin_ahead ih
  | @neg inv a b ht _ ih =>
    cases inv
    · exact twin_neg ht.asrt ih
    · exact twin_neg ((isAssertion_invert _).trans ht.asrt) ih
  | @sameClass inv a b ha hb h =>
    cases inv
    · exact twin_class ha hb h
    · refine twin_class ha.invert hb.invert (fun x => ?_)
      show Matches E.flags [x] (invert a) 0 1 ↔ Matches E.flags [x] (invert b) 0 1
      rw [ha.invert.one_iff, hb.invert.one_iff, matchOne_invert, matchOne_invert, ← ha.one_iff, ← hb.one_iff]
      exact h x
  | nested inv pre l post hl =>
    cases inv
    · exact twin_nested pre l post hl
    · simp only [dirAst, if_true, invert, invertAll_eq, List.map_append, List.map_cons, List.reverse_append, List.reverse_cons,
        List.append_assoc, List.singleton_append]
      have := twin_nested (E := E) (post.map invert).reverse (l.map invert).reverse (pre.map invert).reverse (by simpa using hl)
      simpa only [List.append_assoc] using this
  | one inv a => cases inv <;> exact twin_one _
  | branch inv a => cases inv <;> exact twin_branch _
  | once inv m a hm => cases inv <;> exact twin_once hm _
  | branches inv pre l post x hx =>
    cases inv
    · exact twin_branches hx
    · simp only [dirAst, if_true, invert, invertAll_eq, List.map_append, List.map_cons, List.map_nil]
      exact twin_branches (fun h => hx (charClass_invert.1 h))
  | lastBranches inv pre l x hxl hx =>
    cases inv
    · exact twin_lastBranches hxl hx
    · simp only [dirAst, if_true, invert, invertAll_eq, List.map_append, List.map_cons, List.map_nil]
      exact twin_lastBranches (List.mem_map_of_mem hxl) (fun h => hx (charClass_invert.1 h))
  | empty inv pre post hlen =>
    cases inv
    · exact twin_empty pre post hlen
    · simp only [dirAst, if_true, invert, invertAll_eq, List.map_append, List.map_cons, List.reverse_append, List.reverse_cons,
        List.append_assoc, List.singleton_append]
      refine twin_empty _ _ ?_
      simp only [List.length_append, List.length_reverse, List.length_map] at hlen ⊢
      omega
  | copies inv m n a hm _ =>
    cases inv
    · exact twin_copies hm n a
    · simp only [dirAst, if_true, invert, invertAll_eq, List.map_replicate, List.reverse_replicate]
      exact twin_copies hm n _
  | exactly inv n a => cases inv <;> exact twin_exactly n _
  | doubleNeg inv ha =>
    cases inv
    · exact twin_doubleNeg ha.asrt
    · exact twin_doubleNeg (by rw [isAssertion_invert]; exact ha.asrt)
  | lookTest ha => exact twin_test ha.asrt
  | lookAnchor ha =>
    simp only [dirAst, if_true, invert, ha.invert]
    exact twin_test ha.asrt

/-! ### Calls -/

theorem good_success (r : Nat) (z : Bool) (p : Nat) : GoodK E r z p success :=
  fun _ _ _ _ => ⟨_, _, rfl, fun h => by cases h⟩

theorem good_equals (r : Nat) (z : Bool) (p n : Nat) : GoodK E r z p (equals n) :=
  fun _ _ _ h => ⟨_, _, rfl, fun _ => h⟩

/-- A method only uses a matcher as `H` does. -/
theorem invokeWith_H {a : Ast} (hok : Ok E 0 a) (M : Method) {cur : Nat} (hcur : cur ≤ E.inp.length) {c : Ctx}
    (hc : c.length = E.names.length) :
    invokeWith M E.inp.length (H E 0 a) cur c = M.invoke E (fuelFor a E.inp) a cur c := by
  rw [invoke_eq_with]
  cases M with
  | «match» =>
    show setGroup0 _ (hat E 0 _ _ _ _ _) = _
    rw [hat_pos ⟨hcur, hc, good_equals _ _ _ _⟩]; rfl
  | matchPrefix =>
    show setGroup0 _ (hat E 0 _ _ _ _ _) = _
    rw [hat_pos ⟨hcur, hc, good_success _ _ _⟩]; rfl
  | search =>
    show searchWith _ _ (E.inp.length - cur + 1) cur c = searchWith _ _ (E.inp.length - cur + 1) cur c
    generalize E.inp.length - cur + 1 = k
    induction k generalizing cur c with
    | zero => rfl
    | succ k ih =>
      unfold searchWith
      have e : H E 0 a cur c success = mtch E (fuelFor a E.inp) a 0 cur c success :=
        hat_pos ⟨hcur, hc, good_success _ _ _⟩
      rw [e]
      have hs := prefix_safe (I := fun c => c.length = E.names.length) (fun _ h => h) hok (Nat.le_refl _)
        capClosed_len hcur hc
      match hm : mtch E (fuelFor a E.inp) a 0 cur c success with
      | .ok ⟨q, true⟩ c' => rfl
      | .ok ⟨q, false⟩ c' =>
        rw [hm] at hs
        simp only [Post, Bool.false_eq_true, if_false] at hs ⊢
        by_cases he : cur = E.inp.length
        · simp only [he, if_true]
        · simp only [he, if_false]
          exact ih (by omega) hs.2
      | .ub => rfl
      | .diverge => rfl

theorem twin_invoke {a b : Ast} (h : Twin E a b) (hok : Ok E 0 a) (M : Method) {cur : Nat} (hcur : cur ≤ E.inp.length) {c : Ctx}
    (hc : c.length = E.names.length) :
    SameResult (M.invoke E (fuelFor a E.inp) a cur c) (M.invoke E (fuelFor b E.inp) b cur c) := by
  rw [← invokeWith_H hok M hcur hc, ← invokeWith_H ((h 0).1.1 hok) M hcur hc]
  exact sameResult_with M ((h 0).2 hok).sim hcur c

end

/-! ### Names -/

theorem nameSpecAll_app (l l' : List Ast) : nameSpecAll (l ++ l') = nameSpecAll l ++ nameSpecAll l' := by
  induction l with
  | nil => rfl
  | cons a l ih => simp [nameSpecAll, ih]

theorem CharClass.names {a : Ast} (h : CharClass a) : nameSpec a = [] := by
  have hall : ∀ l : List Ast, (∀ a ∈ l, nameSpec a = []) → nameSpecAll l = [] := by
    intro l
    induction l with
    | nil => exact fun _ => rfl
    | cons a l ih => intro h; simp [nameSpecAll, h a (by simp), ih (fun b hb => h b (by simp [hb]))]
  induction h with
  | lit | range | wildcard => rfl
  | set _ ih => exact hall _ ih
  | neg _ ih => exact ih
  | one _ ih => simpa [nameSpec, nameSpecAll] using ih
  | alt _ _ ih => exact hall _ ih
  | once _ ih => exact ih

mutual
theorem nameSpec_nil : ∀ a : Ast, captureCount a = 0 → nameSpec a = []
  | .seq l, h => nameSpecAll_nil l h
  | .alt l, h => nameSpecAll_nil l h
  | .set l, h => nameSpecAll_nil l h
  | .neg a, h => nameSpec_nil a h
  | .cap _ _ a, h => by simp [captureCount] at h
  | .rep _ _ _ a, h => nameSpec_nil a h
  | .look _ a, h => nameSpec_nil a h
  | .empty, _ | .lit _, _ | .range _ _, _ | .wildcard, _ | .bol, _ | .boi, _ | .eol, _ | .eoi, _ | .wordB, _ | .backref _, _
  | .namedBackref _, _ => rfl
theorem nameSpecAll_nil : ∀ l : List Ast, captureCountAll l = 0 → nameSpecAll l = []
  | [], _ => rfl
  | a :: l, h => by
    simp only [captureCountAll, Nat.add_eq_zero_iff] at h
    simp [nameSpecAll, nameSpec_nil a h.1, nameSpecAll_nil l h.2]
end

theorem variant_names {f : Flags} {inv : Bool} {a b : Ast} (h : Variant f inv a b) : nameSpec a = nameSpec b := by
  induction h with
  | refl => rfl
  | symm _ ih => exact ih.symm
  | trans _ _ ih ih' => exact ih.trans ih'
  | seq _ _ _ ih | alt _ _ _ ih => simp only [nameSpec, nameSpecAll_app, nameSpecAll, ih]
  | cap _ _ _ ih => simp only [nameSpec, ih]
  | rep _ _ _ _ ih | ahead _ ih | behind _ ih | neg _ _ ih => exact ih
  | sameClass ha hb _ => rw [ha.names, hb.names]
  | nested | one | branch | once | branches | lastBranches | empty | exactly | doubleNeg | lookTest | lookAnchor =>
    simp [nameSpec, nameSpecAll_app, nameSpecAll]
  | copies inv m n a hm hc =>
    have h1 := nameSpec_nil a hc
    simp only [nameSpec, h1]
    have : ∀ k, nameSpecAll (List.replicate k a) = [] := by
      intro k
      induction k with
      | zero => rfl
      | succ k ih => simp [List.replicate_succ, nameSpecAll, h1, ih]
    exact (this _).symm

end Mregex
