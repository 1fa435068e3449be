import Verif.Spec.Holding
import Verif.Props.Results

/-!
# C98: programs that hold results
-/

namespace Mregex
open Spec

/-- **C98**, partial: accessing a group, the functions given to `for_each_group` and `as_optional` keep the category of the result; `content` does for objects that are not expiring.
Missing: `content` of expiring objects (`C98_content_false`). -/
theorem C98_accessors_partial (e : ExprCat) : groupOverload (bestOf e) = some e ∧ forEachOverload (bestOf e) = e ∧ optionalOverload (bestOf e) = e ∧
    (e.expiring = false → contentOverload (bestOf e) = some e) := by
  obtain ⟨x, y⟩ := e
  cases x <;> cases y <;> decide

/-- **C98** is false as stated: `content()` of an expiring capture is an lvalue, so that its text is copied, and for a const one it does not compile. -/
theorem C98_content_false : contentOverload (bestOf ⟨true, false⟩) = some ⟨false, false⟩ ∧ contentOverload (bestOf ⟨true, true⟩) = none := by decide

section
variable {C : HConfig}

theorem content_capText (s : List Byte) (c : Cap) : c.content s = stretchOf s c := by
  cases c <;> rfl

theorem ownAll_ok {n n' : Nat} {s : List Byte} {cs : List Cap} {m : Bool} {x : Value} (h : ownAll C.fails n s cs m = .ok (x, n')) :
    x = .owning (cs.map fun c => some (stretchOf s c)) m := by
  unfold ownAll at h
  split at h
  · cases h
    simp only [content_capText]
  · cases h

theorem target_spec {v p : Value} {e e' : ExprCat} {k : Option Nat} (h : target v e k = .ok (p, e')) : e' = e ∧ (k = none ∧ p = v ∨ ∃ j, k = some j ∧ v.part j = some p) := by
  cases k with
  | none =>
    simp only [target, Except.ok.injEq, Prod.mk.injEq] at h
    exact ⟨h.2.symm, .inl ⟨rfl, h.1.symm⟩⟩
  | some j =>
    simp only [target] at h
    rw [(C98_accessors_partial e).1] at h
    split at h
    · cases h
    · rename_i h1 h2
      cases h
      cases h1
      exact ⟨rfl, .inr ⟨j, rfl, h2⟩⟩
    · cases h

theorem initFrom_spec {n n' : Nat} {e : ExprCat} {v x v' : Value} (h : initFrom C.fails n e v = some (x, v', n')) : x = v ∧ (e ≠ ⟨true, false⟩ → v' = v) ∧ (e = ⟨true, false⟩ → v' = v.drained) := by
  obtain ⟨a, b⟩ := e
  unfold initFrom at h
  split at h
  · rename_i h1
    cases h
    simp only [Bool.and_eq_true, Bool.not_eq_true'] at h1
    simp [h1]
  · rename_i h1
    cases h2 : copyStrings C.fails v.strings n with
    | none => rw [h2] at h; cases h
    | some n'' =>
      rw [h2] at h
      cases h
      refine ⟨rfl, fun _ => rfl, fun h3 => ?_⟩
      cases h3
      exact absurd rfl h1

theorem update_self {v p : Value} {k : Option Nat} (h : k = none ∧ p = v ∨ ∃ j, k = some j ∧ v.part j = some p) : v.update k p = v := by
  rcases h with ⟨rfl, rfl⟩ | ⟨j, rfl, h⟩
  · rfl
  · cases v <;> simp only [Value.part, Option.map_eq_some_iff, reduceCtorEq] at h
    · obtain ⟨c, _, rfl⟩ := h
      rfl
    · obtain ⟨t, h1, rfl⟩ := h
      simp only [Value.update, Value.setPart, Value.owning.injEq, and_true]
      exact List.ext_getElem? fun i => by
        by_cases hi : i = j
        · subst hi
          have := (List.getElem?_eq_some_iff.1 h1).1
          rw [List.getElem?_set_self this, h1]
        · rw [List.getElem?_set_ne (Ne.symm hi)]

theorem update_onlyViews {v : Value} (hv : OnlyViews v) {p p' : Value} {k : Option Nat} (h : k = none ∧ p = v ∨ ∃ j, k = some j ∧ v.part j = some p) (hp : p' = p ∨ p' = p.drained) :
    v.update k p' = v := by
  have : p' = p := by
    rcases hp with e | e
    · exact e
    · rw [e]
      rcases h with ⟨_, rfl⟩ | ⟨j, _, h⟩
      · cases p <;> first | rfl | exact hv.elim
      · cases v <;> simp only [Value.part, Option.map_eq_some_iff, reduceCtorEq] at h
        · obtain ⟨c, _, rfl⟩ := h
          rfl
        · exact hv.elim
  rw [this]
  exact update_self h

/-- One statement changes no variable that it does not spend, and none that holds views only. -/
theorem step_var {st st' : HStore} {x : HStmt} (h : st.step C x = .ok st') {i : Nat} {v : Value} (hi : st.vars[i]? = some v) (hx : ¬ Spends i x ∨ OnlyViews v) : st'.vars[i]? = some v := by
  have hlen : i < st.vars.length := (List.getElem?_eq_some_iff.1 hi).1
  have hpush : ∀ (w : Value) (n : Nat), (st.push w n).vars[i]? = some v := fun w n => by
    simp only [HStore.push]
    rw [List.getElem?_append_left hlen, hi]
  have hset : ∀ (j : Nat) (u w : Value) (n : Nat), (j = i → u = v) → ((({ st with vars := st.vars.set j u } : HStore).push w n)).vars[i]? = some v := fun j u w n hu => by
    simp only [HStore.push]
    rw [List.getElem?_append_left (by simpa using hlen)]
    by_cases hj : j = i
    · subst hj
      rw [List.getElem?_set_self hlen, hu rfl]
    · rw [List.getElem?_set_ne hj, hi]
  cases x with
  | call M =>
    simp only [HStore.step] at h
    split at h
    · split at h
      · cases h; exact hpush _ _
      · cases h
    · cases h
  | callTemp M s =>
    simp only [HStore.step] at h
    split at h
    · cases h1 : ownAll C.fails st.copies s _ _ with
      | error => rw [h1] at h; cases h
      | ok y => rw [h1] at h; cases h; exact hpush _ _
    · cases h
  | own j =>
    simp only [HStore.step] at h
    split at h
    · split at h
      · cases h1 : ownAll C.fails st.copies _ _ _ with
        | error => rw [h1] at h; cases h
        | ok y => rw [h1] at h; cases h; exact hpush _ _
      · split at h
        · cases h1 : ownAll C.fails st.copies _ _ _ with
          | error => rw [h1] at h; cases h
          | ok y => rw [h1] at h; cases h; exact hpush _ _
        · cases h
    · cases h
    · cases h
  | init j e k content =>
    simp only [HStore.step] at h
    split at h
    · cases h
    · rename_i u hu
      split at h
      · cases h
      · rename_i p e' ht
        obtain ⟨rfl, hp⟩ := target_spec ht
        have huv : j = i → u = v := fun hj => by rw [hj, hi] at hu; exact (Option.some.inj hu).symm
        split at h
        · split at h
          · split at h
            · cases h; exact hpush _ _
            · split at h
              · cases h
              · split at h
                · cases h
                · cases h; exact hpush _ _
          · rename_i t
            split at h
            · cases h
            · rename_i e'' he
              split at h
              · cases h
              · rename_i y t' n hn
                cases h
                obtain ⟨_, h2, h3⟩ := initFrom_spec hn
                refine hset _ _ _ _ fun hj => ?_
                have huv := huv hj
                subst huv
                rcases hx with hx | hx
                · have he'' : e'' ≠ ⟨true, false⟩ := by
                    intro h4
                    obtain ⟨a, b⟩ := e'
                    subst h4
                    cases a <;> cases b <;> revert he <;> decide
                  cases h2 he''
                  exact update_self hp
                · rcases hp with ⟨_, rfl⟩ | ⟨l, _, hl⟩
                  · exact hx.elim
                  · cases u <;> simp only [Value.part, Option.map_eq_some_iff, reduceCtorEq] at hl
                    · obtain ⟨_, _, hl⟩ := hl; cases hl
                    · exact hx.elim
              · cases h
          · cases h
        · split at h
          · cases h
          · rename_i y p' n hn
            cases h
            obtain ⟨_, h2, h3⟩ := initFrom_spec hn
            refine hset _ _ _ _ fun hj => ?_
            have huv := huv hj
            subst huv
            rcases hx with hx | hx
            · rw [h2 fun h4 => hx ⟨hj, h4⟩]
              exact update_self hp
            · refine update_onlyViews hx hp ?_
              by_cases h4 : e' = ⟨true, false⟩
              · exact .inr (h3 h4)
              · exact .inl (h2 h4)
  | optional j e =>
    simp only [HStore.step, (C98_accessors_partial e).2.2.1] at h
    split at h
    · cases h; exact hpush _ _
    · rename_i ts m hu
      split at h
      · cases h; exact hpush _ _
      · split at h
        · cases h
        · rename_i y v' n hn
          cases h
          obtain ⟨_, h2, h3⟩ := initFrom_spec hn
          refine hset _ _ _ _ fun hj => ?_
          have huv : Value.owning ts m = v := by rw [hj, hi] at hu; exact (Option.some.inj hu).symm
          subst huv
          rcases hx with hx | hx
          · exact h2 fun h4 => hx ⟨hj, h4⟩
          · exact hx.elim
    · cases h
    · cases h
  | write j k l c =>
    simp only [HStore.step] at h
    split at h
    · rename_i ts m hu
      split at h
      · split at h
        · cases h
          by_cases hj : j = i
          · subst hj
            rcases hx with hx | hx
            · exact absurd rfl hx
            · rw [hu] at hi
              cases hi
              exact hx.elim
          · exact (List.getElem?_set_ne hj).trans hi
        · cases h
      · cases h
      · cases h
    · cases h
    · cases h
  | poke j c =>
    simp only [HStore.step] at h
    split at h
    · split at h
      · cases h; exact hi
      · cases h
    · cases h
  | destroy => cases h; exact hi
  | print j k =>
    simp only [HStore.step] at h
    split at h
    · cases h
    · split at h
      · cases h
      · split at h
        · cases h; exact hi
        · cases h

/-- **C98**: whatever a program does - also if it ends with an exception -, a variable that it does not give away or write to stays what it is, and so does one that holds views. -/
theorem C98_stable (P : List HStmt) (st : HStore) {i : Nat} {v : Value} (hi : st.vars[i]? = some v) (h : (∀ x ∈ P, ¬ Spends i x) ∨ OnlyViews v) : (st.run C P).1.vars[i]? = some v := by
  induction P generalizing st with
  | nil => exact hi
  | cons x P ih =>
    simp only [HStore.run]
    split
    · rename_i st' h1
      exact ih st' (step_var h1 hi (h.imp_left fun h => h x (List.mem_cons_self ..))) (h.imp_left fun h y hy => h y (List.mem_cons_of_mem _ hy))
    · exact hi

/-- **C98**: what `as_memory_owner` returns shows, for ever and whatever happens to the input, the texts that the views showed then. -/
theorem C98_owner (P : List HStmt) (st st' : HStore) {i : Nat} {s : List Byte} {cs : List Cap} {m : Bool} (hs : st.input = some s) (hi : st.vars[i]? = some (.views cs m))
    (h : st.step C (.own i) = .ok st') (hP : ∀ x ∈ P, ¬ Spends st.vars.length x) (k : Nat) (hk : k < cs.length) : ∃ v, (st'.run C P).1.vars[st.vars.length]? = some v ∧
      ∀ input, shownText input v k = shownText (some s) (.views cs m) k := by
  simp only [HStore.step, hi, hs] at h
  cases h1 : ownAll C.fails st.copies s cs m with
  | error => rw [h1] at h; cases h
  | ok y =>
    rw [h1] at h
    cases h
    refine ⟨y.1, C98_stable P _ (by simp [HStore.push]) (.inl hP), fun input => ?_⟩
    obtain ⟨x, n⟩ := y
    rw [ownAll_ok h1]
    simp [shownText, List.getElem?_eq_getElem hk]

/-- **C98**: what a method returns for a temporary shows the texts found in the temporary. -/
theorem C98_temporary (P : List HStmt) (st st' : HStore) {M : Method} {s : List Byte} {res : Result} (hr : C.R.invoke M C.cat s = some res) (h : st.step C (.callTemp M s) = .ok st')
    (hP : ∀ x ∈ P, ¬ Spends st.vars.length x) (k : Nat) (hk : k < res.groups.length) : ∃ v, (st'.run C P).1.vars[st.vars.length]? = some v ∧
      ∀ input, shownText input v k = shownText (some s) (.views res.groups res.matched) k := by
  simp only [HStore.step, hr] at h
  cases h1 : ownAll C.fails st.copies s res.groups res.matched with
  | error => rw [h1] at h; cases h
  | ok y =>
    rw [h1] at h
    cases h
    refine ⟨y.1, C98_stable P _ (by simp [HStore.push]) (.inl hP), fun input => ?_⟩
    obtain ⟨x, n⟩ := y
    rw [ownAll_ok h1]
    simp [shownText, List.getElem?_eq_getElem hk]

/-- **C98**: initialising a variable gives it the object that the expression denotes, and takes it from the other variable only if that has been given away. -/
theorem C98_init (st st' : HStore) {i : Nat} {e : ExprCat} {k : Option Nat} {v : Value} (hi : st.vars[i]? = some v) (h : st.step C (.init i e k false) = .ok st') :
    ∃ p, (k = none ∧ p = v ∨ ∃ j, k = some j ∧ v.part j = some p) ∧ st'.vars = st.vars.set i (if e = ⟨true, false⟩ then v.update k p.drained else v) ++ [p] ∧ st'.input = st.input := by
  simp only [HStore.step, hi] at h
  split at h
  · cases h
  · rename_i p e' ht
    obtain ⟨rfl, hp⟩ := target_spec ht
    simp only [Bool.false_eq_true, if_false] at h
    split at h
    · cases h
    · rename_i y p' n hn
      cases h
      obtain ⟨rfl, h2, h3⟩ := initFrom_spec hn
      refine ⟨y, hp, ?_, rfl⟩
      split
      · rename_i h4
        rw [← h3 h4]
        rfl
      · rename_i h4
        rw [h2 h4, update_self hp]
        rfl

/-! ### Failures -/

theorem copyStrings_none {fails : Nat → Bool} (m n : Nat) (h : copyStrings fails m n = none) : ∃ k, fails k = true := by
  induction m generalizing n with
  | zero => cases h
  | succ m ih =>
    simp only [copyStrings] at h
    split at h
    · exact ⟨n, by assumption⟩
    · exact ih _ h

theorem initFrom_none {n : Nat} {e : ExprCat} {v : Value} (h : initFrom C.fails n e v = none) : e ≠ ⟨true, false⟩ ∧ ∃ k, C.fails k = true := by
  unfold initFrom at h
  split at h
  · cases h
  · rename_i h1
    rw [Option.map_eq_none_iff] at h
    refine ⟨fun h2 => ?_, copyStrings_none _ _ h⟩
    subst h2
    exact absurd rfl h1

theorem ownAll_error {n : Nat} {s : List Byte} {cs : List Cap} {m : Bool} {x : HEnd} (h : ownAll C.fails n s cs m = .error x) : x = .terminated ∧ ∃ k, C.fails k = true := by
  unfold ownAll at h
  split at h
  · cases h
  · cases h
    exact ⟨rfl, copyStrings_none _ _ (by assumption)⟩

theorem target_error {v : Value} {e : ExprCat} {k : Option Nat} {x : HEnd} (h : target v e k = .error x) : x = .undefined ∨ x = .illFormed := by
  cases k with
  | none => cases h
  | some j =>
    simp only [target] at h
    split at h
    · cases h; exact .inl rfl
    · cases h
    · cases h; exact .inr rfl

/-- How a statement can end by a failure. -/
theorem step_error {st : HStore} {x : HStmt} {how : HEnd} (h : st.step C x = .error how) : how = .undefined ∨ how = .illFormed ∨
    (∃ k, C.fails k = true) ∧ (how = .terminated ∧ Reckless x ∨ how = .threw ∧ ¬ Reckless x) := by
  cases x with
  | call M =>
    simp only [HStore.step] at h
    split at h
    · split at h
      · cases h
      · cases h; exact .inl rfl
    · cases h; exact .inl rfl
  | callTemp M s =>
    simp only [HStore.step] at h
    split at h
    · cases h1 : ownAll C.fails st.copies s _ _ with
      | error => rw [h1] at h; cases h; obtain ⟨h2, h3⟩ := ownAll_error h1; exact .inr (.inr ⟨h3, .inl ⟨h2, trivial⟩⟩)
      | ok y => rw [h1] at h; cases h
    · cases h; exact .inl rfl
  | own j =>
    simp only [HStore.step] at h
    split at h
    · split at h
      · cases h1 : ownAll C.fails st.copies _ _ _ with
        | error => rw [h1] at h; cases h; obtain ⟨h2, h3⟩ := ownAll_error h1; exact .inr (.inr ⟨h3, .inl ⟨h2, trivial⟩⟩)
        | ok y => rw [h1] at h; cases h
      · split at h
        · cases h1 : ownAll C.fails st.copies _ _ _ with
          | error => rw [h1] at h; cases h; obtain ⟨h2, h3⟩ := ownAll_error h1; exact .inr (.inr ⟨h3, .inl ⟨h2, trivial⟩⟩)
          | ok y => rw [h1] at h; cases h
        · cases h; exact .inl rfl
    · cases h; exact .inl rfl
    · cases h; exact .inr (.inl rfl)
  | init j e k content =>
    simp only [HStore.step] at h
    split at h
    · cases h; exact .inr (.inl rfl)
    · split at h
      · rename_i ht
        cases h
        rcases target_error ht with h | h
        · exact .inl h
        · exact .inr (.inl h)
      · split at h
        · split at h
          · split at h
            · cases h
            · split at h
              · cases h; exact .inl rfl
              · split at h
                · rename_i hf
                  cases h
                  exact .inr (.inr ⟨⟨_, hf⟩, .inr ⟨rfl, id⟩⟩)
                · cases h
          · split at h
            · cases h; exact .inr (.inl rfl)
            · split at h
              · rename_i hn
                cases h
                exact .inr (.inr ⟨(initFrom_none hn).2, .inr ⟨rfl, id⟩⟩)
              · cases h
              · cases h; exact .inr (.inl rfl)
          · cases h; exact .inr (.inl rfl)
        · split at h
          · rename_i hn
            cases h
            exact .inr (.inr ⟨(initFrom_none hn).2, .inr ⟨rfl, id⟩⟩)
          · cases h
  | optional j e =>
    simp only [HStore.step, (C98_accessors_partial e).2.2.1] at h
    split at h
    · cases h
    · split at h
      · cases h
      · split at h
        · rename_i hn
          cases h
          obtain ⟨h1, h2⟩ := initFrom_none hn
          refine .inr (.inr ⟨h2, ?_⟩)
          obtain ⟨a, b⟩ := e
          cases a
          · exact .inr ⟨rfl, nofun⟩
          · cases b
            · exact absurd rfl h1
            · exact .inl ⟨rfl, rfl⟩
        · cases h
    · cases h; exact .inl rfl
    · cases h; exact .inr (.inl rfl)
  | write j k l c =>
    simp only [HStore.step] at h
    repeat' split at h
    all_goals first | (cases h; done) | (cases h; first | exact .inl rfl | exact .inr (.inl rfl))
  | poke j c =>
    simp only [HStore.step] at h
    repeat' split at h
    all_goals first | (cases h; done) | (cases h; exact .inl rfl)
  | destroy => cases h
  | print j k =>
    simp only [HStore.step] at h
    split at h
    · cases h; exact .inr (.inl rfl)
    · split at h
      · rename_i ht
        cases h
        rcases target_error ht with h | h
        · exact .inl h
        · exact .inr (.inl h)
      · split at h
        · cases h
        · cases h; exact .inl rfl

/-- **C98**, partial: a program is terminated, or ends with an exception, only if a copy fails; and only some statements terminate it.  Missing: that these end with an exception
(`C98_terminates_false`). -/
theorem C98_failures_partial (P : List HStmt) (st : HStore) : ((st.run C P).2 = some .terminated → (∃ k, C.fails k = true) ∧ ∃ x ∈ P, Reckless x) ∧
    ((st.run C P).2 = some .threw → (∃ k, C.fails k = true) ∧ ∃ x ∈ P, ¬ Reckless x) := by
  induction P generalizing st with
  | nil => exact ⟨nofun, nofun⟩
  | cons x P ih =>
    simp only [HStore.run]
    split
    · rename_i st' h1
      refine ⟨fun h => ?_, fun h => ?_⟩
      · obtain ⟨h2, y, hy, h3⟩ := (ih st').1 h
        exact ⟨h2, y, List.mem_cons_of_mem _ hy, h3⟩
      · obtain ⟨h2, y, hy, h3⟩ := (ih st').2 h
        exact ⟨h2, y, List.mem_cons_of_mem _ hy, h3⟩
    · rename_i how h1
      have h2 := step_error h1
      refine ⟨fun h => ?_, fun h => ?_⟩ <;> cases h <;> rcases h2 with h2 | h2 | ⟨h2, ⟨h3, h4⟩ | ⟨h3, h4⟩⟩ <;> first | (cases h2; done) | (cases h3; done) | exact ⟨h2, x, List.mem_cons_self .., h4⟩

end

/-! ### Examples -/

theorem step_input {st st' : HStore} {x : HStmt} (h : st.step C x = .ok st') : st'.input = inputAfter st.input x := by
  have hown : ∀ {s cs m}, (ownAll C.fails st.copies s cs m).map (fun x => st.push x.1 x.2) = .ok st' → st'.input = st.input := by
    intro s cs m h
    cases hx : ownAll C.fails st.copies s cs m with
    | error e => rw [hx] at h; cases h
    | ok y => rw [hx] at h; cases h; rfl
  cases x with
  | call M =>
    simp only [HStore.step] at h
    split at h
    · split at h <;> cases h; rfl
    · cases h
  | callTemp M s =>
    simp only [HStore.step] at h
    split at h
    · exact hown h
    · cases h
  | own i =>
    simp only [HStore.step] at h
    split at h
    · split at h
      · exact hown h
      · split at h
        · exact hown h
        · cases h
    · cases h
    · cases h
  | init i e k content =>
    simp only [HStore.step] at h
    split at h
    · cases h
    · split at h
      · cases h
      · split at h
        · split at h
          · split at h
            · cases h; rfl
            · split at h
              · cases h
              · split at h <;> cases h; rfl
          · split at h
            · cases h
            · split at h <;> cases h; rfl
          · cases h
        · split at h <;> cases h; rfl
  | optional i e =>
    simp only [HStore.step] at h
    split at h
    · cases h; rfl
    · split at h
      · cases h; rfl
      · split at h <;> cases h; rfl
    · cases h
    · cases h
  | write i k j c =>
    simp only [HStore.step] at h
    split at h
    · split at h
      · split at h <;> cases h; rfl
      · cases h
      · cases h
    · cases h
    · cases h
  | poke j c =>
    simp only [HStore.step] at h
    split at h
    · next s hs =>
      split at h
      · next hj =>
        cases h
        simp only [inputAfter, hs, Option.map_some, Option.some.injEq]
        rw [List.set_eq_take_append_cons_drop, if_pos hj]
      · cases h
    · cases h
  | destroy => cases h; rfl
  | print i k =>
    simp only [HStore.step] at h
    split at h
    · cases h
    · split at h
      · cases h
      · split at h <;> cases h; rfl

/-- **C98**: a program that ends normally leaves the input as its own writes make it, whatever it does with results. -/
theorem C98_input (P : List HStmt) (st : HStore) (h : (st.run C P).2 = none) : (st.run C P).1.input = P.foldl inputAfter st.input := by
  induction P generalizing st with
  | nil => rfl
  | cons x P ih =>
    simp only [HStore.run] at h ⊢
    split
    · next st' h1 =>
      rw [h1] at h
      rw [ih st' h, List.foldl_cons, step_input h1]
    · next h1 => rw [h1] at h; cases h

/-- **C98**: printing a group shows the text that an observer sees - the characters of the input as it is now, or the text that is owned -, and printing a result shows its group 0; nothing else
is changed. -/
theorem C98_print (st : HStore) {i : Nat} {k : Option Nat} {v : Value} (hi : st.vars[i]? = some v) {t : Option (List Byte)}
    (ht : shownText st.input v (k.getD 0) = some t) : st.step C (.print i k) = .ok { st with out := st.out ++ [t] } := by
  have hg : ∀ e, groupOverload (bestOf e) = some e := fun e => (C98_accessors_partial e).1
  have hk : ∀ cs m, Value.printed (.views cs m) k = some (k.getD 0) := by intro cs m; cases k <;> rfl
  have hk' : ∀ ts m, Value.printed (.owning ts m) k = some (k.getD 0) := by intro cs m; cases k <;> rfl
  cases v with
  | views cs m =>
    simp only [shownText] at ht
    split at ht
    · next c s hc hs =>
      cases ht
      simp only [HStore.step, hi, hk, target, hg, Value.part, hc, Option.map_some, Value.read, hs]
      by_cases he : c.isEmpty = true
      · have : stretchOf s c = [] := by
          match c, he with
          | none, _ => rfl
          | some (b, e), he =>
            have : b = e := by simpa [Cap.isEmpty] using he
            simp [stretchOf, this]
        rw [if_pos he, this]
      · rw [if_neg he, content_capText]
    · cases ht
  | owning ts m =>
    simp only [shownText] at ht
    simp only [HStore.step, hi, hk', target, hg, Value.part, ht, Option.map_some, Value.read]
  | capture c => cases ht
  | owningCapture t => cases ht
  | str t => cases ht
  | nullopt => cases ht

/-- **C98**: after the end of its life the input is not read: groups without text can still be printed, and printing others is undefined. -/
theorem C98_dangling (st : HStore) {i : Nat} {k : Option Nat} {cs : List Cap} {m : Bool} (hi : st.vars[i]? = some (.views cs m)) (hs : st.input = none) {c : Cap}
    (hc : cs[k.getD 0]? = some c) :
    ((∀ b e, c = some (b, e) → b = e) → st.step C (.print i k) = .ok { st with out := st.out ++ [some []] }) ∧
      ∀ b e, c = some (b, e) → b ≠ e → st.step C (.print i k) = .error .undefined := by
  have hg : ∀ e, groupOverload (bestOf e) = some e := fun e => (C98_accessors_partial e).1
  have hk : Value.printed (.views cs m) k = some (k.getD 0) := by cases k <;> rfl
  simp only [HStore.step, hi, hk, target, hg, Value.part, hc, Option.map_some, Value.read, hs, Option.map_none]
  constructor
  · intro h
    match c, h with
    | none, _ => simp [Cap.isEmpty]
    | some (b, e), h => simp [Cap.isEmpty, h b e rfl]
  · rintro b e rfl h
    simp [Cap.isEmpty, h]

/-- **C98**: so a result with views, made at any time, shows the characters that the input has now, after any program that ends normally. -/
theorem C98_views (P : List HStmt) (st : HStore) (h : (st.run C P).2 = none) {i : Nat} {cs : List Cap} {m : Bool} (hi : st.vars[i]? = some (.views cs m)) {k : Option Nat}
    {c : Cap} (hc : cs[k.getD 0]? = some c) {s : List Byte} (hs : P.foldl inputAfter st.input = some s) :
    (st.run C P).1.step C (.print i k) = .ok { (st.run C P).1 with out := (st.run C P).1.out ++ [some (stretchOf s c)] } :=
  C98_print _ (C98_stable P st hi (.inr trivial)) (by simp only [shownText, hc, C98_input P st h, hs])

/-- **C98**: a call makes a new variable with the result for the input as it is now. -/
theorem C98_call (st : HStore) {M : Method} {s : List Byte} (hs : st.input = some s) {res : Result} (hr : C.R.invoke M C.cat s = some res) :
    st.step C (.call M) = .ok { st with vars := st.vars ++ [.views res.groups res.matched] } := by
  simp only [HStore.step, hs, hr, HStore.push]

/-- **C98**: `as_optional` is empty if and only if there is no match; otherwise it contains the result, taken from the variable only if that has been given away. -/
theorem C98_optional (st st' : HStore) {i : Nat} {e : ExprCat} (h : st.step C (.optional i e) = .ok st') :
    (∃ cs m, st.vars[i]? = some (.views cs m) ∧ st'.vars = st.vars ++ [if m then .views cs m else .nullopt]) ∨
      ∃ ts m, st.vars[i]? = some (.owning ts m) ∧
        st'.vars = (if m && e == ⟨true, false⟩ then st.vars.set i (.owning (ts.map fun _ => none) m) else st.vars) ++ [if m then .owning ts m else .nullopt] := by
  simp only [HStore.step] at h
  split at h
  · next cs m hi => cases h; exact .inl ⟨cs, m, hi, rfl⟩
  · next ts m hi =>
    refine .inr ⟨ts, m, hi, ?_⟩
    cases m with
    | false => cases h; rfl
    | true =>
      simp only [Bool.not_true, Bool.false_eq_true, if_false, (C98_accessors_partial e).2.2.1] at h
      split at h
      · cases h
      · next x v' n hx =>
        cases h
        obtain ⟨rfl, h1, h2⟩ := initFrom_spec hx
        by_cases he : e = ⟨true, false⟩
        · rw [h2 he]; simp [HStore.push, he, Value.drained]
        · rw [h1 he]
          have hl := List.getElem?_eq_some_iff.1 hi
          have : st.vars.set i (.owning ts true) = st.vars := by
            rw [← hl.2]; exact List.set_getElem_self hl.1
          simp [HStore.push, he, this]
  · cases h
  · cases h

/-- **C98**: writing to a group changes one character of this group and nothing else. -/
theorem C98_write (st st' : HStore) {i k j : Nat} {c : Byte} (h : st.step C (.write i k j c) = .ok st') :
    ∃ ts m t, st.vars[i]? = some (.owning ts m) ∧ ts[k]? = some (some t) ∧ j < t.length ∧
      st' = { st with vars := st.vars.set i (.owning (ts.set k (some (t.take j ++ c :: t.drop (j + 1)))) m) } := by
  simp only [HStore.step] at h
  split at h
  · next ts m hi =>
    split at h
    · next t ht =>
      split at h
      · next hj =>
        cases h
        refine ⟨ts, m, t, hi, ht, hj, ?_⟩
        rw [List.set_eq_take_append_cons_drop (l := t), if_pos hj]
      · cases h
    · cases h
    · cases h
  · cases h
  · cases h

/-- `(a)b`. -/
def exHolding : Regex := ⟨.seq [.cap 1 none (.lit (ch 'a')), .lit (ch 'b')], []⟩

/-- The copy with the given number fails. -/
def exConfig (n : Nat) : HConfig := ⟨exHolding, .randomAccess, true, fun k => k == n⟩

/-- All of it at the end: the variables, what was printed, how it ended. -/
def summary (C : HConfig) (s : List Byte) (P : List HStmt) : List (Option (List Byte)) × Option HEnd :=
  let r := (HStore.mk (some s) [] 0 []).run C P
  (r.1.out, r.2)

/-- **C98** is false as stated: the functions that copy the texts of views, and `as_optional` for expiring const objects, are declared `noexcept`: if there is no memory for the texts, the program
is terminated instead of an exception being thrown. -/
theorem C98_terminates_false :
    (summary (exConfig 1) [ch 'a', ch 'b'] [.call .match, .own 0]).2 = some .terminated ∧
    (summary (exConfig 1) [] [.callTemp .match [ch 'a', ch 'b']]).2 = some .terminated ∧
    (summary (exConfig 2) [] [.callTemp .match [ch 'a', ch 'b'], .optional 0 ⟨true, true⟩]).2 = some .terminated := by decide +kernel

/-- A copy of the same object that is not expiring throws, and giving the object away does not fail. -/
example :
    (summary (exConfig 2) [] [.callTemp .match [ch 'a', ch 'b'], .optional 0 ⟨false, true⟩]).2 = some .threw ∧
    (summary (exConfig 2) [] [.callTemp .match [ch 'a', ch 'b'], .optional 0 ⟨true, false⟩, .print 1 (some 1)]) = ([some [ch 'a']], none) := by decide +kernel

/-- Views show the input, texts do not; what has been given away is unspecified; `content` of an expiring capture leaves it as it is. -/
example : summary (exConfig 99) [ch 'a', ch 'b'] [.call .match, .own 0, .poke 0 (ch 'x'), .print 0 none, .print 1 none, .init 1 ⟨true, false⟩ (some 1) true, .print 1 (some 1),
      .init 1 ⟨true, false⟩ (some 1) false, .print 1 (some 1), .print 3 none, .write 1 0 1 (ch 'y'), .destroy, .print 1 none, .print 0 none] =
    ([some [ch 'x', ch 'b'], some [ch 'a', ch 'b'], some [ch 'a'], none, some [ch 'a'], some [ch 'a', ch 'y']], some .undefined) := by decide +kernel

/-- An optional of a failed match is empty, and cannot be used. -/
example : summary (exConfig 99) [ch 'a', ch 'x'] [.call .match, .optional 0 ⟨false, false⟩, .print 1 (some 0)] = ([], some .undefined) := by decide +kernel

end Mregex
