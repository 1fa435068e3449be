import Verif.Spec.Proc
import Verif.Proof.Sound
import Verif.Proof.Paths
import Verif.Proof.Oblivious

/-!
# Running procedures

`runP` carries out a procedure with an arbitrary continuation for the rest of the regex; `DenP` says that a matcher does the same.
-/

namespace Mregex
open Ast Spec

/-! ### Outcomes that differ at most in the position of a failure -/

section
variable (N : Nat)

def LikeO : Out → Out → Prop
  | .ok r c, .ok r' c' => r.matched = r'.matched ∧ (r.matched = true → r.pos = r'.pos) ∧ c = c' ∧ c.length = N
  | .ub, .ub => True
  | .diverge, .diverge => True
  | _, _ => False

def LikeF (f f' : Ctx → Out) : Prop := ∀ c, c.length = N → LikeO N (f c) (f' c)

variable {N}

theorem LikeO.symm {o o' : Out} (h : LikeO N o o') : LikeO N o' o := by
  match o, o', h with
  | .ok r c, .ok r' c', ⟨h1, h2, h3, h4⟩ => exact ⟨h1.symm, fun h => (h2 (h1.trans h)).symm, h3.symm, h3 ▸ h4⟩
  | .ub, .ub, _ => trivial
  | .diverge, .diverge, _ => trivial

theorem LikeO.trans {o o' o'' : Out} (h : LikeO N o o') (h' : LikeO N o' o'') : LikeO N o o'' := by
  match o, o', o'', h, h' with
  | .ok r c, .ok r' c', .ok r'' c'', ⟨h1, h2, h3, h4⟩, ⟨i1, i2, i3, i4⟩ =>
    exact ⟨h1.trans i1, fun h => (h2 h).trans (i2 (h1 ▸ h)), h3.trans i3, h4⟩
  | .ub, .ub, .ub, _, _ => trivial
  | .diverge, .diverge, .diverge, _, _ => trivial

theorem LikeF.symm {f f' : Ctx → Out} (h : LikeF N f f') : LikeF N f' f := fun c hc => (h c hc).symm
theorem LikeF.trans {f f' f'' : Ctx → Out} (h : LikeF N f f') (h' : LikeF N f' f'') : LikeF N f f'' :=
  fun c hc => (h c hc).trans (h' c hc)

theorem LikeF.nonMatch (p q : Nat) : LikeF N (Mregex.nonMatch p) (Mregex.nonMatch q) :=
  fun _ hc => ⟨rfl, fun h => by simp at h, rfl, hc⟩

theorem LikeO.orElse {o o' : Out} {f f' : Ctx → Out} (h : LikeO N o o') (hf : LikeF N f f') : LikeO N (o.orElse f) (o'.orElse f') := by
  match o, o', h with
  | .ok ⟨p, true⟩ c, .ok ⟨p', true⟩ c', h => exact h
  | .ok ⟨p, false⟩ c, .ok ⟨p', false⟩ c', ⟨_, _, h3, h4⟩ => subst h3; exact hf c h4
  | .ok ⟨p, true⟩ c, .ok ⟨p', false⟩ c', ⟨h1, _⟩ => cases h1
  | .ok ⟨p, false⟩ c, .ok ⟨p', true⟩ c', ⟨h1, _⟩ => cases h1
  | .ub, .ub, _ => trivial
  | .diverge, .diverge, _ => trivial

theorem LikeF.orElse {f f' g g' : Ctx → Out} (h : LikeF N f f') (hg : LikeF N g g') :
    LikeF N (fun c => (f c).orElse g) (fun c => (f' c).orElse g') := fun c hc => (h c hc).orElse hg

theorem LikeO.fail {o o' : Out} (h : LikeO N o o') (q : Nat) : LikeO N o (o'.orElse (Mregex.nonMatch q)) := by
  match o, o', h with
  | .ok ⟨p, true⟩ c, .ok ⟨p', true⟩ c', h => exact h
  | .ok ⟨p, false⟩ c, .ok ⟨p', false⟩ c', ⟨_, _, h3, h4⟩ => exact ⟨rfl, fun h => by simp at h, h3, h4⟩
  | .ok ⟨p, true⟩ c, .ok ⟨p', false⟩ c', ⟨h1, _⟩ => cases h1
  | .ok ⟨p, false⟩ c, .ok ⟨p', true⟩ c', ⟨h1, _⟩ => cases h1
  | .ub, .ub, _ => trivial
  | .diverge, .diverge, _ => trivial

theorem like_success (q : Nat) : LikeF N (success q) (success q) := fun _ hc => ⟨rfl, fun _ => rfl, rfl, hc⟩

end

/-! ### Running a procedure -/

/-- Carry out a procedure, with `k` for the rest of the regex. -/
def runP (k : Cont) : Proc → Ctx → Out
  | .done, c => nonMatch 0 c
  | .note i b e P, c => runP k P (c.set i (some (b, e)))
  | .cross i P, c => runP k P (clearCapture i c)
  | .offer q P, c => (k q c).orElse (runP k P)
  | .recall i f, c =>
    match c[i]? with
    | none => .ub
    | some v => runP k (f v) c

theorem run_andThen (k : Cont) (P Q : Proc) (c : Ctx) : runP k (P.andThen Q) c = (runP k P c).orElse (runP k Q) := by
  induction P generalizing c with
  | done => simp [Proc.andThen, runP, nonMatch, Out.orElse]
  | note i b e P ih => exact ih _
  | cross i P ih => exact ih _
  | offer q P ih =>
    simp only [Proc.andThen, runP, orElse_assoc']
    congr 1
    funext c'
    exact ih c'
  | recall i f ih =>
    simp only [Proc.andThen, runP]
    cases c[i]? with
    | none => rfl
    | some v => exact ih v c

theorem run_goOn (k : Cont) (P : Proc) (g : Nat → Proc) (c : Ctx) : runP k (P.proceed g) c = runP (fun q => runP k (g q)) P c := by
  induction P generalizing c with
  | done => rfl
  | note i b e P ih => exact ih _
  | cross i P ih => exact ih _
  | offer q P ih =>
    simp only [Proc.proceed, run_andThen, runP]
    congr 1
    funext c'
    exact ih c'
  | recall i f ih =>
    simp only [Proc.proceed, runP]
    cases c[i]? with
    | none => rfl
    | some v => exact ih v c

theorem run_settle (k : Cont) (f : Nat → Proc) (h P : Proc) (c : Ctx) :
    runP k (P.commit f h) c = (runP success P c).onMatch (fun q => runP k (f q)) (runP k h) := by
  induction P generalizing c with
  | done => simp [Proc.commit, runP, nonMatch, Out.onMatch]
  | note i b e P ih => exact ih _
  | cross i P ih => exact ih _
  | offer q P ih => simp [Proc.commit, runP, success, Out.onMatch, Out.orElse]
  | recall i f ih =>
    simp only [Proc.commit, runP]
    cases c[i]? with
    | none => rfl
    | some v => exact ih v c

theorem run_without (k : Cont) (p : Nat) (P : Proc) (c : Ctx) :
    runP k (P.except p) c = runP (fun q c' => if q = p then nonMatch 0 c' else k q c') P c := by
  induction P generalizing c with
  | done => rfl
  | note i b e P ih => exact ih _
  | cross i P ih => exact ih _
  | offer q P ih =>
    by_cases h : q = p
    · subst h
      simp only [Proc.except, if_true, runP, ih]
      simp [nonMatch, Out.orElse]
    · simp only [Proc.except, if_neg h, runP]
      congr 1
      funext c'
      exact ih c'
  | recall i f ih =>
    simp only [Proc.except, runP]
    cases c[i]? with
    | none => rfl
    | some v => exact ih v c

/-- A success is an offer. -/
theorem run_success_offer {P : Proc} {c c' : Ctx} {q : Nat} (h : runP success P c = .ok ⟨q, true⟩ c') {k : Cont} (hk : ∀ c, k q c = .ub) :
    runP k P c = .ub := by
  induction P generalizing c with
  | done => simp [runP, nonMatch] at h
  | note i b e P ih => exact ih h
  | cross i P ih => exact ih h
  | offer q' P ih =>
    simp only [runP, success, Out.orElse, if_true, Out.ok.injEq, MR.mk.injEq, and_true] at h
    obtain ⟨rfl, rfl⟩ := h
    simp only [runP, hk, Out.orElse]
  | recall i f ih =>
    simp only [runP] at h ⊢
    cases hi : c[i]? with
    | none => rfl
    | some v => rw [hi] at h; exact ih v h

/-! ### Matchers that carry out a procedure -/

/-- The positions that may be offered: in the reading direction, and not the first one if `z` is false. -/
def Stay (E : Env) (r : Nat) (z : Bool) (p q : Nat) : Prop := E.Reach r p q ∧ (z = false → p ≠ q)

/-- The matcher `m` carries out the procedures `g`. -/
def DenP (N : Nat) (E : Env) (r : Nat) (z : Bool) (m : Matcher) (g : Nat → Proc) : Prop :=
  ∀ p k k', p ≤ E.inp.length → (∀ q, Stay E r z p q → LikeF N (k q) (k' q)) → LikeF N (fun c => m p c k) (runP k' (g p))

section
variable {N : Nat} {E : Env} {r : Nat} {z : Bool}

theorem Stay.self {p : Nat} (hp : p ≤ E.inp.length) : Stay E r true p p := ⟨.refl hp, fun h => by cases h⟩

theorem Stay.mono {z' : Bool} {p q : Nat} (h : Stay E r z p q) (hz : z = true → z' = true) : Stay E r z' p q :=
  ⟨h.1, fun h' => h.2 (by cases z with | false => rfl | true => rw [hz rfl] at h'; cases h')⟩

theorem Stay.trans {z' : Bool} {p q t : Nat} (h : Stay E r z p q) (h' : Stay E r z' q t) : Stay E r (z && z') p t := by
  refine ⟨h.1.trans h'.1, fun hz => ?_⟩
  rintro rfl
  have := h.1.antisymm h'.1
  subst this
  rcases (Bool.and_eq_false_iff.1 hz) with hz | hz
  · exact h.2 hz rfl
  · exact h'.2 hz rfl

theorem DenP.mono {z' : Bool} {m : Matcher} {g : Nat → Proc} (h : DenP N E r z m g) (hz : z = true → z' = true) : DenP N E r z' m g :=
  fun p k k' hp hk => h p k k' hp (fun q hq => hk q (hq.mono hz))

theorem DenP.weaken {m : Matcher} {g : Nat → Proc} (h : DenP N E r z m g) : DenP N E r true m g := h.mono (fun _ => rfl)

theorem DenP.congr {m : Matcher} {g g' : Nat → Proc} (h : DenP N E r z m g) (hg : ∀ p, p ≤ E.inp.length → g p = g' p) : DenP N E r z m g' := by
  intro p k k' hp hk
  rw [← hg p hp]
  exact h p k k' hp hk

theorem like_only {f : Ctx → Out} {k' : Cont} {q : Nat} (h : LikeF N f (k' q)) : LikeF N f (runP k' (.only q)) :=
  fun c hc => (h c hc).fail 0

theorem DenP.id : DenP N E r true (fun p c k => k p c) Proc.only := by
  intro p k k' hp hk
  exact like_only (hk p (.self hp))

theorem DenP.comp {z' : Bool} {m m' : Matcher} {g g' : Nat → Proc} (h : DenP N E r z m g) (h' : DenP N E r z' m' g') :
    DenP N E r (z && z') (fun p c k => m p c (fun q c' => m' q c' k)) (fun p => (g p).proceed g') := by
  intro p k k' hp hk
  rw [funext (run_goOn k' (g p) g')]
  exact h p _ _ hp (fun q hq => h' q k k' hq.1.right_le (fun t ht => hk t (hq.trans ht)))

theorem DenP.orElse {z' : Bool} {m m' : Matcher} {g g' : Nat → Proc} (h : DenP N E r z m g) (h' : DenP N E r z' m' g') :
    DenP N E r (z || z') (fun p c k => (m p c k).orElse (fun c' => m' p c' k)) (fun p => (g p).andThen (g' p)) := by
  intro p k k' hp hk
  rw [funext (run_andThen k' (g p) (g' p))]
  exact (h p k k' hp (fun q hq => hk q (hq.mono (fun e => by simp [e])))).orElse
    (h' p k k' hp (fun q hq => hk q (hq.mono (fun e => by simp [e]))))

open Classical in
/-- What the matcher finds lies where it should. -/
theorem DenP.found {m : Matcher} {g : Nat → Proc} (h : DenP N E r z m g) {p : Nat} (hp : p ≤ E.inp.length) {c c' : Ctx} (hc : c.length = N)
    {q : Nat} (hq : runP success (g p) c = .ok ⟨q, true⟩ c') : Stay E r z p q := by
  apply Classical.byContradiction
  intro hn
  let k : Cont := fun t c => if Stay E r z p t then success t c else .ub
  have h1 := h p success success hp (fun t _ => like_success t) c hc
  have h2 := h p success k hp (fun t ht => by
    have : k t = success t := by funext c; simp [k, ht]
    rw [this]; exact like_success t) c hc
  have h3 := run_success_offer hq (k := k) (fun c => by simp [k, hn])
  have h4 := h1.symm.trans h2
  rw [hq, h3] at h4
  exact h4

/-- Commit to the first match. -/
theorem DenP.first {m : Matcher} {g : Nat → Proc} (h : DenP N E r z m g) {p : Nat} (hp : p ≤ E.inp.length) {f : Nat → Ctx → Out} {t : Ctx → Out}
    {F : Nat → Proc} {T : Proc} {k' : Cont} (hf : ∀ q, Stay E r z p q → LikeF N (f q) (runP k' (F q))) (ht : LikeF N t (runP k' T)) :
    LikeF N (fun c => (m p c success).onMatch f t) (runP k' ((g p).commit F T)) := by
  intro c hc
  rw [run_settle k' F T (g p)]
  have h1 := h p success success hp (fun t _ => like_success t) c hc
  dsimp only at h1 ⊢
  generalize m p c success = o at h1
  cases ho : runP success (g p) c with
  | ok res c' =>
    rw [ho] at h1
    match o, res, h1 with
    | .ok ⟨a, true⟩ c1, ⟨b, true⟩, ⟨_, h2, h3, h4⟩ =>
      obtain rfl := h2 rfl
      subst h3
      exact hf a (h.found hp hc ho) c1 h4
    | .ok ⟨a, false⟩ c1, ⟨b, false⟩, ⟨_, h2, h3, h4⟩ => subst h3; exact ht c1 h4
  | ub => rw [ho] at h1; match o, h1 with | .ub, _ => trivial
  | diverge => rw [ho] at h1; match o, h1 with | .diverge, _ => trivial

theorem DenP.atomic {m : Matcher} {g : Nat → Proc} (h : DenP N E r z m g) :
    DenP N E r z (fun p c k => (m p c success).onMatch k (fun c' => nonMatch p c')) (fun p => (g p).commit Proc.only .done) :=
  fun p _ _ hp hk => h.first hp (fun q hq => like_only (hk q hq)) (.nonMatch p 0)

theorem DenP.look {r' : Nat} {m : Matcher} {g : Nat → Proc} (h : DenP N E r' z m g) :
    DenP N E r true (lookMatch m) (fun p => (g p).commit (fun _ => .only p) .done) :=
  fun p _ _ hp hk => h.first hp (fun _ _ => like_only (hk p (.self hp))) (.nonMatch p 0)

theorem DenP.negAssert {m : Matcher} {g : Nat → Proc} (h : DenP N E r z m g) :
    DenP N E r true (negAssertMatch m) (fun p => (g p).commit (fun _ => .done) (.only p)) :=
  fun p _ _ hp hk => h.first hp (fun _ _ => .nonMatch p 0) (like_only (hk p (.self hp)))

theorem DenP.assert {pred : Nat → Option Bool} {b : Nat → Bool} (h : ∀ p, p ≤ E.inp.length → pred p = some (b p)) :
    DenP N E r true (assertMatch pred) (fun p => .offers (test (b p) p)) := by
  intro p k k' hp hk
  unfold assertMatch
  rw [h p hp]
  dsimp only
  cases b p with
  | false => exact .nonMatch p 0
  | true => exact like_only (hk p (.self hp))

theorem denP_cap {id : Nat} {name : GroupName} {m : Matcher} {g : Nat → Proc} (h : DenP N E r z m g) (hN : N = E.names.length)
    (hn : E.names[id]? = some name) (hr : r ≤ 1) :
    DenP N E r z (capMatch E r id name m)
      (fun p => ((g p).proceed (fun q => if r % 2 = 0 then .note id p q (.only q) else .note id q p (.only q))).andThen (.cross id .done)) := by
  intro p k k' hp hk
  rw [funext (run_andThen k' _ _)]
  unfold capMatch
  refine LikeF.orElse ?_ ?_
  · rw [funext (run_goOn k' _ _)]
    refine h p _ _ hp (fun q hq c hc => ?_)
    have hid : id < N := by rw [hN]; exact (List.getElem?_eq_some_iff.1 hn).1
    have e : setCapture E r id name p q c = some (c.set id (some (if r = 0 then (p, q) else (q, p)))) := by
      unfold setCapture; rw [if_pos ⟨hn, hr, by rw [hc]; exact hid⟩]
    simp only [e]
    have hk := like_only (hk q hq) (c.set id (some (if r = 0 then (p, q) else (q, p)))) (by simpa using hc)
    have : r = 0 ∨ r = 1 := by omega
    rcases this with rfl | rfl
    · exact hk
    · exact hk
  · intro c hc
    exact ⟨rfl, fun h => by simp at h, rfl, by simpa [clearCapture] using hc⟩

/-! ### Characters -/

theorem like_offers {f : Ctx → Out} {k' : Cont} {q : Nat} (h : LikeF N f (k' q)) : LikeF N f (runP k' (.offers [q])) := like_only h

theorem DenP.triv {fwd : Bool} (hf : fwd = (r % 2 == 0)) (a : Ast) :
    DenP N E r false (trivMatch E r a) (fun p => .offers (oneChar E.inp fwd (accepts E.flags a) p)) := by
  intro p k k' hp hk
  unfold trivMatch
  by_cases h0 : E.remaining r p = 0
  · simp only [(Env.atEnd_iff hp).2 h0, if_true, oneChar_end hf hp h0]
    exact .nonMatch p 0
  · have h1 : E.atEnd r p = false := by
      rw [← Bool.not_eq_true, Env.atEnd_iff hp]; exact h0
    obtain ⟨x, hx⟩ := Env.deref_some hp h0
    dsimp only
    rw [oneChar_next hf hp h0 hx]
    simp only [h1, hx, Bool.false_eq_true, if_false, matchOne_eq_accepts]
    cases accepts E.flags a x with
    | true => exact like_only (hk _ ⟨Env.reach_next hp h0, fun _ => (Env.next_ne hp h0).symm⟩)
    | false => exact .nonMatch p 0

theorem charSeq_stay {f : Flags} {fwd : Bool} (hf : fwd = (r % 2 == 0)) (l : List Ast) {p q : Nat} (hp : p ≤ E.inp.length)
    (hq : q ∈ charSeq f E.inp fwd l p) : Stay E r l.isEmpty p q := by
  induction l generalizing p with
  | nil => simp only [charSeq, List.mem_singleton] at hq; subst hq; exact .self hp
  | cons a l ih =>
    simp only [charSeq, List.mem_flatMap] at hq
    obtain ⟨t, ht, hq⟩ := hq
    obtain ⟨rfl, h0⟩ := oneChar_ne hf hp ht
    have h1 : Stay E r false p (Env.next r p) := ⟨Env.reach_next hp h0, fun _ => (Env.next_ne hp h0).symm⟩
    have := h1.trans (ih h1.1.right_le hq)
    simpa using this

theorem like_runFail (p : Nat) (q : Nat) (b : Prop) [Decidable b] : LikeF N (fun c => if b then nonMatch p c else nonMatch q c) (nonMatch 0) := by
  by_cases h : b
  · simp only [h, if_true]; exact .nonMatch p 0
  · simp only [h, if_false]; exact .nonMatch q 0

theorem DenP.seqTriv {fwd : Bool} (hf : fwd = (r % 2 == 0)) (l : List Ast) :
    DenP N E r l.isEmpty (seqTriv E r l) (fun p => .offers (charSeq E.flags E.inp fwd l p)) := by
  intro p k k' hp hk
  unfold Mregex.seqTriv
  rw [Env.distanceLessThan_eq _ hp]
  by_cases h : E.remaining r p < l.length
  · simp only [h, decide_true, if_true, charSeq_short hf l hp h]
    exact .nonMatch p 0
  · simp only [h, decide_false, Bool.false_eq_true, if_false]
    rcases runTriv_charSeq hf l hp (by simpa using h) with ⟨q, h1, h2⟩ | ⟨q, h1, h2⟩
    · rw [h2]
      simp only [h1]
      exact like_only (hk q (charSeq_stay hf l hp (by rw [h2]; simp)))
    · simp only [h1, h2]
      exact like_runFail _ _ _

theorem DenP.fixedTriv {fwd : Bool} (hf : fwd = (r % 2 == 0)) (a : Ast) (n : Nat) (hn : n ≠ 0) :
    DenP N E r false (fixedTriv E r a n) (fun p => .offers (exactly (oneChar E.inp fwd (accepts E.flags a)) n p)) := by
  intro p k k' hp hk
  dsimp only
  rw [← charSeq_replicate]
  unfold Mregex.fixedTriv
  rw [Env.distanceLessThan_eq _ hp]
  by_cases h : E.remaining r p < n
  · simp only [h, decide_true, if_true, charSeq_short hf (List.replicate n a) hp (by simpa using h)]
    exact .nonMatch p 0
  · simp only [h, decide_false, Bool.false_eq_true, if_false]
    rcases runTriv_charSeq hf (List.replicate n a) hp (by simpa using h) with ⟨q, h1, h2⟩ | ⟨q, h1, h2⟩
    · rw [h2]
      simp only [h1]
      have := charSeq_stay hf (List.replicate n a) hp (q := q) (by rw [h2]; simp)
      exact like_only (hk q (this.mono (by simp [hn])))
    · simp only [h1, h2]
      exact like_runFail _ _ _

/-! ### References -/

theorem copies_short {fwd : Bool} (hf : fwd = (r % 2 == 0)) (icase : Bool) (w : List Byte) {p : Nat} (hp : p ≤ E.inp.length)
    (hl : E.remaining r p < w.length) : copies icase E.inp fwd w p = [] := by
  induction w generalizing p with
  | nil => simp at hl
  | cons x w ih =>
    unfold copies
    by_cases h0 : E.remaining r p = 0
    · rw [oneChar_end hf hp h0]; rfl
    · obtain ⟨y, hy⟩ := Env.deref_some hp h0
      rw [oneChar_next hf hp h0 hy]
      have := Env.remaining_next hp h0
      split
      · simp only [List.flatMap_cons, List.flatMap_nil, List.append_nil]
        exact ih (Env.reach_next hp h0).right_le (by simp at hl; omega)
      · rfl

theorem backrefLoop_copies {fwd : Bool} (hf : fwd = (r % 2 == 0)) (w : List Byte) {p : Nat} (hp : p ≤ E.inp.length)
    (hl : w.length ≤ E.remaining r p) :
    (∃ q, backrefLoop E r w p = .done q ∧ copies E.flags.icase E.inp fwd w p = [q] ∧ E.Reach r p q) ∨
    (∃ q, backrefLoop E r w p = .fail q ∧ copies E.flags.icase E.inp fwd w p = []) := by
  induction w generalizing p with
  | nil => exact .inl ⟨p, rfl, rfl, .refl hp⟩
  | cons x w ih =>
    have h0 : E.remaining r p ≠ 0 := by simp at hl; omega
    obtain ⟨y, hy⟩ := Env.deref_some hp h0
    have hr := Env.remaining_next hp h0
    unfold copies
    rw [oneChar_next hf hp h0 hy]
    have e : backrefEquals E.flags.icase x y = sameChar E.flags.icase x y := by simp only [backrefEquals_spec, sameChar]
    simp only [backrefLoop, hy, e]
    split
    · simp only [List.flatMap_cons, List.flatMap_nil, List.append_nil]
      rcases ih (Env.reach_next hp h0).right_le (by simp at hl; omega) with ⟨q, h1, h2, h3⟩ | h
      · exact .inl ⟨q, h1, h2, (Env.reach_next hp h0).trans h3⟩
      · exact .inr h
    · exact .inr ⟨p, rfl, rfl⟩

theorem capText_held (s : List Byte) (v : Cap) : capText s v = heldText s v := by cases v <;> rfl

theorem denP_reference (hcat : E.cat ≠ .forward) {id : Nat} (hid : id < N) :
    DenP N E r true (fun p c k => match c[id]? with | none => .ub | some g => backrefMatch E r g p c k) (reference E.flags E.inp id r) := by
  intro p k k' hp hk c hc
  obtain ⟨v, hv⟩ : ∃ v, c[id]? = some v := ⟨c[id], List.getElem?_eq_getElem (by omega)⟩
  simp only [reference, runP, hv]
  unfold backrefMatch
  simp only [hcat, if_false]
  rw [capText_held, Env.distanceLessThan_eq _ hp]
  by_cases h : E.remaining r p < (heldText E.inp v).length
  · simp only [h, decide_true, if_true]
    rw [copies_short rfl _ _ hp (by split <;> simpa using h)]
    exact LikeF.nonMatch p 0 c hc
  · simp only [h, decide_false, Bool.false_eq_true, if_false]
    rcases backrefLoop_copies (E := E) (r := r) rfl (if r = 0 then heldText E.inp v else (heldText E.inp v).reverse) hp
        (by split <;> simpa using h) with ⟨q, h1, h2, h3⟩ | ⟨q, h1, h2⟩
    · rw [h1, h2]
      exact like_only (hk q ⟨h3, fun e => by cases e⟩) c hc
    · rw [h1, h2]
      exact LikeF.nonMatch q 0 c hc

end
end Mregex
