import Verif.Proof.PathMethods
import Verif.Proof.Local

/-!
# Captured ranges and copies of them
-/

namespace Mregex
open Ast Spec

/-! ### A captured range is matched by the group -/

theorem capAt_body {r r' id : Nat} {b : Ast} (a : Ast) (inv : Bool) (h : CapAt r (if inv then invert a else a) r' id b)
    (hr : Readable (r % 2 == 0) inv a) (hw : wf a = true) (hb : noBackref a = true) (hp : noPossessive a = true) :
    ∃ body inv', GroupBody a id body ∧ b = (if inv' then invert body else body) ∧ Readable (r' % 2 == 0) inv' body ∧
      wf body = true ∧ noBackref body = true ∧ noPossessive body = true := by
  induction a using ind generalizing r inv with
  | cap id' n a ih =>
    have hr' := hr.cap
    have hx : CapAt r (.cap id' n (if inv then invert a else a)) r' id b := by
      cases inv <;> simpa [invert] using h
    cases hx with
    | here => exact ⟨a, inv, .here, rfl, hr', hw, hb, hp⟩
    | cap h =>
      obtain ⟨body, inv', h1, h2⟩ := ih inv h hr' hw hb hp
      exact ⟨body, inv', .cap h1, h2⟩
  | neg a ih =>
    have hx : CapAt r (.neg (if inv then invert a else a)) r' id b := by
      cases inv <;> simpa [invert] using h
    cases hx with | neg h => ?_
    simp only [wf, Bool.and_eq_true] at hw
    obtain ⟨body, inv', h1, h2⟩ := ih inv h hr.neg hw.2 hb hp
    exact ⟨body, inv', .neg h1, h2⟩
  | rep m lo hi a ih =>
    have hx : CapAt r (.rep m lo hi (if inv then invert a else a)) r' id b := by
      cases inv <;> simpa [invert] using h
    cases hx with | rep h => ?_
    have hw' : wf a = true := by cases hi <;> simp_all [wf]
    have hp' : noPossessive a = true := by cases m <;> simp_all [noPossessive]
    obtain ⟨body, inv', h1, h2⟩ := ih inv h hr.rep hw' hb hp'
    exact ⟨body, inv', .rep h1, h2⟩
  | seq l ih =>
    have hx : ∃ c ∈ l, CapAt r (if inv then invert c else c) r' id b := by
      cases inv with
      | true =>
        simp only [if_true, invert, invertAll_eq] at h
        cases h with | seq hm h => ?_
        simp only [List.mem_reverse, List.mem_map] at hm
        obtain ⟨c, hc, rfl⟩ := hm
        exact ⟨c, hc, h⟩
      | false =>
        simp only [Bool.false_eq_true, if_false] at h
        cases h with | seq hm h => exact ⟨_, hm, h⟩
    obtain ⟨c, hc, h⟩ := hx
    simp only [wf, wfAll_eq, Bool.and_eq_true, List.all_eq_true] at hw
    simp only [noBackref, noBackrefAll_eq, List.all_eq_true] at hb
    simp only [noPossessive, noPossessiveAll_eq, List.all_eq_true] at hp
    obtain ⟨body, inv', h1, h2⟩ := ih c hc inv h (hr.seq c hc) (hw.2 c hc) (hb c hc) (hp c hc)
    exact ⟨body, inv', .seq hc h1, h2⟩
  | alt l ih =>
    have hx : ∃ c ∈ l, CapAt r (if inv then invert c else c) r' id b := by
      cases inv with
      | true =>
        simp only [if_true, invert, invertAll_eq] at h
        cases h with | alt hm h => ?_
        simp only [List.mem_map] at hm
        obtain ⟨c, hc, rfl⟩ := hm
        exact ⟨c, hc, h⟩
      | false =>
        simp only [Bool.false_eq_true, if_false] at h
        cases h with | alt hm h => exact ⟨_, hm, h⟩
    obtain ⟨c, hc, h⟩ := hx
    simp only [wf, wfAll_eq, Bool.and_eq_true, List.all_eq_true] at hw
    simp only [noBackref, noBackrefAll_eq, List.all_eq_true] at hb
    simp only [noPossessive, noPossessiveAll_eq, List.all_eq_true] at hp
    obtain ⟨body, inv', h1, h2⟩ := ih c hc inv h (hr.alt c hc) (hw.2 c hc) (hb c hc) (hp c hc)
    exact ⟨body, inv', .alt hc h1, h2⟩
  | look d a ih =>
    have hmod : ∀ r : Nat, ((r + 1) % 2 == 0) = !(r % 2 == 0) := fun r => (fwd_succ r)
    rcases hr with ⟨h1, rfl, h3⟩ | ⟨h1, rfl, h3⟩ | h3
    · simp only [Bool.false_eq_true, if_false] at h
      cases h with
      | ahead h =>
        simp only [behindOk] at h3
        obtain ⟨body, inv', h4, h5⟩ := ih false h (.inl ⟨h1, rfl, h3⟩) hw hb hp
        exact ⟨body, inv', .look h4, h5⟩
      | behind h =>
        simp only [behindOk] at h3
        obtain ⟨body, inv', h4, h5⟩ := ih true h (.inr (.inl ⟨by rw [hmod, h1]; rfl, rfl, h3⟩)) hw hb hp
        exact ⟨body, inv', .look h4, h5⟩
    · simp only [reversible] at h3
      cases d with
      | ahead =>
        simp only [if_true, invert] at h
        cases h with | behind h => ?_
        obtain ⟨body, inv', h4, h5⟩ := ih true h (.inr (.inr h3)) hw hb hp
        exact ⟨body, inv', .look h4, h5⟩
      | behind =>
        simp only [if_true, invert] at h
        cases h with | ahead h => ?_
        obtain ⟨body, inv', h4, h5⟩ := ih false h (.inr (.inr h3)) hw hb hp
        exact ⟨body, inv', .look h4, h5⟩
    · simp [palindromic] at h3
  | _ => cases inv <;> simp only [if_true, Bool.false_eq_true, if_false, invert] at h <;> cases h

/-- Every range with text is matched by the body of its group. -/
def Justified (f : Flags) (s : List Byte) (a : Ast) (n : Nat) (c : Ctx) : Prop :=
  c.length = n ∧ ∀ (k b e : Nat), c[k]? = some (some (b, e)) → b < e → ∃ body, GroupBody a k body ∧ Matches f s body b e

theorem capStable_justified {E : Env} {a : Ast} (hok : Ok E 0 a) (hd : declarative a = true) :
    CapStable E (Justified E.flags E.inp a E.names.length) 0 a := by
  simp only [declarative, Bool.and_eq_true] at hd
  intro r' id b h
  refine ⟨fun c hc => ⟨by simpa [length_clear] using hc.1, fun k b e hk hbe => ?_⟩, fun c p q hc hp hq => ?_⟩
  · obtain ⟨e', h1, h2⟩ := getElem?_clearCapture hk
    rcases h2 with rfl | rfl
    · exact hc.2 k b e h1 hbe
    · omega
  · refine ⟨by simpa using hc.1, fun k b' e hk hbe => ?_⟩
    rw [List.getElem?_set] at hk
    split at hk
    · next hid =>
      subst hid
      obtain ⟨body, inv', h1, rfl, h3, h4, h5, h6⟩ := capAt_body (r := 0) a false h (.inl ⟨rfl, rfl, hd.2⟩) (wf_of_ok hok) hd.1.1 hd.1.2
      have hr' := capAt_le_one hok h
      have hq' : q ∈ ends E.flags E.inp body (r' % 2 == 0) inv' p := by
        cases inv' with
        | true => simpa only [if_true, ends_invert, Bool.not_false] using hq
        | false => simpa using hq
      have hm := (ends_iff h4 h5 h6 h3 hp).1 hq'
      refine ⟨body, h1, ?_⟩
      split at hk
      · match r', hr' with
        | 0, _ =>
          simp only [if_true, Option.some.injEq, Prod.mk.injEq] at hk
          rw [← hk.1, ← hk.2]
          simpa [DM] using hm
        | 1, _ =>
          simp only [Nat.one_ne_zero, if_false, Option.some.injEq, Prod.mk.injEq] at hk
          rw [← hk.1, ← hk.2]
          simpa [DM] using hm
      · cases hk
    · exact hc.2 k b' e hk hbe

/-! ### Copies -/

theorem charEq_spec {icase : Bool} {x y : Byte} : (x == y || (icase && asciiLower x == asciiLower y)) = true ↔ CharEq icase x y := by
  simp [CharEq]

theorem sameText_length {icase : Bool} {w v : List Byte} (h : SameText icase w v) : w.length = v.length := by
  induction w generalizing v with
  | nil => cases v with | nil => rfl | cons => exact h.elim
  | cons x w ih => cases v with
    | nil => exact h.elim
    | cons y v => simp only [List.length_cons, ih h.2]

theorem sameText_false {w v : List Byte} : SameText false w v ↔ w = v := by
  induction w generalizing v with
  | nil => cases v <;> simp [SameText]
  | cons x w ih => cases v with
    | nil => simp [SameText]
    | cons y v => simp [SameText, ih, CharEq]

theorem sameText_append {icase : Bool} {w v w' v' : List Byte} (h : SameText icase w v) (h' : SameText icase w' v') :
    SameText icase (w ++ w') (v ++ v') := by
  induction w generalizing v with
  | nil => cases v with | nil => exact h' | cons => exact h.elim
  | cons x w ih => cases v with
    | nil => exact h.elim
    | cons y v => exact ⟨h.1, ih h.2⟩

theorem sameText_reverse {icase : Bool} {w v : List Byte} (h : SameText icase w v) : SameText icase w.reverse v.reverse := by
  induction w generalizing v with
  | nil => cases v with | nil => trivial | cons => exact h.elim
  | cons x w ih => cases v with
    | nil => exact h.elim
    | cons y v =>
      rw [List.reverse_cons, List.reverse_cons]
      exact sameText_append (ih h.2) ⟨h.1, trivial⟩

theorem beginsWith_iff {icase : Bool} {w l : List Byte} : beginsWith icase w l = true ↔ SameText icase w (l.take w.length) := by
  induction w generalizing l with
  | nil => simp [beginsWith, SameText]
  | cons x w ih => cases l with
    | nil => simp [beginsWith, SameText]
    | cons y l =>
      simp only [beginsWith, List.length_cons, List.take_succ_cons, SameText, Bool.and_eq_true, ih]
      rw [charEq_spec]

theorem backrefLoop_backward {E : Env} (w : List Byte) : ∀ p, p ≤ E.inp.length → w.length ≤ p →
    (beginsWith E.flags.icase w (E.inp.take p).reverse = true → backrefLoop E 1 w p = .done (p - w.length)) ∧
    (beginsWith E.flags.icase w (E.inp.take p).reverse = false → ∃ q, backrefLoop E 1 w p = .fail q) := by
  induction w with
  | nil => intro p _ _; exact ⟨fun _ => rfl, fun h => by simp [beginsWith] at h⟩
  | cons t w ih =>
    intro p hp hl
    simp only [List.length_cons] at hl
    obtain ⟨p, rfl⟩ : ∃ k, p = k + 1 := ⟨p - 1, by omega⟩
    have hd : E.deref 1 (p + 1) = some E.inp[p] := by
      simp [Env.deref]
    have ht : (E.inp.take (p + 1)).reverse = E.inp[p] :: (E.inp.take p).reverse := by
      rw [List.take_succ_eq_append_getElem (by omega)]
      simp
    rw [ht]
    simp only [beginsWith, backrefLoop, hd, Env.next, backrefEquals_spec]
    have := ih p (by omega) (by omega)
    cases hq : (t == E.inp[p] || E.flags.icase && asciiLower t == asciiLower E.inp[p]) with
    | false => simp
    | true =>
      simp only [Bool.true_and, if_true, List.length_cons]
      rw [show p + 1 - (w.length + 1) = p - w.length by omega]
      exact this

theorem backrefMatch_forward {E : Env} (hcat : E.cat ≠ .forward) {p : Nat} (hp : p ≤ E.inp.length) (g : Cap) (c : Ctx) (cont : Cont) :
    (SameText E.flags.icase (capText E.inp g) ((E.inp.drop p).take (capText E.inp g).length) ∧
      backrefMatch E 0 g p c cont = cont (p + (capText E.inp g).length) c) ∨
    (¬SameText E.flags.icase (capText E.inp g) ((E.inp.drop p).take (capText E.inp g).length) ∧
      ∃ q, backrefMatch E 0 g p c cont = nonMatch q c) := by
  unfold backrefMatch
  simp only [hcat, if_false, if_true]
  rw [Env.distanceLessThan_eq _ hp, show E.remaining 0 p = E.inp.length - p by simp [Env.remaining]]
  split
  · next hlt =>
    simp only [decide_eq_true_eq] at hlt
    refine .inr ⟨fun h => ?_, p, rfl⟩
    have := sameText_length h
    simp only [List.length_take, List.length_drop] at this
    omega
  · next hlt =>
    simp only [decide_eq_true_eq, Nat.not_lt] at hlt
    have h := backrefLoop_forward (E := E) (capText E.inp g) p hlt
    rw [beginsWith_iff] at h
    cases hb : beginsWith E.flags.icase (capText E.inp g) (E.inp.drop p) with
    | true =>
      refine .inl ⟨beginsWith_iff.1 hb, ?_⟩
      rw [h.1 (beginsWith_iff.1 hb)]
    | false =>
      refine .inr ⟨fun e => (by rw [beginsWith_iff.2 e] at hb; cases hb), ?_⟩
      obtain ⟨q, hq⟩ := h.2 hb
      exact ⟨q, by rw [hq]⟩

theorem backrefMatch_backward {E : Env} (hcat : E.cat ≠ .forward) {p : Nat} (hp : p ≤ E.inp.length) (g : Cap) (c : Ctx) (cont : Cont) :
    ((capText E.inp g).length ≤ p ∧ SameText E.flags.icase (capText E.inp g) ((E.inp.take p).drop (p - (capText E.inp g).length)) ∧
      backrefMatch E 1 g p c cont = cont (p - (capText E.inp g).length) c) ∨
    (¬((capText E.inp g).length ≤ p ∧ SameText E.flags.icase (capText E.inp g) ((E.inp.take p).drop (p - (capText E.inp g).length))) ∧
      ∃ q, backrefMatch E 1 g p c cont = nonMatch q c) := by
  unfold backrefMatch
  simp only [hcat, if_false, Nat.one_ne_zero]
  rw [Env.distanceLessThan_eq _ hp, show E.remaining 1 p = p by simp [Env.remaining]]
  generalize hw : capText E.inp g = w
  split
  · next hlt =>
    simp only [decide_eq_true_eq] at hlt
    exact .inr ⟨fun h => by omega, p, rfl⟩
  · next hlt =>
    simp only [decide_eq_true_eq, Nat.not_lt] at hlt
    have h := backrefLoop_backward (E := E) w.reverse p hp (by simpa using hlt)
    have key : beginsWith E.flags.icase w.reverse (E.inp.take p).reverse = true ↔ SameText E.flags.icase w ((E.inp.take p).drop (p - w.length)) := by
      rw [beginsWith_iff, List.length_reverse, List.take_reverse, List.length_take, Nat.min_eq_left hp]
      constructor
      · intro h; simpa using sameText_reverse h
      · intro h; exact sameText_reverse h
    cases hb : beginsWith E.flags.icase w.reverse (E.inp.take p).reverse with
    | true =>
      refine .inl ⟨hlt, key.1 hb, ?_⟩
      rw [h.1 hb]
      simp
    | false =>
      refine .inr ⟨fun e => (by rw [key.2 e.2] at hb; cases hb), ?_⟩
      obtain ⟨q, hq⟩ := h.2 hb
      exact ⟨q, by rw [hq]⟩

/-! ### The fragment of traceable regexes -/

theorem commitsClosed_of_closed {a : Ast} (hi : groupIds a = []) (hb : noBackref a = true) : commitsClosed a = true := by
  have hall : ∀ l : List Ast, (∀ a ∈ l, groupIds a = [] → noBackref a = true → commitsClosed a = true) → groupIdsAll l = [] →
      noBackrefAll l = true → commitsClosedAll l = true := by
    intro l ih h1 h2
    have h3 := closedAll_iff.1 ⟨h1, h2⟩
    clear h1 h2
    induction l with
    | nil => rfl
    | cons a l ihl =>
      simp only [commitsClosedAll, Bool.and_eq_true]
      exact ⟨ih a (by simp) (h3 a (by simp)).1 (h3 a (by simp)).2, ihl (fun b hb => ih b (by simp [hb])) (fun b hb => h3 b (by simp [hb]))⟩
  have hclosed : closed a = true := by simp [closed, hi, hb]
  induction a using ind with
  | seq l ih => exact hall l (fun a ha h1 h2 => ih a ha h1 h2 (by simp [closed, h1, h2])) hi hb
  | alt l ih => exact hall l (fun a ha h1 h2 => ih a ha h1 h2 (by simp [closed, h1, h2])) hi hb
  | cap id n a ih => cases hi
  | rep m lo hi' a ih =>
    have hi1 : groupIds a = [] := hi
    have hb1 : noBackref a = true := hb
    cases m with
    | possessive => simp [commitsClosed, closed, hi1, hb1]
    | greedy => exact ih hi1 hb1 (by simp [closed, hi1, hb1])
    | «lazy» => exact ih hi1 hb1 (by simp [closed, hi1, hb1])
  | backref k => rfl
  | _ => exact hclosed

theorem refsTo_of_noBackref {P : Nat → Bool} {a : Ast} {around : List Nat} (hb : noBackref a = true) : refsTo P around a = true := by
  have hall : ∀ l : List Ast, (∀ a ∈ l, refsTo P around a = true) → refsToAll P around l = true := by
    intro l ih
    induction l with
    | nil => rfl
    | cons a l ihl =>
      simp only [refsToAll, Bool.and_eq_true]
      exact ⟨ih a (by simp), ihl (fun b hb => ih b (by simp [hb]))⟩
  induction a using ind generalizing around with
  | seq l ih => exact hall l (fun a ha => ih a ha (noBackref_all hb a ha) hall)
  | alt l ih => exact hall l (fun a ha => ih a ha (noBackref_all hb a ha) hall)
  | set l ih => exact hall l (fun a ha => ih a ha (noBackref_all hb a ha) hall)
  | cap id n a ih =>
    refine ih (around := id :: around) hb (fun l h => ?_)
    induction l with
    | nil => rfl
    | cons a l ihl =>
      simp only [refsToAll, Bool.and_eq_true]
      exact ⟨h a (by simp), ihl (fun b hb => h b (by simp [hb]))⟩
  | neg a ih => exact ih hb hall
  | rep m lo hi a ih => exact ih hb hall
  | look d a ih => exact ih hb hall
  | backref k => cases hb
  | namedBackref n => cases hb
  | _ => rfl

theorem visitedOnce_of_not_mem {k : Nat} {a : Ast} (hk : k ∉ groupIds a) : visitedOnce k a = true := by
  have hall : ∀ l : List Ast, (∀ a ∈ l, k ∉ groupIds a → visitedOnce k a = true) → k ∉ groupIdsAll l →
      visitedOnceAll k l = true ∧ visitedOnceAny k l = true := by
    intro l ih h
    induction l with
    | nil => exact ⟨rfl, rfl⟩
    | cons a l ihl =>
      simp only [groupIdsAll, List.mem_append, not_or] at h
      have h1 := ih a (by simp) h.1
      have h2 := ihl (fun b hb => ih b (by simp [hb])) h.2
      have h3 : (groupIds a).contains k = false := by simpa using h.1
      simp only [visitedOnceAll, visitedOnceAny, h1, h2.1, h2.2, h3, Bool.not_false, Bool.true_or, Bool.and_self, and_self]
  induction a using ind with
  | seq l ih => exact (hall l (fun a ha h => ih a ha h) hk).1
  | alt l ih => exact (hall l (fun a ha h => ih a ha h) hk).2
  | set l ih => exact (hall l (fun a ha h => ih a ha h) hk).2
  | cap id n a ih =>
    simp only [groupIds, List.mem_cons, not_or] at hk
    have h1 : (groupIds a).contains k = false := by simpa using hk.2
    simp only [visitedOnce, ih hk.2, h1, Bool.not_false, Bool.or_true, Bool.and_self]
  | neg a ih => exact ih hk
  | look d a ih => exact ih hk
  | rep m lo hi a ih =>
    have h1 : (groupIds a).contains k = false := by simpa [groupIds] using hk
    simp only [visitedOnce, ih hk, h1, Bool.not_false, Bool.true_or, Bool.and_self]
  | _ => rfl

/-- Without groups and references the names do not matter. -/
theorem ok_of_closed {E E' : Env} (hcat : E.cat = E'.cat) (hfl : E.flags = E'.flags) {r : Nat} {a : Ast} (h : Ok E r a) (hi : groupIds a = [])
    (hb : noBackref a = true) : Ok E' r a := by
  have hl : ∀ {l : List Ast}, groupIdsAll l = [] → noBackrefAll l = true → ∀ a ∈ l, groupIds a = [] ∧ noBackref a = true :=
    fun h1 h2 => closedAll_iff.1 ⟨h1, h2⟩
  have hinv : ∀ {a : Ast}, groupIds a = [] → groupIds (invert a) = [] := by
    intro a h
    apply List.eq_nil_iff_forall_not_mem.2
    intro k hk
    rw [mem_groupIds_invert, h] at hk
    cases hk
  induction h with
  | empty => exact .empty
  | lit => exact .lit
  | range h => exact .range h
  | wildcard => exact .wildcard
  | set h1 _ ih => exact .set h1 (fun a ha => ih a ha (hl hi hb a ha).1 (hl hi hb a ha).2)
  | neg h1 _ ih => exact .neg h1 (ih hi hb)
  | seq h1 _ ih => exact .seq h1 (fun a ha => ih a ha (hl hi hb a ha).1 (hl hi hb a ha).2)
  | alt h1 _ ih => exact .alt h1 (fun a ha => ih a ha (hl hi hb a ha).1 (hl hi hb a ha).2)
  | cap => cases hi
  | repFin h1 _ ih => exact .repFin h1 (ih hi hb)
  | repInf _ ih => exact .repInf (ih hi hb)
  | ahead _ ih => exact .ahead (ih hi hb)
  | behindTriv h1 h2 _ ih => exact .behindTriv (hcat ▸ h1) h2 (ih hi hb)
  | behind h1 _ ih => exact .behind (hcat ▸ h1) (ih (hinv hi) (by rw [noBackref_invert]; exact hb))
  | bol h => exact .bol (by rw [← hcat, ← hfl]; exact h)
  | boi => exact .boi
  | eol => exact .eol
  | eoi => exact .eoi
  | wordB h => exact .wordB (hcat ▸ h)
  | backref => cases hb
  | namedBackref => cases hb

end Mregex
