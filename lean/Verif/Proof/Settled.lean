import Verif.Proof.Unfold
import Verif.Spec.Settled

/-! Lemmas for C80. -/

namespace Mregex
open Ast Spec

section
variable {f : Flags} {s : List Byte} {ν : List Byte → Nat}

theorem stop_false {fwd multi : Bool} {p q : Nat} {x : Byte} (hr : readChar s fwd p = some (x, q))
    (hm : multi = false ∨ (x == 10#8 || x == 13#8) = false) : atStart s (!fwd) multi p = false := by
  cases fwd with
  | true =>
    simp only [readChar, if_true, Option.map_eq_some_iff, Prod.mk.injEq] at hr
    obtain ⟨y, hy, rfl, rfl⟩ := hr
    have hp := (List.getElem?_eq_some_iff.1 hy).1
    have h1 : (p == s.length) = false := by rw [beq_eq_false_iff_ne]; omega
    simp only [atStart, Bool.not_true, Bool.false_eq_true, if_false, h1, isBreakAt, hy, Bool.false_or]
    rcases hm with h | h <;> simp [h]
  | false =>
    cases p with
    | zero => simp [readChar] at hr
    | succ p =>
      simp only [readChar, Bool.false_eq_true, if_false, Option.map_eq_some_iff, Prod.mk.injEq] at hr
      obtain ⟨y, hy, rfl, rfl⟩ := hr
      simp only [atStart, Bool.not_false, if_true, before, isBreakAt, hy]
      rcases hm with h | h <;> simp [h]

theorem averse_done {c a : Ast} {inv : Bool} (h : Averse f c inv a) {r p q : Nat} {x : Byte} (hr : readChar s (r % 2 == 0) p = some (x, q))
    (hx : accepts f c x = true) : proc f s ν a r inv p = .done := by
  induction h with
  | char ha hd =>
    rw [proc_triv (character_eq _ ▸ ha), oneChar, hr]
    simp [hd x hx, Proc.offers]
  | first post _ ih =>
    simp only [proc, procAll, Bool.false_eq_true, if_false, ih]; rfl
  | last pre _ ih =>
    simp only [proc]
    rw [procAll_append]
    simp only [if_true, procAll_one, ih]; rfl
  | @alt inv l hl ih =>
    clear hl
    simp only [proc]
    induction l with
    | nil => rfl
    | cons a l ihl =>
      cases hc : characters (a :: l) with
      | true =>
        have hn : acceptsAny f (a :: l) x = false := by
          have : ∀ l' : List Ast, (∀ b ∈ l', b ∈ a :: l) → acceptsAny f l' x = false := by
            intro l'
            induction l' with
            | nil => intro _; rfl
            | cons b l' ih' =>
              intro hb
              have hcb : character b = true := by
                rw [characters_eq, List.all_eq_true] at hc
                exact hc b (hb b (by simp))
              have e := ih b (hb b (by simp))
              rw [proc_triv (character_eq _ ▸ hcb), oneChar, hr] at e
              have hb' : accepts f b x = false := by
                cases h : accepts f b x with
                | false => rfl
                | true => simp [h, Proc.offers] at e
              simp only [acceptsAny, hb', Bool.false_or]
              exact ih' (fun b' hb'' => hb b' (List.mem_cons_of_mem _ hb''))
          exact this _ (fun _ h => h)
        simp only [procAny, hc, if_true, oneChar, hr, hn]; rfl
      | false =>
        rw [procAny_cons hc, ih a (by simp), ihl (fun b hb => ih b (List.mem_cons_of_mem _ hb))]
        rfl
  | @rep inv a m lo hi hlo _ ih =>
    obtain ⟨k, rfl⟩ := Nat.exists_eq_succ_of_ne_zero hlo
    have ht : Proc.times (proc f s ν a r inv) (k + 1) p = .done := by
      simp only [Proc.times, ih]; rfl
    simp only [proc, Proc.quantified]
    cases m <;> simp only [ht] <;> rfl
  | ahead _ ih => simp [proc, ih, Proc.commit]
  | behind _ ih => simp [proc, ih, Proc.commit]
  | eoi =>
    simp only [proc, ends, atStop, stop_false hr (.inl rfl)]; rfl
  | eol h =>
    have hx' : f.multiline = false ∨ (x == 10#8 || x == 13#8) = false := by
      refine h.imp_right (fun h => ?_)
      have h10 : x ≠ 10#8 := fun e => by rw [e, h.1] at hx; cases hx
      have h13 : x ≠ 13#8 := fun e => by rw [e, h.2] at hx; cases hx
      simp [h10, h13]
    simp only [proc, ends, atStop, stop_false hr hx']; rfl

/-! ### One way to go on -/

/-- Each round has one way to go, to another place, or none. -/
def Single (g : Nat → Proc) : Prop := ∀ p, g p = .done ∨ ∃ q, q ≠ p ∧ g p = .only q

variable {g G : Nat → Proc}

theorem single_times (hg : Single g) (k p : Nat) : Proc.times g k p = .done ∨ ∃ q, Proc.times g k p = .only q := by
  induction k generalizing p with
  | zero => exact .inr ⟨p, rfl⟩
  | succ k ih =>
    rcases hg p with h | ⟨q, _, h⟩
    · left; simp only [Proc.times, h]; rfl
    · simp only [Proc.times, h, only_goOn]; exact ih q

theorem settled_upTo (hg : Single g) (hG : ∀ p, g p ≠ .done → G p = .done) (k p : Nat) :
    (Proc.lazyUpTo g k p).proceed G = (Proc.greedyUpTo g k p).proceed G ∧ (Proc.possessiveUpTo g k p).proceed G = (Proc.greedyUpTo g k p).proceed G := by
  induction k generalizing p with
  | zero => exact ⟨rfl, rfl⟩
  | succ k ih =>
    rcases hg p with h | ⟨q, _, h⟩
    · simp only [Proc.lazyUpTo, Proc.greedyUpTo, Proc.possessiveUpTo, h]
      exact ⟨rfl, rfl⟩
    · have hd : G p = .done := hG p (by rw [h]; exact Proc.noConfusion)
      simp only [Proc.lazyUpTo, Proc.greedyUpTo, Proc.possessiveUpTo, h, only_goOn, goOn_andThen, hd, andThen_done, Proc.proceed]
      exact ⟨(ih q).1, (ih q).2⟩

theorem settled_star (hg : Single g) (hG : ∀ p, g p ≠ .done → G p = .done) (k p : Nat) :
    (Proc.lazyStar g k p).proceed G = (Proc.greedyStar g k p).proceed G ∧ (Proc.possessiveStar g k p).proceed G = (Proc.greedyStar g k p).proceed G := by
  induction k generalizing p with
  | zero => exact ⟨rfl, rfl⟩
  | succ k ih =>
    rcases hg p with h | ⟨q, hq, h⟩
    · simp only [Proc.lazyStar, Proc.greedyStar, Proc.possessiveStar, h]
      exact ⟨rfl, rfl⟩
    · have hd : G p = .done := hG p (by rw [h]; exact Proc.noConfusion)
      have he : (Proc.only q).except p = .only q := by simp [Proc.only, Proc.except, hq]
      have hc : ∀ F h', (Proc.only q).commit F h' = F q := fun _ _ => rfl
      simp only [Proc.lazyStar, Proc.greedyStar, Proc.possessiveStar, h, he, hc, hq, if_false, only_goOn, goOn_andThen, hd, andThen_done, Proc.proceed]
      exact ⟨(ih q).1, (ih q).2⟩

theorem settled_extra (hg : Single g) (hG : ∀ p, g p ≠ .done → G p = .done) (n : Nat) (m m' : Mode) (u : Bool) (k : Option Nat) (p : Nat) :
    (Proc.extra n m u g k p).proceed G = (Proc.extra n m' u g k p).proceed G := by
  cases k with
  | some k =>
    have h := settled_upTo hg hG k p
    cases m <;> cases m' <;> cases u <;> simp [Proc.extra, h.1, h.2]
  | none =>
    have h := settled_star hg hG (n + 1) p
    cases m <;> cases m' <;> cases u <;> simp [Proc.extra, h.1, h.2]

theorem quantified_single (hg : Single g) (n : Nat) (m : Mode) (u : Bool) (lo : Nat) (hi : Bound) (p : Nat) :
    Proc.quantified n m u lo hi g p =
      (Proc.times g lo p).proceed (Proc.extra n m u g (match hi with | .fin h => some (h - lo) | .inf => none)) := by
  cases m with
  | possessive =>
    simp only [Proc.quantified]
    rcases single_times hg lo p with h | ⟨q, h⟩ <;> rw [h] <;> rfl
  | _ => rfl

theorem settled_quantified (hg : Single g) (hG : ∀ p, g p ≠ .done → G p = .done) (n : Nat) (m m' : Mode) (u : Bool) (lo : Nat) (hi : Bound) (p : Nat) :
    (Proc.quantified n m u lo hi g p).proceed G = (Proc.quantified n m' u lo hi g p).proceed G := by
  rw [quantified_single hg, quantified_single hg, goOn_assoc, goOn_assoc]
  congr 1
  funext q
  exact settled_extra hg hG n m m' u _ q

/-! ### The law -/

theorem single_character {c : Ast} (hc : character c = true) (r : Nat) (inv : Bool) : Single (proc f s ν c r inv) := by
  intro p
  rw [proc_triv (character_eq _ ▸ hc), oneChar]
  cases h : readChar s (r % 2 == 0) p with
  | none => exact .inl rfl
  | some x =>
    obtain ⟨x, q⟩ := x
    dsimp only
    cases accepts f c x with
    | false => exact .inl rfl
    | true =>
      refine .inr ⟨q, ?_, rfl⟩
      unfold readChar at h
      split at h
      · simp only [Option.map_eq_some_iff, Prod.mk.injEq] at h
        obtain ⟨y, _, _, rfl⟩ := h
        omega
      · split at h
        · cases h
        · simp only [Option.map_eq_some_iff, Prod.mk.injEq] at h
          obtain ⟨y, _, _, rfl⟩ := h
          omega

theorem averse_after {c d : Ast} {inv : Bool} (hc : character c = true) (h : Averse f c inv d) (r p : Nat) (hn : proc f s ν c r inv p ≠ .done) :
    proc f s ν d r inv p = .done := by
  rw [proc_triv (character_eq _ ▸ hc), oneChar] at hn
  cases hr : readChar s (r % 2 == 0) p with
  | none => rw [hr] at hn; exact absurd rfl hn
  | some x =>
    obtain ⟨x, q⟩ := x
    rw [hr] at hn
    dsimp only at hn
    cases hx : accepts f c x with
    | false => rw [hx] at hn; exact absurd rfl hn
    | true => exact averse_done h hr hx

theorem settled_pair {c d : Ast} {inv : Bool} (hc : character c = true) (h : Averse f c inv d) (m m' : Mode) (lo : Nat) (hi : Bound) (r p : Nat) :
    (proc f s ν (.rep m lo hi c) r inv p).proceed (proc f s ν d r inv) = (proc f s ν (.rep m' lo hi c) r inv p).proceed (proc f s ν d r inv) := by
  simp only [proc]
  exact settled_quantified (single_character hc r inv) (averse_after hc h r) s.length m m' f.ungreedy lo hi p

end

section
variable {f : Flags} {inv : Bool} {a b : Ast}

theorem Akin.trans {c : Ast} (h : Akin f inv a b) (h' : Akin f inv b c) : Akin f inv a c :=
  ⟨h.names.trans h'.names, h.triv.trans h'.triv, h.asrt.trans h'.asrt, fun E r => ⟨(h.ok E r).1.trans (h'.ok E r).1, (h.ok E r).2.trans (h'.ok E r).2⟩,
    fun s ν r => (h.proc s ν r).trans (h'.proc s ν r)⟩

/-- The static side: nothing but the mode of a quantified character is different. -/
theorem akin_mode {c : Ast} (pre post : List Ast) (hc : character c = true) (m m' : Mode) (lo : Nat) (hi : Bound)
    (hp : ∀ (s : List Byte) (ν : List Byte → Nat) (r : Nat),
      proc f s ν (.seq (pre ++ .rep m lo hi c :: post)) r inv = proc f s ν (.seq (pre ++ .rep m' lo hi c :: post)) r inv) :
    Akin f inv (.seq (pre ++ .rep m lo hi c :: post)) (.seq (pre ++ .rep m' lo hi c :: post)) := by
  have hna : isAssertion c = false := isAssertion_of_triv (character_eq c ▸ hc)
  refine ⟨?_, ?_, ?_, fun E r => ⟨?_, ?_⟩, hp⟩
  · simp only [nameSpec, nameSpecAll_app, nameSpecAll]
  · simp only [Ast.triv, trivSingle_eq, List.length_append, List.length_cons, List.all_append, List.all_cons]
  · simp only [isAssertion_seq, List.length_append, List.length_cons, List.all_append, List.all_cons, isAssertion, hna, Bool.and_false]
  · rw [ok_seq, ok_seq, all_mid, all_mid, ok_rep, ok_rep]; simp
  · simp only [invert, invertAll_eq, List.map_append, List.map_cons, List.reverse_append, List.reverse_cons, List.append_assoc, List.singleton_append]
    rw [ok_seq, ok_seq, all_mid, all_mid, ok_rep, ok_rep]; simp

theorem same_before {c d : Ast} (pre post : List Ast) (hc : character c = true) (h : Averse f c false d) (m m' : Mode) (lo : Nat) (hi : Bound) :
    Akin f false (.seq (pre ++ .rep m lo hi c :: d :: post)) (.seq (pre ++ .rep m' lo hi c :: d :: post)) := by
  refine akin_mode pre (d :: post) hc m m' lo hi (fun s ν r => ?_)
  funext p
  simp only [proc]
  refine congrFun (procAll_mid pre post (l := [.rep m lo hi c, d]) (l' := [.rep m' lo hi c, d]) ?_) p
  funext p
  rw [procAll_two, procAll_two]
  exact settled_pair hc h m m' lo hi r p

theorem same_after {c d : Ast} (pre post : List Ast) (hc : character c = true) (h : Averse f c true d) (m m' : Mode) (lo : Nat) (hi : Bound) :
    Akin f true (.seq (pre ++ d :: .rep m lo hi c :: post)) (.seq (pre ++ d :: .rep m' lo hi c :: post)) := by
  have e := akin_mode (f := f) (inv := true) (pre ++ [d]) post hc m m' lo hi (fun s ν r => by
    funext p
    simp only [proc, List.append_assoc, List.singleton_append]
    refine congrFun (procAll_mid pre post (l := [d, .rep m lo hi c]) (l' := [d, .rep m' lo hi c]) ?_) p
    funext p
    rw [procAll_two, procAll_two]
    exact settled_pair hc h m m' lo hi r p)
  simpa only [List.append_assoc, List.singleton_append] using e

theorem same_of_settled (h : Settled f inv a b) : Akin f inv a b := by
  induction h with
  | seq pre post _ ih => exact same_seq pre post ih
  | alt pre post _ ih => exact same_alt pre post ih
  | cap id name _ ih => exact same_cap id name ih
  | rep m lo hi _ ih => exact same_rep m lo hi ih
  | ahead _ ih => exact same_ahead ih
  | behind _ ih => exact same_behind ih
  | neg ha _ ih => exact same_neg ha.asrt ih
  | trans _ _ ih ih' => exact ih.trans ih'
  | before pre post m m' lo hi hc h => exact same_before pre post hc h m m' lo hi
  | after pre post m m' lo hi hc h => exact same_after pre post hc h m m' lo hi

end
end Mregex
