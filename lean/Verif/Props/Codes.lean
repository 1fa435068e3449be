import Verif.Spec.Codes
import Verif.Props.Exchange
import Verif.Props.Kleene
import Verif.Props.Flags

/-!
# C108: codes
-/

namespace Mregex
open Ast Spec
open scoped Computability

/-- What the theorems are about: usable regexes without references, assertions and possessive parts. -/
structure Coder (R : Regex) (cat : Cat) : Prop where
  ok : R.Ok cat
  alone : selfContained R.ast = true
  free : noPossessive R.ast = true

namespace Coder
variable {R : Regex} {cat : Cat} (hR : Coder R cat)
include hR

theorem declarative : Spec.declarative R.ast = true := selfContained_declarative hR.alone hR.free

theorem noBackref : Spec.noBackref R.ast = true := (declarative_iff.1 hR.declarative).1

theorem accepted (s : List Byte) : s ∈ Spec.accepted R .match cat ↔ s ∈ denote R.fl R.ast := by
  obtain ⟨res, h1, h2⟩ := C54_match R cat hR.ok hR.alone hR.free s
  exact (accepted_iff h1).trans h2

/-- A word of the language that stands somewhere is a possible match. -/
theorem ends_of_word (u w v : List Byte) (hw : w ∈ denote R.fl R.ast) :
    u.length + w.length ∈ ends R.fl (u ++ w ++ v) R.ast true false u.length :=
  (mem_ends_iff (cat := cat) hR.ok hR.declarative (by simp)).2 ((mem_denote_window hR.alone u w v).2 hw)

/-- A possible match is a word of the language. -/
theorem word_of_ends {u v : List Byte} {j : Nat} (hj : j ∈ ends R.fl (u ++ v) R.ast true false u.length) :
    ∃ w v', v = w ++ v' ∧ j = u.length + w.length ∧ w ∈ denote R.fl R.ast := by
  have h1 := ends_le (by simp) hj
  have h2 := (mem_ends_iff (cat := cat) hR.ok hR.declarative (by simp)).1 hj
  rw [mem_denote_slice hR.alone h1.1 h1.2, List.drop_left] at h2
  have h3 := h1.2
  rw [List.length_append] at h3
  exact ⟨v.take (j - u.length), v.drop (j - u.length), (List.take_append_drop _ _).symm, by simp; omega, h2⟩

theorem first_word (hf : PrefixFree (denote R.fl R.ast)) (u w v : List Byte) (hw : w ∈ denote R.fl R.ast) :
    (ends R.fl (u ++ (w ++ v)) R.ast true false u.length).head? = some (u.length + w.length) := by
  have h := hR.ends_of_word u w v hw
  rw [List.append_assoc] at h
  cases he : ends R.fl (u ++ (w ++ v)) R.ast true false u.length with
  | nil => rw [he] at h; cases h
  | cons j l =>
    obtain ⟨w', v', h1, rfl, h3⟩ := hR.word_of_ends (u := u) (v := w ++ v) (j := j) (by rw [he]; simp)
    have : w' = w := by
      rcases List.append_eq_append_iff.1 h1.symm with ⟨x, rfl, _⟩ | ⟨x, rfl, _⟩
      · rw [hf w' h3 x hw, List.append_nil]
      · rw [hf w hw x h3, List.append_nil]
    rw [this]; rfl

theorem no_word (u v : List Byte) (hv : Stuck (denote R.fl R.ast) v) : ends R.fl (u ++ v) R.ast true false u.length = [] := by
  refine List.eq_nil_iff_forall_not_mem.2 fun j hj => ?_
  obtain ⟨w, v', h1, _, h3⟩ := hR.word_of_ends hj
  exact hv w v' h1 h3

theorem takes_words (hf : PrefixFree (denote R.fl R.ast)) (he : [] ∉ denote R.fl R.ast) (rest : List Byte) (hr : Stuck (denote R.fl R.ast) rest) :
    ∀ (ws : List (List Byte)) (_ : ∀ w ∈ ws, w ∈ denote R.fl R.ast) (u : List Byte),
      Takes (fun i => (ends R.fl (u ++ (ws.flatten ++ rest)) R.ast true false i).head?) u.length (placesOf u.length ws)
  | [], _, u => .none (by simp [hR.no_word u rest hr])
  | w :: ws, hw, u => by
    have h1 := hw w (by simp)
    have hl : 0 < w.length := by
      cases w with
      | nil => exact absurd h1 he
      | cons => simp
    have ih := takes_words hf he rest hr ws (fun x hx => hw x (by simp [hx])) (u ++ w)
    simp only [List.length_append, List.append_assoc] at ih
    simp only [List.flatten_cons, List.append_assoc, placesOf]
    exact .cons (hR.first_word hf u w _ h1) (by omega) ih

end Coder

theorem placesOf_tiles : ∀ (ws : List (List Byte)) (_ : ∀ w ∈ ws, w ≠ []) (p : Nat), Tiles p (p + ws.flatten.length) (placesOf p ws)
  | [], _, p => by simp [placesOf, Tiles]
  | w :: ws, h, p => by
    have hl : 0 < w.length := List.length_pos_of_ne_nil (h w (by simp))
    refine ⟨rfl, by omega, ?_⟩
    have := placesOf_tiles ws (fun x hx => h x (by simp [hx])) (p + w.length)
    rwa [List.flatten_cons, List.length_append, ← Nat.add_assoc]

/-- **C108.** If no accepted text begins with another one, then `tokenize` takes a text that is made of accepted texts apart into exactly these; it
stops at what does not begin with an accepted text. -/
theorem C108_decode (R : Regex) (cat : Cat) (hR : Coder R cat) (hf : PrefixFree (denote R.fl R.ast)) (he : [] ∉ denote R.fl R.ast)
    (ws : List (List Byte)) (hw : ∀ w ∈ ws, w ∈ denote R.fl R.ast) (rest : List Byte) (hr : Stuck (denote R.fl R.ast) rest) :
    Tokenizes R cat (ws.flatten ++ rest) (fun ranges => ranges = placesOf 0 ws) := by
  intro k hk
  obtain ⟨rs, l, h1, h2, h3⟩ := C96_tokens R cat hR.ok hR.noBackref (ws.flatten ++ rest) k hk
  exact ⟨rs, l, h1, h2, takes_unique h3 (by simpa using hR.takes_words hf he rest hr ws hw [])⟩

theorem Coder.repeated {R : Regex} {cat : Cat} (hR : Coder R cat) : Coder (Spec.repeated R) cat where
  ok := fun s => .repInf (hR.ok s)
  alone := hR.alone
  free := by simpa [noPossessive, Spec.repeated] using hR.free

theorem denote_repeated (R : Regex) : denote (Spec.repeated R).fl (Spec.repeated R).ast = (denote R.fl R.ast)∗ := by
  simp only [Spec.repeated, denote, pow_zero, one_mul]

/-- **C108**: so the tokens reach from the beginning to the end of the text exactly if `(?:P)*` accepts it. -/
theorem C108_covered (R : Regex) (cat : Cat) (hR : Coder R cat) (hf : PrefixFree (denote R.fl R.ast)) (he : [] ∉ denote R.fl R.ast) (s : List Byte) :
    (repeated R).Ok cat ∧ Tokenizes R cat s (fun ranges => Tiles 0 s.length ranges ↔ s ∈ accepted (repeated R) .match cat) := by
  refine ⟨hR.repeated.ok, fun k hk => ?_⟩
  obtain ⟨rs, l, h1, h2, h3⟩ := C96_tokens R cat hR.ok hR.noBackref s k hk
  refine ⟨rs, l, h1, h2, ?_⟩
  rw [hR.repeated.accepted, denote_repeated, Language.mem_kstar]
  constructor
  · suffices H : ∀ p l, Takes (fun i => (ends R.fl s R.ast true false i).head?) p l → ∀ u v, s = u ++ v → p = u.length → Tiles p s.length l →
        ∃ ws : List (List Byte), v = ws.flatten ∧ ∀ w ∈ ws, w ∈ denote R.fl R.ast from H 0 l h3 [] s rfl rfl
    intro p l ht
    induction ht with
    | none =>
      intro u v e hu h
      have hv : v.length = 0 := by
        have := congrArg List.length e
        rw [List.length_append] at this
        simp only [Tiles] at h
        omega
      exact ⟨[], by simpa using hv, by simp⟩
    | empty => intro u v e hu h; exact absurd h.2.1 (by simp)
    | cons hj hlt _ ih =>
      intro u v e hu h
      subst hu e
      obtain ⟨w, v', rfl, rfl, hw⟩ := hR.word_of_ends (List.mem_of_mem_head? hj)
      obtain ⟨ws, rfl, hws⟩ := ih (u ++ w) v' (by simp) (by simp) h.2.2
      exact ⟨w :: ws, rfl, by simpa using ⟨hw, hws⟩⟩
  · rintro ⟨ws, rfl, hw⟩
    have hs : Stuck (denote R.fl R.ast) [] := by
      intro u v h
      obtain ⟨rfl, _⟩ := List.append_eq_nil_iff.1 h.symm
      exact he
    have h4 := hR.takes_words hf he [] hs ws hw []
    simp only [List.nil_append, List.append_nil] at h4
    rw [takes_unique h3 h4]
    have := placesOf_tiles ws (fun w h1 h2 => he (h2 ▸ hw w h1)) 0
    rwa [Nat.zero_add] at this

theorem alike_of_codes {R R' : Regex} {cat : Cat} (hR : Coder R cat) (hR' : Coder R' cat) (h : denote R.fl R.ast = denote R'.fl R'.ast)
    (hf : PrefixFree (denote R.fl R.ast)) : alikeb R R' cat = true := by
  rw [C104_alike hR.ok hR'.ok hR.noBackref hR'.noBackref]
  intro s p hp
  rw [attempt_eq hR.ok hR.noBackref hp, attempt_eq hR'.ok hR'.noBackref hp]
  obtain ⟨u, v, rfl, rfl⟩ : ∃ u v, s = u ++ v ∧ p = u.length := ⟨s.take p, s.drop p, (List.take_append_drop _ _).symm, by simp; omega⟩
  by_cases hw : ∃ w v', v = w ++ v' ∧ w ∈ denote R.fl R.ast
  · obtain ⟨w, v', rfl, hw⟩ := hw
    rw [hR.first_word hf u w v' hw, hR'.first_word (h ▸ hf) u w v' (h ▸ hw)]
  · have hs : Stuck (denote R.fl R.ast) v := fun w v' e hm => hw ⟨w, v', e, hm⟩
    rw [hR.no_word u v hs, hR'.no_word u v (h ▸ hs)]

/-- **C108**: two regexes that accept the same texts report the same matches, if no accepted text begins with another one: modes and the order of
alternatives do not matter. -/
theorem C108_calls (R R' : Regex) (cat : Cat) (hR : Coder R cat) (hR' : Coder R' cat) (h : accepted R .match cat = accepted R' .match cat)
    (hf : PrefixFree (accepted R .match cat)) (M : Method) (s : List Byte) : SameMatch (R.invoke M cat s) (R'.invoke M cat s) := by
  have e : accepted R .match cat = denote R.fl R.ast := Language.ext hR.accepted
  have e' : accepted R' .match cat = denote R'.fl R'.ast := Language.ext hR'.accepted
  rw [e] at hf
  rw [e, e'] at h
  by_cases hM : M = .match
  · subst hM
    obtain ⟨res, res', h1, h2, h3, _⟩ := C54_equivalent R R' cat hR.ok hR'.ok hR.alone hR'.alone hR.free hR'.free h .match s
    exact ⟨res, res', h1, h2, h3, fun hm => by
      rw [(C07_match R cat hR.ok s res h1 hm).1, (C07_match R' cat hR'.ok s res' h2 (h3 ▸ hm)).1]⟩
  · exact C104_alike_calls hR.ok hR'.ok hR.noBackref hR'.noBackref (alike_of_codes hR hR' h hf) M hM s

/-- **C108**: and loops visit the same ranges. -/
theorem C108_loops (R R' : Regex) (cat : Cat) (hR : Coder R cat) (hR' : Coder R' cat) (h : accepted R .match cat = accepted R' .match cat)
    (hf : PrefixFree (accepted R .match cat)) (M : Method) (hM : M = tokenizeMethod ∨ M = findAllMethod) (s : List Byte) (k : Nat) (hk : s.length + 2 ≤ k) :
    ∃ rs rs', rangeElements R M cat s k = some (rs, true) ∧ rangeElements R' M cat s k = some (rs', true) ∧ rs.map (·.group 0) = rs'.map (·.group 0) := by
  have e : accepted R .match cat = denote R.fl R.ast := Language.ext hR.accepted
  have e' : accepted R' .match cat = denote R'.fl R'.ast := Language.ext hR'.accepted
  rw [e] at hf
  rw [e, e'] at h
  exact C104_alike_loops hR.ok hR'.ok hR.noBackref hR'.noBackref (alike_of_codes hR hR' h hf) M hM s k hk

/-! ### Where the order does matter -/

theorem mem_denote_word {f : Flags} : ∀ {w v : List Byte}, v ∈ denoteAll f (w.map .lit) ↔
    v.length = w.length ∧ ∀ (i : Nat) x y, w[i]? = some x → v[i]? = some y → CharEq f.icase x y
  | [], v => by simp [denoteAll, Language.mem_one]
  | c :: w, v => by
    rw [List.map_cons, denoteAll, denote, Language.mem_mul]
    constructor
    · rintro ⟨_, ⟨x, rfl, hx⟩, v', hv', rfl⟩
      obtain ⟨h1, h2⟩ := mem_denote_word.1 hv'
      refine ⟨by simp [h1], fun i y z hy hz => ?_⟩
      cases i with
      | zero => cases hy; cases hz; exact hx
      | succ i => exact h2 i y z (by simpa using hy) (by simpa using hz)
    · rintro ⟨h1, h2⟩
      cases v with
      | nil => cases h1
      | cons x v =>
        exact ⟨[x], ⟨x, rfl, h2 0 c x rfl rfl⟩, v, mem_denote_word.2 ⟨by simpa using h1, fun i y z hy hz => h2 (i + 1) y z (by simpa using hy) (by simpa using hz)⟩, rfl⟩

/-- Texts that a regex does not tell apart. -/
theorem Coder.closed {R : Regex} {cat : Cat} (hR : Coder R cat) {w v : List Byte} (hw : w ∈ denote R.fl R.ast) (hv : v ∈ denoteAll R.fl (w.map .lit)) :
    v ∈ denote R.fl R.ast := by
  obtain ⟨h1, h2⟩ := mem_denote_word.1 hv
  by_cases hi : R.fl.icase = true
  · have hmem : RegexFlag.icase ∈ R.flags := by
      have hi : (Flags.ofList R.flags).icase = true := hi
      simp only [Flags.ofList, List.any_eq_true, beq_iff_eq] at hi
      obtain ⟨_, h, rfl⟩ := hi
      exact h
    have he := C19_icase R hmem cat .match w v ⟨h1.symm, fun i x y hx hy => by
      rcases h2 i x y hx hy with rfl | ⟨_, h⟩
      · rfl
      · exact h⟩
    rw [← hR.accepted] at hw ⊢
    obtain ⟨res, h3, h4⟩ := hw
    exact ⟨res, he.trans h3, h4⟩
  · have : v = w := by
      refine List.ext_getElem h1 fun i hi1 hi2 => ?_
      rcases h2 i _ _ (List.getElem?_eq_getElem hi2) (List.getElem?_eq_getElem hi1) with h | ⟨h, _⟩
      · exact h.symm
      · exact absurd h hi
    rw [this]; exact hw

theorem selfContained_lits (w : List Byte) : selfContainedAll (w.map .lit) = true := by
  induction w with
  | nil => rfl
  | cons x w ih => simp [selfContainedAll, selfContained, ih]

theorem noPossessive_lits (w : List Byte) : noPossessiveAll (w.map .lit) = true := by
  induction w with
  | nil => rfl
  | cons x w ih => simp [noPossessiveAll, noPossessive, ih]

theorem nameSpec_lits (w : List Byte) : nameSpecAll (w.map .lit) = [] := by
  induction w with
  | nil => rfl
  | cons x w ih => simp [nameSpecAll, nameSpec, ih]

theorem coder_word (w : List Byte) (fl : List RegexFlag) (cat : Cat) : Coder ⟨.seq (.empty :: w.map .lit), fl⟩ cat where
  ok := fun s => .seq (by simp) (by
    intro a ha
    rcases List.mem_cons.1 ha with rfl | ha
    · exact .empty
    · obtain ⟨x, _, rfl⟩ := List.mem_map.1 ha
      exact .lit)
  alone := by simp [selfContained, selfContainedAll, selfContained_lits]
  free := by simp [noPossessive, noPossessiveAll, noPossessive_lits]

theorem env_preferring (w : List Byte) (R : Regex) (cat : Cat) (s : List Byte) : (preferring w R).env cat s = R.env cat s := by
  have : (preferring w R).names = R.names := by
    simp [Regex.names, preferring, nameSpec, nameSpecAll, nameSpec_lits]
  simp only [Regex.env, this]
  rfl

theorem Coder.preferring {R : Regex} {cat : Cat} (hR : Coder R cat) (w : List Byte) : Coder (Spec.preferring w R) cat where
  ok := fun s => by
    rw [env_preferring]
    refine .alt (by simp) fun a ha => ?_
    rcases List.mem_cons.1 ha with rfl | ha
    · refine .seq (by simp) fun a ha => ?_
      rcases List.mem_cons.1 ha with rfl | ha
      · exact .empty
      · obtain ⟨x, _, rfl⟩ := List.mem_map.1 ha
        exact .lit
    · cases List.mem_singleton.1 ha
      exact hR.ok s
  alone := by simp [Spec.preferring, selfContained, selfContainedAll, selfContained_lits, hR.alone]
  free := by simp [Spec.preferring, noPossessive, noPossessiveAll, noPossessive_lits, hR.free]

theorem Coder.denote_preferring {R : Regex} {cat : Cat} (hR : Coder R cat) {w : List Byte} (hw : w ∈ denote R.fl R.ast) :
    denote (Spec.preferring w R).fl (Spec.preferring w R).ast = denote R.fl R.ast := by
  ext v
  simp only [Spec.preferring, denote, denoteAny, denoteAll, one_mul, add_zero]
  exact ⟨fun h => h.elim (fun h => hR.closed hw h) id, .inr⟩

theorem prefixFree_of_length {L : Language Byte} {n : Nat} (h : ∀ w ∈ L, w.length = n) : PrefixFree L := by
  intro u hu v hv
  have h1 := h u hu
  have h2 := h _ hv
  rw [List.length_append] at h2
  exact List.eq_nil_of_length_eq_zero (by omega)

theorem word_self (f : Flags) (w : List Byte) : w ∈ denote f (.seq (.empty :: w.map .lit)) := by
  rw [denote, denoteAll, denote, one_mul]
  exact mem_denote_word.2 ⟨rfl, fun i x y hx hy => .inl (by rw [hx] at hy; exact Option.some.inj hy)⟩

theorem head_preferring (w v : List Byte) (R : Regex) :
    (ends (preferring w R).fl (w ++ v) (preferring w R).ast true false 0).head? = some w.length := by
  have hc := coder_word w R.flags .forward
  have hf : PrefixFree (denote (Regex.mk (.seq (.empty :: w.map .lit)) R.flags).fl (.seq (.empty :: w.map .lit))) :=
    prefixFree_of_length (n := w.length) fun v hv => by
      rw [denote, denoteAll, denote, one_mul] at hv
      exact (mem_denote_word.1 hv).1
  have h := hc.first_word hf [] w v (word_self _ w)
  simp only [List.nil_append, List.length_nil, Nat.zero_add] at h
  simp only [preferring, ends, endsAny]
  rw [List.head?_append]
  simp only [ends] at h
  rw [show (Regex.mk (.alt [.seq (.empty :: w.map .lit), R.ast]) R.flags).fl = (Regex.mk (.seq (.empty :: w.map .lit)) R.flags).fl from rfl, h]
  rfl

/-- **C108**: exactly then.  If an accepted text begins with another one, then there is a regex that accepts the same texts but reports another
match. -/
theorem C108_exact (R : Regex) (cat : Cat) (hR : Coder R cat) :
    PrefixFree (accepted R .match cat) ↔ ∀ R', Coder R' cat → accepted R' .match cat = accepted R .match cat →
      ∀ s, SameMatch (R.matchPrefix s cat) (R'.matchPrefix s cat) := by
  constructor
  · intro hf R' hR' h s
    exact C108_calls R R' cat hR hR' h.symm hf .matchPrefix s
  · intro h u hu v hv
    have e : accepted R .match cat = denote R.fl R.ast := Language.ext hR.accepted
    have key : ∀ w x, w ∈ accepted R .match cat → (ends R.fl (w ++ x) R.ast true false 0).head? = some w.length := by
      intro w x hw
      have hP := hR.preferring w
      have hL : accepted (preferring w R) .match cat = accepted R .match cat := by
        rw [e, ← hR.denote_preferring (e ▸ hw)]
        exact Language.ext hP.accepted
      obtain ⟨res, res', h1, h2, h3, h4⟩ := h _ hP hL (w ++ x)
      obtain ⟨r, g1, g2, g3⟩ := invoke_outcome R cat hR.ok hR.noBackref .matchPrefix (w ++ x)
      obtain ⟨r', g1', g2', g3'⟩ := invoke_outcome _ cat hP.ok hP.noBackref .matchPrefix (w ++ x)
      cases Option.some.inj (h1.symm.trans g1)
      cases Option.some.inj (h2.symm.trans g1')
      simp only [outcome, head_preferring, Option.map_some, Option.isSome_some] at g2' g3'
      have := h4 (h3.trans g2')
      rw [g3 (h3.trans g2'), g3' g2', outcome, Option.some.injEq] at this
      cases hh : (ends R.fl (w ++ x) R.ast true false 0).head? with
      | none => simp [hh] at this
      | some q => simp only [hh, Option.map_some, Option.some.injEq, Prod.mk.injEq] at this; rw [this.2]
    have h1 := key u v hu
    have h2 := key (u ++ v) [] hv
    rw [List.append_nil, h1] at h2
    simp only [Option.some.injEq, List.length_append] at h2
    exact List.eq_nil_of_length_eq_zero (by omega)

/-! ### Finding it out -/

theorem Coder.longer {R : Regex} {cat : Cat} (hR : Coder R cat) : Coder (Spec.longer R) cat where
  ok := fun s => by
    have : (Spec.longer R).env cat s = R.env cat s := by
      have : (Spec.longer R).names = R.names := by simp [Regex.names, Spec.longer, nameSpec, nameSpecAll]
      simp only [Regex.env, this]
      rfl
    rw [this]
    refine .seq (by simp) fun a ha => ?_
    rcases List.mem_cons.1 ha with rfl | ha
    · exact hR.ok s
    · cases List.mem_singleton.1 ha
      exact .repInf (.range (by decide))
  alone := by simp [Spec.longer, selfContained, selfContainedAll, hR.alone]
  free := by simp [Spec.longer, noPossessive, noPossessiveAll, hR.free]

theorem denote_any (f : Flags) : denote f (.range 0 255) = oneOf fun _ => True := by
  ext w
  simp only [denote]
  exact ⟨fun ⟨x, h, _⟩ => ⟨x, h, trivial⟩, fun ⟨x, h, _⟩ => ⟨x, h, x, Nat.zero_le _, Nat.le_of_lt_succ x.isLt, .inl rfl⟩⟩

theorem mem_longer {R : Regex} {w : List Byte} : w ∈ denote (longer R).fl (longer R).ast ↔ ∃ u v, w = u ++ v ∧ u ∈ denote R.fl R.ast ∧ v ≠ [] := by
  simp only [longer, denote, denoteAll, mul_one, pow_one]
  rw [Language.mem_mul]
  constructor
  · rintro ⟨u, hu, v, hv, rfl⟩
    refine ⟨u, v, rfl, hu, ?_⟩
    obtain ⟨_, ⟨x, rfl, _⟩, y, _, rfl⟩ := Language.mem_mul.1 hv
    simp
  · rintro ⟨u, v, rfl, hu, hv⟩
    refine ⟨u, hu, v, ?_, rfl⟩
    cases v with
    | nil => exact absurd rfl hv
    | cons x v =>
      have := denote_any (Regex.mk (.seq [R.ast, .rep .greedy 1 .inf (.range 0 255)]) R.flags).fl
      simp only [denote] at this
      rw [this]
      exact Language.mem_mul.2 ⟨[x], ⟨x, rfl, trivial⟩, v, mem_all v, rfl⟩

/-- **C108**: and it can be found out, with C103: no text is accepted both by `P` and by `P[\x00-\xff]+`. -/
theorem C108_decidable (R : Regex) (cat : Cat) (hR : Coder R cat) :
    apartb ⟨R, .match, cat⟩ ⟨longer R, .match, cat⟩ = true ↔ PrefixFree (accepted R .match cat) := by
  rw [C103_apart ⟨hR.ok, hR.noBackref⟩ ⟨hR.longer.ok, hR.longer.noBackref⟩]
  simp only [hR.longer.accepted, mem_longer]
  constructor
  · intro h u hu v hv
    by_contra hne
    exact h _ ⟨hv, u, v, rfl, (hR.accepted u).1 hu, hne⟩
  · rintro h s ⟨h1, u, v, rfl, hu, hv⟩
    exact hv (h u ((hR.accepted u).2 hu) v h1)

/-! ### Languages of this kind -/

theorem prefixFree_mul {L K : Language Byte} (hL : PrefixFree L) (hK : PrefixFree K) : PrefixFree (L * K) := by
  rintro u hu v hv
  obtain ⟨a, ha, b, hb, rfl⟩ := Language.mem_mul.1 hu
  obtain ⟨a', ha', b', hb', e⟩ := Language.mem_mul.1 hv
  have : a' = a := by
    rw [List.append_assoc] at e
    rcases List.append_eq_append_iff.1 e with ⟨x, rfl, _⟩ | ⟨x, rfl, _⟩
    · rw [hL a' ha' x ha, List.append_nil]
    · rw [hL a ha x ha', List.append_nil]
  subst this
  rw [List.append_assoc] at e
  have e := List.append_cancel_left e
  rw [e] at hb'
  exact hK b hb v hb'

theorem prefixFree_pow {L : Language Byte} (hL : PrefixFree L) (n : Nat) : PrefixFree (L ^ n) := by
  induction n with
  | zero => exact prefixFree_of_length (n := 0) fun w hw => by rw [pow_zero, Language.mem_one] at hw; simp [hw]
  | succ n ih => rw [pow_succ]; exact prefixFree_mul ih hL

/-- Texts that end with a character that does not occur before. -/
theorem prefixFree_terminated {L : Language Byte} {P : Byte → Prop} (h : ∀ w ∈ L, ∀ x ∈ w, ¬ P x) : PrefixFree (L * oneOf P) := by
  rintro u hu v hv
  obtain ⟨a, ha, _, ⟨x, rfl, hx⟩, rfl⟩ := Language.mem_mul.1 hu
  obtain ⟨b, hb, _, ⟨y, rfl, hy⟩, e⟩ := Language.mem_mul.1 hv
  rcases List.eq_nil_or_concat v with rfl | ⟨v', z, rfl⟩
  · rfl
  · have e' : b ++ [y] = (a ++ x :: v') ++ [z] := by simpa using e
    obtain ⟨rfl, _⟩ := List.append_inj' e' rfl
    exact absurd hx (h _ hb x (by simp))

/-! ### Examples -/

/-- `[^,]*,`: a field with its comma. -/
def exField : Regex := ⟨.seq [.rep .greedy 0 .inf (.neg (lt ',')), lt ','], []⟩

theorem exField_coder : Coder exField .forward := ⟨Regex.ok_of_okb (by decide), by decide, by decide⟩

theorem exField_denote : denote exField.fl exField.ast = (denote exField.fl (.neg (lt ',')))∗ * oneOf (CharEq false (ch ',')) := by
  simp only [exField, denote, denoteAll, pow_zero, one_mul, mul_one]
  rfl

theorem exField_free : PrefixFree (denote exField.fl exField.ast) := by
  rw [exField_denote]
  refine prefixFree_terminated fun w hw x hx h => ?_
  obtain ⟨ws, rfl, hws⟩ := Language.mem_kstar.1 hw
  obtain ⟨u, hu, hxu⟩ := List.mem_flatten.1 hx
  have h2 := hws u hu
  simp only [denote] at h2
  obtain ⟨⟨y, rfl, _⟩, h4⟩ := h2
  cases List.mem_singleton.1 hxu
  exact h4 ⟨x, rfl, h⟩

/-- `ab,,c,` is taken apart into `ab,`, `,` and `c,`; what remains has no comma. -/
example : Tokenizes exField .forward ([[ch 'a', ch 'b', ch ','], [ch ','], [ch 'c', ch ',']].flatten ++ [ch 'd']) (fun ranges => ranges = [(0, 3), (3, 4), (4, 6)]) := by
  refine C108_decode exField .forward exField_coder exField_free ?_ _ ?_ _ ?_
  · rw [← exField_coder.accepted]; rintro ⟨res, h, hm⟩; cases h; exact absurd hm (by decide)
  · intro w hw
    rw [← exField_coder.accepted]
    simp only [List.mem_cons, List.not_mem_nil, or_false] at hw
    rcases hw with rfl | rfl | rfl <;> exact ⟨_, rfl, by decide⟩
  · intro u v e
    rw [← exField_coder.accepted]
    rintro ⟨res, h, hm⟩
    match u, v, e with
    | [], _, _ => cases h; exact absurd hm (by decide)
    | [x], [], e => cases e; cases h; exact absurd hm (by decide)

/-- `a|ab` and `ab|a` accept the same texts, of which one begins with the other, and do not report the same match in `ab`. -/
example : ¬ PrefixFree (accepted ⟨.alt [lt 'a', .seq [lt 'a', lt 'b']], []⟩ .match .forward) :=
  fun h => absurd (h [ch 'a'] ⟨_, rfl, by decide⟩ [ch 'b'] ⟨_, rfl, by decide⟩) (by decide)
example : (Regex.mk (.alt [lt 'a', .seq [lt 'a', lt 'b']]) []).matchPrefix [ch 'a', ch 'b'] .forward = some ⟨[some (0, 1)], true⟩ ∧
    (Regex.mk (.alt [.seq [lt 'a', lt 'b'], lt 'a']) []).matchPrefix [ch 'a', ch 'b'] .forward = some ⟨[some (0, 2)], true⟩ := by decide

/-- `,|[^,]+?,` -/
def exField' : Regex := ⟨.alt [lt ',', .seq [.rep .lazy 1 .inf (.neg (lt ',')), lt ',']], []⟩

theorem exField'_coder : Coder exField' .forward := ⟨Regex.ok_of_okb (by decide), by decide, by decide⟩

/-- `[^,]*,` and `,|[^,]+?,`: the same matches. -/
example (M : Method) (s : List Byte) : SameMatch (exField.invoke M .forward s) (exField'.invoke M .forward s) := by
  have e : accepted exField .match .forward = denote exField.fl exField.ast := Language.ext exField_coder.accepted
  have e' : accepted exField' .match .forward = denote exField'.fl exField'.ast := Language.ext exField'_coder.accepted
  refine C108_calls _ _ _ exField_coder exField'_coder ?_ (e ▸ exField_free) M s
  rw [e, e', exField_denote, ← Language.one_add_self_mul_kstar_eq_kstar, add_mul, one_mul]
  simp only [exField', denote, denoteAny, denoteAll, pow_one, mul_one, add_zero]
  rfl

end Mregex
