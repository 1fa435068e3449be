import Verif.Proof.Unfold
import Verif.Props.Branches
import Verif.Props.Proc

/-!
# Unfolding
-/

namespace Mregex
open Ast Spec

theorem sameUse_of_akin {fl : List RegexFlag} {cat : Cat} {a b : Ast} (h : Akin (Flags.ofList fl) false a b) : SameUse fl cat a b := by
  have hn : (Regex.mk a fl).names = (Regex.mk b fl).names := by simp only [Regex.names, h.names]
  have hE : ∀ s, (Regex.mk a fl).env cat s = (Regex.mk b fl).env cat s := fun s => by simp only [Regex.env, hn]
  refine ⟨forall_congr' (fun s => ?_), fun hR M s cur hcur => ?_⟩
  · rw [← hE]; exact (h.ok _ 0).1
  · have hR' := ((h.ok _ 0).1).1 (hR s)
    rw [← hE, ← hn]
    have hν : ∀ n id, nameIndex ((Regex.mk a fl).env cat s).names n = some id →
        (fun n => (nameIndex ((Regex.mk a fl).env cat s).names n).getD 0) n = id := fun n id h => by simp only [h]; rfl
    have h1 := invoke_follow (E := (Regex.mk a fl).env cat s) (hR s) hν M (Nat.le_refl _) hcur (fun _ => none)
    have h2 := invoke_follow (E := (Regex.mk a fl).env cat s) hR' hν M (Nat.le_refl _) hcur (fun _ => none)
    rw [← ctxOf_init] at h1 h2
    rw [show proc ((Regex.mk a fl).env cat s).flags _ _ a 0 false = _ from h.proc _ _ 0] at h1
    exact carriesOut_same (Nat.succ_pos _) h1 h2

theorem sameUse_of_unfolds {fl : List RegexFlag} {cat : Cat} {a b : Ast} (h : Unfolds (Flags.ofList fl) false a b) : SameUse fl cat a b :=
  sameUse_of_akin (same_of_unfolds h)

theorem sameUse_of_reworked {fl : List RegexFlag} {cat : Cat} {a b : Ast} (h : Reworked (Flags.ofList fl) a b) : SameUse fl cat a b := by
  induction h with
  | relaid h => exact sameUse_of_relaid h
  | unfold h => exact sameUse_of_unfolds h
  | symm _ ih => exact ih.symm
  | trans _ _ ih ih' => exact ih.trans ih'

/-! ## C70 -/

/-- **C70**: writing quantifiers as branches and copies, distributing alternatives and reordering anchors does not change which inputs a
regex can be used with. -/
theorem C70_usable {a b : Ast} {fl : List RegexFlag} (h : Reworked (Flags.ofList fl) a b) (cat : Cat) :
    (Regex.mk a fl).Ok cat ↔ (Regex.mk b fl).Ok cat := (sameUse_of_reworked h).ok

/-- **C70**: nor any result of a method; all groups hold the same, also after a failed call (except the whole match). -/
theorem C70_results {a b : Ast} {fl : List RegexFlag} (h : Reworked (Flags.ofList fl) a b) {cat : Cat}
    (hR : (Regex.mk a fl).Ok cat) (M : Method) (s : List Byte) :
    SameCall ((Regex.mk a fl).invoke M cat s) ((Regex.mk b fl).invoke M cat s) := (sameUse_of_reworked h).results hR M s

/-- **C70**: nor what `tokenize` and `find_all` visit. -/
theorem C70_ranges {a b : Ast} {fl : List RegexFlag} (h : Reworked (Flags.ofList fl) a b) {cat : Cat}
    (hR : (Regex.mk a fl).Ok cat) (M : Method) (s : List Byte) (rounds : Nat) :
    rangeElements ⟨a, fl⟩ M cat s rounds = rangeElements ⟨b, fl⟩ M cat s rounds := (sameUse_of_reworked h).ranges hR M s rounds

/-- **C16, partial** (unless the body of an unbounded quantifier can match the empty text): with any flags, `X{n,m}+` gives the same results as the atomic
group around the quantifier that prefers more rounds, which is the lazy one with `ungreedy`, between any other sub-expressions. -/
theorem C16_eager_partial {fl : List RegexFlag} {m : Mode} (hm : Eager (Flags.ofList fl) m) (pre post : List Ast) (lo : Nat) (hi : Bound) (X : Ast)
    (hX : hi = .inf → advances X = true) {cat : Cat} (hR : (Regex.mk (.seq (pre ++ .rep .possessive lo hi X :: post)) fl).Ok cat) (M : Method)
    (s : List Byte) :
    SameCall ((Regex.mk (.seq (pre ++ .rep .possessive lo hi X :: post)) fl).invoke M cat s)
      ((Regex.mk (.seq (pre ++ atomic (.rep m lo hi X) :: post)) fl).invoke M cat s) :=
  C70_results (.unfold (.seq pre post (.possessive false lo hi X hm hX))) hR M s

example := fun M s => C16_eager_partial (fl := [.ungreedy]) (m := .lazy) (.inr ⟨rfl, rfl⟩) [.cap 1 none .wildcard] [.backref 1, .wordB] 1 .inf
  (.seq [.lit (ch 'x'), .rep .greedy 0 (.fin 1) (.backref 1)]) (fun _ => rfl) (cat := .bidirectional) (Regex.ok_of_okb (by decide)) M s

/-- `X+` is `XX*`, between other sub-expressions, in every mode but the possessive one. -/
theorem plus_unfolded (f : Flags) {m : Mode} (hm : m ≠ .possessive) (pre post : List Ast) {a : Ast} (ha : captureCount a = 0) :
    Reworked f (.seq (pre ++ .rep m 1 .inf a :: post)) (.seq (pre ++ [a, .rep m 0 .inf a] ++ post)) :=
  .trans (.unfold (.seq pre post (.splitInf false m 1 a ha)))
    (.trans (.relaid (.variant (.seq pre post (.seq [] _ (.once false m a hm))))) (.relaid (.variant (.nested false pre _ post (by simp)))))

example := fun s => C70_results (fl := [.icase]) (cat := .randomAccess)
  (plus_unfolded (Flags.ofList [.icase]) (m := .lazy) (by decide) [.cap 1 none .wildcard] [.backref 1] (a := .lit (ch 'x')) rfl)
  (Regex.ok_of_okb (by decide)) .search s

/-- `(.)(?:ab|\1d)*(?<=x??)` and `(.)(?:(?:ab|\1d)(?:ab|\1d)*|)(?<=|x)`. -/
theorem exUnfolds : Reworked {}
    (.seq [.cap 1 none .wildcard, .rep .greedy 0 .inf (.alt [.seq [.lit (ch 'a'), .lit (ch 'b')], .seq [.backref 1, .lit (ch 'd')]]),
      .look .behind (.rep .lazy 0 (.fin 1) (.lit (ch 'x')))])
    (.seq [.cap 1 none .wildcard,
      .alt [.seq [.alt [.seq [.lit (ch 'a'), .lit (ch 'b')], .seq [.backref 1, .lit (ch 'd')]],
        .rep .greedy 0 .inf (.alt [.seq [.lit (ch 'a'), .lit (ch 'b')], .seq [.backref 1, .lit (ch 'd')]])], .empty],
      .look .behind (.alt [.empty, .lit (ch 'x')])]) :=
  .trans (.unfold (.seq [_] [_] (.eagerStar false _ (.inl ⟨rfl, rfl⟩) rfl rfl)))
    (.unfold (.seq [_, _] [] (.behind (.reluctantMaybe true _ (.inl ⟨rfl, rfl⟩)))))

example := fun M s => C70_results (fl := []) (cat := .randomAccess) exUnfolds (Regex.ok_of_okb (by decide)) M s
example := C70_ranges (fl := []) (cat := .randomAccess) exUnfolds (Regex.ok_of_okb (by decide)) .search
example := (C70_usable (fl := []) exUnfolds .randomAccess).1 (Regex.ok_of_okb (by decide))

/-- On `cabcdx`, the first one matches from the start up to the `x`. -/
example : (Regex.mk (.seq [.cap 1 none .wildcard, .rep .greedy 0 .inf (.alt [.seq [.lit (ch 'a'), .lit (ch 'b')], .seq [.backref 1, .lit (ch 'd')]]),
      .look .behind (.rep .lazy 0 (.fin 1) (.lit (ch 'x')))]) []).search (txt "cabcdx") = some ⟨[some (0, 5), some (0, 1)], true⟩ := by decide

/-- The remaining laws, each at a place. -/
example : Unfolds {} true (.rep .possessive 2 .inf (.lit (ch 'x'))) (.rep .possessive 1 (.fin 1) (.rep .greedy 2 .inf (.lit (ch 'x')))) :=
  .possessive true 2 .inf _ (.inl ⟨rfl, rfl⟩) (fun _ => rfl)
example : Unfolds {} false (.rep .possessive 1 (.fin 1) (.rep .lazy 2 .inf (.backref 1))) (.rep .possessive 2 (.fin 2) (.backref 1)) :=
  .reluctantAtomic false 2 .inf _ (.inl ⟨rfl, rfl⟩) (fun h e => by cases e) (fun h => by cases h)
example : Unfolds {} false (.rep .possessive 0 .inf (.lit (ch 'x')))
    (.rep .possessive 1 (.fin 1) (.alt [.seq [.lit (ch 'x'), .rep .possessive 0 .inf (.lit (ch 'x'))], .empty])) := .possessiveStar false _ rfl rfl
example : Unfolds {} true (.seq [.lit (ch 'c'), .alt [.lit (ch 'a'), .empty]]) (.alt [.seq [.lit (ch 'c'), .lit (ch 'a')], .seq [.lit (ch 'c'), .empty]]) :=
  .distribute true [_] _ _ rfl rfl
example : Unfolds {} false (.seq [.lit (ch 'c'), .wordB, .neg .eol, .wildcard]) (.seq [.lit (ch 'c'), .neg .eol, .wordB, .wildcard]) :=
  .anchorSwap false [_] [_] (.anchor .wordB) (.neg .eol)

end Mregex
