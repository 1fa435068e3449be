import Mathlib.Computability.NFA
import Verif.Props.Regular

/-!
# What can be said with patterns: not, and, or, backwards
-/

namespace Mregex
open Ast Spec
open scoped Computability

/-! ## C115 -/

variable {R R' : Regex} {cat cat' : Cat}

/-- **C115**: for every regex without references there is a pattern that accepts exactly the texts that the regex does not accept. -/
theorem C115_not (hR : R.Ok cat) (hb : noBackref R.ast = true) (M : Method) (cat₀ : Cat) :
    ∃ w b, parse w = .result b .success ∧ (Regex.mk b []).Ok cat₀ ∧ ∀ M₀ s, s ∈ accepted ⟨b, []⟩ M₀ cat₀ ↔ s ∉ accepted R M cat := by
  obtain ⟨w, b, h1, h2, h3⟩ := C74_language _ (C73_regular R cat hR hb M).compl cat₀
  exact ⟨w, b, h1, h2, fun M₀ s => by rw [h3]; rfl⟩

/-- **C115**: lookarounds, anchors, word boundaries, possessive quantifiers and flags do not let `match` accept more languages: without references, there is
always an expression without any of them that accepts the same texts. -/
theorem C115_simple (hR : R.Ok cat) (hb : noBackref R.ast = true) (M : Method) (cat₀ : Cat) :
    ∃ a, selfContained a = true ∧ noPossessive a = true ∧ captureCount a = 0 ∧ (Regex.mk a []).Ok cat₀ ∧
      ∀ s, s ∈ accepted ⟨a, []⟩ .match cat₀ ↔ s ∈ accepted R M cat := by
  obtain ⟨P, hP⟩ := exists_expression bytes mem_bytes (C73_regular R cat hR hb M)
  have hs := selfContained_ofExpression P
  have ho : (Regex.mk (ofExpression P) []).Ok cat₀ := fun _ => ok_ofExpression _ _ P
  refine ⟨ofExpression P, hs.1, hs.2, (writable_ofExpression P).2, ho, fun s => ?_⟩
  obtain ⟨res, h1, h2⟩ := C54_match ⟨ofExpression P, []⟩ cat₀ ho hs.1 hs.2 s
  rw [accepted_iff h1, h2, ← hP, ← denote_ofExpression (f := Flags.ofList []) rfl P]

/-- **C115**: for any two there is one that accepts what both of them accept. -/
theorem C115_and (hR : R.Ok cat) (hb : noBackref R.ast = true) (hR' : R'.Ok cat') (hb' : noBackref R'.ast = true) (M M' : Method) (cat₀ : Cat) :
    ∃ w b, parse w = .result b .success ∧ (Regex.mk b []).Ok cat₀ ∧
      ∀ M₀ s, s ∈ accepted ⟨b, []⟩ M₀ cat₀ ↔ s ∈ accepted R M cat ∧ s ∈ accepted R' M' cat' := by
  obtain ⟨w, b, h1, h2, h3⟩ := C74_language _ ((C73_regular R cat hR hb M).inf (C73_regular R' cat' hR' hb' M')) cat₀
  exact ⟨w, b, h1, h2, fun M₀ s => by rw [h3]; rfl⟩

/-- **C115**: and one that accepts what at least one of them accepts, although their flags, methods and groups may differ. -/
theorem C115_or (hR : R.Ok cat) (hb : noBackref R.ast = true) (hR' : R'.Ok cat') (hb' : noBackref R'.ast = true) (M M' : Method) (cat₀ : Cat) :
    ∃ w b, parse w = .result b .success ∧ (Regex.mk b []).Ok cat₀ ∧
      ∀ M₀ s, s ∈ accepted ⟨b, []⟩ M₀ cat₀ ↔ s ∈ accepted R M cat ∨ s ∈ accepted R' M' cat' := by
  obtain ⟨w, b, h1, h2, h3⟩ := C74_language _ ((C73_regular R cat hR hb M).add (C73_regular R' cat' hR' hb' M')) cat₀
  exact ⟨w, b, h1, h2, fun M₀ s => by rw [h3]; rfl⟩

/-- **C115**: and one that accepts the same texts read backwards. -/
theorem C115_backwards (hR : R.Ok cat) (hb : noBackref R.ast = true) (M : Method) (cat₀ : Cat) :
    ∃ w b, parse w = .result b .success ∧ (Regex.mk b []).Ok cat₀ ∧ ∀ M₀ s, s ∈ accepted ⟨b, []⟩ M₀ cat₀ ↔ s.reverse ∈ accepted R M cat := by
  obtain ⟨w, b, h1, h2, h3⟩ := C74_language _ (C73_regular R cat hR hb M).reverse cat₀
  exact ⟨w, b, h1, h2, fun M₀ s => by rw [h3]; rfl⟩

/-- **C115**: what can still follow: after any bytes `t` have been read, the rests that complete an accepted text have a pattern too, and
a finite list of patterns is enough for all `t`. -/
theorem C115_rests (hR : R.Ok cat) (hb : noBackref R.ast = true) (M : Method) (cat₀ : Cat) :
    ∃ l : List (List Byte × Ast), (∀ p ∈ l, parse p.1 = .result p.2 .success ∧ (Regex.mk p.2 []).Ok cat₀) ∧
      ∀ t, ∃ p ∈ l, ∀ M₀ s, s ∈ accepted ⟨p.2, []⟩ M₀ cat₀ ↔ t ++ s ∈ accepted R M cat := by
  obtain ⟨σ, hσ, A, hA⟩ := C73_regular R cat hR hb M
  have h : ∀ q : σ, ∃ p : List Byte × Ast, (parse p.1 = .result p.2 .success ∧ (Regex.mk p.2 []).Ok cat₀) ∧
      ∀ M₀ s, s ∈ accepted ⟨p.2, []⟩ M₀ cat₀ ↔ A.evalFrom q s ∈ A.accept := fun q => by
    obtain ⟨w, b, h1, h2, h3⟩ := C74_language (DFA.mk A.step q A.accept).accepts ⟨σ, hσ, _, rfl⟩ cat₀
    exact ⟨(w, b), ⟨h1, h2⟩, fun M₀ s => by rw [h3]; rfl⟩
  choose f hf hf' using h
  refine ⟨(Finset.univ : Finset σ).toList.map f, ?_, fun t => ⟨f (A.eval t), List.mem_map.2 ⟨_, by simp, rfl⟩, fun M₀ s => ?_⟩⟩
  · intro p hp
    obtain ⟨q, _, rfl⟩ := List.mem_map.1 hp
    exact hf q
  · rw [hf' _ M₀ s, ← hA, DFA.mem_accepts, DFA.eval, DFA.evalFrom_of_append]

/-- **C115**: every accepted text that is long enough has a nonempty part near its beginning that can be left out or repeated at will. -/
theorem C115_pumping (hR : R.Ok cat) (hb : noBackref R.ast = true) (M : Method) :
    ∃ n, ∀ s ∈ accepted R M cat, n ≤ s.length → ∃ x y z, s = x ++ y ++ z ∧ x.length + y.length ≤ n ∧ y ≠ [] ∧
      ∀ k, x ++ (List.replicate k y).flatten ++ z ∈ accepted R M cat := by
  obtain ⟨σ, hσ, A, hA⟩ := C73_regular R cat hR hb M
  refine ⟨Fintype.card σ, fun s hs hn => ?_⟩
  rw [← hA] at hs ⊢
  obtain ⟨x, y, z, h1, h2, h3, h4⟩ := A.pumping_lemma hs hn
  refine ⟨x, y, z, h1, h2, h3, fun k => h4 ?_⟩
  refine Language.mem_mul.2 ⟨_, Language.mem_mul.2 ⟨x, rfl, _, ?_, rfl⟩, z, rfl, rfl⟩
  exact Language.mem_kstar.2 ⟨_, rfl, fun w hw => List.eq_of_mem_replicate hw⟩

theorem get_ab (p n i : Nat) : (List.replicate p (ch 'a') ++ ch 'b' :: (List.replicate n (ch 'a') ++ [ch 'b']))[i]? = some (ch 'b') ↔
    i = p ∨ i = p + n + 1 := by
  rcases Nat.lt_trichotomy i p with h | h | h
  · rw [List.getElem?_append_left (by simpa using h), List.getElem?_replicate, if_pos h]
    simp only [Option.some.injEq]
    constructor
    · intro h'
      exact absurd h' (by decide)
    · omega
  · subst h
    rw [List.getElem?_append_right (by simp)]
    simp
  · obtain ⟨j, rfl⟩ : ∃ j, i = p + (j + 1) := ⟨i - p - 1, by omega⟩
    rw [List.getElem?_append_right (by simp), List.length_replicate, Nat.add_sub_cancel_left, List.getElem?_cons_succ]
    rcases Nat.lt_trichotomy j n with h1 | h1 | h1
    · rw [List.getElem?_append_left (by simpa using h1), List.getElem?_replicate, if_pos h1]
      simp only [Option.some.injEq]
      constructor
      · intro h'
        exact absurd h' (by decide)
      · omega
    · subst h1
      rw [List.getElem?_append_right (by simp)]
      simp
      omega
    · rw [List.getElem?_eq_none (by simp; omega)]
      constructor
      · intro h'
        cases h'
      · omega

/-- **C115**: with references that is not so: `(.*)\1` accepts arbitrarily long texts in which nothing near the beginning can be left out or
repeated. -/
theorem C115_references : exSquares.Ok .randomAccess ∧
    ¬∃ n, ∀ s ∈ accepted exSquares .match .randomAccess, n ≤ s.length → ∃ x y z, s = x ++ y ++ z ∧ x.length + y.length ≤ n ∧ y ≠ [] ∧
      ∀ k, x ++ (List.replicate k y).flatten ++ z ∈ accepted exSquares .match .randomAccess := by
  refine ⟨exSquares_ok, fun ⟨n, h⟩ => ?_⟩
  have hsq := C73_references.1
  obtain ⟨x, y, z, h1, h2, h3, h4⟩ := h (List.replicate n (ch 'a') ++ ch 'b' :: (List.replicate n (ch 'a') ++ [ch 'b']))
    ((hsq _).2 ⟨List.replicate n (ch 'a') ++ [ch 'b'], by simp⟩) (by simp)
  obtain ⟨w, hw⟩ := (hsq _).1 (h4 0)
  have hy := List.length_pos_iff.2 h3
  have hxy : x ++ y = List.replicate (x.length + y.length) (ch 'a') := by
    have := congrArg (List.take (x.length + y.length)) h1
    rw [List.take_append_of_le_length (by simpa using h2), List.take_left' (by simp), List.take_replicate, Nat.min_eq_left h2] at this
    exact this.symm
  have hz : z = List.replicate (n - (x.length + y.length)) (ch 'a') ++ ch 'b' :: (List.replicate n (ch 'a') ++ [ch 'b']) := by
    have := congrArg (List.drop (x.length + y.length)) h1
    rw [List.drop_append_of_le_length (by simpa using h2), List.drop_left' (by simp), List.drop_replicate] at this
    exact this.symm
  have hx : x = List.replicate x.length (ch 'a') := by
    have := congrArg (List.take x.length) hxy
    rw [List.take_left' rfl, List.take_replicate, Nat.min_eq_left (Nat.le_add_right _ _)] at this
    exact this
  have hs : List.replicate (n - y.length) (ch 'a') ++ ch 'b' :: (List.replicate n (ch 'a') ++ [ch 'b']) = w ++ w := by
    rw [← hw, hz]
    simp only [List.replicate_zero, List.flatten_nil, List.append_nil]
    conv => rhs; rw [hx]
    rw [← List.append_assoc, List.replicate_append_replicate, List.length_replicate, show x.length + (n - (x.length + y.length)) = n - y.length by omega]
  have hl := congrArg List.length hs
  simp only [List.length_append, List.length_replicate, List.length_cons, List.length_nil] at hl
  have hb : (w ++ w)[n - y.length]? = some (ch 'b') := by rw [← hs]; exact (get_ab _ _ _).2 (.inl rfl)
  rw [List.getElem?_append_left (by omega)] at hb
  have hb' : (w ++ w)[w.length + (n - y.length)]? = some (ch 'b') := by
    rw [List.getElem?_append_right (by omega), Nat.add_sub_cancel_left]
    exact hb
  rw [← hs, get_ab] at hb'
  omega

/-- `[a-z]+(?=[^a-z])` with `search` meets the hypotheses; it accepts `a!` and does not accept `a`. -/
def exClosure : Regex :=
  ⟨.seq [.rep .greedy 1 .inf (.range (ch 'a') (ch 'z')), .look .ahead (.neg (.range (ch 'a') (ch 'z')))], []⟩

example : exClosure.Ok .bidirectional ∧ noBackref exClosure.ast = true ∧
    (exClosure.search [ch 'a', ch '!']).map (·.matched) = some true ∧ (exClosure.search [ch 'a']).map (·.matched) = some false :=
  ⟨Regex.ok_of_okb (by decide), by decide, by decide, by decide⟩

end Mregex
