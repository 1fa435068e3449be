import Verif.Proof.Edges
import Verif.Props.Derives

/-!
# C85: what a match begins with, ends with and contains
-/

namespace Mregex
open Ast Spec

theorem loosely_genNext {R : Regex} {cat : Cat} (hR : R.Ok cat) (M : Method) (s : List Byte) (g : Gen) (hg : g.current ≤ s.length) :
    ∃ res g', genNext R M cat s g = some (res, g') ∧ g'.current ≤ s.length ∧
      (res.matched = true → ∃ b e, res.group 0 = some (some (b, e)) ∧ b ≤ s.length ∧ Loosely R.fl s R.ast b e) := by
  cases ha : g.active with
  | false => exact ⟨_, g, genNext_inactive M ha, hg, fun h => (by cases h)⟩
  | true =>
    obtain ⟨ν, hν⟩ : ∃ ν : List Byte → Nat, R.Names ν := ⟨fun n => (nameIndex R.names n).getD 0, fun n id h => by simp only [h]; rfl⟩
    obtain ⟨res, g', h1, h2, h3, h4, h5⟩ := genNext_follow hR hν M s g ha hg
    obtain ⟨res', g'', i1, i2, i3, i4⟩ := genNext_active (s := s) hR M hg ha
    rw [h1] at i1
    cases i1
    have hf := carryOut_just (n := s.length) (fun p hp => loosely_proc (f := Flags.ofList R.flags) (ν := ν) (wf_of_ok (hR s)) hp) g.current hg (fun _ => none)
      (fun _ _ _ e => (by cases e)) M
    refine ⟨res, g', h1, i2, fun hm => ?_⟩
    rw [h2] at hm
    obtain ⟨r, hr⟩ := Option.isSome_iff_exists.1 hm
    obtain ⟨j1, _⟩ := h3 r hr
    have hd := hf.1 r.1 r.2 hr
    exact ⟨r.1, r.2, j1, Nat.le_trans (matches_le hd.1) hd.2, hd⟩

/-- **C85**: every usable regex, with any flags: whatever is found is matched by the regex without its lookarounds and negated assertions, in which references stand
for any text. -/
theorem C85_loosened (R : Regex) (cat : Cat) (hR : R.Ok cat) (M : Method) (s : List Byte) (g : Gen) (hg : g.current ≤ s.length) :
    ∃ res g', genNext R M cat s g = some (res, g') ∧ g'.current ≤ s.length ∧
      (res.matched = true → ∃ b e, res.group 0 = some (some (b, e)) ∧ Matches R.fl s (loosen R.ast) b e) := by
  obtain ⟨res, g', h1, h2, h3⟩ := loosely_genNext hR M s g hg
  refine ⟨res, g', h1, h2, fun hm => ?_⟩
  obtain ⟨b, e, h4, _, h5⟩ := h3 hm
  exact ⟨b, e, h4, h5.1⟩

/-- **C85**: whatever a call of a generator reports begins, ends and contains what the regex demands. -/
theorem C85_generators (R : Regex) (cat : Cat) (hR : R.Ok cat) (M : Method) (s : List Byte) (g : Gen) (hg : g.current ≤ s.length) :
    ∃ res g', genNext R M cat s g = some (res, g') ∧ g'.current ≤ s.length ∧
      (res.matched = true → ∃ b e, res.group 0 = some (some (b, e)) ∧ Edges R.fl R.ast s b e) := by
  obtain ⟨res, g', h1, h2, h3⟩ := loosely_genNext hR M s g hg
  refine ⟨res, g', h1, h2, fun hm => ?_⟩
  obtain ⟨b, e, h4, h5, h6⟩ := h3 hm
  exact ⟨b, e, h4, edges_of_matches (wf_of_ok (hR s)) h5 h6.1⟩

/-- **C85**: the same for the methods. -/
theorem C85_methods (R : Regex) (cat : Cat) (hR : R.Ok cat) (M : Method) (s : List Byte) :
    ∃ res, R.invoke M cat s = some res ∧ (res.matched = true → ∃ b e, res.group 0 = some (some (b, e)) ∧ Edges R.fl R.ast s b e) := by
  obtain ⟨res, g', h1, _, h2⟩ := C85_generators R cat hR M s {} (Nat.zero_le _)
  exact ⟨res, invoke_of_genNext h1, h2⟩

/-- **C85**: a regex that cannot match the empty text finds nothing in a text in which no character can begin a match. -/
theorem C85_no_start (R : Regex) (cat : Cat) (hR : R.Ok cat) (M : Method) (s : List Byte) (h0 : 0 < shortest R.ast) (hs : ∀ x ∈ s, starts R.fl R.ast x = false) :
    ∃ res, R.invoke M cat s = some res ∧ res.matched = false := by
  obtain ⟨res, h1, h2⟩ := C85_methods R cat hR M s
  refine ⟨res, h1, ?_⟩
  cases hm : res.matched with
  | false => rfl
  | true =>
    obtain ⟨b, e, _, h3⟩ := h2 hm
    have hle := h3.le
    obtain ⟨x, hx, h4⟩ := h3.first (by omega)
    rw [hs x (List.mem_of_getElem? hx)] at h4
    cases h4

/-- **C85**: a regex finds nothing in a text without a character that it needs. -/
theorem C85_no_need (R : Regex) (cat : Cat) (hR : R.Ok cat) (M : Method) (s : List Byte) (P : Byte → Bool) (hn : needs R.fl P R.ast = true) (hs : ∀ x ∈ s, P x = false) :
    ∃ res, R.invoke M cat s = some res ∧ res.matched = false := by
  obtain ⟨res, h1, h2⟩ := C85_methods R cat hR M s
  refine ⟨res, h1, ?_⟩
  cases hm : res.matched with
  | false => rfl
  | true =>
    obtain ⟨b, e, _, h3⟩ := h2 hm
    obtain ⟨i, x, _, _, hx, h4⟩ := h3.inner P hn
    rw [hs x (List.mem_of_getElem? hx)] at h4
    cases h4

/-- **C85**: a search reports nothing before the first character that can begin a match, unless the match is empty. -/
theorem C85_leading (R : Regex) (cat : Cat) (hR : R.Ok cat) (u v : List Byte) (hu : ∀ x ∈ u, starts R.fl R.ast x = false) (M : Method) :
    ∃ res, R.invoke M cat (u ++ v) = some res ∧
      (res.matched = true → ∃ b e, res.group 0 = some (some (b, e)) ∧ (b = e ∨ (u.length ≤ b ∧ b < e))) := by
  obtain ⟨res, h1, h2⟩ := C85_methods R cat hR M (u ++ v)
  refine ⟨res, h1, fun hm => ?_⟩
  obtain ⟨b, e, h3, h4⟩ := h2 hm
  have hle := h4.le
  refine ⟨b, e, h3, ?_⟩
  by_cases hbe : b < e
  · obtain ⟨x, hx, h5⟩ := h4.first hbe
    refine .inr ⟨?_, hbe⟩
    by_cases hb : b < u.length
    · rw [List.getElem?_append_left hb] at hx
      rw [hu x (List.mem_of_getElem? hx)] at h5
      cases h5
    · omega
  · exact .inl (by omega)

/-- `(?<!\d)(-?)\d++(?:\.\d{2,})?%?\1$`; it begins with a digit or a minus, ends with anything, as there is a reference, and needs a digit. -/
def exEdges : Regex :=
  ⟨.seq [.neg (.look .behind (.range (ch '0') (ch '9'))), .cap 1 none (.rep .greedy 0 (.fin 1) (.lit (ch '-'))),
    .rep .possessive 1 .inf (.range (ch '0') (ch '9')), .rep .greedy 0 (.fin 1) (.seq [.lit (ch '.'), .rep .greedy 2 .inf (.range (ch '0') (ch '9'))]),
    .rep .greedy 0 (.fin 1) (.lit (ch '%')), .backref 1, .eol], []⟩

example : exEdges.Ok .bidirectional ∧ shortest exEdges.ast = 1 ∧
    (allBytes.filter (starts exEdges.fl exEdges.ast)) = txt "-0123456789" ∧
    (allBytes.filter (finishes exEdges.fl exEdges.ast)).length = 256 ∧
    needs exEdges.fl (fun x => inRange (ch '0') (ch '9') x) exEdges.ast = true ∧ needs exEdges.fl (fun x => inRange (ch '0') (ch '8') x) exEdges.ast = false ∧
    exEdges.search (txt "ab-12.50%-") .bidirectional = some ⟨[some (2, 10), some (2, 3)], true⟩ := by
  refine ⟨Regex.ok_of_okb (by decide), by decide, by decide +kernel, by decide +kernel, by decide +kernel, by decide +kernel, by decide +kernel⟩

/-- `[a-z]+[^a-z]` ignoring case ends with a character that is no letter. -/
def exEdges2 : Regex := ⟨.seq [.rep .greedy 1 .inf (.range (ch 'a') (ch 'z')), .neg (.range (ch 'a') (ch 'z'))], [.icase]⟩

example : exEdges2.Ok .forward ∧ (allBytes.filter (starts exEdges2.fl exEdges2.ast)).length = 52 ∧
    (allBytes.filter (finishes exEdges2.fl exEdges2.ast)).length = 204 ∧
    exEdges2.search (txt "12aB!x") .forward = some ⟨[some (2, 5)], true⟩ :=
  ⟨Regex.ok_of_okb (by decide), by decide +kernel, by decide +kernel, by decide +kernel⟩

end Mregex
