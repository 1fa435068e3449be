import Verif.Proof.Template
import Verif.Props.Captures
import Verif.Props.Traits

/-!
# Templates

Fixed texts with fields between them, as in the examples of the library (dates, records, log lines): the regex matches exactly the texts of this form, and its
groups give the values back.
-/

namespace Mregex
open Ast Spec

section
variable {l : List Field} {last : List Byte} {fl : List RegexFlag} {cat : Cat} {s : List Byte}

theorem wf_templateParts (k : Nat) (h : ∀ a ∈ templateParts k l last, wf a = true) : ∀ d ∈ l, wf d.content.ast = true := by
  induction l generalizing k with
  | nil => intro d hd; simp at hd
  | cons d l ih =>
    intro d' hd'
    rcases List.mem_cons.1 hd' with rfl | hd'
    · have := h (.cap k d'.name d'.content.ast) (by simp [templateParts])
      simpa only [wf] using this
    · exact ih (k + 1) (fun a ha => h a (by simp [templateParts, ha])) d' hd'

theorem wf_fields (hR : (Regex.mk (template l last) fl).Ok cat) : ∀ d ∈ l, wf d.content.ast = true := by
  refine wf_templateParts (last := last) 1 fun a ha => ?_
  cases hR [] with
  | seq _ h => exact wf_of_ok (h a ha)

theorem plain_fields {f : Flags} (h : Separated f l last) : ∀ d ∈ l, d.content.plain = true := by
  induction l with
  | nil => intro d hd; simp at hd
  | cons d l ih =>
    intro d' hd'
    rcases List.mem_cons.1 hd' with rfl | hd'
    · exact h.1
    · exact ih h.2.2 d' hd'

theorem text_of_span {f : Flags} {vs : List (List Byte)} {p : Nat} (h : Filled f l last vs (s.drop p)) (j b e : Nat) (hj : (spans p l vs)[j]? = some (b, e)) :
    vs[j]? = some ((s.drop b).take (e - b)) := by
  induction l generalizing p vs j with
  | nil => cases vs <;> simp [spans] at hj
  | cons d l ih =>
    obtain ⟨v, vs', rfl, u, r, h1, h2, h3, h4⟩ := filled_cons h
    have hd1 : s.drop (p + d.before.length) = v ++ r := by rw [← List.drop_drop, h1, sameText_length h2, List.drop_left]
    cases j with
    | zero =>
      simp only [spans, List.getElem?_cons_zero, Option.some.injEq, Prod.mk.injEq] at hj
      obtain ⟨rfl, rfl⟩ := hj
      simp [hd1]
    | succ j =>
      simp only [spans, List.getElem?_cons_succ] at hj ⊢
      refine ih (p := p + d.before.length + v.length) ?_ j hj
      rw [← List.drop_drop, hd1, List.drop_left]
      exact h4

theorem template_path (hR : (Regex.mk (template l last) fl).Ok cat) (hsep : Separated (Flags.ofList fl) l last) :
    match methodPath (Flags.ofList fl) s (template l last) .match with
    | none => ∀ vs, ¬ Filled (Flags.ofList fl) l last vs s
    | some (i, y) => ∃ vs, Filled (Flags.ofList fl) l last vs s ∧ i = 0 ∧ y = (s.length, fieldEvents 1 0 l vs) := by
  have hp := paths_template (f := Flags.ofList fl) (s := s) (wf_fields hR) hsep 1 0 (Nat.zero_le _) []
  simp only [List.drop_zero, List.nil_append] at hp
  have e : paths (Flags.ofList fl) s (template l last) (0, []) = pathsAll (Flags.ofList fl) s (templateParts 1 l last) (0, []) := by simp only [template, paths]
  simp only [methodPath, fullPath, e]
  cases hf : (pathsAll (Flags.ofList fl) s (templateParts 1 l last) (0, [])).find? (fun y => y.1 == s.length) with
  | none =>
    intro vs hvs
    have := (hp (s.length, fieldEvents 1 0 l vs)).2 ⟨vs, hvs, rfl⟩
    exact absurd this.2 (by simpa using List.find?_eq_none.1 hf _ this.1)
  | some y =>
    have h1 := List.find?_some hf
    obtain ⟨vs, h2, h3⟩ := (hp y).1 ⟨List.mem_of_find?_eq_some hf, by simpa using h1⟩
    exact ⟨vs, h2, rfl, h3⟩

theorem template_traceable (hR : (Regex.mk (template l last) fl).Ok cat) (hsep : Separated (Flags.ofList fl) l last) :
    traceable (template l last) = true ∧ captureCount (template l last) = l.length ∧ ∀ k, visitedOnce k (template l last) = true := by
  obtain ⟨h1, h2, h3, h4⟩ := template_groups (last := last) (wf_fields hR) (plain_fields hsep) 1
  refine ⟨?_, ?_, fun k => by simpa only [template, visitedOnce] using h4 k⟩
  · simp only [traceable, Bool.and_eq_true]
    exact ⟨by simpa only [template, commitsClosed] using h2, refsTo_of_noBackref (by simpa only [template, noBackref] using h3)⟩
  · have := length_groupIds (template l last)
    simp only [template, groupIds, h1, List.length_range'] at this
    exact this.symm

/-- **C86**: a template whose fields are separated, with any number of fields, with classes and quantifiers of any mode and with any flags.  A text that consists of the
fixed texts and of admitted values is matched, and the groups hold exactly the values. -/
theorem C86_values (hR : (Regex.mk (template l last) fl).Ok cat) (hsep : Separated (Flags.ofList fl) l last) (vs : List (List Byte))
    (h : Filled (Flags.ofList fl) l last vs s) :
    ∃ res, (Regex.mk (template l last) fl).match s cat = some res ∧ res.matched = true ∧ res.groups = some (0, s.length) :: (spans 0 l vs).map some ∧
      ∀ j v, vs[j]? = some v → ∃ b e, res.group (j + 1) = some (some (b, e)) ∧ (s.drop b).take (e - b) = v := by
  obtain ⟨ht, hcount, hvis⟩ := template_traceable hR hsep
  have hpath := template_path (s := s) hR hsep
  obtain ⟨res, h1, ⟨i, y, h2, h3, h4, h5⟩ | ⟨h2, _⟩⟩ := method_paths (s := s) hR ht .match
  · have h2 : methodPath (Flags.ofList fl) s (template l last) .match = some (i, y) := h2
    rw [h2] at hpath
    obtain ⟨vs', h6, rfl, rfl⟩ := hpath
    have := filled_unique (wf_fields hR) hsep h h6
    subst this
    have hlen := filled_length h
    have hgl : res.groups.length = l.length + 1 := by
      rw [(invoke_inBounds _ cat hR .match s res h1).1]
      simp [Regex.env, Regex.names, length_nameSpec, hcount]
    have hg : res.groups = some (0, s.length) :: (spans 0 l vs).map some := by
      refine List.ext_getElem? fun k => ?_
      cases k with
      | zero => exact h4
      | succ k =>
        rw [List.getElem?_cons_succ, List.getElem?_map]
        by_cases hk : k < l.length
        · obtain ⟨g, hg⟩ : ∃ g, res.groups[k + 1]? = some g := ⟨_, List.getElem?_eq_getElem (by omega)⟩
          have h7 := h5 (k + 1) g (by omega) hg
          have h8 := held_fieldEvents hlen 1 0 k
          rw [Nat.add_comm 1 k] at h8
          have hk' : k < (spans 0 l vs).length := by rw [length_spans hlen]; exact hk
          simp only [h8, List.getElem?_eq_getElem hk'] at h7
          rcases h7 with h7 | ⟨h7, _⟩
          · rw [hg, h7, List.getElem?_eq_getElem hk']; rfl
          · rw [show visitedOnce (k + 1) _ = true from hvis (k + 1)] at h7; cases h7
        · rw [List.getElem?_eq_none (by omega), List.getElem?_eq_none (by rw [length_spans hlen]; omega)]; rfl
    refine ⟨res, h1, h3, hg, fun j v hj => ?_⟩
    have hj' : j < (spans 0 l vs).length := by rw [length_spans hlen, ← hlen]; exact (List.getElem?_eq_some_iff.1 hj).1
    obtain ⟨⟨b, e⟩, hbe⟩ : ∃ x, (spans 0 l vs)[j]? = some x := ⟨_, List.getElem?_eq_getElem hj'⟩
    refine ⟨b, e, ?_, ?_⟩
    · simp [Result.group, hg, hbe]
    · have := text_of_span (s := s) (p := 0) (by simpa using h) j b e hbe
      rw [hj] at this
      exact (Option.some.inj this).symm
  · have h2 : methodPath (Flags.ofList fl) s (template l last) .match = none := h2
    rw [h2] at hpath
    exact absurd h (hpath vs)

/-- **C86**: nothing else is matched, and the values are determined by the text. -/
theorem C86_only (hR : (Regex.mk (template l last) fl).Ok cat) (hsep : Separated (Flags.ofList fl) l last) :
    ∃ res, (Regex.mk (template l last) fl).match s cat = some res ∧
      (res.matched = true ↔ ∃ vs, Filled (Flags.ofList fl) l last vs s ∧ ∀ vs', Filled (Flags.ofList fl) l last vs' s → vs' = vs) := by
  obtain ⟨ht, _, _⟩ := template_traceable hR hsep
  have hpath := template_path (s := s) hR hsep
  obtain ⟨res, h1, h2, _⟩ := C53_first_path _ cat hR ht s .match
  refine ⟨res, h1, ?_⟩
  rw [h2]
  show (methodPath (Flags.ofList fl) s (template l last) .match).isSome = true ↔ _
  cases hm : methodPath (Flags.ofList fl) s (template l last) .match with
  | none =>
    rw [hm] at hpath
    exact ⟨fun h => (by cases h), fun ⟨vs, h, _⟩ => absurd h (hpath vs)⟩
  | some y =>
    rw [hm] at hpath
    obtain ⟨vs, h, _⟩ := hpath
    exact ⟨fun _ => ⟨vs, h, fun vs' h' => filled_unique (wf_fields hR) hsep h' h⟩, fun _ => rfl⟩

end

/-! ### The templates in the examples of the library -/

/-- No character is both, by computation over all bytes. -/
theorem avoids_of_table {f : Flags} {c : Byte} {m : Mode} {lo : Nat} {hi : Bound} {cls : Ast}
    (h : (List.range 256).all (fun n => !accepts f (.lit c) (BitVec.ofNat 8 n) || !accepts f cls (BitVec.ofNat 8 n)) = true) : (Content.run m lo hi cls).avoids f c := by
  intro x hx
  have := List.all_eq_true.1 h x.toNat (List.mem_range.2 x.isLt)
  simpa [hx] using this

/-- The same for expressions. -/
theorem avoids_of_table' {f : Flags} {c : Byte} {X : Ast}
    (h : (List.range 256).all (fun n => !accepts f (.lit c) (BitVec.ofNat 8 n) || !mayContain f X (BitVec.ofNat 8 n)) = true) : (Content.text X).avoids f c := by
  intro x hx
  have := List.all_eq_true.1 h x.toNat (List.mem_range.2 x.isLt)
  simpa [hx] using this

def digits (lo : Nat) (hi : Bound) : Content := .run .greedy lo hi (.range (ch '0') (ch '9'))

/-- Word characters, as the parser gives them. -/
def wordClass : Ast := .set [.range (ch 'a') (ch 'z'), .range (ch 'A') (ch 'Z'), .range (ch '0') (ch '9'), .lit (ch '_')]

/-- `(\d{1,2})/(\d{1,2})/(\d{2,4})` (README.md:42, example/structured_bindings.cpp:8). -/
def dateFields : List Field := [⟨[], none, digits 1 (.fin 2)⟩, ⟨txt "/", none, digits 1 (.fin 2)⟩, ⟨txt "/", none, digits 2 (.fin 4)⟩]

/-- `\[(?<level>[A-Z]++)\]: (?<msg>.++)` (example/forward_list.cpp:7). -/
def logFields : List Field :=
  [⟨txt "[", some (txt "level"), .run .possessive 1 .inf (.set [.range (ch 'A') (ch 'Z')])⟩, ⟨txt "]: ", some (txt "msg"), .run .possessive 1 .inf .wildcard⟩]

/-- `Today is (?<day>[A-Z][a-z]+)` (example/optional.cpp:19). -/
def todayFields : List Field :=
  [⟨txt "Today is ", some (txt "day"), .text (.seq [.set [.range (ch 'A') (ch 'Z')], .rep .greedy 1 .inf (.set [.range (ch 'a') (ch 'z')])])⟩]

/-- `Name: (\w+), age: (\d+), country: (?<country_name>\w+);` (example/extracting_captures.cpp:7). -/
def personFields : List Field :=
  [⟨txt "Name: ", none, .run .greedy 1 .inf wordClass⟩, ⟨txt ", age: ", none, digits 1 .inf⟩, ⟨txt ", country: ", some (txt "country_name"), .run .greedy 1 .inf wordClass⟩]

/-- The patterns are these templates. -/
theorem C86_patterns :
    parse (txt "(\\d{1,2})/(\\d{1,2})/(\\d{2,4})") = .result (template dateFields []) .success ∧
    parse (txt "\\[(?<level>[A-Z]++)\\]: (?<msg>.++)") = .result (template logFields []) .success ∧
    parse (txt "Today is (?<day>[A-Z][a-z]+)") = .result (template todayFields []) .success ∧
    parse (txt "Name: (\\w+), age: (\\d+), country: (?<country_name>\\w+);") = .result (template personFields (txt ";")) .success := ⟨rfl, rfl, rfl, rfl⟩

theorem date_separated : Separated {} dateFields [] :=
  ⟨rfl, avoids_of_table (by decide +kernel), rfl, avoids_of_table (by decide +kernel), rfl, rfl, trivial⟩
theorem log_separated : Separated {} logFields [] := ⟨rfl, avoids_of_table (by decide +kernel), rfl, rfl, trivial⟩
theorem today_separated : Separated {} todayFields [] := ⟨rfl, rfl, trivial⟩
theorem person_separated : Separated {} personFields (txt ";") :=
  ⟨rfl, avoids_of_table (by decide +kernel), rfl, avoids_of_table (by decide +kernel), rfl, avoids_of_table (by decide +kernel), trivial⟩

theorem date_ok (cat : Cat) : (Regex.mk (template dateFields []) []).Ok cat := by cases cat <;> exact Regex.ok_of_okb (by decide)
theorem log_ok (cat : Cat) : (Regex.mk (template logFields []) []).Ok cat := by cases cat <;> exact Regex.ok_of_okb (by decide)
theorem today_ok (cat : Cat) : (Regex.mk (template todayFields []) []).Ok cat := by cases cat <;> exact Regex.ok_of_okb (by decide)
theorem person_ok (cat : Cat) : (Regex.mk (template personFields (txt ";")) []).Ok cat := by cases cat <;> exact Regex.ok_of_okb (by decide)

/-- A text of decimal digits. -/
def Decimal (v : List Byte) : Prop := ∀ x ∈ v, ch '0' ≤ x ∧ x ≤ ch '9'

theorem decimal_iff {v : List Byte} {lo hi : Nat} (hv : Decimal v) (h1 : lo ≤ v.length) (h2 : v.length ≤ hi) : (digits lo (.fin hi)).holds {} v := by
  refine ⟨fun x hx => ?_, h1, h2⟩
  obtain ⟨i1, i2⟩ := hv x hx
  simpa [accepts, inRange] using And.intro (BitVec.le_def.1 i1) (BitVec.le_def.1 i2)

/-- **C86**: the dates of README.md.  Every date in digits is matched and taken apart, in every kind of iterator. -/
theorem C86_date (cat : Cat) (d m y : List Byte) (hd : Decimal d) (hm : Decimal m) (hy : Decimal y) (hd' : 1 ≤ d.length ∧ d.length ≤ 2) (hm' : 1 ≤ m.length ∧ m.length ≤ 2)
    (hy' : 2 ≤ y.length ∧ y.length ≤ 4) :
    ∃ res, (Regex.mk (template dateFields []) []).match (d ++ txt "/" ++ m ++ txt "/" ++ y) cat = some res ∧ res.matched = true ∧
      res.groups = [some (0, d.length + m.length + y.length + 2), some (0, d.length), some (d.length + 1, d.length + 1 + m.length),
        some (d.length + m.length + 2, d.length + m.length + 2 + y.length)] := by
  have hf : Filled {} dateFields [] [d, m, y] (d ++ txt "/" ++ m ++ txt "/" ++ y) := by
    refine ⟨[], txt "/" ++ (m ++ (txt "/" ++ y)), by simp only [List.nil_append, List.append_assoc], trivial, decimal_iff hd hd'.1 hd'.2,
      txt "/", txt "/" ++ y, rfl, sameText_false.2 rfl, decimal_iff hm hm'.1 hm'.2, txt "/", [], by simp, sameText_false.2 rfl, decimal_iff hy hy'.1 hy'.2, trivial⟩
  obtain ⟨res, h1, h2, h3, _⟩ := C86_values (s := d ++ txt "/" ++ m ++ txt "/" ++ y) (date_ok cat) date_separated _ hf
  refine ⟨res, h1, h2, ?_⟩
  rw [h3]
  have e : (txt "/").length = 1 := rfl
  simp only [spans, dateFields, List.length_append, List.length_nil, e, List.map_cons, List.map_nil]
  simp only [List.cons.injEq, Option.some.injEq, Prod.mk.injEq, and_true]
  and_intros <;> first | omega | trivial

example := C86_date .forward (txt "7") (txt "11") (txt "2026") (by simp [Decimal]; decide) (by simp [Decimal]; decide) (by simp [Decimal]; decide) (by decide) (by decide) (by decide)
example := C86_only (s := txt "12/3") (date_ok .bidirectional) date_separated

/-- The log line of example/forward_list.cpp:9. -/
example := C86_values (s := txt "[DEBUG]: this is the message") (log_ok .forward) log_separated [txt "DEBUG", txt "this is the message"]
  ⟨txt "[", txt "]: this is the message", rfl, sameText_false.2 rfl, ⟨by decide, by decide, trivial⟩, txt "]: ", [], rfl, sameText_false.2 rfl, ⟨by decide, by decide, trivial⟩, trivial⟩
example := C86_values (s := txt "Name: Bob, age: 42, country: Elbonia;") (person_ok .randomAccess) person_separated [txt "Bob", txt "42", txt "Elbonia"]
  ⟨txt "Name: ", txt ", age: 42, country: Elbonia;", rfl, sameText_false.2 rfl, ⟨by decide, by decide, trivial⟩,
    txt ", age: ", txt ", country: Elbonia;", rfl, sameText_false.2 rfl, ⟨by decide, by decide, trivial⟩,
    txt ", country: ", txt ";", rfl, sameText_false.2 rfl, ⟨by decide, by decide, trivial⟩, sameText_false.2 rfl⟩

/-- Without the separation the values need not be determined: `(a+)(a+)` on `aaa`. -/
example : Filled {} [⟨[], none, .run .greedy 1 .inf (.lit (ch 'a'))⟩, ⟨[], none, .run .greedy 1 .inf (.lit (ch 'a'))⟩] [] [txt "a", txt "aa"] (txt "aaa") ∧
    Filled {} [⟨[], none, .run .greedy 1 .inf (.lit (ch 'a'))⟩, ⟨[], none, .run .greedy 1 .inf (.lit (ch 'a'))⟩] [] [txt "aa", txt "a"] (txt "aaa") :=
  ⟨⟨[], txt "aa", rfl, trivial, ⟨by decide, by decide, trivial⟩, [], [], rfl, trivial, ⟨by decide, by decide, trivial⟩, trivial⟩,
    ⟨[], txt "a", rfl, trivial, ⟨by decide, by decide, trivial⟩, [], [], rfl, trivial, ⟨by decide, by decide, trivial⟩, trivial⟩⟩

/-- Without the separation the values need not even be found: `(a++)(a)` on `aa`. -/
example : ((Regex.mk (template [⟨[], none, .run .possessive 1 .inf (.lit (ch 'a'))⟩, ⟨[], none, .run .greedy 1 .inf (.lit (ch 'a'))⟩] []) []).match (txt "aa")).map (·.matched)
    = some false := by decide

end Mregex
