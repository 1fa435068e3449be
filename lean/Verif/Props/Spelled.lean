import Verif.Proof.Spelled
import Verif.Props.Variants
import Verif.Props.Writable
import Verif.Props.Parsing

/-!
# C77: flags are notation
-/

namespace Mregex
open Ast Spec

/-- Only the procedures for positions in the text matter. -/
theorem carryOut_on {n : Nat} {g g' : Nat → Proc} (hg : ∀ p, p ≤ n → g p = g' p) {cur : Nat} (hcur : cur ≤ n) (h : Notes) (M : Method) :
    carryOut n g cur h M = carryOut n g' cur h M := by
  have key : ∀ (l : List Nat) (h : Notes), (∀ p ∈ l, p ≤ n) → tryFrom g l h = tryFrom g' l h := by
    intro l
    induction l with
    | nil => intros; rfl
    | cons p l ih =>
      intro h hl
      simp only [tryFrom, hg p (hl p (by simp)), fun h => ih h (fun p hp => hl p (List.mem_cons_of_mem _ hp))]
  cases M
  · simp only [carryOut, hg cur hcur]
  · simp only [carryOut, hg cur hcur]
  · exact key _ _ (fun p hp => by have := List.mem_range'_1.1 hp; omega)

theorem spelledOut_names {R : Regex} (hw : wf R.ast = true) : (spelledOut R).names = R.names := by
  simp only [spelledOut, Regex.names, nameSpec_spelled false R.ast hw]

theorem sameUses_spelledOut {R : Regex} (hb : R.fl.icase = true → noBackref R.ast = true) (cat : Cat) : SameUses cat R (spelledOut R) := by
  have hok : R.Ok cat → (spelledOut R).Ok cat := fun hR s =>
    ok_spelled (E := R.env cat s) (E' := (spelledOut R).env cat s) rfl (spelledOut_names (wf_of_ok (hR s))) rfl (hR s)
  refine ⟨hok, fun hR M s cur hcur => ?_⟩
  have hn := spelledOut_names (wf_of_ok (hR s))
  obtain ⟨ν, hν⟩ : ∃ ν : List Byte → Nat, ∀ n id, nameIndex R.names n = some id → ν n = id :=
    ⟨fun n => (nameIndex R.names n).getD 0, fun n id h => by simp only [h]; rfl⟩
  have h1 := invoke_follow (E := R.env cat s) (hR s) hν M (Nat.le_refl _) hcur (fun _ => none)
  have h2 := invoke_follow (E := (spelledOut R).env cat s) (hok hR s) (by rw [show ((spelledOut R).env cat s).names = R.names from hn]; exact hν) M (Nat.le_refl _) hcur (fun _ => none)
  rw [← ctxOf_init] at h1 h2
  have e := carryOut_on (n := s.length) (g := proc {} s ν (spelled R.fl false R.ast) 0 false)
    (g' := proc R.fl s ν R.ast 0 false)
    (fun p hp => proc_spelled s _ R.ast hb 0 false p hp) hcur (fun _ => none) M
  refine carriesOut_same (N := R.names.length) (n := s.length) (Nat.succ_pos _) h1 ?_
  unfold CarriesOut at h2 ⊢
  rw [show carryOut s.length (proc (R.env cat s).flags (R.env cat s).inp ν R.ast 0 false) cur (fun _ => none) M = _ from e.symm, ← hn]
  exact h2

theorem writable_spelledClass (f : Flags) (a : Ast) : Writable (spelledClass f a) :=
  .set (fun b hb => by obtain ⟨x, _, rfl⟩ := List.mem_map.1 hb; exact .lit x)

theorem writable_noneBut (b : Bool) : Writable (noneBut b) := by
  refine .neg (.look (.neg (.set (fun a ha => ?_))))
  simp only [List.mem_cons, List.not_mem_nil, or_false] at ha
  rcases ha with rfl | rfl <;> exact .lit _

theorem writable_spelled {f : Flags} {a : Ast} (h : Writable a) : ∀ inv, Writable (spelled f inv a) := by
  induction h with
  | lit | range | wildcard | set => exact fun _ => writable_spelledClass ..
  | neg _ ih =>
    intro inv
    simp only [spelled]
    split
    · exact .neg (ih inv)
    · exact writable_spelledClass ..
  | seq _ ih =>
    intro inv
    simp only [spelled, spelledAll_eq]
    exact .seq (fun b hb => by obtain ⟨a, ha, rfl⟩ := List.mem_map.1 hb; exact ih a ha inv)
  | alt _ ih =>
    intro inv
    simp only [spelled, spelledAll_eq]
    exact .alt (fun b hb => by obtain ⟨a, ha, rfl⟩ := List.mem_map.1 hb; exact ih a ha inv)
  | cap h _ ih => exact fun inv => .cap h (ih inv)
  | rep h h' _ ih => exact fun inv => .rep h h' (ih inv)
  | look _ ih => exact fun inv => .look (ih _)
  | bol =>
    intro inv
    simp only [spelled]
    split
    · exact writable_noneBut _
    · exact .bol
  | eol =>
    intro inv
    simp only [spelled]
    split
    · exact writable_noneBut _
    · exact .eol
  | empty => exact fun _ => .empty
  | boi => exact fun _ => .boi
  | eoi => exact fun _ => .eoi
  | wordB => exact fun _ => .wordB
  | backref h => exact fun _ => .backref h
  | namedBackref h => exact fun _ => .namedBackref h

theorem index_spelledClass (f : Flags) (o : Nat) (a : Ast) : index o (spelledClass f a) = spelledClass f a :=
  index_none o _ (by rw [← length_nameSpec, nameSpec_spelledClass]; rfl)

theorem index_spelled {f : Flags} (a : Ast) (hw : wf a = true) (inv : Bool) (o : Nat) (hi : index o a = a) :
    index o (spelled f inv a) = spelled f inv a := by
  induction a using ind generalizing inv o with
  | neg a ih =>
    simp only [wf, Bool.and_eq_true] at hw
    simp only [index, Ast.neg.injEq] at hi
    simp only [spelled]
    split
    · simp only [index, ih hw.2 inv o hi]
    · exact index_spelledClass ..
  | seq l ih =>
    simp only [wf, wfAll_eq, Bool.and_eq_true, List.all_eq_true] at hw
    simp only [index, Ast.seq.injEq] at hi
    simp only [spelled, index, Ast.seq.injEq]
    replace hw := hw.2
    induction l generalizing o with
    | nil => rfl
    | cons a l ihl =>
      simp only [indexSeq, List.cons.injEq] at hi
      have hc : captureCount (spelled f inv a) = captureCount a := by
        rw [← length_nameSpec, ← length_nameSpec, nameSpec_spelled inv a (hw a (by simp))]
      simp only [spelledAll, indexSeq, List.cons.injEq, hc]
      exact ⟨ih a (by simp) (hw a (by simp)) inv o hi.1,
        ihl (fun b hb => ih b (List.mem_cons_of_mem _ hb)) _ hi.2 (fun b hb => hw b (List.mem_cons_of_mem _ hb))⟩
  | alt l ih =>
    simp only [wf, wfAll_eq, Bool.and_eq_true, List.all_eq_true] at hw
    simp only [index, Ast.alt.injEq] at hi
    simp only [spelled, index, Ast.alt.injEq]
    replace hw := hw.2
    induction l with
    | nil => rfl
    | cons a l ihl =>
      simp only [indexSame, List.cons.injEq] at hi
      simp only [spelledAll, indexSame, List.cons.injEq]
      exact ⟨ih a (by simp) (hw a (by simp)) inv o hi.1,
        ihl (fun b hb => ih b (List.mem_cons_of_mem _ hb)) hi.2 (fun b hb => hw b (List.mem_cons_of_mem _ hb))⟩
  | cap id n a ih =>
    simp only [index, Ast.cap.injEq, true_and] at hi
    simp only [spelled, index, Ast.cap.injEq, true_and]
    exact ⟨hi.1, ih hw inv _ hi.2⟩
  | rep m lo hi' a ih =>
    simp only [index, Ast.rep.injEq, true_and] at hi
    simp only [spelled, index, Ast.rep.injEq, true_and]
    refine ih ?_ inv _ hi
    cases hi'
    · simp only [wf, Bool.and_eq_true] at hw; exact hw.2
    · exact hw
  | look d a ih =>
    simp only [index, Ast.look.injEq, true_and] at hi
    simp only [spelled, index, Ast.look.injEq, true_and]
    exact ih hw _ _ hi
  | bol => simp only [spelled]; split <;> rfl
  | eol => simp only [spelled]; split <;> rfl
  | lit | range | wildcard | set => simp only [spelled]; exact index_spelledClass ..
  | _ => rfl

theorem writable_cons {a : Ast} {l : List Ast} (h : Writable a) (hl : ∀ b ∈ l, Writable b) : ∀ b ∈ a :: l, Writable b := by
  intro b hb
  rcases List.mem_cons.1 hb with rfl | hb
  · exact h
  · exact hl b hb

theorem writable_nil : ∀ b ∈ ([] : List Ast), Writable b := fun _ h => by cases h

theorem writable_members {l : List Ast} (h : SetMembers l) : ∀ a ∈ l, Writable a := by
  induction h with
  | nil => exact writable_nil
  | lit _ ih => exact writable_cons (.lit _) ih
  | range _ ih => exact writable_cons (.range _ _) ih
  | @neg e x l _ hc ih =>
    refine writable_cons (.neg ?_) ih
    simp [classes] at hc
    rcases hc with ⟨rfl, h⟩ | ⟨rfl, h⟩ | ⟨rfl, h⟩ | ⟨rfl, h⟩ | ⟨rfl, h⟩ | ⟨rfl, h⟩ | ⟨rfl, h⟩ | ⟨rfl, h⟩
    all_goals first
      | (cases h; done)
      | (subst h
         simp only [digit, word, whitespace, linebreak, lower, upper]
         repeat' first
           | exact .lit _
           | exact .range _ _
           | exact writable_nil
           | refine Writable.set ?_
           | refine writable_cons ?_ ?_)
  | @white l _ ih =>
    simp only [classItems, whitespace, linebreak, List.cons_append, List.nil_append]
    repeat' first
      | exact .lit _
      | exact .range _ _
      | exact ih
      | exact writable_nil
      | refine Writable.set ?_
      | refine writable_cons ?_ ?_

theorem sameCall_trans {o o' o'' : Option Result} (h : SameCall o o') (h' : SameCall o' o'') : SameCall o o'' := by
  obtain ⟨r1, r2, rfl, rfl, h1, h2, h3⟩ := h
  obtain ⟨r2', r3, e, rfl, h1', h2', h3'⟩ := h'
  cases e
  exact ⟨r1, r3, rfl, rfl, h1.trans h1', fun h => (h2 h).trans (h2' (h1 ▸ h)), h3.trans h3'⟩

/-- Trees of patterns can be written. -/
theorem writable_of_normal {a : Ast} (h : Normal a) : Writable a := by
  induction h with
  | empty => exact .empty
  | lit => exact .lit _
  | wildcard => exact .wildcard
  | digit => exact .range _ _
  | nonDigit => exact .neg (.range _ _)
  | set h => exact .set (writable_members h)
  | negSet h => exact .neg (.set (writable_members h))
  | seq _ _ _ ih => exact .seq ih
  | alt _ _ _ ih => exact .alt ih
  | cap _ ih => exact .cap (fun _ h => by cases h) ih
  | namedCap h _ ih => exact .cap (fun _ e => by cases e; exact h) ih
  | repFin h h' _ ih => exact .rep h (fun _ e => by cases e; exact h') ih
  | repInf h _ ih => exact .rep h (fun _ e => by cases e) ih
  | look _ ih => exact .look ih
  | negLook _ ih => exact .neg (.look ih)
  | bol => exact .bol
  | eol => exact .eol
  | boi => exact .boi
  | eoi => exact .eoi
  | wordB => exact .wordB
  | notWordB => exact .neg .wordB
  | backref h => exact .backref h
  | namedBackref h => exact .namedBackref h

/-! ## C77 -/

/-- **C77**: with the flags written into the regex it can be used wherever the regex with flags can. -/
theorem C77_usable {R : Regex} (hb : R.fl.icase = true → noBackref R.ast = true) {cat : Cat} (hR : R.Ok cat) : (spelledOut R).Ok cat :=
  (sameUses_spelledOut hb cat).ok hR

/-- **C77**: and gives the same results: the same verdict, and the same contents of all groups, also after a failed call (except the whole match). -/
theorem C77_results {R : Regex} (hb : R.fl.icase = true → noBackref R.ast = true) {cat : Cat} (hR : R.Ok cat) (M : Method) (s : List Byte) :
    SameCall (R.invoke M cat s) ((spelledOut R).invoke M cat s) := (sameUses_spelledOut hb cat).results hR M s

/-- **C77**: `tokenize` and `find_all` visit the same. -/
theorem C77_ranges {R : Regex} (hb : R.fl.icase = true → noBackref R.ast = true) {cat : Cat} (hR : R.Ok cat) (M : Method) (s : List Byte) (rounds : Nat) :
    rangeElements R M cat s rounds = rangeElements (spelledOut R) M cat s rounds := (sameUses_spelledOut hb cat).ranges hR M s rounds

/-- **C77**: hence for each pattern with flags there is a pattern that gives the same results without flags. -/
theorem C77_pattern {w : List Byte} {a : Ast} (ha : parse w = .result a .success) (fl : List RegexFlag)
    (hb : (Flags.ofList fl).icase = true → noBackref a = true) {cat : Cat} (hR : (Regex.mk a fl).Ok cat) :
    ∃ w' b, parse w' = .result b .success ∧ (Regex.mk b []).Ok cat ∧ nameSpec b = nameSpec a ∧
      (∀ M s, SameCall ((Regex.mk a fl).invoke M cat s) ((Regex.mk b []).invoke M cat s)) ∧
      ∀ M s rounds, rangeElements ⟨a, fl⟩ M cat s rounds = rangeElements ⟨b, []⟩ M cat s rounds := by
  obtain ⟨h1, h2⟩ := C36_normal ha
  have hu := sameUses_spelledOut (R := ⟨a, fl⟩) hb cat
  have hw : wf a = true := wf_of_ok (hR [])
  obtain ⟨w', b, e1, e2, e3, e4, e5⟩ := C60_pattern (hu.ok hR) (writable_spelled (writable_of_normal h1) false) (index_spelled a hw false 1 h2)
  refine ⟨w', b, e1, e2, e3.trans (nameSpec_spelled false a hw), fun M s => ?_, fun M s k => (hu.ranges hR M s k).trans (e5 M s k)⟩
  exact sameCall_trans (hu.results hR M s) (e4 M s)

/-- `^(a.)+?(?<=^b|c)$` with the flags `icase`, `dotall`, `multiline` and `ungreedy`. -/
def exSpelled : Regex :=
  ⟨.seq [.bol, .rep .lazy 1 .inf (.cap 1 none (.seq [.lit (ch 'a'), .wildcard])), .look .behind (.alt [.seq [.bol, .lit (ch 'b')], .lit (ch 'c')]), .eol],
    [.icase, .dotall, .multiline, .ungreedy]⟩

example := C77_usable (R := exSpelled) (fun _ => by decide) (cat := .randomAccess) (Regex.ok_of_okb (by decide))
example := fun s => C77_results (R := exSpelled) (fun _ => by decide) (cat := .randomAccess) (Regex.ok_of_okb (by decide)) .search s
example := fun s k => C77_ranges (R := exSpelled) (fun _ => by decide) (cat := .randomAccess) (Regex.ok_of_okb (by decide)) .search s k
example : ((exSpelled.invoke .search .randomAccess (txt "x\nA-aC\ny")).map (·.groups)) = some [some (2, 6), some (4, 4)] := by decide +kernel

/-- `^a.` with `icase` and `multiline`; by `C77_pattern` there is a pattern for it without flags. -/
example : ∃ a, parse (txt "^a.") = .result a .success ∧ noBackref a = true ∧ (Regex.mk a [.icase, .multiline]).Ok .randomAccess :=
  ⟨.seq [.bol, .lit (ch 'a'), .wildcard], rfl, rfl, Regex.ok_of_okb (by decide)⟩

/-- References under `icase` are excluded: `(a)\1` accepts `aA`, but `([aA])\1` without flags does not. -/
example : ((Regex.mk (.seq [.cap 1 none (.lit (ch 'a')), .backref 1]) [.icase]).invoke .match .randomAccess (txt "aA")).map (·.matched) = some true ∧
    ((spelledOut ⟨.seq [.cap 1 none (.lit (ch 'a')), .backref 1], [.icase]⟩).invoke .match .randomAccess (txt "aA")).map (·.matched) = some false := by
  decide +kernel

end Mregex
