import Verif.Spec.Url
import Verif.Proof.Says
import Verif.Props.Words

/-!
# URLs
-/

namespace Mregex
open Ast Spec

section
variable {f : Flags}

/-! ### What the parts of the expression say -/

theorem repeats_chars {cls : Ast} (hs : ∀ e w e', Says f cls e w e' ↔ (∃ x, w = [x] ∧ accepts f cls x = true) ∧ e' = e) (n : Nat) (e : Memory) (w : List Byte) (e' : Memory) :
    Repeats (Says f cls) n e w e' ↔ w.length = n ∧ (∀ x ∈ w, accepts f cls x = true) ∧ e' = e := by
  induction n generalizing e w with
  | zero =>
    simp only [Repeats]
    exact ⟨fun ⟨h1, h2⟩ => by subst h1; exact ⟨rfl, by simp, h2⟩, fun ⟨h1, _, h2⟩ => ⟨List.length_eq_zero_iff.1 h1, h2⟩⟩
  | succ n ih =>
    simp only [Repeats, ih, hs]
    constructor
    · rintro ⟨u, v, t, rfl, ⟨⟨x, rfl, hx⟩, rfl⟩, h1, h2, h3⟩
      refine ⟨by simp [h1], fun y hy => ?_, h3⟩
      rcases List.mem_append.1 hy with hy | hy
      · rw [List.mem_singleton.1 hy]; exact hx
      · exact h2 y hy
    · rintro ⟨h1, h2, h3⟩
      cases w with
      | nil => simp at h1
      | cons x w =>
        exact ⟨[x], w, e, rfl, ⟨⟨x, rfl, h2 x (by simp)⟩, rfl⟩, by simpa using h1, fun y hy => h2 y (List.mem_cons_of_mem _ hy), h3⟩

theorem says_plus {cls : Ast} {P : Byte → Prop} (hs : ∀ e w e', Says f cls e w e' ↔ (∃ x, w = [x] ∧ accepts f cls x = true) ∧ e' = e)
    (hP : ∀ x, accepts f cls x = true ↔ P x) (m : Mode) (e : Memory) (w : List Byte) (e' : Memory) :
    Says f (.rep m 1 .inf cls) e w e' ↔ Series P w ∧ e' = e := by
  simp only [Says, repeats_chars hs, AtMost, true_and, hP, Series]
  constructor
  · rintro ⟨n, h1, h2, h3, h4⟩
    exact ⟨⟨by intro h; subst h; simp at h2; omega, h3⟩, h4⟩
  · rintro ⟨⟨h1, h2⟩, h3⟩
    exact ⟨w.length, List.length_pos_iff.2 h1, rfl, h2, h3⟩

theorem says_optional (m : Mode) (a : Ast) (e : Memory) (w : List Byte) (e' : Memory) :
    Says f (.rep m 0 (.fin 1) a) e w e' ↔ (w = [] ∧ e' = e) ∨ Says f a e w e' := by
  simp only [Says]
  constructor
  · rintro ⟨n, _, h1, h2⟩
    have h1 : n ≤ 1 := h1
    match n, h1 with
    | 0, _ => exact .inl h2
    | 1, _ =>
      obtain ⟨u, v, t, rfl, h3, rfl, rfl⟩ := h2
      exact .inr (by simpa using h3)
  · rintro (h | h)
    · exact ⟨0, Nat.zero_le _, Nat.zero_le _, h⟩
    · exact ⟨1, Nat.zero_le _, Nat.le_refl 1, w, [], e', by simp, h, rfl, rfl⟩

theorem says_option {α : Type} {text : α → List Byte} {told : α → Memory} {Fine : α → Prop} {a : Ast}
    (h : ∀ e w e', Says f a e w e' ↔ ∃ x, Fine x ∧ w = text x ∧ e' = told x ++ e) (m : Mode) (e : Memory) (w : List Byte) (e' : Memory) :
    Says f (.rep m 0 (.fin 1) a) e w e' ↔ ∃ o : Option α, (∀ x, o = some x → Fine x) ∧ w = optionText text o ∧ e' = (o.elim [] told) ++ e := by
  rw [says_optional, h]
  constructor
  · rintro (⟨rfl, rfl⟩ | ⟨x, h1, h2, h3⟩)
    · exact ⟨none, by simp, rfl, rfl⟩
    · exact ⟨some x, by simpa using h1, h2, h3⟩
  · rintro ⟨o, h1, h2, h3⟩
    cases o with
    | none => exact .inl ⟨h2, h3⟩
    | some x => exact .inr ⟨x, h1 x rfl, h2, h3⟩

/-- Characters without case. -/
theorem caseless : ∀ c ∈ txt ":/@?.-=&", ∀ (b : Bool) (x : Byte), (c == x || (b && asciiLower c == asciiLower x)) = (x == c) := by decide +kernel

theorem says_mark {c : Byte} (hc : c ∈ txt ":/@?.-=&") (e : Memory) (w : List Byte) (e' : Memory) : Says f (.lit c) e w e' ↔ w = [c] ∧ e' = e := by
  simp only [Says, accepts, caseless c hc, beq_iff_eq]
  exact ⟨fun ⟨⟨x, h1, h2⟩, h3⟩ => ⟨by rw [h1, h2], h3⟩, fun ⟨h1, h2⟩ => ⟨⟨c, h1, rfl⟩, h2⟩⟩

theorem says_set (l : List Ast) (e : Memory) (w : List Byte) (e' : Memory) : Says f (.set l) e w e' ↔ (∃ x, w = [x] ∧ accepts f (.set l) x = true) ∧ e' = e := by
  simp only [Says]

/-! ### The expression

The parts of the tree of the pattern in example/url_parsing.cpp:6. -/

def wordPlus : Ast := .rep .greedy 1 .inf wordClass
def maybe' (a : Ast) : Ast := .rep .greedy 0 (.fin 1) a
def passAst : Ast := .seq [.lit (ch ':'), .cap 3 none wordPlus]
def loginAst : Ast := .seq [.cap 2 none wordPlus, maybe' passAst, .lit (ch '@')]
def hostClass : Ast := .set [.lit (ch '.'), .range (ch 'a') (ch 'z'), .range (ch 'A') (ch 'Z'), .range (ch '0') (ch '9'), .lit (ch '_')]
def portAst : Ast := .seq [.lit (ch ':'), .cap 5 none (.rep .greedy 1 .inf (.range (ch '0') (ch '9')))]
def authorityAst : Ast := .seq [maybe' loginAst, .cap 4 none (.rep .greedy 1 .inf hostClass), maybe' portAst]
def pathClass : Ast := .set [.range (ch 'a') (ch 'z'), .range (ch 'A') (ch 'Z'), .range (ch '0') (ch '9'), .lit (ch '_'), .lit (ch '/'), .lit (ch '-')]
def urlPathAst : Ast := .cap 6 none (.seq [.lit (ch '/'), .rep .greedy 1 .inf pathClass])
def queryClass : Ast := .set [.lit (ch '&'), .lit (ch '='), .range (ch 'a') (ch 'z'), .range (ch 'A') (ch 'Z'), .range (ch '0') (ch '9'), .lit (ch '_')]
def resourceAst : Ast := .seq [maybe' urlPathAst, .lit (ch '?'), .cap 7 none (.rep .greedy 1 .inf queryClass)]
/-- The tree of the expression of example/url_parsing.cpp. -/
def urlParsingAst : Ast := .seq [.cap 1 none wordPlus, .lit (ch ':'), .lit (ch '/'), .lit (ch '/'), maybe' authorityAst, maybe' resourceAst]

theorem accepts_host (x : Byte) : accepts f hostClass x = true ↔ HostChar x := by
  have hw := accepts_wordClass f x
  have hc := caseless (ch '.') (by decide) f.icase x
  simp only [wordClass, hostClass, accepts, acceptsAny, hc, Bool.or_false, Bool.or_eq_true] at hw ⊢
  simp only [HostChar, ← hw, beq_iff_eq, or_assoc, or_comm, or_left_comm]

theorem accepts_path (x : Byte) : accepts f pathClass x = true ↔ PathChar x := by
  have hw := accepts_wordClass f x
  have hc := caseless (ch '/') (by decide) f.icase x
  have hc' := caseless (ch '-') (by decide) f.icase x
  simp only [wordClass, pathClass, accepts, acceptsAny, hc, hc', Bool.or_false, Bool.or_eq_true] at hw ⊢
  simp only [PathChar, ← hw, beq_iff_eq, or_assoc, or_comm, or_left_comm]

theorem accepts_query (x : Byte) : accepts f queryClass x = true ↔ QueryChar x := by
  have hw := accepts_wordClass f x
  have hc := caseless (ch '&') (by decide) f.icase x
  have hc' := caseless (ch '=') (by decide) f.icase x
  simp only [wordClass, queryClass, accepts, acceptsAny, hc, hc', Bool.or_false, Bool.or_eq_true] at hw ⊢
  simp only [QueryChar, ← hw, beq_iff_eq, or_assoc, or_comm, or_left_comm]

theorem digit_range : ∀ (b : Bool) (x : Byte), (inRange (ch '0') (ch '9') x || (b && (inRange (ch '0') (ch '9') (asciiLower x) || inRange (ch '0') (ch '9') (asciiUpper x)))) =
    decide (48 ≤ x.toNat ∧ x.toNat ≤ 57) := by decide +kernel

theorem accepts_digit (x : Byte) : accepts f (.range (ch '0') (ch '9')) x = true ↔ Digit x := by
  simp only [accepts, digit_range, decide_eq_true_eq, Digit]

def Spec.Login.told (l : Login) : Memory := (l.pass.elim [] fun w => [(3, w)]) ++ [(2, l.user)]
def Spec.Authority.told (a : Authority) : Memory := (a.port.elim [] fun w => [(5, w)]) ++ (4, a.host) :: a.login.elim [] Login.told
def Spec.Resource.told (r : Resource) : Memory := (7, r.query) :: r.path.elim [] fun w => [(6, w)]
def Spec.Url.told (u : Url) : Memory := u.resource.elim [] Resource.told ++ (u.authority.elim [] Authority.told ++ [(1, u.schema)])

theorem says_wordPlus (e : Memory) (w : List Byte) (e' : Memory) : Says f wordPlus e w e' ↔ Series WordChar w ∧ e' = e :=
  says_plus (says_set _) (accepts_wordClass f) _ _ _ _

theorem says_pass (e : Memory) (w : List Byte) (e' : Memory) :
    Says f passAst e w e' ↔ ∃ v, Series WordChar v ∧ w = ch ':' :: v ∧ e' = [(3, v)] ++ e := by
  rw [passAst]
  simp only [Says.eq_2, SaysAll, says_mark (show ch ':' ∈ txt ":/@?.-=&" by decide), Says.eq_4, says_wordPlus]
  constructor
  · rintro ⟨u, v, t, rfl, ⟨rfl, rfl⟩, u', v', t', rfl, ⟨t1, ⟨h1, rfl⟩, rfl⟩, rfl, rfl⟩
    exact ⟨u', h1, by simp, rfl⟩
  · rintro ⟨v, h1, rfl, rfl⟩
    exact ⟨[ch ':'], v, e, rfl, ⟨rfl, rfl⟩, v, [], _, by simp, ⟨e, ⟨h1, rfl⟩, rfl⟩, rfl, rfl⟩

theorem says_login (e : Memory) (w : List Byte) (e' : Memory) :
    Says f loginAst e w e' ↔ ∃ l : Login, l.Fine ∧ w = l.text ++ [ch '@'] ∧ e' = l.told ++ e := by
  rw [loginAst]
  simp only [Says.eq_2, SaysAll, says_mark (show ch '@' ∈ txt ":/@?.-=&" by decide), Says.eq_4, says_wordPlus, maybe', says_option says_pass]
  constructor
  · rintro ⟨u, v, t, rfl, ⟨t1, ⟨h1, rfl⟩, rfl⟩, u', v', t', rfl, ⟨o, h2, rfl, rfl⟩, _, _, _, rfl, ⟨rfl, rfl⟩, rfl, rfl⟩
    exact ⟨⟨u, o⟩, ⟨h1, h2⟩, by simp [Login.text], by simp [Login.told]⟩
  · rintro ⟨⟨u, o⟩, ⟨h1, h2⟩, rfl, rfl⟩
    exact ⟨u, _, _, by simp [Login.text], ⟨e, ⟨h1, rfl⟩, rfl⟩, _, _, _, rfl, ⟨o, h2, rfl, rfl⟩, [ch '@'], [], _, rfl, ⟨rfl, rfl⟩, rfl, by simp [Login.told]⟩

theorem says_port (e : Memory) (w : List Byte) (e' : Memory) :
    Says f portAst e w e' ↔ ∃ v, Series Digit v ∧ w = ch ':' :: v ∧ e' = [(5, v)] ++ e := by
  rw [portAst]
  simp only [Says.eq_2, SaysAll, says_mark (show ch ':' ∈ txt ":/@?.-=&" by decide), Says.eq_4, 
    says_plus (f := f) (cls := .range (ch '0') (ch '9')) (P := Digit) (by intros; simp only [Says]) accepts_digit]
  constructor
  · rintro ⟨u, v, t, rfl, ⟨rfl, rfl⟩, u', v', t', rfl, ⟨t1, ⟨h1, rfl⟩, rfl⟩, rfl, rfl⟩
    exact ⟨u', h1, by simp, rfl⟩
  · rintro ⟨v, h1, rfl, rfl⟩
    exact ⟨[ch ':'], v, e, rfl, ⟨rfl, rfl⟩, v, [], _, by simp, ⟨e, ⟨h1, rfl⟩, rfl⟩, rfl, rfl⟩

theorem says_authority (e : Memory) (w : List Byte) (e' : Memory) :
    Says f authorityAst e w e' ↔ ∃ a : Authority, a.Fine ∧ w = a.text ∧ e' = a.told ++ e := by
  rw [authorityAst]
  simp only [Says.eq_2, SaysAll, Says.eq_4, maybe', says_option says_login, says_option says_port, says_plus (f := f) (cls := hostClass) (says_set _) accepts_host]
  constructor
  · rintro ⟨u, v, t, rfl, ⟨o, h1, rfl, rfl⟩, u', v', t', rfl, ⟨_, ⟨h2, rfl⟩, rfl⟩, _, _, _, rfl, ⟨o', h3, rfl, rfl⟩, rfl, rfl⟩
    exact ⟨⟨o, u', o'⟩, ⟨h1, h2, h3⟩, by simp [Authority.text], by simp [Authority.told]⟩
  · rintro ⟨⟨o, u, o'⟩, ⟨h1, h2, h3⟩, rfl, rfl⟩
    exact ⟨_, _, _, rfl, ⟨o, h1, rfl, rfl⟩, u, _, _, rfl, ⟨_, ⟨h2, rfl⟩, rfl⟩, _, [], _, by simp, ⟨o', h3, rfl, rfl⟩, rfl, by simp [Authority.told]⟩

theorem says_path (e : Memory) (w : List Byte) (e' : Memory) :
    Says f urlPathAst e w e' ↔ ∃ v, (∃ v', v = ch '/' :: v' ∧ Series PathChar v') ∧ w = id v ∧ e' = [(6, v)] ++ e := by
  rw [urlPathAst]
  simp only [Says.eq_4, Says.eq_2, SaysAll, says_mark (show ch '/' ∈ txt ":/@?.-=&" by decide), says_plus (f := f) (cls := pathClass) (says_set _) accepts_path]
  constructor
  · rintro ⟨t, ⟨u, v, t, rfl, ⟨rfl, rfl⟩, u', v', t', rfl, ⟨h1, rfl⟩, rfl, rfl⟩, rfl⟩
    exact ⟨_, ⟨u', by simp, h1⟩, rfl, rfl⟩
  · rintro ⟨v, ⟨v', rfl, h⟩, rfl, rfl⟩
    exact ⟨e, ⟨[ch '/'], v', e, rfl, ⟨rfl, rfl⟩, v', [], e, by simp, ⟨h, rfl⟩, rfl, rfl⟩, rfl⟩

theorem says_resource (e : Memory) (w : List Byte) (e' : Memory) :
    Says f resourceAst e w e' ↔ ∃ r : Resource, r.Fine ∧ w = r.text ∧ e' = r.told ++ e := by
  rw [resourceAst]
  simp only [Says.eq_2, SaysAll, Says.eq_4, says_mark (show ch '?' ∈ txt ":/@?.-=&" by decide), maybe', says_option says_path,
    says_plus (f := f) (cls := queryClass) (says_set _) accepts_query]
  constructor
  · rintro ⟨u, v, t, rfl, ⟨o, h1, rfl, rfl⟩, u', v', t', rfl, ⟨rfl, rfl⟩, q, _, _, rfl, ⟨_, ⟨h2, rfl⟩, rfl⟩, rfl, rfl⟩
    exact ⟨⟨o, q⟩, ⟨h1, h2⟩, by simp [Resource.text], by simp [Resource.told]⟩
  · rintro ⟨⟨o, q⟩, ⟨h1, h2⟩, rfl, rfl⟩
    exact ⟨_, _, _, rfl, ⟨o, h1, rfl, rfl⟩, [ch '?'], q, _, rfl, ⟨rfl, rfl⟩, q, [], _, by simp, ⟨_, ⟨h2, rfl⟩, rfl⟩, rfl, by simp [Resource.told]⟩

/-- The expression says exactly the URLs. -/
theorem says_url (w : List Byte) (e' : Memory) : Says f urlParsingAst [] w e' ↔ ∃ u : Url, u.Fine ∧ w = u.text ∧ e' = u.told := by
  rw [urlParsingAst]
  simp only [Says.eq_2, SaysAll, Says.eq_4, says_mark (show ch ':' ∈ txt ":/@?.-=&" by decide), says_mark (show ch '/' ∈ txt ":/@?.-=&" by decide), maybe',
    says_wordPlus, says_option says_authority, says_option says_resource]
  constructor
  · rintro ⟨u, _, _, rfl, ⟨_, ⟨h1, rfl⟩, rfl⟩, _, _, _, rfl, ⟨rfl, rfl⟩, _, _, _, rfl, ⟨rfl, rfl⟩, _, _, _, rfl, ⟨rfl, rfl⟩, _, _, _, rfl, ⟨o, h2, rfl, rfl⟩, _, _, _, rfl,
      ⟨o', h3, rfl, rfl⟩, rfl, rfl⟩
    exact ⟨⟨u, o, o'⟩, ⟨h1, h2, h3⟩, by simp [Url.text], by simp [Url.told]⟩
  · rintro ⟨⟨u, o, o'⟩, ⟨h1, h2, h3⟩, rfl, rfl⟩
    exact ⟨u, _, _, rfl, ⟨_, ⟨h1, rfl⟩, rfl⟩, [ch ':'], _, _, rfl, ⟨rfl, rfl⟩, [ch '/'], _, _, rfl, ⟨rfl, rfl⟩, [ch '/'], _, _, rfl, ⟨rfl, rfl⟩, _, _, _, rfl,
      ⟨o, h2, rfl, rfl⟩, _, [], _, by simp, ⟨o', h3, rfl, rfl⟩, rfl, by simp [Url.told]⟩

/-! ### A URL can be taken apart in one way -/

/-- A text that does not begin with a character of `P`. -/
def Stops (P : Byte → Prop) (y : List Byte) : Prop := ∀ c, y.head? = some c → ¬P c

theorem cut_unique {P : Byte → Prop} {x x' y y' : List Byte} (h : x ++ y = x' ++ y') (hx : ∀ c ∈ x, P c) (hx' : ∀ c ∈ x', P c) (hy : Stops P y) (hy' : Stops P y') :
    x = x' ∧ y = y' := by
  induction x generalizing x' with
  | nil =>
    cases x' with
    | nil => exact ⟨rfl, h⟩
    | cons c x' => exact absurd (hx' c (by simp)) (hy c (by rw [show y = _ from h]; rfl))
  | cons c x ih =>
    cases x' with
    | nil => exact absurd (hx c (by simp)) (hy' c (by rw [← show _ = y' from h]; rfl))
    | cons c' x' =>
      simp only [List.cons_append, List.cons.injEq] at h
      obtain ⟨rfl, h⟩ := h
      obtain ⟨rfl, h'⟩ := ih h (fun c hc => hx c (List.mem_cons_of_mem _ hc)) (fun c hc => hx' c (List.mem_cons_of_mem _ hc))
      exact ⟨rfl, h'⟩

theorem optionText_unique {α : Type} {text : α → List Byte} {o o' : Option α} (hne : ∀ x, o = some x → text x ≠ []) (hne' : ∀ x, o' = some x → text x ≠ [])
    (hinj : ∀ x y, o = some x → o' = some y → text x = text y → x = y) (h : optionText text o = optionText text o') : o = o' := by
  cases o with
  | none =>
    cases o' with
    | none => rfl
    | some y => exact absurd h.symm (hne' y rfl)
  | some x =>
    cases o' with
    | none => exact absurd h (hne x rfl)
    | some y => rw [hinj x y rfl rfl h]

theorem marks_not_word : ∀ c ∈ txt ":/@?.-=&", ¬WordChar c := by
  unfold WordChar; decide

theorem stops_option {α : Type} {P : Byte → Prop} {text : α → List Byte} (h : ∀ x, Stops P (text x)) (o : Option α) : Stops P (optionText text o) := by
  cases o with
  | none => intro c hc; simp [optionText] at hc
  | some x => exact h x

theorem stops_cons {P : Byte → Prop} {c : Byte} (h : ¬P c) (y : List Byte) : Stops P (c :: y) := by
  intro d hd
  obtain rfl : c = d := by simpa using hd
  exact h

theorem login_unique {l l' : Login} (hl : l.Fine) (hl' : l'.Fine) (h : l.text = l'.text) : l = l' := by
  obtain ⟨h1, h2⟩ := cut_unique h hl.1.2 hl'.1.2 (stops_option (fun _ => stops_cons (marks_not_word _ (by decide)) _) _)
    (stops_option (fun _ => stops_cons (marks_not_word _ (by decide)) _) _)
  have h3 := optionText_unique (by simp) (by simp) (by simp) h2
  obtain ⟨_, _⟩ := l
  obtain ⟨_, _⟩ := l'
  simp only at h1 h3
  subst h1 h3
  rfl

theorem login_chars {l : Login} (hl : l.Fine) : ∀ c ∈ l.text, WordChar c ∨ c = ch ':' := by
  obtain ⟨u, p⟩ := l
  intro c hc
  rcases List.mem_append.1 hc with hc | hc
  · exact .inl (hl.1.2 c hc)
  · cases p with
    | none => simp [optionText] at hc
    | some w =>
      rcases List.mem_cons.1 hc with rfl | hc
      · exact .inr rfl
      · exact .inl ((hl.2 w rfl).2 c hc)

theorem digit_word {c : Byte} (h : Digit c) : WordChar c := .inl h

theorem address_chars {a : Authority} (ha : a.Fine) : ∀ c ∈ a.host ++ optionText (fun w => ch ':' :: w) a.port, WordChar c ∨ c = ch '.' ∨ c = ch ':' := by
  obtain ⟨l, h, p⟩ := a
  intro c hc
  rcases List.mem_append.1 hc with hc | hc
  · exact (ha.2.1.2 c hc).imp id .inl
  · cases p with
    | none => simp [optionText] at hc
    | some w =>
      rcases List.mem_cons.1 hc with rfl | hc
      · exact .inr (.inr rfl)
      · exact .inl (digit_word ((ha.2.2 w rfl).2 c hc))

theorem authority_chars {a : Authority} (ha : a.Fine) : ∀ c ∈ a.text, WordChar c ∨ c = ch '.' ∨ c = ch ':' ∨ c = ch '@' := by
  intro c hc
  rcases List.mem_append.1 hc with hc | hc
  · cases hl : a.login with
    | none => rw [hl] at hc; simp [optionText] at hc
    | some l =>
      rw [hl] at hc
      rcases List.mem_append.1 (show c ∈ l.text ++ [ch '@'] from hc) with hc | hc
      · exact (login_chars (ha.1 l hl) c hc).imp id fun h => .inr (.inl h)
      · exact .inr (.inr (.inr (List.mem_singleton.1 hc)))
  · exact (address_chars ha c hc).imp id fun h => h.imp id .inl

theorem not_word {c d : Byte} (hc : c ∈ txt ":/@?.-=&") (h : WordChar d ∨ d ≠ c) : d ≠ c := by
  rcases h with h | h
  · rintro rfl; exact marks_not_word _ hc h
  · exact h

theorem address_unique {a a' : Authority} (ha : a.Fine) (ha' : a'.Fine)
    (h : a.host ++ optionText (fun w => ch ':' :: w) a.port = a'.host ++ optionText (fun w => ch ':' :: w) a'.port) : a.host = a'.host ∧ a.port = a'.port := by
  have hn : ¬HostChar (ch ':') := by rintro (h | h); exact marks_not_word _ (by decide) h; cases h
  obtain ⟨h1, h⟩ := cut_unique h ha.2.1.2 ha'.2.1.2 (stops_option (fun _ => stops_cons hn _) _) (stops_option (fun _ => stops_cons hn _) _)
  exact ⟨h1, optionText_unique (by simp) (by simp) (by simp) h⟩

theorem authority_unique {a a' : Authority} (ha : a.Fine) (ha' : a'.Fine) (h : a.text = a'.text) : a = a' := by
  have hat : ∀ {a : Authority}, a.Fine → ch '@' ∉ a.host ++ optionText (fun w => ch ':' :: w) a.port := fun ha hm => by
    rcases address_chars ha _ hm with h | h | h
    · exact marks_not_word _ (by decide) h
    · cases h
    · cases h
  have hlog : ∀ {l : Login}, l.Fine → ∀ c ∈ l.text, c ≠ ch '@' := fun hl c hc => by
    rcases login_chars hl c hc with h | rfl
    · exact not_word (by decide) (.inl h)
    · decide
  have hrest : ∀ (w : List Byte), Stops (· ≠ ch '@') (ch '@' :: w) := fun w => stops_cons (by simp) w
  have key : a.login = a'.login ∧ a.host ++ optionText (fun w => ch ':' :: w) a.port = a'.host ++ optionText (fun w => ch ':' :: w) a'.port := by
    simp only [Authority.text] at h
    cases hl : a.login with
    | none =>
      cases hl' : a'.login with
      | none => rw [hl, hl'] at h; exact ⟨rfl, h⟩
      | some l' =>
        rw [hl, hl'] at h
        exact absurd (show ch '@' ∈ _ by rw [show a.host ++ _ = _ from h]; simp [optionText]) (hat ha)
    | some l =>
      cases hl' : a'.login with
      | none =>
        rw [hl, hl'] at h
        exact absurd (show ch '@' ∈ _ by rw [← show _ = a'.host ++ _ from h]; simp [optionText]) (hat ha')
      | some l' =>
        rw [hl, hl'] at h
        simp only [optionText, List.append_assoc, List.singleton_append] at h
        obtain ⟨h1, h2⟩ := cut_unique h (hlog (ha.1 l hl)) (hlog (ha'.1 l' hl')) (hrest _) (hrest _)
        simp only [List.cons.injEq, true_and] at h2
        exact ⟨by rw [login_unique (ha.1 l hl) (ha'.1 l' hl') h1], h2⟩
  obtain ⟨h1, h2⟩ := key
  obtain ⟨h3, h4⟩ := address_unique ha ha' h2
  obtain ⟨_, _, _⟩ := a
  obtain ⟨_, _, _⟩ := a'
  simp only at h1 h3 h4
  subst h1 h3 h4
  rfl

theorem resource_unique {r r' : Resource} (hr : r.Fine) (hr' : r'.Fine) (h : r.text = r'.text) : r = r' := by
  have hp : ∀ {r : Resource}, r.Fine → ∀ c ∈ optionText id r.path, c ≠ ch '?' := by
    intro r hr c hc
    cases hq : r.path with
    | none => rw [hq] at hc; simp [optionText] at hc
    | some w =>
      obtain ⟨v, rfl, hv⟩ := hr.1 w hq
      rw [hq] at hc
      rcases List.mem_cons.1 (show c ∈ ch '/' :: v from hc) with rfl | hc
      · decide
      · rcases hv.2 c hc with h | rfl | rfl
        · exact not_word (by decide) (.inl h)
        · decide
        · decide
  obtain ⟨h1, h2⟩ := cut_unique h (hp hr) (hp hr') (stops_cons (by simp) _) (stops_cons (by simp) _)
  simp only [List.cons.injEq, true_and] at h2
  have hne : ∀ {r : Resource}, r.Fine → ∀ w, r.path = some w → id w ≠ [] := fun hr w hw => by
    obtain ⟨v, rfl, _⟩ := hr.1 w hw
    simp
  have h3 := optionText_unique (hne hr) (hne hr') (fun _ _ _ _ h => h) h1
  obtain ⟨_, _⟩ := r
  obtain ⟨_, _⟩ := r'
  simp only at h2 h3
  subst h2 h3
  rfl

theorem url_unique {u u' : Url} (hu : u.Fine) (hu' : u'.Fine) (h : u.text = u'.text) : u = u' := by
  obtain ⟨h1, h2⟩ := cut_unique h hu.1.2 hu'.1.2 (stops_cons (marks_not_word _ (by decide)) _) (stops_cons (marks_not_word _ (by decide)) _)
  simp only [List.cons.injEq, true_and] at h2
  have hchars : ∀ {u : Url}, u.Fine → ∀ c ∈ optionText Authority.text u.authority, c ≠ ch '/' ∧ c ≠ ch '?' := by
    intro u hu c hc
    cases ha : u.authority with
    | none => rw [ha] at hc; simp [optionText] at hc
    | some a =>
      rw [ha] at hc
      rcases authority_chars (hu.2.1 a ha) c hc with h | rfl | rfl | rfl
      · exact ⟨not_word (by decide) (.inl h), not_word (by decide) (.inl h)⟩
      all_goals decide
  have hstop : ∀ {u : Url}, u.Fine → Stops (fun c => c ≠ ch '/' ∧ c ≠ ch '?') (optionText Resource.text u.resource) := by
    intro u hu
    cases hr : u.resource with
    | none => intro c hc; simp [optionText] at hc
    | some r =>
      show Stops _ (optionText id r.path ++ ch '?' :: r.query)
      cases hp : r.path with
      | none => exact stops_cons (by simp) _
      | some w =>
        obtain ⟨v, rfl, _⟩ := (hu.2.2 r hr).1 w hp
        exact stops_cons (by simp) _
  obtain ⟨h3, h4⟩ := cut_unique h2 (hchars hu) (hchars hu') (hstop hu) (hstop hu')
  have hane : ∀ {u : Url}, u.Fine → ∀ a, u.authority = some a → a.text ≠ [] := fun hu a ha h => by
    have := (hu.2.1 a ha).2.1.1
    simp only [Authority.text, List.append_eq_nil_iff] at h
    exact this h.2.1
  have e1 := optionText_unique (hane hu) (hane hu') (fun a b ha hb => authority_unique (hu.2.1 a ha) (hu'.2.1 b hb)) h3
  have e2 := optionText_unique (fun r _ => by simp [Resource.text]) (fun r _ => by simp [Resource.text])
    (fun a b ha hb => resource_unique (hu.2.2 a ha) (hu'.2.2 b hb)) h4
  obtain ⟨_, _, _⟩ := u
  obtain ⟨_, _, _⟩ := u'
  simp only at h1 e1 e2
  subst h1 e1 e2
  rfl

theorem recall_told (u : Url) (k : Nat) : recall k u.told = u.part k := by
  obtain ⟨s, a, r⟩ := u
  have hk : k = 1 ∨ k = 2 ∨ k = 3 ∨ k = 4 ∨ k = 5 ∨ k = 6 ∨ k = 7 ∨ (k ≠ 1 ∧ k ≠ 2 ∧ k ≠ 3 ∧ k ≠ 4 ∧ k ≠ 5 ∧ k ≠ 6 ∧ k ≠ 7) := by omega
  have other : ∀ {u : Url}, (k ≠ 1 ∧ k ≠ 2 ∧ k ≠ 3 ∧ k ≠ 4 ∧ k ≠ 5 ∧ k ≠ 6 ∧ k ≠ 7) → u.part k = [] := by
    intro u hk
    unfold Url.part
    split <;> first | omega | rfl
  rcases a with _ | ⟨_ | ⟨lu, _ | lp⟩, h, _ | p⟩ <;> rcases r with _ | ⟨_ | q, qu⟩ <;>
    rcases hk with rfl | rfl | rfl | rfl | rfl | rfl | rfl | hk <;>
    first
    | rfl
    | (rw [other hk]; obtain ⟨k1, k2, k3, k4, k5, k6, k7⟩ := hk
       simp [Url.told, Authority.told, Resource.told, Login.told, recall, Ne.symm k1, Ne.symm k2, Ne.symm k3, Ne.symm k4, Ne.symm k5, Ne.symm k6, Ne.symm k7])

end
end Mregex
