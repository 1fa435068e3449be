import Verif.Proof.AstLemmas
import Verif.Spec.Static

/-!
# An executable check for `Ok`, used to exhibit concrete regexes that satisfy the hypotheses of the theorems
-/

namespace Mregex
open Ast

def okF (cat : Cat) (f : Flags) (names : List GroupName) : Nat → Nat → Ast → Bool
  | 0, _, _ => false
  | k + 1, r, a =>
    match a with
    | .empty | .lit _ | .wildcard | .boi | .eol | .eoi => true
    | .range a b => decide (a.toNat ≤ b.toNat)
    | .set l => l.all triv && l.all (okF cat f names k r)
    | .neg a => (triv a || isAssertion a) && okF cat f names k r a
    | .seq l | .alt l => !l.isEmpty && l.all (okF cat f names k r)
    | .cap id name a => decide (names[id]? = some name) && decide (r ≤ 1) && okF cat f names k r a
    | .rep _ lo (.fin hi) a => decide (lo ≤ hi) && okF cat f names k r a
    | .rep _ _ .inf a => okF cat f names k r a
    | .look .ahead a => okF cat f names k r a
    | .look .behind a => decide (cat ≠ .forward) && okF cat f names k (r + 1) (invert a)
    | .bol => decide (f.multiline = true → cat ≠ .forward)
    | .wordB => decide (cat ≠ .forward)
    | .backref id => decide (cat ≠ .forward) && decide (id < names.length)
    | .namedBackref name => decide (cat ≠ .forward) && decide (names.count (some name) = 1)

theorem ok_of_okF {cat : Cat} {f : Flags} {names : List GroupName} {k r : Nat} {a : Ast}
    (h : okF cat f names k r a = true) (s : List Byte) :
    Ok { inp := s, flags := f, cat := cat, names := names } r a := by
  induction k generalizing r a with
  | zero => simp [okF] at h
  | succ k ih =>
    cases a with
    | empty => exact .empty
    | lit => exact .lit
    | wildcard => exact .wildcard
    | boi => exact .boi
    | eol => exact .eol
    | eoi => exact .eoi
    | range a b => simp only [okF, decide_eq_true_eq] at h; exact .range h
    | set l =>
      simp only [okF, Bool.and_eq_true, List.all_eq_true] at h
      exact .set h.1 (fun a ha => ih (h.2 a ha))
    | neg a =>
      simp only [okF, Bool.and_eq_true, Bool.or_eq_true] at h
      exact .neg h.1 (ih h.2)
    | seq l =>
      simp only [okF, Bool.and_eq_true, List.all_eq_true, Bool.not_eq_true', List.isEmpty_eq_false_iff] at h
      exact .seq h.1 (fun a ha => ih (h.2 a ha))
    | alt l =>
      simp only [okF, Bool.and_eq_true, List.all_eq_true, Bool.not_eq_true', List.isEmpty_eq_false_iff] at h
      exact .alt h.1 (fun a ha => ih (h.2 a ha))
    | cap id name a =>
      simp only [okF, Bool.and_eq_true, decide_eq_true_eq] at h
      exact .cap h.1.1 h.1.2 (ih h.2)
    | rep m lo hi a =>
      cases hi with
      | fin hi =>
        simp only [okF, Bool.and_eq_true, decide_eq_true_eq] at h
        exact .repFin h.1 (ih h.2)
      | inf => simp only [okF] at h; exact .repInf (ih h)
    | look d a =>
      cases d with
      | ahead => simp only [okF] at h; exact .ahead (ih h)
      | behind =>
        simp only [okF, Bool.and_eq_true, decide_eq_true_eq] at h
        exact .behind h.1 (ih h.2)
    | bol => simp only [okF, decide_eq_true_eq] at h; exact .bol h
    | wordB => simp only [okF, decide_eq_true_eq] at h; exact .wordB h
    | backref id =>
      simp only [okF, Bool.and_eq_true, decide_eq_true_eq] at h; exact .backref h.1 h.2
    | namedBackref name =>
      simp only [okF, Bool.and_eq_true, decide_eq_true_eq] at h; exact .namedBackref h.1 h.2

/-- Executable form of `Regex.Ok`. -/
def Regex.okb (R : Regex) (cat : Cat) : Bool :=
  okF cat (Flags.ofList R.flags) R.names (R.ast.depth + 1) 0 R.ast

theorem Regex.ok_of_okb {R : Regex} {cat : Cat} (h : R.okb cat = true) : R.Ok cat :=
  fun s => ok_of_okF h s

end Mregex
