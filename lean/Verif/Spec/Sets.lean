import Verif.Spec.Syntax
import Verif.Model.Methods

/-!
# Character classes and sets

After README.md, "Syntax Reference" and "Sets".
-/

namespace Mregex.Spec
open Mregex

/-- Line breaks, space, tabs and form feed. -/
def WhiteSpace (b : Byte) : Prop := b = 10#8 ∨ b = 13#8 ∨ b = 32#8 ∨ b = 9#8 ∨ b = 11#8 ∨ b = 12#8

/-- The classes `\d \w \s \R` and the characters they contain; the classes `\D \W \S \N` contain the others. -/
inductive ClassEsc : Byte → (Byte → Prop) → Prop
  | d : ClassEsc (ch 'd') DecDigit
  | w : ClassEsc (ch 'w') WordChar
  | s : ClassEsc (ch 's') WhiteSpace
  | R : ClassEsc (ch 'R') LineBreak
  | D : ClassEsc (ch 'D') fun x => ¬DecDigit x
  | W : ClassEsc (ch 'W') fun x => ¬WordChar x
  | S : ClassEsc (ch 'S') fun x => ¬WhiteSpace x
  | N : ClassEsc (ch 'N') fun x => ¬LineBreak x

/-- `ItemList quirk st w P`: items one after the other and the characters they contain; `st` tells what the last item is.  An item is a character, a range (both ends
included) or a class.  A minus sign is a character like others at the beginning, after a range, and after a class (where it can not mean a range).  With `quirk = false` the class
before a minus sign is not `\R`. -/
inductive ItemList (quirk : Bool) : SetState → List Byte → (Byte → Prop) → Prop
  | nil : ItemList quirk .start [] (fun _ => False)
  | char {st w P v c} : ItemList quirk st w P → SetChar v c → (v = txt "-" → st = .start ∨ st = .range) → ItemList quirk .char (w ++ v) (fun x => P x ∨ x = c)
  | range {st w P u a v b} : ItemList quirk st w P → SetChar u a → (u = txt "-" → st = .start ∨ st = .range) → SetChar v b → a.toNat ≤ b.toNat →
      ItemList quirk .range (w ++ u ++ txt "-" ++ v) (fun x => P x ∨ (a.toNat ≤ x.toNat ∧ x.toNat ≤ b.toNat))
  | cls {st w P e Q} : ItemList quirk st w P → ClassEsc e Q → ItemList quirk .cls (w ++ [ch '\\', e]) (fun x => P x ∨ Q x)
  | clsDash {st w P e Q v b} : ItemList quirk st w P → ClassEsc e Q → (quirk = false → e ≠ ch 'R') → SetChar v b →
      ItemList quirk .range (w ++ [ch '\\', e] ++ txt "-" ++ v) (fun x => P x ∨ Q x ∨ x = ch '-' ∨ x = b)

/-- The text between the brackets (without the sign of complement) and the characters it stands for.  A minus sign at the end is a character like others. -/
inductive SetContent (quirk : Bool) : List Byte → (Byte → Prop) → Prop
  | plain {st w P} : ItemList quirk st w P → SetContent quirk w P
  | dash {st w P} : ItemList quirk st w P → SetContent quirk (w ++ txt "-") (fun x => P x ∨ x = ch '-')

/-- `a`, wherever it is tried and whatever follows in the regex, takes exactly one character, which has to satisfy `Q icase`; it does not match at the end of
the input. -/
def TakesOne (a : Ast) (Q : Bool → Byte → Prop) : Prop :=
  (∀ (fl : List RegexFlag) (cat : Mregex.Cat) (s : List Byte), ∃ res, (Regex.mk a fl).match s cat = some res ∧
    (res.matched = true ↔ ∃ x, s = [x] ∧ Q (Flags.ofList fl).icase x)) ∧
  ∀ (E : Env) (fuel r p : Nat) (c : Ctx) (cont : Cont),
    (E.atEnd r p = true → mtch E (fuel + 1) a r p c cont = nonMatch p c) ∧
    ∀ x, E.atEnd r p = false → E.deref r p = some x →
      (Q E.flags.icase x → mtch E (fuel + 1) a r p c cont = cont (Env.next r p) c) ∧
      (¬Q E.flags.icase x → mtch E (fuel + 1) a r p c cont = nonMatch p c)

end Mregex.Spec
