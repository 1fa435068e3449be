import Verif.Spec.Says
import Verif.Spec.Syntax

/-!
# The texts that the expression of example/url_parsing.cpp is about
-/

namespace Mregex.Spec
open Mregex

/-- A text of at least one character, all of which satisfy `P`. -/
def Series (P : Byte → Prop) (w : List Byte) : Prop := w ≠ [] ∧ ∀ x ∈ w, P x

/-- `user:pass`; the password may be missing. -/
structure Login where
  user : List Byte
  pass : Option (List Byte)

/-- `user:pass@host:port`; all but the host may be missing. -/
structure Authority where
  login : Option Login
  host : List Byte
  port : Option (List Byte)

/-- `/path?query`; the path may be missing. -/
structure Resource where
  path : Option (List Byte)
  query : List Byte

/-- `schema://authority resource`; all but the schema may be missing. -/
structure Url where
  schema : List Byte
  authority : Option Authority
  resource : Option Resource

/-- The text of an optional part. -/
def optionText {α : Type} (text : α → List Byte) : Option α → List Byte
  | none => []
  | some x => text x

def Login.text (l : Login) : List Byte := l.user ++ optionText (fun w => ch ':' :: w) l.pass
def Authority.text (a : Authority) : List Byte := optionText (fun l => l.text ++ [ch '@']) a.login ++ (a.host ++ optionText (fun w => ch ':' :: w) a.port)
def Resource.text (r : Resource) : List Byte := optionText id r.path ++ ch '?' :: r.query
def Url.text (u : Url) : List Byte := u.schema ++ (ch ':' :: ch '/' :: ch '/' :: (optionText Authority.text u.authority ++ optionText Resource.text u.resource))

/-- Which characters the parts consist of. -/
def HostChar (x : Byte) : Prop := WordChar x ∨ x = ch '.'
def Digit (x : Byte) : Prop := 48 ≤ x.toNat ∧ x.toNat ≤ 57
def PathChar (x : Byte) : Prop := WordChar x ∨ x = ch '-' ∨ x = ch '/'
def QueryChar (x : Byte) : Prop := WordChar x ∨ x = ch '=' ∨ x = ch '&'

def Login.Fine (l : Login) : Prop := Series WordChar l.user ∧ ∀ w, l.pass = some w → Series WordChar w
def Authority.Fine (a : Authority) : Prop := (∀ l, a.login = some l → l.Fine) ∧ Series HostChar a.host ∧ ∀ w, a.port = some w → Series Digit w
/-- A path is a slash and something behind it. -/
def Resource.Fine (r : Resource) : Prop := (∀ w, r.path = some w → ∃ v, w = ch '/' :: v ∧ Series PathChar v) ∧ Series QueryChar r.query
def Url.Fine (u : Url) : Prop := Series WordChar u.schema ∧ (∀ a, u.authority = some a → a.Fine) ∧ ∀ r, u.resource = some r → r.Fine

/-- The parts of a URL, in the order in which the example prints them (example/url_parsing.cpp:15-21); nothing for those that are missing. -/
def Url.part (u : Url) : Nat → List Byte
  | 1 => u.schema
  | 2 => optionText (fun a => optionText Login.user a.login) u.authority
  | 3 => optionText (fun a => optionText (fun l => optionText id l.pass) a.login) u.authority
  | 4 => optionText Authority.host u.authority
  | 5 => optionText (fun a => optionText id a.port) u.authority
  | 6 => optionText (fun r => optionText id r.path) u.resource
  | 7 => optionText Resource.query u.resource
  | _ => []

/-- The pattern (example/url_parsing.cpp:6). -/
def urlParsing : List Byte := txt "(\\w+):\\/\\/(?:(?:(\\w+)(?::(\\w+))?@)?([\\w.]+)(?::(\\d+))?)?(?:(\\/[-/\\w]+)?\\?([\\w=&]+))?"

end Mregex.Spec
