import Verif.Spec.Groups
import Verif.Spec.Openers

/-!
# The opening parentheses of a pattern
-/

namespace Mregex.Spec
open Mregex

/-- Where one is when reading a pattern from left to right. -/
inductive ScanState
  /-- outside sets -/
  | out
  /-- after a backslash -/
  | esc
  /-- in a set -/
  | set
  /-- in a set, after a backslash -/
  | setEsc
  /-- after `(` -/
  | paren
  /-- after `(?` -/
  | quest
  /-- after `(?<` -/
  | angle
  /-- in the name of a group -/
  | name (acc : List Byte)
  deriving DecidableEq

/-- The next character outside sets. -/
def scanOut (c : Byte) : ScanState :=
  if c = ch '\\' then .esc else if c = ch '[' then .set else if c = ch '(' then .paren else .out

/-- Reads a character; the list contains the name of the group (`none`: unnamed) if this decides that a capturing group has begun. -/
def scanStep : ScanState → Byte → ScanState × List GroupName
  | .out, c => (scanOut c, [])
  | .esc, _ => (.out, [])
  | .set, c => (if c = ch '\\' then .setEsc else if c = ch ']' then .out else .set, [])
  | .setEsc, _ => (.set, [])
  | .paren, c => if c = ch '?' then (.quest, []) else (scanOut c, [none])
  | .quest, c => if c = ch '<' then (.angle, []) else (.out, [])
  | .angle, c => if c = ch '=' ∨ c = ch '!' then (.out, []) else (.name [c], [])
  | .name acc, c => if c = ch '>' then (.out, [some acc]) else (.name (acc ++ [c]), [])

/-- Reads a text. -/
def scan : ScanState → List Byte → ScanState × List GroupName
  | st, [] => (st, [])
  | st, c :: w => ((scan (scanStep st c).1 w).1, (scanStep st c).2 ++ (scan (scanStep st c).1 w).2)

/-- The capturing groups of a pattern, in the order of their opening parentheses. -/
def openedGroups (w : List Byte) : List GroupName := (scan .out w).2

mutual
/-- At most one branch of each alternation contains capturing groups. -/
def soloBranches : Ast → Bool
  | .seq l => soloAll l
  | .alt l | .set l => soloAll l && decide ((l.filter fun a => !(groupIds a).isEmpty).length ≤ 1)
  | .neg a | .cap _ _ a | .rep _ _ _ a | .look _ a => soloBranches a
  | _ => true
def soloAll : List Ast → Bool
  | [] => true
  | a :: l => soloBranches a && soloAll l
end

end Mregex.Spec
