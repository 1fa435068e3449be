import Verif.Model.Match

/-!
# Public methods and results

Model of `regex_methods.hpp`, `regex.hpp`, `regex_match_context.hpp`, `regex_flags.hpp`,
`match_result.hpp`, `regex_capture.hpp`, `regex_capture_storage.hpp`, `regex_traits.hpp`.
-/

namespace Mregex

/-- regex_flags.hpp:8-20. -/
inductive RegexFlag
  | icase | dotall | multiline | ungreedy | unroll
  deriving DecidableEq, Repr

/-- regex_flags.hpp:25-36 `regex_flag_sequence<Flags...>`. -/
def Flags.ofList (l : List RegexFlag) : Flags where
  icase := l.any (· == .icase)
  dotall := l.any (· == .dotall)
  multiline := l.any (· == .multiline)
  ungreedy := l.any (· == .ungreedy)
  unroll := l.any (· == .unroll)

/-- regex.hpp:28-33 `regex_adapter<AST, Flags...>`. -/
structure Regex where
  ast : Ast
  flags : List RegexFlag := []

/-- regex.hpp:56-57 `add_flags`. -/
def Regex.addFlags (R : Regex) (extra : List RegexFlag) : Regex := ⟨R.ast, R.flags ++ extra⟩

/-- regex.hpp:62 `clear_flags`. -/
def Regex.clearFlags (R : Regex) : Regex := ⟨R.ast, []⟩

/-- regex_traits.hpp:29-30 `regex_capture_name_spec_t`: group 0 is unnamed. -/
def Regex.names (R : Regex) : List GroupName := none :: R.ast.nameSpec

/-- The fixed data of a call. -/
def Regex.env (R : Regex) (cat : Cat) (s : List Byte) : Env where
  inp := s
  flags := Flags.ofList R.flags
  cat := cat
  names := R.names

/-- regex_match_context.hpp:24 `captures{}` (value-initialised), one entry per name
(regex_capture_storage.hpp:11-15). -/
def initCtx (names : List GroupName) : Ctx := names.map (fun _ => none)

mutual
/-- Nesting depth of an AST (only used to choose an amount of fuel). -/
def Ast.depth : Ast → Nat
  | .seq l | .alt l | .set l => depthAll l + 1
  | .neg a | .cap _ _ a | .rep _ _ _ a | .look _ a => depth a + 1
  | _ => 1
def Ast.depthAll : List Ast → Nat
  | [] => 0
  | a :: l => max (depth a) (depthAll l)
end

/-- An amount of fuel that is enough (`Verif.Props.Safety`: every larger amount gives the same result). -/
def fuelFor (a : Ast) (s : List Byte) : Nat := a.depth + s.length + 1

/-- `std::get<0>(ctx.captures) = regex_capture_view<Iter>{current, result.end}`. -/
def setGroup0 (cur : Nat) : Out → Out
  | .ok res c => .ok res (c.set 0 (some (cur, res.pos)))
  | o => o

/-- regex_methods.hpp:13-26 `regex_match_method::invoke`. -/
def matchMethod (E : Env) (fuel : Nat) (a : Ast) (cur : Nat) (c : Ctx) : Out :=
  setGroup0 cur (mtch E fuel a 0 cur c (equals E.inp.length))

/-- regex_methods.hpp:31-44 `regex_match_prefix_method::invoke`. -/
def prefixMethod (E : Env) (fuel : Nat) (a : Ast) (cur : Nat) (c : Ctx) : Out :=
  setGroup0 cur (mtch E fuel a 0 cur c success)

/-- regex_methods.hpp:58-68: the loop over start positions; the first argument bounds the rounds.  The captures
of a failed attempt are passed on to the next one. -/
def searchLoop (E : Env) (fuel : Nat) (a : Ast) : Nat → Nat → Ctx → Out
  | 0, _, _ => .diverge
  | k + 1, cur, c =>
    match mtch E fuel a 0 cur c success with
    | .ok res c' =>
      if res.matched then .ok res (c'.set 0 (some (cur, res.pos)))
      else if cur = E.inp.length then nonMatch cur c'
      else searchLoop E fuel a k (cur + 1) c'
    | o => o

/-- regex_methods.hpp:49-70 `regex_search_method::invoke`. -/
def searchMethod (E : Env) (fuel : Nat) (a : Ast) (cur : Nat) (c : Ctx) : Out :=
  searchLoop E fuel a (E.inp.length - cur + 1) cur c

/-- The three methods as values. -/
inductive Method
  | match | matchPrefix | search
  deriving DecidableEq, Repr

def Method.invoke (M : Method) (E : Env) (fuel : Nat) (a : Ast) (cur : Nat) (c : Ctx) : Out :=
  match M with
  | .match => matchMethod E fuel a cur c
  | .matchPrefix => prefixMethod E fuel a cur c
  | .search => searchMethod E fuel a cur c

/-- match_result.hpp:40-302 `basic_match_result` holding views. -/
structure Result where
  groups : List Cap
  matched : Bool
  deriving DecidableEq, Repr

/-- regex.hpp:274-280 `invoke<Method>`.  `none`: undefined behaviour or no termination. -/
def Regex.invoke (R : Regex) (M : Method) (cat : Cat) (s : List Byte) : Option Result :=
  match M.invoke (R.env cat s) (fuelFor R.ast s) R.ast 0 (initCtx R.names) with
  | .ok res c => some ⟨c, res.matched⟩
  | _ => none

/-- regex.hpp:76-80. -/
def Regex.match (R : Regex) (s : List Byte) (cat : Cat := .randomAccess) : Option Result :=
  R.invoke .match cat s
/-- regex.hpp:90-94. -/
def Regex.matchPrefix (R : Regex) (s : List Byte) (cat : Cat := .randomAccess) : Option Result :=
  R.invoke .matchPrefix cat s
/-- regex.hpp:104-108. -/
def Regex.search (R : Regex) (s : List Byte) (cat : Cat := .randomAccess) : Option Result :=
  R.invoke .search cat s

/-! ### Captures and results -/

/-- regex_capture.hpp:62-65 `is_empty`. -/
def Cap.isEmpty : Cap → Bool
  | none => true
  | some (b, e) => b == e

/-- regex_capture.hpp:67-70 `length`. -/
def Cap.length : Cap → Nat
  | none => 0
  | some (b, e) => e - b

/-- regex_capture.hpp:82-88 `content`. -/
def Cap.content (s : List Byte) (c : Cap) : List Byte := capText s c

/-- regex_capture.hpp:102-105 `explicit operator bool`. -/
def Cap.toBool (c : Cap) : Bool := c.isEmpty

/-- match_result.hpp:136-140, 286-291 `group<ID>`; `none`: does not compile. -/
def Result.group (R : Result) (id : Nat) : Option Cap := R.groups[id]?

/-- match_result.hpp:150-154, 293-298 `group<Name>`: lookup by the type of the tuple element. -/
def Result.groupNamed (R : Result) (names : List GroupName) (name : List Byte) : Option Cap :=
  (nameIndex names name).bind (fun i => R.groups[i]?)

/-- match_result.hpp:62-65 `length`. -/
def Result.length (R : Result) : Nat := (R.groups.getD 0 none).length

/-- match_result.hpp:264-267 `explicit operator bool`. -/
def Result.toBool (R : Result) : Bool := R.matched

/-- match_result.hpp:276-284 `as_optional`. -/
def Result.asOptional (R : Result) : Option Result := if !R.matched then none else some R

/-- `basic_match_result` holding `regex_capture`s (match_result.hpp:37-38). -/
structure OwnedResult where
  groups : List (List Byte)
  matched : Bool
  deriving DecidableEq, Repr

/-- match_result.hpp:83-92 `as_memory_owner`; regex_capture.hpp:128-131. -/
def Result.asMemoryOwner (s : List Byte) (R : Result) : OwnedResult :=
  ⟨R.groups.map (Cap.content s), R.matched⟩

/-- regex_capture.hpp:193-196 `explicit operator bool` of an owning capture. -/
def ownedToBool (text : List Byte) : Bool := text.isEmpty

end Mregex
