import Verif.Model.Lifetime

/-!
# Programs that hold results

Model of the value categories of `group`, `get`, `content`, `as_optional` and `for_each_group` (match_result.hpp, regex_capture.hpp), of what copying and moving results and captures does,
and of copies that fail.
-/

namespace Mregex

/-- An expression that denotes an object: is the object expiring (xvalue, or prvalue after materialisation), is it const. -/
structure ExprCat where
  expiring : Bool
  const : Bool
  deriving DecidableEq, Repr

/-- `std::move(e)`. -/
def ExprCat.move (e : ExprCat) : ExprCat := { e with expiring := true }

/-- The declared types `auto &`, `auto const &`, `auto &&` and `auto const &&`. -/
inductive Ret
  | ref
  | constRef
  | fwd
  | constFwd

/-- What kind of expression the call of a function with this declared type is that returns an expression.  `none`: the reference cannot be bound, the function does not compile.  (Rules of
C++ for deduced return types: `auto &` takes no non-const xvalue, only `auto &&` is a forwarding reference.) -/
def Ret.call : Ret → ExprCat → Option ExprCat
  | .ref, e => if e.expiring && !e.const then none else some ⟨false, e.const⟩
  | .constRef, _ => some ⟨false, true⟩
  | .fwd, e => some e
  | .constFwd, e => if e.expiring then some ⟨true, true⟩ else none

/-- The four qualifiers of member functions: `&`, `const &`, `&&`, `const &&`. -/
inductive Qual
  | lref
  | constLref
  | rref
  | constRref
  deriving DecidableEq

/-- May a function with this qualifier be called on an object? -/
def Qual.viable : Qual → ExprCat → Bool
  | .lref, e => !e.expiring && !e.const
  | .constLref, _ => true
  | .rref, e => e.expiring && !e.const
  | .constRref, e => e.expiring

/-- Overload resolution among four functions with these qualifiers (rules of C++: the better ones first). -/
def bestOf (e : ExprCat) : Qual :=
  if Qual.viable .lref e then .lref
  else if Qual.viable .rref e then .rref
  else if Qual.viable .constRref e then .constRref
  else .constLref

def Qual.isConst : Qual → Bool
  | .lref | .rref => false
  | .constLref | .constRref => true

/-- A member (or `*this`) named inside such a function is an lvalue. -/
def Qual.member (q : Qual) : ExprCat := ⟨false, q.isConst⟩

/-- match_result.hpp:136-140, 150-154, 195-229 `group`, 235-257 `get`; `get_group_by_index` and `get_group_by_name` (286-298) and `std::get` keep the category. -/
def groupOverload : Qual → Option ExprCat
  | .lref => Ret.ref.call (Qual.member .lref)
  | .constLref => Ret.constRef.call (Qual.member .constLref)
  | .rref => Ret.fwd.call (Qual.member .rref).move
  | .constRref => Ret.constFwd.call (Qual.member .constRref).move

/-- regex_capture.hpp:163-181 `content` of an owning capture. -/
def contentOverload : Qual → Option ExprCat
  | .lref => Ret.ref.call (Qual.member .lref)
  | .constLref => Ret.constRef.call (Qual.member .constLref)
  | .rref => Ret.fwd.call (Qual.member .rref)
  | .constRref => Ret.constFwd.call (Qual.member .constRref)

/-- match_result.hpp:100-103, 162-175 `as_optional`: what is forwarded to `forward_self_as_optional`. -/
def optionalOverload : Qual → ExprCat
  | .lref => Qual.member .lref
  | .constLref => Qual.member .constLref
  | .rref => (Qual.member .rref).move
  | .constRref => (Qual.member .constRref).move

/-- match_result.hpp:122-126, 177-193 `for_each_group` and utility/tuple.hpp:17-21, 48-56: what the function is called with. -/
def forEachOverload : Qual → ExprCat
  | .lref => Qual.member .lref
  | .constLref => Qual.member .constLref
  | .rref => (Qual.member .rref).move
  | .constRref => (Qual.member .constRref).move

/-- What the variables of a program hold.  A text is `none` after it has been moved from: valid, but unspecified. -/
inductive Value
  /-- `basic_match_result` with views. -/
  | views (groups : List Cap) (matched : Bool)
  /-- `basic_match_result` with texts. -/
  | owning (texts : List (Option (List Byte))) (matched : Bool)
  /-- `regex_capture_view` or `std::string_view`. -/
  | capture (c : Cap)
  /-- `regex_capture`. -/
  | owningCapture (t : Option (List Byte))
  /-- `std::string`. -/
  | str (t : Option (List Byte))
  /-- An empty optional; an optional that is not empty is represented by what it contains. -/
  | nullopt
  deriving DecidableEq, Repr

/-- How many strings have to be copied to copy it. -/
def Value.strings : Value → Nat
  | .owning ts _ => ts.length
  | .owningCapture _ => 1
  | .str _ => 1
  | _ => 0

/-- What is left after it has been moved from: views and flags are copied, texts are unspecified. -/
def Value.drained : Value → Value
  | .owning ts m => .owning (ts.map fun _ => none) m
  | .owningCapture _ => .owningCapture none
  | .str _ => .str none
  | v => v

/-- A group as an object. -/
def Value.part : Value → Nat → Option Value
  | .views cs _, k => cs[k]?.map .capture
  | .owning ts _, k => ts[k]?.map .owningCapture
  | _, _ => none

/-- The result after one of its groups has become another text. -/
def Value.setPart : Value → Nat → Value → Value
  | .owning ts m, k, .owningCapture t => .owning (ts.set k t) m
  | v, _, _ => v

/-- Reading the characters; the outer `none`: undefined behaviour, or not something that has characters.  Reading an empty view touches no memory. -/
def Value.read (input : Option (List Byte)) : Value → Option (Option (List Byte))
  | .capture c => if c.isEmpty then some (some []) else input.map fun s => some (c.content s)
  | .owningCapture t => some t
  | .str t => some t
  | _ => none

/-- Copies of strings may fail (throw).  Copies `m` of them when `n` have been made before: the new number, or `none` if one of them fails. -/
def copyStrings (fails : Nat → Bool) : Nat → Nat → Option Nat
  | 0, n => some n
  | m + 1, n => if fails n then none else copyStrings fails m (n + 1)

/-- `auto x = e`: the new object, what the old one is afterwards, and the number of copies.  `none`: it throws.  (The implicit copy and move constructors of `basic_match_result`, `std::tuple`,
`regex_capture_view` and `regex_capture`.) -/
def initFrom (fails : Nat → Bool) (n : Nat) (e : ExprCat) (v : Value) : Option (Value × Value × Nat) :=
  if e.expiring && !e.const then some (v, v.drained, n)
  else (copyStrings fails v.strings n).map fun n' => (v, v, n')

/-- Statements.  Variables are numbered in the order of their creation; `init`, `optional`, `own`, `call` and `callTemp` create one. -/
inductive HStmt
  /-- `auto x = R::method(input)` -/
  | call (M : Method)
  /-- `auto x = R::method(std::string{...})` -/
  | callTemp (M : Method) (s : List Byte)
  /-- `auto x = v.as_memory_owner()` -/
  | own (i : Nat)
  /-- `auto x = v`, `auto x = std::move(v).group<k>()`, `auto x = v.group<k>().content()`, ..., the object named with the given category. -/
  | init (i : Nat) (e : ExprCat) (k : Option Nat) (content : Bool)
  /-- `auto x = v.as_optional()` -/
  | optional (i : Nat) (e : ExprCat)
  /-- `v.group<k>()[j] = c` -/
  | write (i k j : Nat) (c : Byte)
  /-- `input[j] = c` -/
  | poke (j : Nat) (c : Byte)
  /-- The end of the lifetime of the input. -/
  | destroy
  /-- `std::cout << v.group<k>()` or `std::cout << v` -/
  | print (i : Nat) (k : Option Nat)
  deriving DecidableEq

structure HStore where
  input : Option (List Byte)
  vars : List Value
  /-- How many strings have been copied. -/
  copies : Nat
  out : List (Option (List Byte))

inductive HEnd
  /-- An exception leaves the statement. -/
  | threw
  /-- An exception leaves a function declared `noexcept`: `std::terminate`. -/
  | terminated
  | undefined
  | illFormed
  deriving DecidableEq, Repr

/-- The part of a variable that an expression denotes, and its category. -/
def target (v : Value) (e : ExprCat) : Option Nat → Except HEnd (Value × ExprCat)
  | none => .ok (v, e)
  | some k =>
    match v, groupOverload (bestOf e), v.part k with
    | .nullopt, _, _ => .error .undefined
    | _, some e', some p => .ok (p, e')
    | _, _, _ => .error .illFormed

/-- The variable after the part has changed. -/
def Value.update (v : Value) : Option Nat → Value → Value
  | none, p => p
  | some k, p => v.setPart k p

/-- Printing a result prints group 0 (match_result.hpp:319-323). -/
def Value.printed : Value → Option Nat → Option Nat
  | .views _ _, none => some 0
  | .owning _ _, none => some 0
  | _, k => k

/-- The settings of a program. -/
structure HConfig where
  R : Regex
  cat : Cat
  /-- `regex_capture_view::is_contiguous_view` (regex_capture.hpp:49). -/
  contiguous : Bool
  fails : Nat → Bool

def HStore.push (st : HStore) (v : Value) (n : Nat) : HStore := { st with vars := st.vars ++ [v], copies := n }

/-- match_result.hpp:83-92 `as_memory_owner` with its lambda, which is `noexcept`; regex_capture.hpp:128-131. -/
def ownAll (fails : Nat → Bool) (n : Nat) (s : List Byte) (cs : List Cap) (m : Bool) : Except HEnd (Value × Nat) :=
  match copyStrings fails cs.length n with
  | some n' => .ok (.owning (cs.map fun c => some (c.content s)) m, n')
  | none => .error .terminated

/-- One statement. -/
def HStore.step (C : HConfig) (st : HStore) : HStmt → Except HEnd HStore
  | .call M =>
    match st.input with
    | some s =>
      match C.R.invoke M C.cat s with
      | some res => .ok (st.push (.views res.groups res.matched) st.copies)
      | none => .error .undefined
    | none => .error .undefined
  | .callTemp M s =>                                                                     -- regex.hpp:186-191, 204-209, 222-227
    match C.R.invoke M C.cat s with
    | some res => (ownAll C.fails st.copies s res.groups res.matched).map fun x => st.push x.1 x.2
    | none => .error .undefined
  | .own i =>
    match st.vars[i]? with
    | some (.views cs m) =>
      match st.input with
      | some s => (ownAll C.fails st.copies s cs m).map fun x => st.push x.1 x.2
      | none => if cs.all Cap.isEmpty then (ownAll C.fails st.copies [] cs m).map fun x => st.push x.1 x.2 else .error .undefined
    | some .nullopt => .error .undefined
    | _ => .error .illFormed
  | .init i e k content =>
    match st.vars[i]? with
    | none => .error .illFormed
    | some v =>
      match target v e k with
      | .error x => .error x
      | .ok (p, e') =>
        if content then
          match p with
          | .capture c =>                                                                -- regex_capture.hpp:82-88
            if C.contiguous then .ok (st.push (.capture c) st.copies)
            else
              match (Value.capture c).read st.input with
              | none => .error .undefined
              | some t => if C.fails st.copies then .error .threw else .ok (st.push (.str t) (st.copies + 1))
          | .owningCapture t =>
            match contentOverload (bestOf e') with
            | none => .error .illFormed
            | some e'' =>
              match initFrom C.fails st.copies e'' (.str t) with
              | none => .error .threw
              | some (x, .str t', n) => .ok ({ st with vars := st.vars.set i (v.update k (.owningCapture t')) }.push x n)
              | some _ => .error .illFormed
          | _ => .error .illFormed
        else
          match initFrom C.fails st.copies e' p with
          | none => .error .threw
          | some (x, p', n) => .ok ({ st with vars := st.vars.set i (v.update k p') }.push x n)
  | .optional i e =>                                                                     -- match_result.hpp:276-284
    let e' := optionalOverload (bestOf e)
    match st.vars[i]? with
    | some (.views cs m) => .ok (st.push (if m then .views cs m else .nullopt) st.copies)
    | some (.owning ts m) =>
      if !m then .ok (st.push .nullopt st.copies)
      else
        match initFrom C.fails st.copies e' (.owning ts m) with
        | none => .error (if e'.expiring then .terminated else .threw)
        | some (x, v', n) => .ok ({ st with vars := st.vars.set i v' }.push x n)
    | some .nullopt => .error .undefined
    | _ => .error .illFormed
  | .write i k j c =>                                                                    -- regex_capture.hpp:183-186
    match st.vars[i]? with
    | some (.owning ts m) =>
      match ts[k]? with
      | some (some t) => if j < t.length then .ok { st with vars := st.vars.set i (.owning (ts.set k (some (t.set j c))) m) } else .error .undefined
      | some none => .error .undefined
      | none => .error .illFormed
    | some .nullopt => .error .undefined
    | _ => .error .illFormed
  | .poke j c =>
    match st.input with
    | some s => if j < s.length then .ok { st with input := some (s.set j c) } else .error .undefined
    | none => .error .undefined
  | .destroy => .ok { st with input := none }
  | .print i k =>
    match st.vars[i]? with
    | none => .error .illFormed
    | some v =>
      match target v ⟨false, false⟩ (v.printed k) with
      | .error x => .error x
      | .ok (p, _) =>
        match p.read st.input with
        | some t => .ok { st with out := st.out ++ [t] }
        | none => .error .undefined

/-- A program; it stops at the first statement that does not end normally. -/
def HStore.run (C : HConfig) : List HStmt → HStore → HStore × Option HEnd
  | [], st => (st, none)
  | x :: P, st =>
    match st.step C x with
    | .ok st' => HStore.run C P st'
    | .error e => (st, some e)

end Mregex
