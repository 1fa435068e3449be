import Verif.Model.Methods

/-!
# Generators and ranges

Model of `match_result_generator.hpp` and `utility/input_range_adapter.hpp`.
-/

namespace Mregex

/-- match_result_generator.hpp:50-54: the mutable members (`_begin`, `_end` are fixed). -/
structure Gen where
  current : Nat := 0
  active : Bool := true
  deriving DecidableEq, Repr

/-- match_result_generator.hpp:33-43 `next()`.  `none`: undefined behaviour or no termination. -/
def genNext (R : Regex) (M : Method) (cat : Cat) (s : List Byte) (g : Gen) : Option (Result × Gen) :=
  let ctx := initCtx R.names
  if !g.active then some (⟨ctx, false⟩, g)
  else
    match M.invoke (R.env cat s) (fuelFor R.ast s) R.ast g.current ctx with
    | .ok res c => some (⟨c, res.matched⟩,
        { current := res.pos, active := res.matched && !(c.getD 0 none).isEmpty })
    | _ => none

/-- regex.hpp:40, 120-124 `tokenizer`: the method that the generator calls. -/
abbrev tokenizerMethod : Method := .matchPrefix
/-- regex.hpp:43, 136-140 `searcher`: the method that the generator calls. -/
abbrev searcherMethod : Method := .search
/-- regex.hpp:46, 151-155 `tokenize`: a range over the tokenizer. -/
abbrev tokenizeMethod : Method := tokenizerMethod
/-- regex.hpp:49, 165-169 `find_all`: a range over the searcher. -/
abbrev findAllMethod : Method := searcherMethod

/-- The results of `k` successive calls and the state afterwards. -/
def genCalls (R : Regex) (M : Method) (cat : Cat) (s : List Byte) : Nat → Gen → Option (List Result × Gen)
  | 0, g => some ([], g)
  | k + 1, g => do
    let (res, g') ← genNext R M cat s g
    let (rest, g'') ← genCalls R M cat s k g'
    return (res :: rest, g'')

/-- input_range_adapter.hpp:17, 140-141: the generator and `_current_result`. -/
structure RangeAdapter where
  gen : Gen
  currentResult : Result

/-- input_range_adapter.hpp:24-28, constructor: the generator is called once. -/
def RangeAdapter.make (R : Regex) (M : Method) (cat : Cat) (s : List Byte) : Option RangeAdapter := do
  let (res, g) ← genNext R M cat s {}
  return ⟨g, res⟩

/-- input_range_adapter.hpp:110-113 `active` (and 78-81: comparison with the sentinel). -/
def RangeAdapter.active (A : RangeAdapter) : Bool := A.currentResult.toBool

/-- input_range_adapter.hpp:135-138 `compute_next` (called by `++`, 60-64). -/
def RangeAdapter.computeNext (R : Regex) (M : Method) (cat : Cat) (s : List Byte) (A : RangeAdapter) :
    Option RangeAdapter := do
  let (res, g) ← genNext R M cat s A.gen
  return ⟨g, res⟩

/-- `for (auto &&x : range) out.push_back(x);` with at most `k` rounds; the Boolean tells whether the
sentinel was reached. -/
def RangeAdapter.visit (R : Regex) (M : Method) (cat : Cat) (s : List Byte) :
    Nat → RangeAdapter → Option (List Result × Bool)
  | 0, A => some ([], !A.active)
  | k + 1, A =>
    if A.active then do
      let A' ← A.computeNext R M cat s
      let (rest, fin) ← RangeAdapter.visit R M cat s k A'
      return (A.currentResult :: rest, fin)
    else some ([], true)

/-- input_range_adapter.hpp:24-141: all elements seen by a range-based `for` loop. -/
def rangeElements (R : Regex) (M : Method) (cat : Cat) (s : List Byte) (rounds : Nat) :
    Option (List Result × Bool) := do
  let A ← RangeAdapter.make R M cat s
  A.visit R M cat s rounds

end Mregex
