import Verif.Model.Build

/-!
# Grammar

Model of `grammar/grammar.hpp`, `grammar/actions.hpp`, `grammar/escapes.hpp`, `grammar/hexadecimal.hpp`, `grammar/backrefs.hpp`, `grammar/names.hpp`,
`grammar/quantifiers.hpp`, `symbols/core.hpp`, `symbols/quantifiers.hpp`.
-/

namespace Mregex

/-- The symbols on the parsing stack: symbols/core.hpp:12-66, symbols/quantifiers.hpp:12-24, 140-143 and the semantic
actions.  `quantifier_mod<Action>` is only used with `Action = make_repetition<...>`, whose arguments it carries here. -/
inductive Sym
  | act (a : Action)
  | expect (c : Byte)
  | begin | esc | seq | alt | altSeq | mod
  | groupBeginOrMod | groupMod | groupModLessThan | groupBegin
  | setBeginOrNeg | setBegin | setSeq | setEsc | setRangeBegin | setRangeSeq | setRangeEsc
  | backrefNameBegin
  | backrefId (id : Nat)
  | backrefNameSeq (chars : List Byte)
  | captureNameSeq (chars : List Byte)
  | hexEscSeq (digits : List Byte)
  | quantifierBegin
  | quantifierMod (m : Mode) (lo : Nat) (hi : Bound)
  | unquantifiable
  | quantifierValue (n : Nat)
  | quantifierRange (lo : Nat) (hi : Bound)
  deriving DecidableEq, Repr

/-- What `rule_t` can be (grammar/actions.hpp): `reject`, `accept`, `ignore`; `advance` alone or in front of a `type_sequence`; one symbol or a `type_sequence` of symbols. -/
inductive Rule
  | reject | accept | ignore
  | advance (l : List Sym)
  | push (l : List Sym)
  deriving DecidableEq, Repr

/-- `std::size_t` arithmetic. -/
def sizeT (n : Nat) : Nat := n % 2 ^ 64

/-- grammar/escapes.hpp:14-252 `handle_escaped_char<C>`. -/
def handleEscapedChar (c : Byte) : Rule :=
  if c = ch '0' then .advance [.act (.pushLiteral 0#8)]
  else if c = ch 'n' then .advance [.act (.pushLiteral 10#8)]
  else if c = ch 'r' then .advance [.act (.pushLiteral 13#8)]
  else if c = ch 't' then .advance [.act (.pushLiteral 9#8)]
  else if c = ch 'f' then .advance [.act (.pushLiteral 12#8)]
  else if c = ch 'v' then .advance [.act (.pushLiteral 11#8)]
  else if c = ch 'a' then .advance [.act (.pushLiteral 7#8)]
  else if c = ch 'e' then .advance [.act (.pushLiteral 27#8)]
  else if c = ch 'd' then .advance [.act .makeDigit]
  else if c = ch 'D' then .advance [.act .makeDigit, .act .makeNegated]
  else if c = ch 'w' then .advance [.act .makeWord]
  else if c = ch 'W' then .advance [.act .makeWord, .act .makeNegated]
  else if c = ch 's' then .advance [.act .makeWhitespace]
  else if c = ch 'S' then .advance [.act .makeWhitespace, .act .makeNegated]
  else if c = ch 'R' then .advance [.act .makeLinebreak]
  else if c = ch 'N' then .advance [.act .makeLinebreak, .act .makeNegated]
  else if c = ch 'b' then .advance [.act .makeWordBoundary, .unquantifiable]
  else if c = ch 'B' then .advance [.act .makeWordBoundary, .act .makeNegated, .unquantifiable]
  else if c = ch 'A' then .advance [.act .makeBeginningOfInput, .unquantifiable]
  else if c = ch 'Z' then .advance [.act .makeEndOfInput, .unquantifiable]
  else .advance [.act .makeLiteral]

/-- grammar/escapes.hpp:260-273 `handle_escape_sequence<C>`, with grammar/backrefs.hpp:15-24 `begin_backref_id` (a digit `C - '0'`), grammar/backrefs.hpp:29-38
`begin_named_backref` and grammar/hexadecimal.hpp:37-45 `begin_hex_escape_sequence`. -/
def handleEscapeSequence (c : Byte) : Rule :=
  if c = ch 'k' then .advance [.expect (ch '<'), .backrefNameBegin]
  else if c = ch 'x' then .advance [.hexEscSeq []]
  else if c ≠ ch '0' ∧ isDigit c then .advance [.backrefId (c.toNat - 48)]
  else handleEscapedChar c

/-- grammar/escapes.hpp:282-333 `handle_set_escape_sequence<C>`. -/
def handleSetEscapeSequence (c : Byte) : Rule :=
  if c = ch 'x' then .advance [.hexEscSeq []]
  else if c = ch 'A' then .advance [.act .makeLiteral]
  else if c = ch 'Z' then .advance [.act .makeLiteral]
  else if c = ch 'B' then .advance [.act .makeLiteral]
  else if c = ch 'b' then .advance [.act (.pushLiteral 8#8)]
  else handleEscapedChar c

/-- grammar/escapes.hpp:341-394 `handle_set_range_escape_sequence<C>`. -/
def handleSetRangeEscapeSequence (c : Byte) : Rule :=
  if c = ch 'd' ∨ c = ch 'D' ∨ c = ch 'w' ∨ c = ch 'W' ∨ c = ch 's' ∨ c = ch 'S' ∨ c = ch 'R' ∨ c = ch 'N' then .reject
  else handleSetEscapeSequence c

/-- grammar/hexadecimal.hpp:12-32, 53-75 `continue_hex_escape_sequence`; `std::uint8_t` digits. -/
def continueHexEscapeSequence (digits : List Byte) (token : Option Byte) : Rule :=
  match digits, token with
  | [first, second], _ => .push [.act (.pushLiteral (first * 16#8 + second))]
  | digits, some c =>
    if digits.length < 2 then
      if isHexdigit c then
        .advance [.hexEscSeq (digits ++ [if isDigit c then c - ch '0' else 10#8 + setLowercaseBit c - ch 'a'])]
      else .reject
    else .reject
  | _, none => .reject

/-- grammar/names.hpp:16-33 `begin_name`. -/
def beginName (name : List Byte → Sym) (c : Byte) : Rule :=
  if isWord c && !isDigit c then .advance [name [c]] else .reject

/-- grammar/names.hpp:41-58 `continue_name`. -/
def continueName (name : List Byte → Sym) (chars : List Byte) (c : Byte) : Rule :=
  if isWord c then .advance [name (chars ++ [c])] else .reject

/-- grammar/quantifiers.hpp:17-30 `abort_quantifier_parsing<C>`. -/
def abortQuantifierParsing (c : Byte) : Rule :=
  .push [.act (.pushLiteral c), .mod, .act .makeSequence, .seq, .alt]

/-- grammar/quantifiers.hpp:38-56 `begin_quantifier_value<C>`. -/
def beginQuantifierValue (c : Byte) : Rule :=
  if isDigit c then .advance [.quantifierValue (c.toNat - 48)] else abortQuantifierParsing (ch '{')

/-- grammar/quantifiers.hpp:70-80 `continue_quantifier_value<quantifier_value<N>, C>`. -/
def continueQuantifierValue (n : Nat) (c : Byte) : Rule :=
  if isDigit c then .advance [.quantifierValue (sizeT (10 * n + c.toNat - 48))] else .reject

/-- grammar/quantifiers.hpp:82-104 `continue_quantifier_value<quantifier_range<A, B>, C>`. -/
def continueQuantifierRange (lo : Nat) (hi : Bound) (c : Byte) : Rule :=
  if isDigit c then
    match hi with
    | .fin n => .advance [.quantifierRange lo (.fin (sizeT (10 * n + c.toNat - 48)))]
    | .inf => .advance [.quantifierRange lo (.fin (c.toNat - 48))]
  else .reject

/-- grammar/backrefs.hpp:46-65 `continue_backref_id<ID, C>`. -/
def continueBackrefId (id : Nat) (c : Byte) : Rule :=
  if isDigit c then .advance [.backrefId (sizeT (10 * id + c.toNat - 48))] else .push [.act (.makeBackref id)]

/-- What the rules of `begin`, `group_begin`, `group_begin_or_mod`, `alt_seq` and `seq` for the characters that start a part of the
expression have in common (grammar.hpp:26-55, 87-99, 107-159 for `begin`; 167-198, 229-306; 439-469, 500-572; 789-816, 848-915; 923-952, 984-1056): they
differ in the symbols that come last, here `post`. -/
def startRule (c : Byte) (post : List Sym) : Rule :=
  if c = ch '[' then .advance ([.act .makeSet, .setBeginOrNeg, .expect (ch ']'), .mod] ++ post)
  else if c = ch '(' then .advance ([.groupBeginOrMod, .expect (ch ')'), .mod] ++ post)
  else if c = ch '\\' then .advance ([.esc, .mod] ++ post)
  else if c = ch '.' then .advance ([.act .makeWildcard, .mod] ++ post)
  else if c = ch '^' then .advance ([.act .makeBeginningOfLine] ++ post)
  else if c = ch '$' then .advance ([.act .makeEndOfLine] ++ post)
  else .advance ([.act .makeLiteral, .mod] ++ post)

/-- The common rules of `set_begin_or_neg`, `set_begin`, `set_seq` and `set_range_seq` (grammar.hpp:1077-1180, 1225-1254). -/
def setItemRule (c : Byte) : Rule :=
  if c = ch ']' then .ignore
  else if c = ch '\\' then .advance [.setEsc, .act .makeSetFromStack, .setSeq]
  else .advance [.act .makeSetFromCurrentChar, .setSeq]

/-- grammar/grammar.hpp:20-1318 `rule<Symbol, Token>`; the symbol is `none` for `symbol::empty` (front of an empty stack), the token is `none` at the end
of the pattern.  Semantic actions never reach this function (`parser.hpp:69-75`); for them the primary template is given. -/
def rule (sym : Option Sym) (token : Option Byte) : Rule :=
  match sym, token with
  | none, none => .accept                                                                 -- 1311-1315
  | none, some _ => .reject
  | some (.act _), _ => .reject
  | some .begin, some c =>                                                                -- 26-159
    if c = ch ')' ∨ c = ch '*' ∨ c = ch '+' ∨ c = ch '?' ∨ c = ch '{' ∨ c = ch '|' then .reject
    else startRule c [.seq, .alt]
  | some .begin, none => .ignore                                                          -- 161-165
  | some .groupBeginOrMod, some c =>                                                      -- 167-324
    if c = ch ')' then .push [.act .makeEmpty, .act (.makeCapture none)]
    else if c = ch '*' ∨ c = ch '+' ∨ c = ch '{' ∨ c = ch '|' then .reject
    else if c = ch '?' then .advance [.groupMod]
    else startRule c [.seq, .alt, .act (.makeCapture none)]
  | some .groupBeginOrMod, none => .ignore                                                -- 308-312
  | some .groupMod, some c =>                                                             -- 325-388
    if c = ch ':' then .advance [.groupBegin]
    else if c = ch '<' then .advance [.groupModLessThan]
    else if c = ch '>' then .advance [.groupBegin, .act (.makeRepetition .possessive 1 (.fin 1))]
    else if c = ch '=' then .advance [.groupBegin, .act (.makeLookaround .ahead)]
    else if c = ch '!' then .advance [.groupBegin, .act (.makeLookaround .ahead), .act .makeNegated]
    else .reject
  | some .groupModLessThan, some c =>                                                     -- 390-419
    if c = ch '=' then .advance [.groupBegin, .act (.makeLookaround .behind)]
    else if c = ch '!' then .advance [.groupBegin, .act (.makeLookaround .behind), .act .makeNegated]
    else beginName .captureNameSeq c
  | some (.captureNameSeq l), some c =>                                                   -- 421-437
    if c = ch '>' then .advance [.groupBegin, .act (.makeCapture (some l))]
    else continueName .captureNameSeq l c
  | some .groupBegin, some c =>                                                           -- 439-572
    if c = ch ')' then .push [.act .makeEmpty]
    else if c = ch '?' ∨ c = ch '*' ∨ c = ch '+' ∨ c = ch '{' ∨ c = ch '|' then .reject
    else startRule c [.seq, .alt]
  | some .groupBegin, none => .ignore                                                     -- 574-578
  | some .alt, some c =>                                                                  -- 580-603
    if c = ch ')' then .ignore
    else if c = ch '|' then .advance [.altSeq, .act .makeAlternation, .alt]
    else .reject
  | some .alt, none => .ignore                                                            -- 605-609
  | some .esc, some c => handleEscapeSequence c                                           -- 611-615
  | some (.hexEscSeq l), token => continueHexEscapeSequence l token                       -- 617-621
  | some .mod, some c =>                                                                  -- 623-671
    if c = ch '*' then .advance [.quantifierMod .greedy 0 .inf]
    else if c = ch '+' then .advance [.quantifierMod .greedy 1 .inf]
    else if c = ch '?' then .advance [.quantifierMod .greedy 0 (.fin 1)]
    else if c = ch '{' then .advance [.quantifierBegin]
    else .ignore
  | some .mod, none => .ignore
  | some .unquantifiable, some c =>                                                       -- 673-701
    if c = ch '*' ∨ c = ch '+' ∨ c = ch '?' ∨ c = ch '{' then .reject else .ignore
  | some .unquantifiable, none => .ignore
  | some .quantifierBegin, some c => beginQuantifierValue c                               -- 703-707
  | some .quantifierBegin, none => abortQuantifierParsing (ch '{')                        -- 709-713
  | some (.quantifierValue n), some c =>                                                  -- 715-742
    if c = ch '}' then .advance [.quantifierMod .greedy n (.fin n)]
    else if c = ch ',' then .advance [.quantifierRange n .inf]
    else continueQuantifierValue n c
  | some (.quantifierRange lo hi), some c =>                                              -- 744-759
    if c = ch '}' then .advance [.quantifierMod .greedy lo hi]
    else continueQuantifierRange lo hi c
  | some (.quantifierMod m lo hi), token =>                                               -- 761-787
    if token = some (ch '?') then .advance [.act (.makeRepetition .lazy lo hi)]
    else if token = some (ch '+') then .advance [.act (.makeRepetition .possessive lo hi)]
    else .push [.act (.makeRepetition m lo hi)]
  | some .altSeq, some c =>                                                               -- 789-915
    if c = ch ')' ∨ c = ch '*' ∨ c = ch '+' ∨ c = ch '?' ∨ c = ch '{' ∨ c = ch '|' then .reject
    else startRule c [.seq]
  | some .altSeq, none => .reject                                                         -- 917-921
  | some .seq, some c =>                                                                  -- 923-1056
    if c = ch ')' ∨ c = ch '|' then .ignore
    else if c = ch '*' ∨ c = ch '+' ∨ c = ch '?' ∨ c = ch '{' then .reject
    else startRule c [.act .makeSequence, .seq]
  | some .seq, none => .ignore                                                            -- 1058-1062
  | some .setBeginOrNeg, some c =>                                                        -- 1065-1106
    if c = ch '^' then .advance [.setBegin, .act .makeNegated]
    else setItemRule c
  | some .setBegin, some c => setItemRule c                                               -- 1108-1137
  | some .setSeq, some c =>                                                               -- 1139-1180
    if c = ch '-' then .advance [.setRangeBegin, .setSeq]
    else setItemRule c
  | some .setEsc, some c => handleSetEscapeSequence c                                     -- 1182-1186
  | some .setRangeBegin, some c =>                                                        -- 1188-1223
    if c = ch ']' then .push [.act (.pushLiteral (ch '-')), .act .makeSetFromStack]
    else if c = ch '\\' then .advance [.setRangeEsc, .act .makeSetFromStack, .act .makeRangeFromStack, .setRangeSeq]
    else .advance [.act .makeRange, .setRangeSeq]
  | some .setRangeSeq, some c => setItemRule c                                            -- 1225-1254
  | some .setRangeEsc, some c => handleSetRangeEscapeSequence c                           -- 1256-1266
  | some (.backrefId id), some c => continueBackrefId id c                                -- 1269-1273
  | some (.backrefId id), none => .push [.act (.makeBackref id)]                          -- 1275-1279
  | some .backrefNameBegin, some c => beginName .backrefNameSeq c                         -- 1282-1286
  | some (.backrefNameSeq l), some c =>                                                   -- 1288-1303
    if c = ch '>' then .advance [.act (.makeNamedBackref l)]
    else continueName .backrefNameSeq l c
  | some (.expect c'), some c => if c = c' then .advance [] else .reject                  -- 1305-1309
  | some _, none => .reject                                                               -- 21-25

end Mregex
