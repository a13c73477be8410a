import Verif.Model.LogParser
import Verif.Model.SchemaRegex
/-
Model of what is done with a schema: Schema.cpp, SchemaParser.hpp (the AST classes), Parser.tpp (symbol
tables), Lexer.tpp:345-389 (delimiters, rules, generate) and LogParser.cpp:33-156 (constructor, add_rules).
The parsing of schema text into the AST is not part of this file.
-/
namespace LogSurgeon

/-- SchemaParser.hpp:44-59 `SchemaVarAST` (the line number is used in error messages only). -/
structure SchemaVar where
  name : String
  regex : Regex
deriving Repr, DecidableEq

/-- SchemaParser.hpp:12-31 `SchemaAST`; each element of `m_delimiters` is a `DelimiterStringAST` (61-69). -/
structure SchemaAST where
  vars : List SchemaVar := []
  delims : List (List Nat) := []
deriving Repr, DecidableEq

namespace SchemaAST

/-- SchemaParser.hpp:20-26 `add_schema_var`; `none`: iterator outside of the vector (undefined behaviour).
`pos` is an `int32_t`. -/
def addSchemaVar (s : SchemaAST) (v : SchemaVar) (pos : Int) : Option SchemaAST :=
  if pos = -1 then some { s with vars := s.vars ++ [v] }
  else if 0 ≤ pos ∧ pos.toNat ≤ s.vars.length then
    some { s with vars := s.vars.take pos.toNat ++ v :: s.vars.drop pos.toNat }
  else none

/-- SchemaParser.hpp:16-18 `add_delimiters`. -/
def addDelimiters (s : SchemaAST) (d : List Nat) : SchemaAST := { s with delims := s.delims ++ [d] }

/-- Schema.cpp:13-16 `Schema::add_variable`, given the AST parsed from the text; `none`: no variable in it
(`m_schema_vars[0]` of an empty vector) or position out of range. -/
def addVariable (s : SchemaAST) (parsed : SchemaAST) (priority : Int) : Option SchemaAST :=
  match parsed.vars with
  | [] => none
  | v :: _ => s.addSchemaVar v priority

end SchemaAST

/-! ### Wildcards and possible inputs -/

/-- The loop over consecutive delimiters, RegexAST.hpp:372-377: `prev` is `delimiters[i-1]`. -/
def wildcardGaps (prev : Nat) : List Nat → List Range
  | [] => if prev ≠ cUnicodeMax then [(prev + 1, cUnicodeMax)] else []
  | d :: ds => if d - prev > 1 then (prev + 1, d - 1) :: wildcardGaps d ds else wildcardGaps d ds

/-- RegexAST.hpp:359-382 `RegexASTGroup::remove_delimiters_from_wildcard` after the early returns; the
delimiters have been sorted (367).  (`delimiters[i] - delimiters[i-1]` cannot wrap as they are sorted.) -/
def wildcardRanges : List Nat → List Range
  | [] => []
  | d :: ds => if d ≠ 0 then (0, d - 1) :: wildcardGaps d ds else wildcardGaps d ds

/-- `std::ranges::sort(delimiters)`. -/
def sortNat : List Nat → List Nat
  | [] => []
  | x :: xs => ins x (sortNat xs)
where
  ins (x : Nat) : List Nat → List Nat
    | [] => [x]
    | y :: ys => if x ≤ y then x :: y :: ys else y :: ins x ys

/-- `remove_delimiters_from_wildcard` of all node classes: RegexAST.hpp:175-178 (Empty), 218-221 (Literal),
271-274 (Integer), 359-382 (Group), 466-469 (Or), 529-532 (Cat), 594-596 (Multiplication), 690-692 (Capture). -/
def Regex.removeDelims (delims : List Nat) : Regex → Regex
  | .empty n => .empty n
  | .literal n c => .literal n c
  | .integer n d => .integer n d
  | .group n wild negate ranges =>
    if !wild then .group n wild negate ranges
    else if delims.isEmpty then .group n wild negate ranges
    else .group n wild negate (wildcardRanges (sortNat delims))
  | .or n l r => .or n (l.removeDelims delims) (r.removeDelims delims)
  | .cat n l r => .cat n (l.removeDelims delims) (r.removeDelims delims)
  | .mult n o a b => .mult n (o.removeDelims delims) a b
  | .capture n i t => .capture n (i.removeDelims delims) t

/-- `set_possible_inputs_to_true` of all node classes: RegexAST.hpp:169-173 (Empty), 208-211 (Literal),
259-264 (Integer), 331-352 (Group), 455-459 (Or), 518-522 (Cat), 583-586 (Multiplication), 680-683
(Capture): is the code point marked?  (Code points above `cUnicodeMax` do not occur: schema text
consists of bytes.) -/
def Regex.possible : Regex → Nat → Bool
  | .empty _, _ => false
  | .literal _ a, c => c == a
  | .integer _ ds, c => ds.any fun d => c == 48 + d
  | .group _ _ negate ranges, c =>
    if negate then c ≤ cUnicodeMax && !(ranges.any fun r => r.1 ≤ c && c ≤ r.2)
    else ranges.any fun r => r.1 ≤ c && c ≤ r.2
  | .or _ l r, c => l.possible c || r.possible c
  | .cat _ l r, c => l.possible c || r.possible c
  | .mult _ o _ _, c => o.possible c
  | .capture _ i _, c => i.possible c

/-! ### Symbol tables, delimiters and rules -/

/-- What `Parser`/`Lexer` hold before `generate`: Lexer.hpp:127-128 (`m_symbol_id`, `m_id_symbol`), 154
(`m_is_delimiter`), 156 (`m_rules`), 158 (`m_has_delimiters`).  A map is the list of its entries; the first
entry for a key counts. -/
structure ParserTables where
  symbolId : List (String × Nat)
  idSymbol : List (Nat × String)
  isDelim : Nat → Bool := fun _ => false
  hasDelims : Bool := false
  rules : List Rule := []

/-- Constants.hpp:41-48 with the `SymbolId`s 30-39: the reserved names. -/
def reserved : List (String × Nat) :=
  [("$end", 0), ("$UncaughtString", 1), ("int", 2), ("float", 3), ("hex", 4), ("firstTimestamp", 5),
    ("newLineTimestamp", 6), ("newLine", 7)]

namespace ParserTables

/-- Parser.tpp:11-30 `Parser::Parser`. -/
def init : ParserTables := { symbolId := reserved, idSymbol := reserved.map fun p => (p.2, p.1) }

/-- Lexer.tpp:345-355 `Lexer::add_delimiters`; `none`: empty list (assert) or a delimiter that is no byte
(index out of bounds). -/
def addDelimiters (t : ParserTables) (ds : List Nat) : Option ParserTables :=
  if ds.isEmpty || ds.any (fun d => decide (cSizeOfByte ≤ d)) then none
  else some { t with isDelim := delimTable ds, hasDelims := true }

/-- Parser.tpp:33-42 `Parser::add_rule` with Lexer.tpp:358-363 `Lexer::add_rule`.  (`m_symbol_id.size()` is
evaluated before the new key is inserted: the right operand of an assignment comes first.) -/
def addRule (t : ParserTables) (name : String) (re : Regex) : ParserTables :=
  match t.symbolId.lookup name with
  | some id => { t with rules := t.rules ++ [⟨id, re⟩] }
  | none =>
    { t with symbolId := (name, t.symbolId.length) :: t.symbolId,
             idSymbol := (t.symbolId.length, name) :: t.idSymbol,
             rules := t.rules ++ [⟨t.symbolId.length, re⟩] }

/-- LogParser.cpp:46-49: all `delimiters:` lines in order. -/
def addAllDelimiters : List (List Nat) → ParserTables → Option ParserTables
  | [], t => some t
  | d :: ds, t => (t.addDelimiters d).bind (addAllDelimiters ds)

/-- LogParser.cpp:50-55: the delimiters of the lexer, in increasing order. -/
def delimList (t : ParserTables) : List Nat := (List.range cSizeOfByte).filter t.isDelim

/-- LogParser.cpp:62-154: one variable of the schema.  The `clone()` of a timestamp regex is the regex itself. -/
def addVar (ds : List Nat) (t : ParserTables) (v : SchemaVar) : Except Fail ParserTables :=
  if v.name = "timestamp" then
    .ok ((t.addRule "firstTimestamp" (.mkCat (.mkLiteral cCharStartOfFile) v.regex)).addRule
      "newLineTimestamp" (.mkCat (.mkLiteral newline) v.regex))
  else
    let re := v.regex.removeDelims ds
    if ds.any re.possible then .error .throws
    else .ok (t.addRule v.name (.mkCat (.group [] false false (ds.map fun d => (d, d))) re))

def addVars (ds : List Nat) : List SchemaVar → ParserTables → Except Fail ParserTables
  | [], t => .ok t
  | v :: vs, t =>
    match addVar ds t v with
    | .error e => .error e
    | .ok t => addVars ds vs t

/-- LogParser.cpp:46-156 `add_rules` on a freshly constructed parser. -/
def addRules (s : SchemaAST) : Except Fail ParserTables :=
  match addAllDelimiters s.delims init with
  | none => .error .ub
  | some t =>
    if t.delimList.isEmpty then .error .throws
    else addVars t.delimList s.vars (t.addRule "newLine" (.mkLiteral newline))

/-- LogParser.cpp:282-287 `get_symbol_id`. -/
def getSymbolId (t : ParserTables) (name : String) : Option Nat := t.symbolId.lookup name

/-- LogParser.hpp `get_id_symbol`: `m_lexer.m_id_symbol.at(id)`; `none`: exception. -/
def getIdSymbol (t : ParserTables) (id : Nat) : Option String := t.idSymbol.lookup id

end ParserTables

/-- LogParser.cpp:33-37 constructor, with `Lexer::generate` (Lexer.tpp:377-389): the tables and the lexer.
`addr` is the address order of the NFA states.  A `RegexASTInteger` node makes `add_to_nfa` throw. -/
def buildLexer (s : SchemaAST) (addr : Nat → Nat) : Except Fail (ParserTables × Lexer) :=
  match ParserTables.addRules s with
  | .error e => .error e
  | .ok t =>
    match generateDfa t.rules addr with
    | none => .error .throws
    | some d => .ok (t, { dfa := d, isDelim := t.isDelim, hasDelims := t.hasDelims })

/-- LogParser.cpp:33-37: a new log parser (LogEvent.cpp:13-17 for the view); the lexer is not `reset`.
`inStatic`, `outStatic` are the sizes of the static buffers, `mem` the initial memory. -/
def LogParser.new (s : SchemaAST) (addr : Nat → Nat) (mem : Mem) (inStatic outStatic : Nat) :
    Except Fail LogParser :=
  match buildLexer s addr with
  | .error e => .error e
  | .ok (t, L) =>
    .ok { lexer := L, input := InBuf.init mem inStatic 1,
          view := { out := OutBuf.init outStatic, numVars := t.idSymbol.length } }

end LogSurgeon
