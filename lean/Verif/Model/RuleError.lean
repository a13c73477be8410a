import Verif.Model.Schema
import Verif.Model.FileReader
/-
Model of the exceptions thrown by `LogParser::add_rules` (LogParser.cpp:46-156), with their texts.  `ParserTables.addRules`
(Model/Schema.lean) is the same function without the texts.
-/
namespace LogSurgeon

/-- How `add_rules` fails: an exception with a text, or a failure of another kind. -/
inductive RuleFail where
  | message (m : List Nat)
  | fail (e : Fail)
deriving Repr, DecidableEq

/-- The `char`s of a string literal or of a name. -/
def rawText (s : String) : List Nat := s.toList.map Char.toNat

/-- LogParser.cpp:114-117 and 137-139: the first line of the message.  `m_line_num` is a `uint32_t`; `char(delimiter_name)` is written as
it is. -/
def ruleHead (path : List Nat) (name : String) (line d : Nat) : List Nat :=
  path ++ rawText ":" ++ rawText (toString ((line + 1) % 2 ^ 32)) ++ rawText ": error: '" ++ rawText name ++
    rawText "' has regex pattern which contains delimiter '" ++ [d] ++ rawText "'.\n"

/-- LogParser.cpp:122-124: `try_read_to_delimiter('\n', false, false, line)`, `n` times; its result is ignored.  `none`: a failed
assertion.  (For `m_line_num == 0xFFFFFFFF` the loop of the code does not end; such a schema has 4 G lines.) -/
def readLine : Nat → FileReader → List Nat → Option (List Nat)
  | 0, _, line => some line
  | n + 1, r, line =>
    match r.tryReadToDelimiter 10 false false line with
    | none => none
    | some (r, _, line) => readLine n r line

/-- LogParser.cpp:125-131: `colon_pos`. -/
def colonPos : List Nat → Nat
  | [] => 0
  | c :: cs => if c = 58 then 1 else colonPos cs + 1

/-- LogParser.cpp:132-134 and 139-141: the line of the schema file, and arrows below what follows the colon. -/
def ruleDetail (line : List Nat) : List Nat :=
  List.replicate 10 32 ++ line ++ [10] ++ List.replicate 10 32 ++ List.replicate (colonPos line) 32 ++
    List.replicate (line.length - colonPos line) 94 ++ [10]

/-- LogParser.cpp:109-143: the exception.  `fs path` is the content of the file with that name, `none` if it cannot be opened. -/
def ruleError (fs : List Nat → Option (List Nat)) (path : List Nat) (name : String) (line d : Nat) : RuleFail :=
  match (FileReader.mk none).tryOpen (fs path) with
  | (r, .success) =>
    match readLine (line + 1) r [] with
    | none => .fail .ub
    | some text => .message (ruleHead path name line d ++ ruleDetail text)
  | (_, _) => .message (ruleHead path name line d)

namespace ParserTables

/-- LogParser.cpp:62-154: one variable, declared in line `line` (`m_line_num`, counted from 0). -/
def addVarM (fs : List Nat → Option (List Nat)) (path : List Nat) (ds : List Nat) (t : ParserTables) (v : SchemaVar) (line : Nat) :
    Except RuleFail ParserTables :=
  if v.name = "timestamp" then
    .ok ((t.addRule "firstTimestamp" (.mkCat (.mkLiteral cCharStartOfFile) v.regex)).addRule
      "newLineTimestamp" (.mkCat (.mkLiteral newline) v.regex))
  else
    let re := v.regex.removeDelims ds
    match ds.find? re.possible with
    | some d => .error (ruleError fs path v.name line d)
    | none => .ok (t.addRule v.name (.mkCat (.group [] false false (ds.map fun d => (d, d))) re))

/-- LogParser.cpp:61-155: the loop. -/
def addVarsM (fs : List Nat → Option (List Nat)) (path : List Nat) (ds : List Nat) :
    List (SchemaVar × Nat) → ParserTables → Except RuleFail ParserTables
  | [], t => .ok t
  | (v, line) :: vs, t =>
    match addVarM fs path ds t v line with
    | .error e => .error e
    | .ok t => addVarsM fs path ds vs t

/-- LogParser.cpp:46-156 `add_rules` on a freshly constructed parser; `lines` are the `m_line_num` of the variables
(SchemaParser.hpp:57), `path` is `m_file_path` (SchemaParser.hpp:31). -/
def addRulesM (fs : List Nat → Option (List Nat)) (path : List Nat) (s : SchemaAST) (lines : List Nat) : Except RuleFail ParserTables :=
  match addAllDelimiters s.delims init with
  | none => .error (.fail .ub)
  | some t =>
    if t.delimList.isEmpty then .error (.message (rawText "When using --schema-path, \"delimiters:\" line must be used."))
    else addVarsM fs path t.delimList (s.vars.zip lines) (t.addRule "newLine" (.mkLiteral newline))

end ParserTables

end LogSurgeon
