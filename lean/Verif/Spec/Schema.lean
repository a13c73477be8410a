import Verif.Model.Schema
import Verif.Spec.Pattern
/-
What a schema means: its delimiters, and which rule each line stands for.
-/
namespace LogSurgeon

/-- The character is a delimiter of the schema: listed in the last `delimiters:` line, or the virtual
start-of-file character. -/
def SchemaAST.IsDelim (s : SchemaAST) (c : Nat) : Prop :=
  c = cCharStartOfFile ∨ ∃ ds, s.delims.getLast? = some ds ∧ c ∈ ds

/-- The delimiters of the schema in increasing order, each once. -/
def SchemaAST.delimBytes (s : SchemaAST) : List Nat :=
  (List.range cSizeOfByte).filter fun c =>
    c == cCharStartOfFile || ((s.delims.getLast?).getD []).contains c

/-- The named rules a schema line stands for. -/
def SchemaVar.rules (ds : List Nat) (v : SchemaVar) : List (String × Regex) :=
  if v.name = "timestamp" then
    [("firstTimestamp", .cat [] (.literal [] cCharStartOfFile) v.regex),
     ("newLineTimestamp", .cat [] (.literal [] newline) v.regex)]
  else [(v.name, .cat [] (.group [] false false (ds.map fun d => (d, d))) (v.regex.removeDelims ds))]

/-- All named rules of a schema in order. -/
def SchemaAST.namedRules (s : SchemaAST) : List (String × Regex) :=
  ("newLine", .literal [] newline) :: s.vars.flatMap (SchemaVar.rules s.delimBytes)

/-- No repetition has minimum 0 (the parser produces one only for `r{0}`). -/
def Regex.NoZeroMin : Regex → Prop
  | .mult _ op min _ => min ≠ 0 ∧ op.NoZeroMin
  | .or _ l r | .cat _ l r => l.NoZeroMin ∧ r.NoZeroMin
  | .capture _ i _ => i.NoZeroMin
  | _ => True

/-- A name a schema can declare (SchemaParser.cpp: identifiers are letters and digits). -/
def NameOk (name : String) : Prop := '$' ∉ name.toList

/-- A schema as it comes from sensible schema text: names are identifiers, regexes come from regex syntax
with sensible bounds. -/
def SchemaAST.Sensible (s : SchemaAST) : Prop :=
  ∀ v ∈ s.vars, NameOk v.name ∧ ∃ p : Pat, p.elab = some v.regex ∧ p.Sensible

/-- The schema comes from sensible text, and `buildLexer` (the constructor of `LogParser`) has produced the symbol tables
`t` and the lexer `L` from it; `addr` are the addresses of the NFA states, which are distinct. -/
structure SchemaAST.Compiled (s : SchemaAST) (addr : Nat → Nat) (t : ParserTables) (L : Lexer) : Prop where
  sensible : s.Sensible
  inj : ∀ a b, addr a = addr b → a = b
  ok : buildLexer s addr = .ok (t, L)

/-- The pattern with `.` read as "any character but these". -/
def Pat.dotAs (ds : List Nat) : Pat → Pat
  | .wild => .cls true (ds.map .lit)
  | .cat l r => .cat (l.dotAs ds) (r.dotAs ds)
  | .or l r => .or (l.dotAs ds) (r.dotAs ds)
  | .star p => .star (p.dotAs ds)
  | .plus p => .plus (p.dotAs ds)
  | .exact p n => .exact (p.dotAs ds) n
  | .range p n m => .range (p.dotAs ds) n m
  | .capture p t => .capture (p.dotAs ds) t
  | p => p

/-- What a schema says about a text: `s.Gives name w`, the text `w` is an instance of the token type `name`.
`w` starts with the delimiter in front of a variable, or with the virtual start-of-file character for something
at the beginning of the input.  (`r*` is read as `r+`, see `C09_star_refuted`.) -/
inductive SchemaAST.Gives (s : SchemaAST) : String → List Nat → Prop
  | newLine : s.Gives "newLine" [newline]
  | firstTimestamp {v : SchemaVar} {p : Pat} {u : List Nat} : v ∈ s.vars → v.name = "timestamp" →
      p.elab = some v.regex → p.Sensible → p.atLeastOne.Matches u →
      s.Gives "firstTimestamp" (cCharStartOfFile :: u)
  | newLineTimestamp {v : SchemaVar} {p : Pat} {u : List Nat} : v ∈ s.vars → v.name = "timestamp" →
      p.elab = some v.regex → p.Sensible → p.atLeastOne.Matches u →
      s.Gives "newLineTimestamp" (newline :: u)
  | var {v : SchemaVar} {p : Pat} {d : Nat} {u : List Nat} : v ∈ s.vars → v.name ≠ "timestamp" →
      p.elab = some v.regex → p.Sensible → s.IsDelim d → (p.dotAs s.delimBytes).atLeastOne.Matches u →
      s.Gives v.name (d :: u)

end LogSurgeon
