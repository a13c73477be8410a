import Verif.Spec.Events
import Verif.Spec.Reader
import Verif.Spec.Reading
/-
How a log is divided into events, in terms of its lines.
-/
namespace LogSurgeon

/-- After a newline, the line is recognised as beginning with a timestamp: the longest match at the newline is, in the first place, that of a
newline with a timestamp. -/
def Lexer.BeginsWithTs (L : Lexer) (line : List Nat) : Prop :=
  ∃ e, L.Longest (newline :: line) false 0 e ∧ (L.typesOn (newline :: line) false 0 e).head? = some tokenNewlineTimestamp

/-- The same for the first line of a log. -/
def Lexer.FirstWithTs (L : Lexer) (line : List Nat) : Prop :=
  ∃ e, L.Longest line true 0 e ∧ (L.typesOn line true 0 e).head? = some tokenFirstTimestamp

/-- The events of a log, as pairs (has it a timestamp?, text), if `tsLine` says which lines begin with a timestamp.  `acc` is the text of the
event in progress, `ts` whether it has a timestamp.  A newline ends the event if the next line begins with a timestamp; also if the event has
no timestamp, unless the newline is its first character.  At the end of the log the event in progress is reported, even if it is empty. -/
def lineEvents (tsLine : List Nat → Bool) (acc : List Nat) (ts : Bool) : List Nat → List (Bool × List Nat)
  | [] => [(ts, acc)]
  | c :: rest =>
    if c = newline ∧ (tsLine (firstLine rest) = true ∨ (ts = false ∧ acc ≠ [])) then
      (ts, acc ++ [c]) :: lineEvents tsLine [] (tsLine (firstLine rest)) rest
    else lineEvents tsLine (acc ++ [c]) ts rest

/-- Nothing more of the token: the text is over or a delimiter follows. -/
def SchemaAST.Over (s : SchemaAST) (rest : List Nat) : Prop := rest = [] ∨ ∃ d r, rest = d :: r ∧ s.IsDelim d

/-- After the character `c`, the longest beginning of `line` that the schema takes for anything (`SchemaAST.Takes`), up to a delimiter or
the end, is taken for `name`. -/
def SchemaAST.LongestIs (s : SchemaAST) (c : Nat) (name : String) (line : List Nat) : Prop :=
  ∃ u rest, line = u ++ rest ∧ s.Takes name (c :: u) ∧ s.Over rest ∧
    ∀ n u' rest', line = u' ++ rest' → s.Takes n (c :: u') → s.Over rest' → u'.length ≤ u.length

/-- The timestamps are declared before the other variables. -/
def SchemaAST.TimestampsFirst (s : SchemaAST) : Prop :=
  ∃ tss vs, s.vars = tss ++ vs ∧ (∀ v ∈ tss, v.name = "timestamp") ∧ ∀ v ∈ vs, v.name ≠ "timestamp"

/-- The lines of a log, each with its newline; what is behind the last newline, possibly nothing, is the last line. -/
def splitLines : List Nat → List (List Nat)
  | [] => [[]]
  | c :: rest =>
    if c = newline then [c] :: splitLines rest
    else match splitLines rest with
      | [] => [[c]]
      | l :: ls => (c :: l) :: ls

/-- The lines in groups: a new group begins with each line for which `tsLine` says so; `cur` is the group in progress. -/
def grouped (tsLine : List Nat → Bool) (cur : List Nat) : List (List Nat) → List (List Nat)
  | [] => [cur]
  | l :: ls => if tsLine l then cur :: grouped tsLine l ls else grouped tsLine (cur ++ l) ls

end LogSurgeon
