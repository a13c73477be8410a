import Verif.Spec.Reader
import Verif.Spec.LogEvent
/-
The logtype of an event a client of `ReaderParser` sees (src/log_surgeon/LogEvent.cpp get_logtype): a definition for the statement of C48_reader_partial only,
nothing here models code.
-/
namespace LogSurgeon

/-- The types of the tokens of the event have names, and, for any names given to them, the logtype of the event a client sees is made of the contributions
of its tokens without the timestamp. -/
def Seen.LogtypeOf (t : ParserTables) (o : Seen) (w : List Nat) (e : PEvent) : Prop :=
  (∀ x ∈ e.toks, ∃ n, t.getIdSymbol x.kind = some n) ∧
  ∀ names : Nat → Option String, (∀ i n, t.getIdSymbol i = some n → ∃ n', names i = some n') →
    o.logtype names = .ok ((if e.ts then e.toks.tail else e.toks).flatMap (PTok.logtype w names))

end LogSurgeon
