import Verif.Model.InputBuffer
import Verif.Model.FileReader
/-
Model of the two `Reader`s built by `SchemaParser` (SchemaParser.cpp:59-105) and of `ParserInputBuffer::read_if_safe`.
-/
namespace LogSurgeon

/-- SchemaParser.cpp:87-102: the `Reader` of `try_schema_string`.  `unparsed_string_pos` is a local variable of the
closure's body: it is 0 at the start of every call and what it becomes is forgotten. -/
def schemaStringRead (s : List Nat) (count : Nat) : InBuf.ReadRes :=
  let unparsed := 0
  let count := if unparsed + count > s.length then s.length - unparsed else count
  if count == 0 then .eof else .bytes ((s.drop unparsed).take count)

/-- SchemaParser.cpp:74-80: the `Reader` of `try_schema_file`.  The error code of `FileReader::read` is ignored. -/
def schemaFileRead (r : FileReader) (count : Nat) : FileReader × InBuf.ReadRes :=
  let (r, _, got) := r.read false count
  (r, if got.length == 0 then .eof else .bytes got)

/-- ParserInputBuffer.hpp:41-46 `read_if_safe` with a stateful reader: `rd` answers a request for so many bytes. -/
def InBuf.readIfSafe {σ : Type} (rd : σ → Nat → σ × InBuf.ReadRes) (s : σ) (b : InBuf) : σ × InBuf × Bool :=
  if b.readIsSafe then
    let (s, a) := rd s (b.size / 2)
    let (b, ok) := b.applyRead a
    (s, b, ok)
  else (s, b, true)

/-- The next `k` results of `get_next_character`. -/
def InBuf.nexts : Nat → InBuf → List NextChar × InBuf
  | 0, b => ([], b)
  | k + 1, b => ((b.getNext.2) :: (nexts k b.getNext.1).1, (nexts k b.getNext.1).2)

end LogSurgeon
