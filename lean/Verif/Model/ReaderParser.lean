import Verif.Model.Schema
import Verif.Model.SchemaReader
/-
Model of ReaderParser.{hpp,cpp} (`read_if_safe` is in SchemaReader.lean) and the two
input operations of LogParser.hpp:97-110.
-/
namespace LogSurgeon

/-- Reader.hpp:15-28: the state of a reader and its `read` (given how many bytes are asked for).  The bytes are
written to the place the caller asks for (`InBuf.applyRead`).  Not modelled: a reader whose `read` is an empty
`std::function`, and a reader that writes outside of the given range. -/
structure Reader (σ : Type) where
  read : σ → Nat → σ × InBuf.ReadRes

/-- LogParser.hpp:102-104 `read_into_input`. -/
def LogParser.readIntoInput {σ : Type} (r : Reader σ) (src : σ) (p : LogParser) : σ × LogParser × Bool :=
  let (src, input, ok) := p.input.readIfSafe r.read src
  (src, { p with input := input }, ok)

/-- LogParser.hpp:110 `increase_capacity`. -/
def LogParser.increaseCapacity (p : LogParser) : LogParser :=
  let (lex, input) := Lexer.increaseBufferCapacity p.lex p.input
  { p with lex := lex, input := input }

/-- ReaderParser.hpp:82-84; `src` is the state of the reader. -/
structure ReaderParser (σ : Type) where
  lp : LogParser
  done : Bool := false
  src : σ

namespace ReaderParser
variable {σ : Type}

/-- ReaderParser.cpp:15-19 `reset_and_set_reader`. -/
def resetAndSetReader (p : ReaderParser σ) (src : σ) : ReaderParser σ := { lp := p.lp.reset, done := false, src := src }

/-- The loop of ReaderParser.cpp:29-47; at most `k` iterations. -/
def eventLoop (r : Reader σ) : Nat → ReaderParser σ → ReaderParser σ × Except Fail Unit
  | 0, p => (p, .error .diverge)
  | k + 1, p =>
    match p.lp.parseAndGenerate with
    | (lp, .ok a) => ({ p with lp := lp, done := p.done || a == .compressAndFinish }, .ok ())
    | (lp, .error .oob) =>
      match lp.increaseCapacity.readIntoInput r p.src with
      | (src, lp, true) => eventLoop r k { p with lp := lp, src := src }
      | (src, lp, false) => ({ p with lp := lp, src := src }, .error .error)
    | (lp, .error e) => ({ p with lp := lp }, .error e)

/-- ReaderParser.cpp:21-49 `parse_next_event`; at most `k` iterations of the loop. -/
def parseNextEvent (r : Reader σ) (k : Nat) (p : ReaderParser σ) : ReaderParser σ × Except Fail Unit :=
  match ({ p.lp with view := p.lp.view.reset } : LogParser).readIntoInput r p.src with
  | (src, lp, true) => eventLoop r k { p with lp := lp, src := src }
  | (src, lp, false) => ({ p with lp := lp, src := src }, .error .error)

/-- ReaderParser.cpp:10-13 (with `LogParser.new`); the reader is set afterwards. -/
def new (s : SchemaAST) (addr : Nat → Nat) (mem : Mem) (inStatic outStatic : Nat) (src : σ) :
    Except Fail (ReaderParser σ) :=
  match LogParser.new s addr mem inStatic outStatic with
  | .error e => .error e
  | .ok lp => .ok { lp := lp, src := src }

end ReaderParser
end LogSurgeon
