import Verif.Model.ReaderParser
import Verif.Model.BufferClient
/-
Model of the documented client of `ReaderParser`: `process_logs` of examples/reader-parser.cpp.
-/
namespace LogSurgeon

/-- An `ifstream`: what has not been read yet, and whether `eofbit` and `failbit` are set (a `read` which finds fewer bytes than it wants
sets both). -/
structure FileStream where
  rest : List Nat
  eof : Bool := false

/-- The reader of examples/reader-parser.cpp:29-36: `infs.read(buf, count)`, `read_to = infs.gcount()`, and `EndOfFile` if nothing was
read and `eof()`.  A `read` on a stream with `failbit` does nothing and makes `gcount()` 0. -/
def fileReader : Reader FileStream where
  read f n :=
    if f.eof then (f, .eof)
    else
      let got := f.rest.take n
      let f' : FileStream := ⟨f.rest.drop n, decide (f.rest.length < n)⟩
      if got.length = 0 ∧ f'.eof then (f', .eof) else (f', .bytes got)

/-- The loop of examples/reader-parser.cpp:42-52, at most `k` iterations; an error of `parse_next_event` is thrown (line 44).  `j` bounds
the rounds inside `parse_next_event`. -/
def ReaderParser.runClient {σ : Type} (r : Reader σ) (j : Nat) (names : Nat → Option String) (var : Nat) :
    Nat → ReaderParser σ → List Printed × BufferClient.Outcome
  | 0, _ => ([], .failed .diverge)
  | k + 1, p =>
    if p.done then ([], .done)
    else
      match p.parseNextEvent r j with
      | (_, .error e) => ([], .failed e)
      | (p, .ok ()) =>
        let rest := runClient r j names var k p
        (p.lp.view.print p.lp.input.mem names var :: rest.1, rest.2)

/-- examples/reader-parser.cpp:29-57 `process_logs` on a parser and the content of a log file: the reader is set, then the loop.
(`names` is `get_id_symbol`, `var` the id of "loglevel".) -/
def processLogsReader (j : Nat) (names : Nat → Option String) (var : Nat) (k : Nat) (p : ReaderParser FileStream) (file : List Nat) :
    List Printed × BufferClient.Outcome :=
  (p.resetAndSetReader ⟨file, false⟩).runClient fileReader j names var k

end LogSurgeon
