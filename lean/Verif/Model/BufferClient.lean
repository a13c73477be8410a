import Verif.Model.LogEvent
/-
Model of the documented client of `BufferParser`: `process_logs` of examples/buffer-parser.cpp, with
`print_timestamp_loglevel` of examples/common.cpp.  It reads a log file in pieces into a buffer that grows when necessary and moves the
bytes of an unfinished event to the front.
-/
namespace LogSurgeon

/-- What becomes of an event after the loop: a multiline event is copied (`multiline_logs.emplace_back(event)`,
examples/buffer-parser.cpp:82-84, examples/reader-parser.cpp:49-51), and the text of the copy is printed later
(examples/buffer-parser.cpp:87-90, examples/reader-parser.cpp:54-57).  The storage of the copy is of the usual static size,
48000 tokens (Constants.hpp:49); its address is 0, and it is all the memory the tokens of the copy refer to.  (Moves of the copies when
the vector grows are not modelled.) -/
def EventView.kept (m : Mem) (v : EventView) : Option (Except Fail (Option (List Nat))) :=
  if v.multiline then
    some (match v.deepCopy m 0 48000 with
      | .error e => .error e
      | .ok (c, buf) => .ok (c.toString fun _ => buf))
  else none

/-- What is printed for one event: examples/buffer-parser.cpp:78-84 (`to_string`, `get_logtype`, `is_multiline`) and
examples/common.cpp:32-49 (timestamp; the loglevel is the first element of `vars`, printed if there is a timestamp); and, after
the loop, the text of its copy. -/
structure Printed where
  text : Option (List Nat)
  timestamp : Option (Option (List Nat))
  vars : List (Option (List Nat))
  logtype : Except Fail (List Nat)
  multiline : Bool
  kept : Option (Except Fail (Option (List Nat)))

/-- The accessors called on a view; `m` is the memory, `names` is `get_id_symbol`, `var` is the id of the variable asked for
(`get_variables`, LogEvent.hpp:53-55). -/
def EventView.print (m : Mem) (names : Nat → Option String) (var : Nat) (v : EventView) : Printed where
  text := v.toString m
  timestamp := v.getTimestamp.map fun t => (t.toStringView m).map (·.1)
  vars := (v.occ var).map fun i => ((v.out.get i).toStringView m).map (·.1)
  logtype := v.getLogtype m names
  multiline := v.multiline
  kept := v.kept m

/-- The variables of `process_logs`: `buf` is the vector with all its elements, `valid` is `valid_size`, `rest` what the
file stream has not delivered yet. -/
structure BufferClient where
  parser : BufferParser
  buf : List Nat
  valid : Nat
  offset : Nat
  inputDone : Bool
  rest : List Nat

namespace BufferClient

/-- `infs.read(&*(buf.begin() + valid_size), buf.size() - valid_size)` with `gcount()` and `eof()`, examples/buffer-parser.cpp:32-37 and
69-74: the end-of-file flag is set when fewer bytes than requested could be read.  (File contents are bytes, `char` conversions are
identities.) -/
def fill (c : BufferClient) : BufferClient :=
  let n := c.buf.length - c.valid
  let got := c.rest.take n
  { c with buf := c.buf.take c.valid ++ got ++ c.buf.drop (c.valid + got.length),
           valid := c.valid + got.length,
           inputDone := c.inputDone || decide (c.rest.length < n),
           rest := c.rest.drop n }

/-- examples/buffer-parser.cpp:30-38 and 43: the buffer of `cap` bytes, the first read, `reset`, offset 0.  (`cap` is 4096 * 8 in the
example.) -/
def start (p : BufferParser) (cap : Nat) (file : List Nat) : BufferClient :=
  let c := fill { parser := p, buf := List.replicate cap 0, valid := 0, offset := 0, inputDone := false, rest := file }
  { c with parser := c.parser.reset }

/-- examples/buffer-parser.cpp:57-74, after running out of bytes: the buffer is doubled, or the remaining bytes are moved to the front;
then more is read.  `none`: the iterators of `move` are not a range (undefined behaviour). -/
def refill (c : BufferClient) : Option BufferClient :=
  if c.offset = 0 then some (fill { c with buf := c.buf ++ List.replicate c.buf.length 0 })
  else if c.offset ≤ c.valid then
    some (fill { c with buf := (c.buf.take c.valid).drop c.offset ++ c.buf.drop (c.valid - c.offset),
                        valid := c.valid - c.offset, offset := 0 })
  else none

/-- How the program ended: the loop ended because the parser was done; `break` at line 54; an exception or undefined behaviour. -/
inductive Outcome where
  | done
  | broke
  | failed (e : Fail)
deriving Repr, DecidableEq

/-- The loop of examples/buffer-parser.cpp:44-85, at most `k` iterations.  `alloc n` is the address of the vector's storage when it has `n`
elements (a resize moves it). -/
def run (alloc : Nat → Nat) (names : Nat → Option String) (var : Nat) : Nat → BufferClient → List Printed × Outcome
  | 0, _ => ([], .failed .diverge)
  | k + 1, c =>
    if c.parser.done then ([], .done)
    else
      match c.parser.parseNextEvent (alloc c.buf.length) c.buf c.valid c.offset c.inputDone with
      | (p, off, .error .oob) =>
        if c.inputDone then ([], .broke)
        else
          match refill { c with parser := p, offset := off } with
          | none => ([], .failed .ub)
          | some c => run alloc names var k c
      | (_, _, .error e) => ([], .failed e)
      | (p, off, .ok ()) =>
        let r := run alloc names var k { c with parser := p, offset := off }
        (p.lp.view.print p.lp.input.mem names var :: r.1, r.2)

end BufferClient

/-- examples/buffer-parser.cpp:17-85 `process_logs` on a parser and the content of a log file. -/
def processLogs (alloc : Nat → Nat) (names : Nat → Option String) (var : Nat) (k : Nat) (p : BufferParser) (cap : Nat)
    (file : List Nat) : List Printed × BufferClient.Outcome :=
  BufferClient.run alloc names var k (BufferClient.start p cap file)

end LogSurgeon
