import Verif.Model.Lexer
/-
Model of LogParserOutputBuffer.{hpp,cpp}, LogEventView (LogEvent.{hpp,cpp}), LogParser::parse
(LogParser.cpp) and BufferParser.{hpp,cpp}.
-/
namespace LogSurgeon

/-! ### Output buffer -/

/-- LogParserOutputBuffer.hpp:60-64 with `Buffer<Token>` (Buffer.hpp:88-92) inlined.  The static
storage survives `reset` (it is not cleared).  `dynItems = none`: the static storage is active. -/
structure OutBuf where
  hasTimestamp : Bool := false
  hasDelims : Bool := false
  pos : Nat := 0
  staticSize : Nat
  size : Nat
  staticItems : Nat → Token := fun _ => {}
  dynItems : Option (Nat → Token) := none

namespace OutBuf

/-- Freshly constructed. -/
def init (staticSize : Nat) : OutBuf := { staticSize := staticSize, size := staticSize }

/-- `m_active_storage[i]` -/
def get (o : OutBuf) (i : Nat) : Token := (o.dynItems.getD o.staticItems) i

/-- LogParserOutputBuffer.hpp:40 `set_token` (Buffer.hpp:31); `none` = out of bounds. -/
def setToken (o : OutBuf) (i : Nat) (t : Token) : Option OutBuf :=
  if i < o.size then
    some (match o.dynItems with
      | none => { o with staticItems := fun j => if j = i then t else o.staticItems j }
      | some d => { o with dynItems := some fun j => if j = i then t else d j })
  else none

/-- LogParserOutputBuffer.hpp:50 `set_curr_token`. -/
def setCurr (o : OutBuf) (t : Token) : Option OutBuf := o.setToken o.pos t

/-- LogParserOutputBuffer.cpp:8-16 `advance_to_next_token` (the items past the copied ones are
default-constructed tokens). -/
def advance (o : OutBuf) : OutBuf :=
  let pos := o.pos + 1
  if pos = o.size then
    { o with pos := pos, size := 2 * o.size,
             dynItems := some fun i => if i < o.size then o.get i else {} }
  else { o with pos := pos }

/-- LogParserOutputBuffer.hpp:26-30 `reset`. -/
def reset (o : OutBuf) : OutBuf :=
  { o with hasTimestamp := false, hasDelims := false, pos := 0, size := o.staticSize, dynItems := none }

end OutBuf

/-! ### Log event view -/

/-- LogEvent.hpp (members).  `occ id` lists the positions in the output buffer of the tokens added for
variable `id` (the code stores pointers to them); `numVars` is the length of that vector. -/
structure EventView where
  out : OutBuf
  multiline : Bool := false
  numVars : Nat
  occ : Nat → List Nat := fun _ => []

namespace EventView

/-- LogEvent.cpp:23-29 `reset`. -/
def reset (v : EventView) : EventView :=
  { v with occ := fun _ => [], out := v.out.reset, multiline := false }

/-- Index of the first token: 0 with a timestamp, else 1 (LogEvent.cpp:40-43). -/
def first (v : EventView) : Nat := if v.out.hasTimestamp then 0 else 1

/-- The tokens of the event, LogEvent.cpp:44-45. -/
def tokens (v : EventView) : List Token :=
  (List.range' v.first (v.out.pos - v.first)).map v.out.get

/-- Concatenate the texts of tokens; `none` if one is out of bounds.  (The caching of wrapped texts
inside the tokens is not tracked here.) -/
def texts (m : Mem) : List Token → Option (List Nat)
  | [] => some []
  | t :: ts => do
    let (s, _) ← t.toStringView m
    let r ← texts m ts
    pure (s ++ r)

/-- LogEvent.cpp:38-49 `to_string`. -/
def toString (m : Mem) (v : EventView) : Option (List Nat) := texts m v.tokens

/-- LogEvent.cpp:31-36 `get_timestamp`. -/
def getTimestamp (v : EventView) : Option Token :=
  if v.out.hasTimestamp then some (v.out.get 0) else none

/-- LogEvent.hpp `add_token`: `m_log_var_occurrences[id].push_back`; `none` = out of bounds. -/
def addToken (v : EventView) (id tokIdx : Nat) : Option EventView :=
  if id < v.numVars then
    some { v with occ := fun j => if j = id then v.occ j ++ [tokIdx] else v.occ j }
  else none

end EventView

/-! ### LogParser -/

/-- LogParser.hpp:21-25 `ParsingAction`. -/
inductive Action where
  | none
  | compress
  | compressAndFinish
deriving Repr, DecidableEq

/-- LogParser.hpp (members); `lexer` is the immutable part. -/
structure LogParser where
  lexer : Lexer
  input : InBuf
  lex : LexState := {}
  hasStart : Bool := false
  startTok : Token := {}
  view : EventView

/-- `m_type_ids_ptr->at(0)`: null pointer, empty vector (throws), or the first type. -/
def Token.type0 (t : Token) : Except Fail Nat :=
  match t.types with
  | none => .error .ub
  | some [] => .error .throws
  | some (x :: _) => .ok x

namespace LogParser

/-- LogParser.cpp:289-291 `get_next_symbol`. -/
def getNextSymbol (p : LogParser) : LogParser × Except Fail Token :=
  let (st, b, r) := p.lexer.scan p.lex p.input
  ({ p with lex := st, input := b }, r)

def withOut (p : LogParser) (o : OutBuf) : LogParser := { p with view := { p.view with out := o } }

/-- Token following the split-off newline, LogParser.cpp:190-196 and 256-261. -/
def afterNewline (t : Token) : Token :=
  if t.startPos == t.bufSize - 1 then { t with startPos := 0 } else { t with startPos := t.startPos + 1 }

/-- The split-off newline, LogParser.cpp:198-200 and 263-266. -/
def newlineOnly (t : Token) : Token :=
  { t with endPos := t.startPos + 1, types := some [tokenUncaught] }

/-- `Option` (out of bounds) as an outcome. -/
def need {α} (p : LogParser) (o : Option α) (k : α → LogParser × Except Fail Action) :
    LogParser × Except Fail Action :=
  match o with
  | none => (p, .error .ub)
  | some a => k a

/-- The rest of one iteration of LogParser.cpp:229-279 once the next token is known;
`cont` continues the loop. -/
def parseToken (p : LogParser) (t : Token) (cont : LogParser → LogParser × Except Fail Action) :
    LogParser × Except Fail Action :=
  need p (p.view.out.setCurr t) fun o =>
  let p := p.withOut o
  match t.type0 with
  | .error e => (p, .error e)
  | .ok ty =>
    -- line 236-240; `get_char(0)` is evaluated only without a timestamp
    let found : Option Bool :=
      if o.hasTimestamp && ty == tokenNewlineTimestamp then some true
      else if !o.hasTimestamp then
        (t.getChar p.input.mem 0).map fun c => c == newline && ty != tokenNewline
      else some false
    need p found fun found =>
    if ty == tokenEnd then (p, .ok .compressAndFinish)
    else if !o.hasTimestamp && ty == tokenNewline then
      (({ p with input := { p.input with consumedPos := (o.get o.pos).endPos } }).withOut o.advance,
        .ok .compress)
    else if found then
      let start := afterNewline (o.get o.pos)
      need p (o.setCurr (newlineOnly (o.get o.pos))) fun o =>
      let cpos := if start.startPos == 0 then p.input.size - 1 else start.startPos - 1
      (({ p with startTok := start, hasStart := true,
                 input := { p.input with consumedPos := cpos } }).withOut o.advance, .ok .compress)
    else cont (p.withOut o.advance)

/-- The loop of LogParser.cpp:229-279. -/
def parseLoop : Nat → LogParser → LogParser × Except Fail Action
  | 0, p => (p, .error .diverge)
  | k + 1, p =>
    match p.getNextSymbol with
    | (p, .error e) => (p, .error e)
    | (p, .ok t) => p.parseToken t (parseLoop k)

/-- Enough iterations: every token but the end token consumes a character. -/
def parseFuel (p : LogParser) : Nat := 2 * p.input.size + 4

/-- LogParser.cpp:209-226, given the first token. -/
def parseFirst (p : LogParser) (t : Token) : LogParser × Except Fail Action :=
  match t.type0 with
  | .error e => (p, .error e)
  | .ok ty =>
    if ty == tokenEnd then
      need p (p.view.out.setToken 0 t) fun o => (p.withOut { o with pos := 1 }, .ok .compressAndFinish)
    else if ty == tokenFirstTimestamp || ty == tokenNewlineTimestamp then
      need p (({ p.view.out with hasTimestamp := true } : OutBuf).setToken 0 t) fun o =>
        parseLoop p.parseFuel ({ p with hasStart := false }.withOut { o with pos := 1 })
    else
      need p (({ p.view.out with hasTimestamp := false } : OutBuf).setToken 1 t) fun o =>
        parseLoop p.parseFuel ({ p with hasStart := false }.withOut { o with pos := 2 })

/-- LogParser.cpp:172-280 `parse`.  (`parsing_action` is the result; it is only meaningful on
Success.) -/
def parse (p : LogParser) : LogParser × Except Fail Action :=
  if p.view.out.pos == 0 then
    let p := p.withOut { p.view.out with hasDelims := p.lexer.hasDelims }
    if p.hasStart then p.parseFirst p.startTok
    else
      match p.getNextSymbol with
      | (p, .error e) => (p, .error e)
      | (p, .ok t) =>
        match t.type0 with
        | .error e => (p, .error e)
        | .ok ty =>
          if !p.view.out.hasTimestamp && ty == tokenNewlineTimestamp then
            need p (p.view.out.setToken 1 (newlineOnly t)) fun o =>
              (({ p with startTok := afterNewline t, hasStart := true,
                         input := { p.input with consumedPos := t.startPos } }).withOut
                  { o with pos := 2 }, .ok .compress)
          else p.parseFirst t
  else parseLoop p.parseFuel p

/-- LogParser.cpp:299-305 the loop over the tokens of the event: adds occurrences, finds the first newline. -/
def metaLoop (m : Mem) : List Nat → EventView → Nat → Except Fail (EventView × Nat)
  | [], v, nl => .ok (v, nl)
  | i :: is, v, nl =>
    match (v.out.get i).type0 with
    | .error e => .error e
    | .ok ty =>
      match v.addToken ty i, (v.out.get i).getDelimiter m with
      | some v, some d => metaLoop m is v (if d == [newline] && nl == 0 then i else nl)
      | _, _ => .error .ub

/-- LogParser.cpp:293-313 `generate_log_event_view_metadata`. -/
def generateMetadata (p : LogParser) : Except Fail LogParser :=
  let start := if p.view.out.hasTimestamp then 0 else 1
  match metaLoop p.input.mem (List.range' start (p.view.out.pos - start)) p.view 0 with
  | .error e => .error e
  | .ok (v, nl) =>
    .ok { p with view :=
      if v.out.hasTimestamp && 0 < nl && nl + 1 < v.out.pos then { v with multiline := true } else v }

/-- LogParser.cpp:164-170 `parse_and_generate_metadata`. -/
def parseAndGenerate (p : LogParser) : LogParser × Except Fail Action :=
  match p.parse with
  | (p, .error e) => (p, .error e)
  | (p, .ok a) =>
    match p.generateMetadata with
    | .error e => (p, .error e)
    | .ok p => (p, .ok a)

/-- LogParser.cpp:158-162 `reset`. -/
def reset (p : LogParser) : LogParser :=
  let input := p.input.reset
  { p with input := input, lex := p.lexer.prependStartOfFile (Lexer.reset p.lex) input }

end LogParser

/-! ### BufferParser -/

/-- BufferParser.hpp:99-101. -/
structure BufferParser where
  lp : LogParser
  done : Bool := false

namespace BufferParser

/-- BufferParser.cpp:16-19 `reset`. -/
def reset (p : BufferParser) : BufferParser := { lp := p.lp.reset, done := false }

/-- BufferParser.cpp:21-48 `parse_next_event(buf, size, offset, finished)`.  `ptr` is the buffer, whose
allocation has the content `content` at the time of the call (`size ≤ content.length` is the
caller's contract).  Returns the parser, the new offset and the error code. -/
def parseNextEvent (p : BufferParser) (ptr : Nat) (content : List Nat) (size offset : Nat)
    (finished : Bool) : BufferParser × Nat × Except Fail Unit :=
  let lp := { p.lp with view := p.lp.view.reset }
  let input := { lp.input with mem := fun i => if i = ptr then content else lp.input.mem i }
  let lp := { lp with input := input.setStorage ptr size offset finished }
  match lp.parseAndGenerate with
  | (lp, .error e) =>
    -- BufferOutOfBounds (other failures: the program is gone)
    let offset := if lp.view.out.pos ≠ 0 then (lp.view.out.get 0).startPos else offset
    ({ p with lp := lp }.reset, offset, .error e)
  | (lp, .ok a) =>
    ({ lp := lp, done := p.done || a == .compressAndFinish }, lp.input.pos, .ok ())

end BufferParser
end LogSurgeon
