import Verif.Spec.Lexing
import Verif.Model.Schema
/-
How the token sequence of a text is divided into log events, and the loop of a client of `BufferParser`.
-/
namespace LogSurgeon

/-! ### Events as ranges of the text -/

/-- A log event: does it begin with a timestamp, and its tokens. -/
structure PEvent where
  ts : Bool
  toks : List PTok
deriving Repr, DecidableEq

namespace PTok

/-- The first type of a token decides what it is. -/
def kind (x : PTok) : Nat := x.ty.headD tokenUncaught

/-- The first character of a token (a newline), as static text. -/
def nl (x : PTok) : PTok := ⟨x.a, x.a + 1, [tokenUncaught]⟩

/-- The token without its first character. -/
def rest (x : PTok) : PTok := ⟨x.a + 1, x.e, x.ty⟩

/-- A timestamp, at the beginning of the file or of a line. -/
def isTs (x : PTok) : Bool := x.kind == tokenFirstTimestamp || x.kind == tokenNewlineTimestamp

/-- The text of a token. -/
def text (s : List Nat) (x : PTok) : List Nat := slice s x.a x.e

/-- The token begins with a newline. -/
def startsNl (s : List Nat) (x : PTok) : Bool := s[x.a]? == some newline

end PTok

namespace PEvent

/-- The event beginning with a token. -/
def start (x : PTok) : PEvent := ⟨x.isTs, [x]⟩

def add (e : PEvent) (x : PTok) : PEvent := { e with toks := e.toks ++ [x] }

/-- The text of an event. -/
def text (s : List Nat) (e : PEvent) : List Nat := e.toks.flatMap (PTok.text s)

/-- A timestamp, then a newline somewhere, then something after it. -/
def multiline (s : List Nat) (e : PEvent) : Prop :=
  e.ts = true ∧ ∃ (i : Nat) (x : PTok), 0 < i ∧ i + 1 < e.toks.length ∧ e.toks[i]? = some x ∧ x.startsNl s = true

end PEvent

/-- The events of a token sequence; `cur` is the event in progress.
* The end token ends the event in progress (an empty event if there is none).
* A newline+timestamp token is divided: the newline ends the event in progress (or is an event by itself),
  the timestamp begins the next one.
* In an event without timestamp a newline ends the event; a token of another kind beginning with a newline (a variable
  with the newline as delimiter) is divided in the same way.  The first token of an event is not examined.
-/
def segment (s : List Nat) : Option PEvent → List PTok → List PEvent
  | _, [] => []
  | none, x :: xs =>
    if x.kind = tokenEnd then [⟨false, []⟩]
    else if x.kind = tokenNewlineTimestamp then ⟨false, [x.nl]⟩ :: segment s (some (.start x.rest)) xs
    else segment s (some (.start x)) xs
  | some e, x :: xs =>
    if x.kind = tokenEnd then [e]
    else if e.ts = false ∧ x.kind = tokenNewline then e.add x :: segment s none xs
    else if (e.ts = true ∧ x.kind = tokenNewlineTimestamp) ∨ (e.ts = false ∧ x.startsNl s = true) then
      e.add x.nl :: segment s (some (.start x.rest)) xs
    else segment s (some (e.add x)) xs

/-- The event in progress when the tokens run out. -/
def segmentRest (s : List Nat) : Option PEvent → List PTok → Option PEvent
  | cur, [] => cur
  | none, x :: xs =>
    if x.kind = tokenEnd then none
    else if x.kind = tokenNewlineTimestamp then segmentRest s (some (.start x.rest)) xs
    else segmentRest s (some (.start x)) xs
  | some e, x :: xs =>
    if x.kind = tokenEnd then none
    else if e.ts = false ∧ x.kind = tokenNewline then segmentRest s none xs
    else if (e.ts = true ∧ x.kind = tokenNewlineTimestamp) ∨ (e.ts = false ∧ x.startsNl s = true) then
      segmentRest s (some (.start x.rest)) xs
    else segmentRest s (some (e.add x)) xs

/-- The shape of an event.  With a timestamp: the timestamp is its first token, and no later token is a newline+timestamp.
Without one: its first token is no timestamp, and a newline can only be in its first or last token. -/
def PEvent.Shape (s : List Nat) (e : PEvent) : Prop :=
  (e.ts = true → (∃ x, e.toks.head? = some x ∧ x.isTs = true) ∧
    ∀ (i : Nat) (y : PTok), 0 < i → e.toks[i]? = some y → y.kind ≠ tokenNewlineTimestamp) ∧
  (e.ts = false → (∀ x, e.toks.head? = some x → x.isTs = false) ∧
    ∀ (i : Nat) (y : PTok), 0 < i → i + 1 < e.toks.length → e.toks[i]? = some y → y.kind ≠ tokenNewline ∧ y.startsNl s = false)

/-- Two successive events: the first ends with a newline; if it has a timestamp, the second one begins with the timestamp that
followed this newline. -/
def PEvent.Next (s : List Nat) (e e' : PEvent) : Prop :=
  (∃ x, e.toks.getLast? = some x ∧ x.text s = [newline]) ∧
  (e.ts = true → e'.ts = true ∧ ∃ y, e'.toks.head? = some y ∧ y.kind = tokenNewlineTimestamp)

/-- No variable has one of the two reserved names with a newline. -/
def SchemaAST.NlReserved (s : SchemaAST) : Prop := ∀ v ∈ s.vars, v.name ≠ "newLine" ∧ v.name ≠ "newLineTimestamp"

/-- No variable has one of the reserved names of the newline and of the timestamps. -/
def SchemaAST.Reserved (s : SchemaAST) : Prop :=
  ∀ v ∈ s.vars, v.name ≠ "firstTimestamp" ∧ v.name ≠ "newLineTimestamp" ∧ v.name ≠ "newLine"

/-- No timestamp contains a newline: the regexes of the `timestamp` lines cannot read one. -/
def SchemaAST.LineTimestamps (s : SchemaAST) : Prop := ∀ v ∈ s.vars, v.name = "timestamp" → v.regex.possible newline = false

/-! ### A client of `BufferParser` -/

/-- What a client sees after a successful call: the view, `to_string` of the view, and the offset. -/
structure EventOut where
  view : EventView
  text : Option (List Nat)
  offset : Nat

/-- The view shows the event: its tokens, whether it has a timestamp, which one (the first token), its text, its multiline flag,
and for every type the tokens of this type in order (`get_variables`). -/
structure EventOut.Shows (o : EventOut) (s : List Nat) (e : PEvent) : Prop where
  ts : o.view.out.hasTimestamp = e.ts
  tokens : o.view.tokens.map Token.range = e.toks.map some
  timestamp : o.view.getTimestamp.bind Token.range = if e.ts then e.toks.head? else none
  text : o.text = some (e.text s)
  multiline : o.view.multiline = true ↔ e.multiline s
  occ : ∀ id, (o.view.occ id).map (fun i => (o.view.out.get i).range) = (e.toks.filter fun x => x.kind == id).map some

/-- Everything a client can see of an event: has it a timestamp and which, its tokens (ranges and types), its text, its
multiline flag, the tokens of each type. -/
structure Obs where
  ts : Bool
  timestamp : Option PTok
  tokens : List (Option PTok)
  text : Option (List Nat)
  multiline : Bool
  vars : Nat → List (Option PTok)

def EventOut.obs (o : EventOut) : Obs where
  ts := o.view.out.hasTimestamp
  timestamp := o.view.getTimestamp.bind Token.range
  tokens := o.view.tokens.map Token.range
  text := o.text
  multiline := o.view.multiline
  vars := fun id => (o.view.occ id).map fun i => (o.view.out.get i).range

/-- How a client's loop ended: what was seen after each successful call, the error that ended it (`none`: done), the
final offset, and the parser. -/
structure RunOut where
  events : List EventOut
  status : Option Fail
  offset : Nat
  parser : BufferParser

/-- `while (!parser.done()) parser.parse_next_event(buf, size, offset, fin)`, stopping at the first error; at most `k` calls.
`content` is the content of the allocation `ptr`, of which the first `size` bytes are the input. -/
def BufferParser.parseAll : Nat → BufferParser → Nat → List Nat → Nat → Nat → Bool → RunOut
  | 0, p, _, _, _, offset, _ => ⟨[], some .diverge, offset, p⟩
  | k + 1, p, ptr, content, size, offset, fin =>
    match p.parseNextEvent ptr content size offset fin with
    | (p, off, .error e) => ⟨[], some e, off, p⟩
    | (p, off, .ok ()) =>
      let o : EventOut := ⟨p.lp.view, p.lp.view.toString p.lp.input.mem, off⟩
      if p.done then ⟨[o], none, off, p⟩
      else { parseAll k p ptr content size off fin with events := o :: (parseAll k p ptr content size off fin).events }

/-- A parse of one buffer: `reset`, then the loop from offset 0. -/
def BufferParser.parseBuffer (k : Nat) (p : BufferParser) (ptr : Nat) (content : List Nat) (size : Nat) (fin : Bool) : RunOut :=
  p.reset.parseAll k ptr content size 0 fin

/-- A new parser (BufferParser.cpp:13-14, with `LogParser.new`). -/
def BufferParser.new (s : SchemaAST) (addr : Nat → Nat) (mem : Mem) (inStatic outStatic : Nat) : Except Fail BufferParser :=
  match LogParser.new s addr mem inStatic outStatic with
  | .error e => .error e
  | .ok lp => .ok { lp := lp }

/-- The parser was made from the tables and lexer of a schema, its static output buffer can hold three tokens (the code's
holds 48000), and no token is kept for a next event.  `idle_new` and `idle_parseBuffer` (Props/Buffer.lean) show
that a new parser is idle, and that it is idle again whenever a parse has run until done or until out of bytes. -/
structure BufferParser.Idle (p : BufferParser) (t : ParserTables) (L : Lexer) : Prop where
  lexer : p.lp.lexer = L
  numVars : p.lp.view.numVars = t.idSymbol.length
  static : 3 ≤ p.lp.view.out.staticSize
  hasStart : p.lp.hasStart = false

end LogSurgeon
