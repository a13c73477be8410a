import Verif.Model.ReaderParser
import Verif.Spec.Events
import Verif.Model.BufferClient
/-
Readers of a given text, and the loop of a client of `ReaderParser`.
-/
namespace LogSurgeon

/-- A reader of the bytes that are its state which never gives less than asked for while it has enough (a file). -/
def textReader : Reader (List Nat) where
  read w n := if w = [] then ([], .eof) else (w.drop n, .bytes (w.take n))

/-- A reader which gives at most `m` bytes at a time (a socket, a terminal). -/
def chunkReader (m : Nat) : Reader (List Nat) where
  read w n := if w = [] then ([], .eof) else (w.drop (min m n), .bytes (w.take (min m n)))

/-- A reader which always gives as much as it is asked for until its end; `rest` is what it will still give. -/
def Reader.Full {σ : Type} (r : Reader σ) (rest : σ → List Nat) : Prop :=
  ∀ src n, 0 < n → rest (r.read src n).1 = (rest src).drop n ∧
    (r.read src n).2 = if rest src = [] then .eof else .bytes ((rest src).take n)

/-- What any reader gives to a buffer with halves of the size `h`: the answers to requests for `h` bytes, up to the first answer that is shorter, or
the end.  Whether the reader has more to give after a short answer does not matter.  (Reader.hpp:24-26: success means that there are bytes.) -/
inductive Reader.Gives {σ : Type} (r : Reader σ) (h : Nat) : σ → List Nat → Prop
  | eof {src : σ} : (r.read src h).2 = .eof → Gives r h src []
  | short {src : σ} {bs : List Nat} : (r.read src h).2 = .bytes bs → bs ≠ [] → bs.length < h → Gives r h src bs
  | full {src : σ} {bs w : List Nat} : (r.read src h).2 = .bytes bs → bs.length = h → Gives r h (r.read src h).1 w → Gives r h src (bs ++ w)

/-- What a client sees of a token while the memory is `m`: text and types. -/
def Token.shown (m : Mem) (t : Token) : Option (List Nat) × Option (List Nat) := ((t.toStringView m).map (·.1), t.types)

/-- What a client sees of an event, without positions: has it a timestamp and which, its tokens, its text, its multiline flag,
the tokens of each type, its logtype (which depends on the names of the types), and the text of a copy
made of it when it is a multiline event. -/
structure Seen where
  ts : Bool
  timestamp : Option (Option (List Nat) × Option (List Nat))
  tokens : List (Option (List Nat) × Option (List Nat))
  text : Option (List Nat)
  multiline : Bool
  vars : Nat → List (Option (List Nat) × Option (List Nat))
  logtype : (Nat → Option String) → Except Fail (List Nat)
  kept : Option (Except Fail (Option (List Nat)))

def EventView.seen (m : Mem) (v : EventView) : Seen where
  ts := v.out.hasTimestamp
  timestamp := v.getTimestamp.map (Token.shown m)
  tokens := v.tokens.map (Token.shown m)
  text := v.toString m
  multiline := v.multiline
  vars := fun id => (v.occ id).map fun i => (v.out.get i).shown m
  logtype := v.getLogtype m
  kept := v.kept m

/-- How the loop of a client of `ReaderParser` ended. -/
structure ReadOut (σ : Type) where
  events : List Seen
  status : Option Fail
  parser : ReaderParser σ

/-- `while (!parser.done()) parser.parse_next_event()`, stopping at the first error; at most `k` calls with at most `j`
rounds each.  What the client sees of an event it sees before the next call. -/
def ReaderParser.parseAll {σ : Type} (r : Reader σ) (j : Nat) : Nat → ReaderParser σ → ReadOut σ
  | 0, p => ⟨[], some .diverge, p⟩
  | k + 1, p =>
    match p.parseNextEvent r j with
    | (p, .error e) => ⟨[], some e, p⟩
    | (p, .ok ()) =>
      let o := p.lp.view.seen p.lp.input.mem
      if p.done then ⟨[o], none, p⟩
      else
        let rest := parseAll r j k p
        ⟨o :: rest.events, rest.status, rest.parser⟩

/-- A parse of one reader: `reset_and_set_reader`, then the loop. -/
def ReaderParser.parseReader {σ : Type} (r : Reader σ) (j k : Nat) (p : ReaderParser σ) (src : σ) : ReadOut σ :=
  (p.resetAndSetReader src).parseAll r j k

/-- What `BufferParser` shows for the text `w` (with one more byte behind it), given completely or as a beginning. -/
def BufferParser.seenOf (p : BufferParser) (w : List Nat) (fin : Bool) : List Seen :=
  (p.parseBuffer (w.length + 1) 1 (w ++ [0]) w.length fin).events.map fun o => o.view.seen fun _ => w ++ [0]

/-- The number of bytes in the first `i` of these events. -/
def seenLength (l : List Seen) (i : Nat) : Nat := ((l.take i).map fun x => (x.text.getD []).length).sum

/-- The events of `w` fit a buffer of two halves of size `h`:
* no event without a timestamp ends at a multiple of `h` (except for the last one);
* every event is complete within the `h - 1` bytes from its start, i.e. `BufferParser` gives it when it has only these bytes of it
  and does not know whether more will come; or the text ends before. -/
def BufferParser.Fits (p : BufferParser) (h : Nat) (w : List Nat) : Prop :=
  ∀ i, i < (p.seenOf w true).length →
    (0 < i → seenLength (p.seenOf w true) i % h ≠ 0 ∨ ∃ x, (p.seenOf w true)[i - 1]? = some x ∧ x.ts = true) ∧
    (w.length < seenLength (p.seenOf w true) i + h - 1 ∨
      i < (p.seenOf (w.take (seenLength (p.seenOf w true) i + h - 1)) false).length)

/-- The first line of a text, with its newline if there is one. -/
def firstLine : List Nat → List Nat
  | [] => []
  | c :: l => if c = newline then [c] else c :: firstLine l

/-- The lines of the events of `w` fit a buffer of two halves of size `h`:
* every event together with the first line of the next event is shorter than `h - 1`;
* no event without a timestamp ends at a multiple of `h` (except for the last one). -/
def BufferParser.LinesFit (p : BufferParser) (h : Nat) (w : List Nat) : Prop :=
  ∀ i x, (p.seenOf w true)[i]? = some x →
    (x.text.getD []).length + (firstLine (((p.seenOf w true)[i + 1]?.bind (·.text)).getD [])).length + 1 < h ∧
    (x.ts = false → i + 1 < (p.seenOf w true).length → seenLength (p.seenOf w true) (i + 1) % h ≠ 0)

/-- The same condition for a list of events of the text `w`. -/
def EventsFit (h : Nat) (w : List Nat) (E : List PEvent) : Prop :=
  ∀ i e, E[i]? = some e →
    (e.text w).length + (firstLine ((E[i + 1]?.map (PEvent.text w)).getD [])).length + 1 < h ∧
    (e.ts = false → i + 1 < E.length → ((E.take (i + 1)).flatMap (PEvent.text w)).length % h ≠ 0)

/-- A client of `ReaderParser` sees this event of the text `w`. -/
structure Seen.Shows (o : Seen) (w : List Nat) (e : PEvent) : Prop where
  ts : o.ts = e.ts
  timestamp : o.timestamp = if e.ts then e.toks.head?.map fun x => (some (x.text w), some x.ty) else none
  tokens : o.tokens = e.toks.map fun x => (some (x.text w), some x.ty)
  text : o.text = some (e.text w)
  multiline : o.multiline = true ↔ e.multiline w
  vars : ∀ id, o.vars id = (e.toks.filter fun x => x.kind == id).map fun x => (some (x.text w), some x.ty)

/-- The reader parser was made from the tables and lexer of a schema, its static input buffer is of the size `2 * h`, its static output
buffer can hold three tokens, and no token is kept for a next event. -/
structure ReaderParser.Idle {σ : Type} (p : ReaderParser σ) (t : ParserTables) (L : Lexer) (h : Nat) : Prop where
  lexer : p.lp.lexer = L
  numVars : p.lp.view.numVars = t.idSymbol.length
  static : 3 ≤ p.lp.view.out.staticSize
  hasStart : p.lp.hasStart = false
  size : p.lp.input.staticSize = 2 * h
  storage : (p.lp.input.mem 0).length = 2 * h
  fresh : 0 < p.lp.input.nextId

end LogSurgeon
