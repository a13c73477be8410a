import Verif.Model.Schema
/-
Model of the parts of LogEvent.cpp that are not needed for parsing: `get_logtype`, `deep_copy` and the constructor of `LogEvent`.
-/
namespace LogSurgeon
namespace EventView

/-- The bytes of a name. -/
def nameBytes (s : String) : List Nat := s.toList.map Char.toNat

/-- LogEvent.cpp:55-64, what one token contributes to the logtype; `names` is `get_id_symbol` (LogParser.hpp:65).
The exceptions (no type, unknown id) are `.throws`, a null pointer or reading out of bounds is `.ub`. -/
def logtypeToken (m : Mem) (names : Nat → Option String) (t : Token) : Except Fail (List Nat) :=
  match t.type0 with
  | .error e => .error e
  | .ok ty =>
    if ty = tokenUncaught then
      match t.toStringView m with
      | none => .error .ub
      | some (s, _) => .ok s
    else
      match (if tokenNewline ≠ ty then t.getDelimiter m else some []) with
      | none => .error .ub
      | some d =>
        match names ty with
        | none => .error .throws
        | some n => .ok (d ++ nameBytes "<" ++ nameBytes n ++ nameBytes ">")

/-- LogEvent.cpp:53-65, the loop. -/
def logtypeLoop (m : Mem) (names : Nat → Option String) : List Token → Except Fail (List Nat)
  | [] => .ok []
  | t :: ts =>
    match logtypeToken m names t with
    | .error e => .error e
    | .ok s =>
      match logtypeLoop m names ts with
      | .error e => .error e
      | .ok r => .ok (s ++ r)

/-- LogEvent.cpp:51-67 `get_logtype`: the tokens from index 1 on. -/
def getLogtype (m : Mem) (names : Nat → Option String) (v : EventView) : Except Fail (List Nat) :=
  logtypeLoop m names ((List.range' 1 (v.out.pos - 1)).map v.out.get)

/-- LogEvent.cpp:90-93: copying the characters of a token to `m_buffer` at `curr_pos`; `none`: out of bounds. -/
def writeChars (buf : List Nat) (pos : Nat) : List Nat → Option (List Nat × Nat)
  | [] => some (buf, pos)
  | c :: cs => if pos < buf.length then writeChars (buf.set pos c) (pos + 1) cs else none

/-- LogEvent.cpp:87-104: the loop over the tokens.  `newPtr` is `m_buffer.data()`, `bufSize` is `buffer_size`. -/
def copyLoop (m : Mem) (newPtr bufSize : Nat) : List Token → List Nat → Nat → OutBuf → Except Fail (List Nat × OutBuf)
  | [], buf, _, o => .ok (buf, o)
  | t :: ts, buf, pos, o =>
    match t.toStringView m with
    | none => .error .ub
    | some (s, _) =>
      match writeChars buf pos s with
      | none => .error .ub
      | some (buf, pos') =>
        match o.setCurr { startPos := pos, endPos := pos', buf := newPtr, bufSize := bufSize, line := 0, types := t.types } with
        | none => .error .ub
        | some o => copyLoop m newPtr bufSize ts buf pos' o.advance

/-- LogEvent.cpp:105-109: the occurrences of the copy.  (`token_types[0]` of an empty vector is undefined.) -/
def copyOcc : List Nat → EventView → Except Fail EventView
  | [], v => .ok v
  | i :: is, v =>
    match (v.out.get i).types with
    | some (ty :: _) =>
      match v.addToken ty i with
      | none => .error .ub
      | some v => copyOcc is v
    | _ => .error .ub

/-- LogEvent.cpp:19-21 `deep_copy` and 69-110 `LogEvent::LogEvent(LogEventView const&)`: the copy, and the content of its own
buffer, whose address is `newPtr`; `outStatic` is the size of the static storage of the new output buffer. -/
def deepCopy (m : Mem) (v : EventView) (newPtr outStatic : Nat) : Except Fail (EventView × List Nat) :=
  let toks := v.tokens
  let bufSize := (toks.map Token.getLength).sum
  if bufSize = 0 then .error .throws
  else
    let o : OutBuf := { OutBuf.init outStatic with hasTimestamp := v.out.hasTimestamp, hasDelims := v.out.hasDelims }
    match copyLoop m newPtr bufSize toks (List.replicate bufSize 0) 0 o with
    | .error e => .error e
    | .ok (buf, o) =>
      match copyOcc (List.range o.pos) { out := o, multiline := v.multiline, numVars := v.numVars } with
      | .error e => .error e
      | .ok c => .ok (c, buf)

end EventView
end LogSurgeon
