import Verif.Model.Dfa
import Verif.Model.InputBuffer
/-
Model of the scanning part of Lexer.{hpp,tpp}.  Line numbers of a token are those of `m_line`.
-/
namespace LogSurgeon

/-- The part of a lexer fixed by `add_delimiters` and `generate` (Lexer.hpp:154-159).
`m_is_first_char[c]` is `dfa.next root c ≠ nullptr` (Lexer.tpp:382-388). -/
structure Lexer where
  dfa : Dfa
  isDelim : Nat → Bool
  hasDelims : Bool := true

/-- Lexer.tpp:377-389: `m_is_first_char`. -/
def Lexer.isFirst (L : Lexer) (c : Nat) : Bool := (L.dfa.next 0 c).isSome

/-- Lexer.tpp:345-355 `add_delimiters` followed by `is_delimiter` (Lexer.hpp:115-117): the last call
decides; the start-of-file character is always added. -/
def delimTable (delims : List Nat) : Nat → Bool := fun c => delims.contains c || c == cCharStartOfFile

/-- The mutable part of a lexer (Lexer.hpp:146-152, 157, 160-161). -/
structure LexState where
  matchPos : Nat := 0
  startPos : Nat := 0
  matchLine : Nat := 0
  lastMatchPos : Nat := 0
  lastMatchLine : Nat := 0
  isMatch : Bool := false
  typeIds : Option (List Nat) := none
  line : Nat := 0
  asked : Bool := false
  /-- `m_prev_state` (`none` = null) -/
  prevState : Option Nat := none
deriving Repr, DecidableEq

/-- Why a call does not produce a value. -/
inductive Fail where
  /-- `ErrorCode::BufferOutOfBounds` -/
  | oob
  /-- another error code (from the reader) -/
  | error
  /-- undefined behaviour -/
  | ub
  /-- an exception -/
  | throws
  /-- the loop does not end within the given number of iterations -/
  | diverge
deriving Repr, DecidableEq

namespace Lexer

/-- Lexer.tpp:320-331 `reset`. -/
def reset (_ : LexState) : LexState := {}

/-- Lexer.tpp:334-342 `prepend_start_of_file_char`. -/
def prependStartOfFile (L : Lexer) (st : LexState) (b : InBuf) : LexState :=
  { st with prevState := L.dfa.next 0 cCharStartOfFile, asked := true, startPos := b.pos,
            matchPos := b.pos, matchLine := st.line, typeIds := none }

/-- `Token{...}` with the input buffer's storage. -/
def mkToken (b : InBuf) (s e line : Nat) (types : Option (List Nat)) : Token :=
  { startPos := s, endPos := e, buf := b.active, bufSize := b.size, line := line, types := types }

/-- The inner loop Lexer.tpp:147-158: skip to the next character that is both a delimiter and the
first character of some rule.  Returns the last position read from. -/
def skip (L : Lexer) : Nat → InBuf → Nat → Nat → InBuf × Except Fail Nat
  | 0, b, _, _ => (b, .error .diverge)
  | k + 1, b, c, prev =>
    if b.consumed == false && (L.isFirst c == false || L.isDelim c == false) then
      match b.getNext with
      | (b', .oob) => (b', .error .oob)
      | (b', .ub) => (b', .error .ub)
      | (b', .char c') => skip L k b' c' b.pos
    else (b, .ok prev)

/-- Lexer.tpp:75-82: a match candidate ends before the character just read. -/
def noteMatch (L : Lexer) (q prev c : Nat) (st : LexState) (b : InBuf) : LexState :=
  if (L.isDelim c || b.consumed || !L.hasDelims) && L.dfa.isAccepting q then
    { st with isMatch := true, typeIds := some (L.dfa.ids q), matchPos := prev, matchLine := st.line }
  else st

/-- Lexer.tpp:83-94: the next state, and the newline rule.  `none`: null dereference. -/
def noteNewline (L : Lexer) (q prev c : Nat) (st : LexState) (b : InBuf) :
    Option (LexState × Option Nat) :=
  let next := L.dfa.next q c
  if c == newline then
    let st := { st with line := st.line + 1 }
    if L.hasDelims && !st.isMatch then
      match L.dfa.next 0 c with
      | none => none
      | some q' => some ({ st with isMatch := true, typeIds := some (L.dfa.ids q'), startPos := prev,
                                   matchPos := b.pos, matchLine := st.line }, some q')
    else some (st, next)
  else some (st, next)

/-- Lexer.tpp:96-121: return the match (or first the uncaught string before it). -/
def emitMatch (st : LexState) (b : InBuf) : LexState × InBuf × Except Fail Token :=
  let b := { b with consumed := false, pos := st.matchPos }
  let st := { st with line := st.matchLine }
  if st.lastMatchPos ≠ st.startPos then
    (st, b, .ok (mkToken b st.lastMatchPos st.startPos st.lastMatchLine (some [tokenUncaught])))
  else
    ({ st with isMatch := false, lastMatchPos := st.matchPos, lastMatchLine := st.matchLine }, b,
      .ok (mkToken b st.startPos st.matchPos st.matchLine st.typeIds))

/-- Lexer.tpp:122-144: nothing left. -/
def emitEnd (st : LexState) (b : InBuf) : LexState × InBuf × Except Fail Token :=
  if st.lastMatchPos ≠ st.startPos then
    ({ st with matchPos := b.pos, typeIds := some [tokenEnd], isMatch := true }, b,
      .ok (mkToken b st.lastMatchPos st.startPos st.lastMatchLine (some [tokenUncaught])))
  else (st, b, .ok (mkToken b b.pos b.pos st.line (some [tokenEnd])))

/-- The loop of Lexer.tpp:67-165.  The state pointer may be null (`none`). -/
def scanLoop (L : Lexer) : Nat → Option Nat → LexState → InBuf → LexState × InBuf × Except Fail Token
  | 0, _, st, b => (st, b, .error .diverge)
  | k + 1, state, st, b =>
    let prev := b.pos
    match b.getNext with
    | (b, .oob) => ({ st with asked := true, prevState := state }, b, .error .oob)
    | (b, .ub) => (st, b, .error .ub)
    | (b, .char c) =>
      match state with
      | none => (st, b, .error .ub)
      | some q =>
        match L.noteNewline q prev c (L.noteMatch q prev c st b) b with
        | none => (st, b, .error .ub)
        | some (st, next) =>
          if b.consumed || next.isNone then
            if st.isMatch then emitMatch st b
            else if b.consumed && st.startPos == b.pos then emitEnd st b
            else
              match L.skip (b.size + 2) b c prev with
              | (b, .error .oob) => ({ st with asked := true, prevState := state }, b, .error .oob)
              | (b, .error e) => (st, b, .error e)
              | (b, .ok prev) =>
                scanLoop L k (some 0) { st with startPos := prev } { b with pos := prev }
          else scanLoop L k next st b

/-- Enough iterations of the loop for one call. -/
def scanFuel (b : InBuf) : Nat := 2 * b.size + 4

/-- Lexer.tpp:42-166 `scan`. -/
def scan (L : Lexer) (st : LexState) (b : InBuf) : LexState × InBuf × Except Fail Token :=
  if st.asked then
    L.scanLoop (scanFuel b) st.prevState { st with asked := false } b
  else if st.isMatch then
    ({ st with isMatch := false, lastMatchPos := st.matchPos, lastMatchLine := st.matchLine }, b,
      .ok (mkToken b st.startPos st.matchPos st.matchLine st.typeIds))
  else
    L.scanLoop (scanFuel b) (some 0)
      { st with startPos := b.pos, matchPos := b.pos, matchLine := st.line, typeIds := none } b

/-- Lexer.tpp:21-39 `flip_states`. -/
def flipStates (st : LexState) (old : Nat) : LexState :=
  let h := old / 2
  { st with
    matchPos := if st.matchPos ≥ h then st.matchPos - h else st.matchPos + h
    startPos := if st.startPos > h then st.startPos - h else st.startPos + h
    lastMatchPos := if st.lastMatchPos ≥ h then st.lastMatchPos - h else st.lastMatchPos + h }

/-- Lexer.tpp:303-317 `increase_buffer_capacity`. -/
def increaseBufferCapacity (st : LexState) (b : InBuf) : LexState × InBuf :=
  let old := b.size
  let (b', flipped) := b.increaseCapacity
  if old < b'.size then
    let st := if flipped then flipStates st old else st
    (if st.lastMatchPos == 0 then { st with lastMatchPos := old, startPos := old } else st, b')
  else (st, b')

end Lexer
end LogSurgeon
