/-
Model of Constants.hpp (symbol ids, special characters), Token.{hpp,cpp}.

Memory: an allocation is identified by a number (the pointer), its content is a list of bytes;
`Mem` maps allocations to contents.  Reading outside of an allocation is undefined behaviour (`none`).
-/
namespace LogSurgeon

/-- Constants.hpp:30-39 `SymbolId`. -/
def tokenEnd : Nat := 0
def tokenUncaught : Nat := 1
def tokenFirstTimestamp : Nat := 5
def tokenNewlineTimestamp : Nat := 6
def tokenNewline : Nat := 7

/-- Constants.hpp:54-56. -/
def cCharEOF : Nat := 0xFF
def cCharStartOfFile : Nat := 0xFD
/-- `'\n'` -/
def newline : Nat := 10

/-- Contents of the allocations. -/
abbrev Mem := Nat → List Nat

/-- The bytes `[a, b)` of an allocation; `none` if they are not all inside it. -/
def readRange (content : List Nat) (a b : Nat) : Option (List Nat) :=
  if a ≤ b ∧ b ≤ content.length then some ((content.drop a).take (b - a)) else none

/-- Token.hpp:38-44.  `types = none` is the null pointer. -/
structure Token where
  startPos : Nat := 0
  endPos : Nat := 0
  buf : Nat := 0
  bufSize : Nat := 0
  line : Nat := 0
  types : Option (List Nat) := none
  wrap : List Nat := []
deriving Repr, DecidableEq

namespace Token

/-- The wrapped text, Token.cpp:13-14 and 24-25. -/
def wrapText (m : Mem) (t : Token) : Option (List Nat) := do
  let a ← readRange (m t.buf) t.startPos t.bufSize
  let b ← readRange (m t.buf) 0 t.endPos
  pure (a ++ b)

/-- Token.cpp:8-17 `to_string`; the token changes because the wrapped text is cached. -/
def toString (m : Mem) (t : Token) : Option (List Nat × Token) :=
  if t.startPos ≤ t.endPos then (readRange (m t.buf) t.startPos t.endPos).map fun s => (s, t)
  else if t.wrap.isEmpty then (t.wrapText m).map fun s => (s, { t with wrap := s })
  else some (t.wrap, t)

/-- Token.cpp:19-28 `to_string_view`; the same text without copying. -/
def toStringView (m : Mem) (t : Token) : Option (List Nat × Token) :=
  if t.startPos ≤ t.endPos then
    (readRange (m t.buf) t.startPos (t.startPos + (t.endPos - t.startPos))).map fun s => (s, t)
  else if t.wrap.isEmpty then (t.wrapText m).map fun s => (s, { t with wrap := s })
  else some (t.wrap, t)

/-- Token.cpp:30-35 `get_char(uint8_t i)`: the argument is truncated to 8 bits. -/
def getChar (m : Mem) (t : Token) (i : Nat) : Option Nat :=
  let i := i % 256
  if t.startPos + i < t.bufSize then (m t.buf)[t.startPos + i]?
  else if t.bufSize - t.startPos ≤ i ∧ t.startPos ≤ t.bufSize then
    (m t.buf)[i - (t.bufSize - t.startPos)]?
  else none

/-- Token.cpp:37-39 `get_delimiter`. -/
def getDelimiter (m : Mem) (t : Token) : Option (List Nat) :=
  readRange (m t.buf) t.startPos (t.startPos + 1)

/-- Token.cpp:41-46 `get_length`. -/
def getLength (t : Token) : Nat :=
  if t.startPos ≤ t.endPos then t.endPos - t.startPos else t.bufSize - t.startPos + t.endPos

end Token
end LogSurgeon
