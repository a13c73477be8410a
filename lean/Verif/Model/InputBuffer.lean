import Verif.Model.Token
/-
Model of ParserInputBuffer.{hpp,cpp} over Buffer.hpp (characters).

Simplification: `cStaticByteBuffSize` (48000, Constants.hpp:49) is a parameter `staticSize`;
`uint32_t` positions do not overflow.
-/
namespace LogSurgeon

/-- ParserInputBuffer.hpp:127-138 with the `Buffer<char>` of Buffer.hpp:88-92 inlined.
`mem` holds all allocations: number 0 is the static storage, dynamic storages get fresh numbers
(`nextId`), user buffers any number. -/
structure InBuf where
  mem : Mem
  staticSize : Nat
  active : Nat := 0
  size : Nat
  pos : Nat := 0
  nextId : Nat := 1
  lastRead : Nat := 0
  lrfh : Bool := false
  finished : Bool := false
  consumed : Bool := false
  consumedPos : Nat
  
/-- Result of asking for a character. -/
inductive NextChar where
  | char (c : Nat)
  /-- `ErrorCode::BufferOutOfBounds` -/
  | oob
  /-- read outside of the allocation -/
  | ub
deriving Repr, DecidableEq

namespace InBuf

/-- ParserInputBuffer.cpp:12-19 `reset` with Buffer.hpp:57-62 `Buffer::reset`. -/
def reset (b : InBuf) : InBuf :=
  { b with consumed := false, finished := false, lastRead := 0, lrfh := false,
           pos := 0, active := 0, size := b.staticSize, consumedPos := b.staticSize - 1 }

/-- ParserInputBuffer.hpp member initialisers. -/
def init (mem : Mem) (staticSize nextId : Nat) : InBuf :=
  { mem := mem, staticSize := staticSize, size := staticSize, consumedPos := staticSize - 1,
    nextId := nextId }

/-- ParserInputBuffer.cpp:21-33 `read_is_safe`. -/
def readIsSafe (b : InBuf) : Bool :=
  if b.finished then false
  else (!b.lrfh && b.consumedPos > b.size / 2) ||
    (b.lrfh && b.consumedPos < b.size / 2 && b.consumedPos > 0)

/-- Overwrite part of a list (`std::copy` / the reader writing into the buffer). -/
def overwrite (l : List Nat) (off : Nat) (data : List Nat) : List Nat :=
  l.take off ++ data ++ l.drop (off + data.length)

/-- What `Reader::read` answers (Reader.hpp:18-28). -/
inductive ReadRes where
  /-- Success with these bytes written -/
  | bytes (data : List Nat)
  | eof
  /-- any other error code -/
  | failure
deriving Repr, DecidableEq

/-- ParserInputBuffer.cpp:35-62 `read`, given the reader's answer to the request
`read(active + read_offset, size/2)`.  The flag says whether the error code is Success or
EndOfFile (`true`) or another one. -/
def applyRead (b : InBuf) : ReadRes → InBuf × Bool
  | .eof => ({ b with finished := true }, true)
  | .failure => (b, false)
  | .bytes data =>
    let off := if b.lrfh then b.size / 2 else 0
    let mem := fun i => if i = b.active then overwrite (b.mem i) off data else b.mem i
    let last := b.lastRead + data.length
    ({ b with mem := mem, lrfh := !b.lrfh, finished := b.finished || data.length < b.size / 2,
              lastRead := if last > b.size then last - b.size else last }, true)

/-- ParserInputBuffer.cpp:64-84 `increase_capacity`; also returns `flipped_static_buffer`
(the old size is `b.size`).  `fresh` is the initial content of the new dynamic storage
(`std::vector<char>(2 * size)`: zeros). -/
def increaseCapacity (b : InBuf) : InBuf × Bool :=
  let old := b.mem b.active
  let half := b.size / 2
  let zeros := List.replicate (2 * b.size) 0
  let content :=
    if b.lrfh = false then overwrite zeros 0 (old.take b.size)
    else overwrite (overwrite zeros 0 ((old.drop half).take (b.size - half))) half (old.take half)
  ({ b with mem := fun i => if i = b.nextId then content else b.mem i, active := b.nextId,
            nextId := b.nextId + 1, size := 2 * b.size, lrfh := true,
            lastRead := 2 * b.size - b.size, pos := b.size }, b.lrfh)

/-- ParserInputBuffer.cpp:86-104 `get_next_character`. -/
def getNext (b : InBuf) : InBuf × NextChar :=
  if b.finished && b.pos == b.lastRead then ({ b with consumed := true }, .char cCharEOF)
  else if (b.lrfh && b.pos == b.size / 2) || (!b.lrfh && b.pos == 0) then (b, .oob)
  else
    match (b.mem b.active)[b.pos]? with
    | none => (b, .ub)
    | some c => ({ b with pos := if b.pos + 1 = b.size then 0 else b.pos + 1 }, .char c)

/-- ParserInputBuffer.cpp:110-121 `set_storage`. -/
def setStorage (b : InBuf) (ptr size pos : Nat) (finished : Bool) : InBuf :=
  { b.reset with active := ptr, size := size * 2, pos := pos, finished := finished,
                 lastRead := size, lrfh := true }

end InBuf
end LogSurgeon
