import Verif.Model.ReaderParser
/-
The input buffer as a stream: what a user of it (the lexer) relies on.
-/
namespace LogSurgeon

/-- What has happened to an input buffer since `reset`. -/
structure Hist where
  /-- all bytes the reader has produced, in order -/
  bytes : List Nat := []
  /-- how many of them are before the current position -/
  next : Nat := 0
  /-- the user has declared the bytes before this one as consumed -/
  kept : Nat := 0
  /-- the reader has come to its end (also by giving less than asked for) -/
  ended : Bool := false
  /-- at which index the user has to look for a byte -/
  place : Nat → Nat

/-- All ways to use an input buffer: reading if it is safe to do so (the reader gives at least one byte and not more than asked for,
or the end, or an error), getting the next character, going to a byte not yet consumed, declaring
bytes before the current position as consumed, clearing the fully-consumed flag, and growing once the buffer has run out. -/
inductive Uses : InBuf → Hist → Prop
  | start (b : InBuf) (h : Nat) (hh : 0 < h) (hS : b.staticSize = 2 * h) (hm : (b.mem 0).length = b.staticSize) (hn : 0 < b.nextId) :
      Uses b.reset { place := fun i => i % b.staticSize }
  | readBytes {b H} (data : List Nat) : Uses b H → b.readIsSafe = true → data ≠ [] → data.length ≤ b.size / 2 →
      Uses (b.applyRead (.bytes data)).1 { H with bytes := H.bytes ++ data, ended := H.ended || decide (data.length < b.size / 2) }
  | readEnd {b H} : Uses b H → b.readIsSafe = true → Uses (b.applyRead .eof).1 { H with ended := true }
  | readError {b H} : Uses b H → b.readIsSafe = true → Uses (b.applyRead .failure).1 H
  | get {b H} : Uses b H → Uses b.getNext.1 { H with next := if H.next < H.bytes.length then H.next + 1 else H.next }
  | seek {b H} (p : Nat) : Uses b H → H.kept ≤ p → p ≤ H.bytes.length → Uses { b with pos := H.place p } { H with next := p }
  | consume {b H} (c : Nat) : Uses b H → H.kept ≤ c → c ≤ H.next → Uses { b with consumedPos := H.place c } { H with kept := c }
  | clear {b H} : Uses b H → Uses { b with consumed := false } H
  | grow {b H} : Uses b H → b.getNext.2 = .oob → Uses b.increaseCapacity.1
      { H with place := fun i => if i ≤ H.bytes.length then b.size - (H.bytes.length - i)
                                 else (b.size + (i - H.bytes.length)) % (2 * b.size) }

/-- A reader keeps to Reader.hpp:20-27: success means at least one byte, and not more than asked for. -/
def Reader.Good {σ : Type} (r : Reader σ) : Prop :=
  ∀ src n data, 0 < n → (r.read src n).2 = .bytes data → data ≠ [] ∧ data.length ≤ n

/-- The operations of a user that only goes forward. -/
inductive InOp where
  /-- `read_if_safe` -/
  | read
  /-- `get_next_character` -/
  | next
  /-- `set_consumed_pos` with the current position -/
  | consume
  /-- `increase_capacity`, done only when the buffer has run out -/
  | grow
deriving Repr, DecidableEq

/-- Runs the operations; the results are the characters delivered, and the bytes produced by the reader.  (The end of the
input is signalled by the fully-consumed flag, not delivered as a character.) -/
def InBuf.runOps {σ : Type} (r : Reader σ) : List InOp → σ → InBuf → List Nat × List Nat
  | [], _, _ => ([], [])
  | .read :: ops, src, b =>
    let out := runOps r ops (b.readIfSafe r.read src).1 (b.readIfSafe r.read src).2.1
    (out.1, (if b.readIsSafe then (match (r.read src (b.size / 2)).2 with | .bytes d => d | _ => []) else []) ++ out.2)
  | .next :: ops, src, b =>
    let out := runOps r ops src b.getNext.1
    match b.getNext.2 with
    | .char c => if b.getNext.1.consumed then out else (c :: out.1, out.2)
    | _ => out
  | .consume :: ops, src, b => runOps r ops src { b with consumedPos := b.pos }
  | .grow :: ops, src, b => runOps r ops src (if b.getNext.2 = .oob then b.increaseCapacity.1 else b)

end LogSurgeon
