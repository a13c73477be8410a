import Verif.Spec.Events
/-
`BufferParser` with the widths of the C++ types: `parse_next_event` takes a `size_t`, the input buffer works with `uint32_t`.

`Model/LogParser.lean` uses natural numbers.  `set_storage` is the only place where positions are multiplied; all other
positions are obtained by counting up within the buffer.
-/
namespace LogSurgeon

/-- The values of a `uint32_t`. -/
def wide : Nat := 2 ^ 32

/-- ParserInputBuffer.cpp:110-121 `set_storage(char*, uint32_t size, uint32_t pos, bool)`: the arguments are converted to 32 bits
(LogParser.hpp:86-89 has the same types), `size * 2` is a 32-bit product. -/
def InBuf.setStorage32 (b : InBuf) (ptr size pos : Nat) (finished : Bool) : InBuf :=
  { b.reset with active := ptr, size := size % wide * 2 % wide, pos := pos % wide, finished := finished,
                 lastRead := size % wide, lrfh := true }

namespace BufferParser

/-- BufferParser.cpp:21-48 `parse_next_event(char* buf, size_t size, size_t& offset, bool)` with `setStorage32`. -/
def parseNextEvent32 (p : BufferParser) (ptr : Nat) (content : List Nat) (size offset : Nat)
    (finished : Bool) : BufferParser × Nat × Except Fail Unit :=
  let lp := { p.lp with view := p.lp.view.reset }
  let input := { lp.input with mem := fun i => if i = ptr then content else lp.input.mem i }
  let lp := { lp with input := input.setStorage32 ptr size offset finished }
  match lp.parseAndGenerate with
  | (lp, .error e) =>
    let offset := if lp.view.out.pos ≠ 0 then (lp.view.out.get 0).startPos else offset
    ({ p with lp := lp }.reset, offset, .error e)
  | (lp, .ok a) =>
    ({ lp := lp, done := p.done || a == .compressAndFinish }, lp.input.pos, .ok ())

/-- The loop of a client, as `parseAll` in Spec/Events.lean. -/
def parseAll32 : Nat → BufferParser → Nat → List Nat → Nat → Nat → Bool → RunOut
  | 0, p, _, _, _, offset, _ => ⟨[], some .diverge, offset, p⟩
  | k + 1, p, ptr, content, size, offset, fin =>
    match p.parseNextEvent32 ptr content size offset fin with
    | (p, off, .error e) => ⟨[], some e, off, p⟩
    | (p, off, .ok ()) =>
      let o : EventOut := ⟨p.lp.view, p.lp.view.toString p.lp.input.mem, off⟩
      if p.done then ⟨[o], none, off, p⟩
      else { parseAll32 k p ptr content size off fin with events := o :: (parseAll32 k p ptr content size off fin).events }

/-- A parse of one buffer: `reset`, then the loop from offset 0. -/
def parseBuffer32 (k : Nat) (p : BufferParser) (ptr : Nat) (content : List Nat) (size : Nat) (fin : Bool) : RunOut :=
  p.reset.parseAll32 k ptr content size 0 fin

end BufferParser
end LogSurgeon
