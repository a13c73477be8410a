import Verif.Spec.Events
import Verif.Model.LogEvent
/-
What a token stands for, what can be seen of it, and the logtype of an event.
-/
namespace LogSurgeon

/-! ### Tokens -/

/-- The text a token stands for: a range of its buffer, or, if the end is before the start, the range that goes on at the
beginning of the (circular) buffer. -/
def Token.Stands (m : Mem) (t : Token) (text : List Nat) : Prop :=
  if t.startPos ≤ t.endPos then text = slice (m t.buf) t.startPos t.endPos
  else text = slice (m t.buf) t.startPos t.bufSize ++ slice (m t.buf) 0 t.endPos

/-- The token is inside its buffer, and the cached text of a wrapped token is absent or right. -/
structure Token.Valid (m : Mem) (t : Token) : Prop where
  inside : t.endPos ≤ t.bufSize ∧ t.endPos ≤ (m t.buf).length
  wraps : t.endPos < t.startPos → t.startPos < t.bufSize ∧ t.bufSize ≤ (m t.buf).length
  cache : t.endPos < t.startPos → t.wrap = [] ∨ t.Stands m t.wrap

/-- What can be seen of a token: its types and its text. -/
def Token.seen (m : Mem) (t : Token) : Option (List Nat) × Option (List Nat) := (t.types, (t.toStringView m).map (·.1))

/-! ### Logtype -/

/-- What a token contributes to the logtype: static text itself; a newline `<newLine>`; a variable its first character and its
type in angle brackets. -/
def PTok.logtype (s : List Nat) (names : Nat → Option String) (x : PTok) : List Nat :=
  if x.kind = tokenUncaught then x.text s
  else
    (if x.kind = tokenNewline then [] else (x.text s).take 1) ++
      EventView.nameBytes ("<" ++ (names x.kind).getD "" ++ ">")

end LogSurgeon
