import Verif.Spec.EndToEnd
import Verif.Spec.ErrorMessage
/-
What is wrong with a schema whose variables contain delimiters, and what the message about it should say (C64).
-/
namespace LogSurgeon

namespace SchemaText

/-- The variable (which is not the timestamp) mentions the delimiter, or the byte 0xFD, which counts as one. -/
def Offends (s : SchemaText) (v : String × Pat) (d : Nat) : Prop :=
  v.1 ≠ "timestamp" ∧ (d ∈ s.delimiters ∨ d = 0xFD) ∧ v.2.Mentions false d

/-- The `i`-th variable (counted from zero) is the first one that mentions a delimiter, it is called `name`, and `d` is the least delimiter it
mentions. -/
structure FirstOffence (s : SchemaText) (i : Nat) (name : String) (d : Nat) : Prop where
  here : ∃ p, s.vars[i]? = some (name, p) ∧ s.Offends (name, p) d ∧ ∀ d', s.Offends (name, p) d' → d ≤ d'
  first : ∀ (j : Nat) v, j < i → s.vars[j]? = some v → ∀ d', ¬ s.Offends v d'

end SchemaText

/-- `PATH:LINE: error: 'NAME' has regex pattern which contains delimiter 'D'.`; lines are counted from one. -/
def delimiterComplaint (path : List Nat) (line : Nat) (name : String) (d : Nat) : List Nat :=
  path ++ asciiBytes ":" ++ asciiBytes (toString line) ++ asciiBytes ": error: '" ++ asciiBytes name ++
    asciiBytes "' has regex pattern which contains delimiter '" ++ [d] ++ asciiBytes "'.\n"

/-- The line `name:pattern` (`name` may have spaces around it), indented, and below it arrows that mark the pattern. -/
def markedLine (name pattern : List Nat) : List Nat :=
  asciiBytes "          " ++ name ++ asciiBytes ":" ++ pattern ++ asciiBytes "\n" ++
    asciiBytes "          " ++ List.replicate (name.length + 1) 32 ++ List.replicate pattern.length 94 ++ asciiBytes "\n"

/-- The numbers (from zero) of the lines that declare variables. -/
def declaredLines (ls : List Lexeme) : List Nat :=
  (unitLines ls).zipIdx.filterMap fun x => if Declares x.1 then some x.2 else none

/-- The line is the declaration of the variable (it may have a carriage return at its end). -/
def DeclaresVar (x : List Lexeme) (v : String × Pat) : Prop :=
  ∃ k y, (x = y ∨ x = y ++ [.char 13]) ∧ WrittenLine k y { vars := [v] }

end LogSurgeon
