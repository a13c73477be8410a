import Verif.Model.Token
/-
The pieces of a log that are lexed independently of each other: each newline begins a new one.
-/
namespace LogSurgeon

/-- A log divided in front of each newline; the pieces put together are the log. -/
def newlinePieces : List Nat → List (List Nat)
  | [] => []
  | c :: rest =>
    match newlinePieces rest with
    | [] => [[c]]
    | p :: ps => if p.head? = some newline then [c] :: p :: ps else (c :: p) :: ps

/-- A text without the newlines in front. -/
def stripNl (w : List Nat) : List Nat := w.dropWhile (· == newline)

end LogSurgeon
