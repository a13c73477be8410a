import Verif.Model.FileReader
/-
What reading a file in pieces means, independently of how the reader does it.
-/
namespace LogSurgeon

/-- `ls` are the lines of `content` with the terminator `delim`: together they are the content, each is non-empty and has no
terminator before its end, and each but possibly the last ends with the terminator. -/
structure IsLines (delim : Nat) (content : List Nat) (ls : List (List Nat)) : Prop where
  all : ls.flatten = content
  nonempty : ∀ l ∈ ls, l ≠ []
  inner : ∀ l ∈ ls, delim ∉ l.dropLast
  ends : ∀ l ∈ ls.dropLast, l.getLast? = some delim

/-- A line without its terminator. -/
def stripEnd (delim : Nat) (l : List Nat) : List Nat := if l.getLast? = some delim then l.dropLast else l

/-- The requests of a client that keeps what it reads. -/
inductive FileOp where
  | read (n : Nat)
  | line (delim : Nat)
deriving Repr, DecidableEq

/-- One request: the answer's code and the bytes delivered. -/
def FileReader.op (r : FileReader) : FileOp → Option (FileReader × FileCode × List Nat)
  | .read n => some (r.read false n)
  | .line d => r.tryReadToDelimiter d true false []

/-- A history of requests, with the answers. -/
def FileReader.run (r : FileReader) : List FileOp → Option (FileReader × List (FileCode × List Nat))
  | [] => some (r, [])
  | o :: os =>
    match r.op o with
    | none => none
    | some (r, c, d) =>
      match r.run os with
      | none => none
      | some (r, l) => some (r, (c, d) :: l)

/-- `while (Success == reader.try_read_to_delimiter(delim, keep, false, line)) lines.push_back(line)`, at most `k` rounds;
`none`: still not finished, or a failed assertion. -/
def FileReader.readLines (delim : Nat) (keep : Bool) : Nat → FileReader → List Nat → Option (List (List Nat))
  | 0, _, _ => none
  | k + 1, r, line =>
    match r.tryReadToDelimiter delim keep false line with
    | none => none
    | some (_, .endOfFile, _) => some []
    | some (r, _, line) => (readLines delim keep k r line).map (line :: ·)

end LogSurgeon
