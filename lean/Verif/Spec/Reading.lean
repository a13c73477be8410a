import Verif.Spec.Pattern
import Verif.Spec.Schema
/-
What the automaton built for a schema regex accepts, for every regex, directly on the syntax.  The automaton for an expression has one
state where the expression ends, and an unbounded repetition at the end of the expression is a loop on that state, which stays open for
everything else that ends there (`a+|b` accepts `baa`).  So an expression is described by two sets of strings: `once`, the strings that
lead to the end, and `again`, the strings that may follow then, any number of times.
-/
namespace LogSurgeon

/-- The strings that lead to the end, and the strings that may follow there any number of times. -/
structure Reading where
  once : List Nat → Prop
  again : List Nat → Prop

namespace Reading

/-- All strings: one of `once`, then any number of `again`. -/
def whole (r : Reading) (s : List Nat) : Prop := ∃ u v k, s = u ++ v ∧ r.once u ∧ Repeat r.again k v

/-- One character of the given kind; nothing may follow. -/
def one (P : Nat → Prop) : Reading := ⟨fun s => ∃ c, s = [c] ∧ P c, fun _ => False⟩

/-- The same strings, but nothing may follow (a capture, or an alternative of one, has its own end). -/
def closed (r : Reading) : Reading := ⟨r.whole, fun _ => False⟩

/-- First one, then the other: what may follow the second may follow the whole. -/
def andThen (l r : Reading) : Reading := ⟨fun s => ∃ u v, s = u ++ v ∧ l.whole u ∧ r.once v, r.again⟩

/-- Alternatives end in the same place: what may follow one of them may follow the other too. -/
def either (l r : Reading) : Reading := ⟨fun s => l.once s ∨ r.once s, fun s => l.again s ∨ r.again s⟩

/-- Repetitions: `lo` times, or a number of times between `lo` and `hi`; if `hi = 0`, the expression may follow any number of times. -/
def repeated (r : Reading) (lo hi : Nat) : Reading :=
  ⟨fun s => (lo = 0 ∧ s = []) ∨ ∃ k u v, lo ≤ k + 1 ∧ (k + 1 ≤ lo ∨ k + 1 ≤ hi) ∧ s = u ++ v ∧ Repeat r.whole k u ∧ r.once v,
   fun s => r.again s ∨ (hi = 0 ∧ r.once s)⟩

end Reading

/-- There is a capture in the expression. -/
def Pat.hasCapture : Pat → Bool
  | .cat l r | .or l r => l.hasCapture || r.hasCapture
  | .star p | .plus p | .exact p _ | .range p _ _ => p.hasCapture
  | .capture _ _ => true
  | _ => false

/-- The number written in a repetition, as the parser computes it (in 32 bits). -/
def written (n : List Nat) : Nat := decimal n % 2 ^ 32

/-- How the library reads a schema regex; `dot` are the characters a `.` stands for.  Compare `Pat.Matches`: `r*` is `r+`, `r{0,m}` is
`r{1,m}`, an upper bound of 0 is no bound, an upper bound below the lower one is ignored, `[^]` is nothing, and alternatives share what may follow
(unless there is a capture in the other one). -/
def Pat.reading (dot : Nat → Prop) : Pat → Reading
  | .lit a => .one fun c => c = a
  | .cls false items => .one fun c => ∃ i ∈ items, i.Has c
  | .cls true items => .one fun c => items ≠ [] ∧ ∀ i ∈ items, ¬ i.Has c
  | .digit => .one fun c => 48 ≤ c ∧ c ≤ 57
  | .wild => .one dot
  | .space => .one fun c => c = 32 ∨ c = 9 ∨ c = 13 ∨ c = 10 ∨ c = 11 ∨ c = 12
  | .cat l r => (l.reading dot).andThen (r.reading dot)
  | .or l r => (if r.hasCapture then (l.reading dot).closed else l.reading dot).either
      (if l.hasCapture then (r.reading dot).closed else r.reading dot)
  | .star p => (p.reading dot).repeated 1 0
  | .plus p => (p.reading dot).repeated 1 0
  | .exact p n => (p.reading dot).repeated (written n) (written n)
  | .range p n m => (p.reading dot).repeated (max 1 (written n)) (written m)
  | .capture p _ => (p.reading dot).closed

/-- The strings the library reads as instances of the regex; `.` is any character but those in `ds`. -/
def Pat.ReadAs (ds : List Nat) (p : Pat) (s : List Nat) : Prop := (p.reading fun c => c ∉ ds).whole s

/-- What the parser made from a schema takes a text for: `s.Takes name w`, the text `w` is reported with the type `name`.  `w` starts with the
delimiter in front of a variable, or with the virtual start-of-file character for something at the beginning of the input.  (Compare `Gives`, which
has the textbook meaning of the regexes instead.) -/
inductive SchemaAST.Takes (s : SchemaAST) : String → List Nat → Prop
  | newLine : s.Takes "newLine" [newline]
  | firstTimestamp {v : SchemaVar} {p : Pat} {u : List Nat} : v ∈ s.vars → v.name = "timestamp" → p.elab = some v.regex → p.ReadAs [] u →
      s.Takes "firstTimestamp" (cCharStartOfFile :: u)
  | newLineTimestamp {v : SchemaVar} {p : Pat} {u : List Nat} : v ∈ s.vars → v.name = "timestamp" → p.elab = some v.regex → p.ReadAs [] u →
      s.Takes "newLineTimestamp" (newline :: u)
  | var {v : SchemaVar} {p : Pat} {d : Nat} {u : List Nat} : v ∈ s.vars → v.name ≠ "timestamp" → p.elab = some v.regex → s.IsDelim d →
      p.ReadAs s.delimBytes u → s.Takes v.name (d :: u)

end LogSurgeon
