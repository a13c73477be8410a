import Verif.Spec.SchemaText
import Verif.Spec.Pattern
import Verif.Spec.Schema
import Verif.Spec.Events
import Verif.Spec.Reading
/-
What the text of a schema file says about the tokens of a log: Spec/SchemaText.lean says which variables, patterns and delimiters a
schema file declares; here is what follows for a log text.  Nothing of the automata, rules or symbol tables is mentioned, except for
the relation of the reported type ids to the declared names (`Piece.Is`, by `get_symbol_id`).
-/
namespace LogSurgeon

/-- The character occurs among those a pattern is made of; `dot`: does `.` count? -/
def Pat.Mentions (dot : Bool) : Pat → Nat → Prop
  | .lit a, c => c = a
  | .cls negate items, c => if negate then c ≤ cUnicodeMax ∧ ∀ i ∈ items, ¬ i.Has c else ∃ i ∈ items, i.Has c
  | .digit, c => 48 ≤ c ∧ c ≤ 57
  | .wild, c => dot = true ∧ c ≤ cUnicodeMax
  | .space, c => c = 32 ∨ c = 9 ∨ c = 13 ∨ c = 10 ∨ c = 11 ∨ c = 12
  | .cat l r, c | .or l r, c => l.Mentions dot c ∨ r.Mentions dot c
  | .star p, c | .plus p, c | .exact p _, c | .range p _ _, c | .capture p _, c => p.Mentions dot c

/-- The pattern ends in `*` or `+` that is not enclosed in a capture. -/
def Pat.EndsOpen : Pat → Prop
  | .cat _ r => r.EndsOpen
  | .or l r => l.EndsOpen ∨ r.EndsOpen
  | .star _ | .plus _ => True
  | .exact p _ | .range p _ _ => p.EndsOpen
  | _ => False

/-- No alternative of a `|` ends in `*` or `+` (see `C08_refuted` for what happens otherwise). -/
def Pat.NoOpenChoice : Pat → Prop
  | .cat l r => l.NoOpenChoice ∧ r.NoOpenChoice
  | .or l r => ¬ l.EndsOpen ∧ ¬ r.EndsOpen ∧ l.NoOpenChoice ∧ r.NoOpenChoice
  | .star p | .plus p | .exact p _ | .range p _ _ | .capture p _ => p.NoOpenChoice
  | _ => True

/-- The ranges in brackets go upwards and there is no `\s` in brackets (see C43 and C47 for what happens otherwise). -/
def Pat.ClassesUsable : Pat → Prop
  | .cls _ items => ∀ i ∈ items, match i with | .range lo hi => lo < hi | .space => False | _ => True
  | .cat l r | .or l r => l.ClassesUsable ∧ r.ClassesUsable
  | .star p | .plus p | .exact p _ | .range p _ _ | .capture p _ => p.ClassesUsable
  | _ => True

namespace SchemaText

/-- The delimiters: those of the last `delimiters` line. -/
def delimiters (s : SchemaText) : List Nat := s.delims.getLast?.getD []

/-- The patterns have sensible repetitions and usable brackets. -/
def Good (s : SchemaText) : Prop := ∀ v ∈ s.vars, v.2.Sensible ∧ v.2.ClassesUsable

/-- Delimiters are declared, and no variable but the timestamp mentions a delimiter or the byte 0xFD (a negated class does). -/
def Accepted (s : SchemaText) : Prop :=
  s.delims ≠ [] ∧ ∀ v ∈ s.vars, v.1 ≠ "timestamp" → ∀ d, d ∈ s.delimiters ∨ d = 0xFD → ¬ v.2.Mentions false d

/-- `s.Instance text start a e name`: by the schema, the bytes `[a, e)` of the text are an instance of the type `name`; `start`:
of something that has to stand at the beginning of the text.  (Patterns are read as in Spec/Reading.lean; `C48_textbook_partial`
says when this is the usual meaning, with `r*` for `r+`.  In a variable `.` is any character but the delimiters.) -/
inductive Instance (s : SchemaText) (text : List Nat) : Bool → Nat → Nat → String → Prop
  /-- a newline -/
  | newLine {a e} : slice text a e = [10] → Instance s text false a e "newLine"
  /-- a newline and a timestamp -/
  | newLineTimestamp {p a e u} : ("timestamp", p) ∈ s.vars → slice text a e = 10 :: u → p.ReadAs [] u →
      Instance s text false a e "newLineTimestamp"
  /-- a delimiter and a variable -/
  | var {n p a e d u} : (n, p) ∈ s.vars → n ≠ "timestamp" → slice text a e = d :: u → d ∈ s.delimiters →
      p.ReadAs s.delimiters u → Instance s text false a e n
  /-- a timestamp at the beginning of the text -/
  | firstTimestamp {p e} : ("timestamp", p) ∈ s.vars → p.ReadAs [] (slice text 0 e) → Instance s text true 0 e "firstTimestamp"
  /-- a variable at the beginning of the text -/
  | firstVar {n p e} : (n, p) ∈ s.vars → n ≠ "timestamp" → p.ReadAs s.delimiters (slice text 0 e) →
      Instance s text true 0 e n

/-- The same with the usual meaning of the patterns: `s.PlainInstance text start a e name`: by the schema, the bytes `[a, e)` of the text are an instance of the type `name`; `start`:
of something that has to stand at the beginning of the text.  (`r*` is read as `r+`, see `C09_star_refuted`; in a variable `.` is any
character but the delimiters.) -/
inductive PlainInstance (s : SchemaText) (text : List Nat) : Bool → Nat → Nat → String → Prop
  /-- a newline -/
  | newLine {a e} : slice text a e = [10] → PlainInstance s text false a e "newLine"
  /-- a newline and a timestamp -/
  | newLineTimestamp {p a e u} : ("timestamp", p) ∈ s.vars → slice text a e = 10 :: u → p.atLeastOne.Matches u →
      PlainInstance s text false a e "newLineTimestamp"
  /-- a delimiter and a variable -/
  | var {n p a e d u} : (n, p) ∈ s.vars → n ≠ "timestamp" → slice text a e = d :: u → d ∈ s.delimiters →
      (p.dotAs s.delimiters).atLeastOne.Matches u → PlainInstance s text false a e n
  /-- a timestamp at the beginning of the text -/
  | firstTimestamp {p e} : ("timestamp", p) ∈ s.vars → p.atLeastOne.Matches (slice text 0 e) → PlainInstance s text true 0 e "firstTimestamp"
  /-- a variable at the beginning of the text -/
  | firstVar {n p e} : (n, p) ∈ s.vars → n ≠ "timestamp" → (p.dotAs s.delimiters).atLeastOne.Matches (slice text 0 e) →
      PlainInstance s text true 0 e n

/-- `[a, e)` may be a token: it is an instance of something, and it is followed by a delimiter or the end of the text, or is a
newline. -/
def Cand (s : SchemaText) (text : List Nat) (start : Bool) (a e : Nat) : Prop :=
  a < e ∧ e ≤ text.length ∧ (∃ n, s.Instance text start a e n) ∧
  (e = text.length ∨ (∃ d ∈ s.delimiters, text[e]? = some d) ∨ (start = false ∧ slice text a e = [10]))

/-- The longest one beginning at `a`. -/
def Longest (s : SchemaText) (text : List Nat) (start : Bool) (a e : Nat) : Prop :=
  s.Cand text start a e ∧ ∀ e', s.Cand text start a e' → e' ≤ e

/-- None begins in `[p, a)`. -/
def NoneIn (s : SchemaText) (text : List Nat) (p a : Nat) : Prop := ∀ x e, p ≤ x → x < a → ¬ s.Cand text false x e

/-- What a piece of the text is. -/
inductive Kind where
  /-- static text -/
  | static
  /-- an instance of something, at the beginning of the text or anywhere -/
  | token (start : Bool)
  /-- the end of the text -/
  | finish

/-- A piece of the text. -/
structure Piece where
  a : Nat
  e : Nat
  kind : Kind

/-- `s.Pieces text p ps`: the text from position `p` on is divided into `ps`: repeatedly the leftmost, then longest token; what is
before it is static text. -/
inductive Pieces (s : SchemaText) (text : List Nat) : Nat → List Piece → Prop
  | done : Pieces s text text.length [⟨text.length, text.length, .finish⟩]
  | rest {p} : p < text.length → s.NoneIn text p text.length →
      Pieces s text p [⟨p, text.length, .static⟩, ⟨text.length, text.length, .finish⟩]
  | here {p e ps} : s.Longest text false p e → Pieces s text e ps → Pieces s text p (⟨p, e, .token false⟩ :: ps)
  | later {p a e ps} : p < a → s.NoneIn text p a → s.Longest text false a e → Pieces s text e ps →
      Pieces s text p (⟨p, a, .static⟩ :: ⟨a, e, .token false⟩ :: ps)

/-- Something could begin with the first `j` bytes of the text: they can be continued (by bytes other than 0xFD) to an instance of a
timestamp or variable. -/
def Opens (s : SchemaText) (text : List Nat) (j : Nat) : Prop :=
  ∃ v n, (∀ c ∈ v, c < 256 ∧ c ≠ 0xFD) ∧ s.Instance (text.take j ++ v) true 0 (text.take j ++ v).length n

/-- The beginning in which no token is looked for if nothing is recognised there: the longest prefix without newline with which
something could begin. -/
def Hidden (s : SchemaText) (text : List Nat) (h : Nat) : Prop :=
  h ≤ text.length ∧ s.Opens text h ∧ 10 ∉ text.take h ∧ ∀ h', h < h' → h' ≤ text.length → 10 ∈ text.take h' ∨ ¬ s.Opens text h'

/-- Everything recognised at the beginning of the text contains a newline. -/
def NoStart (s : SchemaText) (text : List Nat) : Prop := ∀ e, s.Cand text true 0 e → 10 ∈ text.take e

/-- The division of the whole text: something at the beginning of the text, if it is recognised there before a newline, takes
precedence (`start`); otherwise the tokens are looked for after the prefix of which it could not be said yet that nothing begins there
(`Hidden`). -/
inductive Division (s : SchemaText) (text : List Nat) : List Piece → Prop
  | start {e' e ps} : s.Cand text true 0 e' → 10 ∉ text.take e' → s.Longest text true 0 e → Pieces s text e ps →
      Division s text (⟨0, e, .token true⟩ :: ps)
  | done : text = [] → Division s text [⟨0, 0, .finish⟩]
  | rest {h} : s.NoStart text → s.Hidden text h → 0 < text.length → s.NoneIn text h text.length →
      Division s text [⟨0, text.length, .static⟩, ⟨text.length, text.length, .finish⟩]
  | here {e ps} : s.NoStart text → s.Hidden text 0 → s.Longest text false 0 e → Pieces s text e ps →
      Division s text (⟨0, e, .token false⟩ :: ps)
  | later {h a e ps} : s.NoStart text → s.Hidden text h → 0 < a → h ≤ a → s.NoneIn text h a → s.Longest text false a e →
      Pieces s text e ps → Division s text (⟨0, a, .static⟩ :: ⟨a, e, .token false⟩ :: ps)

/-- The division one would expect: something at the beginning of the text takes precedence. -/
inductive SimpleDivision (s : SchemaText) (text : List Nat) : List Piece → Prop
  | start {e ps} : s.Longest text true 0 e → Pieces s text e ps → SimpleDivision s text (⟨0, e, .token true⟩ :: ps)
  | plain {ps} : (∀ e, ¬ s.Cand text true 0 e) → Pieces s text 0 ps → SimpleDivision s text ps

/-- The reported token is this piece: same bytes, and its types are the ids of the names the schema gives it. -/
def Piece.Is (s : SchemaText) (id : String → Option Nat) (text : List Nat) (q : Piece) (x : PTok) : Prop :=
  x.a = q.a ∧ x.e = q.e ∧
  match q.kind with
  | .static => x.ty = [tokenUncaught]
  | .finish => x.ty = [tokenEnd]
  | .token start => ∀ i, i ∈ x.ty ↔ ∃ n, id n = some i ∧ s.Instance text start q.a q.e n

/-- What stands at the beginning of the text and could be the beginning of something contains no newline, and no delimiter unless
something is recognised there. -/
def StartClear (s : SchemaText) (text : List Nat) : Prop :=
  ∀ j, s.Opens text j → 10 ∉ text.take j ∧ ((∃ e, s.Cand text true 0 e) ∨ ∀ d ∈ text.take j, d ∉ s.delimiters)

end SchemaText

/-- The parser after any number of parses of whole buffers (until done, or until out of bytes). -/
inductive BufferParser.Used (p : BufferParser) : BufferParser → Prop
  | new : p.Used p
  | parsed {q : BufferParser} {k ptr content size fin} : p.Used q → size ≤ content.length → (fin = true → size < content.length) → size < k →
      p.Used (q.parseBuffer k ptr content size fin).parser

end LogSurgeon
