import Verif.Model.LogParser
import Verif.Spec.Automata
/-
What tokens a text has: leftmost-longest matching, stated without positions of any automaton run.
-/
namespace LogSurgeon

/-- The bytes `[a, e)` of `s`. -/
def slice (s : List Nat) (a e : Nat) : List Nat := (s.drop a).take (e - a)

/-- A token as a range of the text with its types. -/
structure PTok where
  a : Nat
  e : Nat
  ty : List Nat
deriving Repr, DecidableEq

/-- The ids of the rules matching exactly the bytes `[a, e)`, optionally preceded by the virtual
start-of-file character. -/
def Lexer.typesOn (L : Lexer) (s : List Nat) (sof : Bool) (a e : Nat) : List Nat :=
  L.dfa.idsOn ((if sof then [cCharStartOfFile] else []) ++ slice s a e)

/-- `[a, e)` is a token candidate: non-empty, some rule matches it, and it is followed by a delimiter or
the end of the text, or it is a single newline. -/
def Lexer.Cand (L : Lexer) (s : List Nat) (sof : Bool) (a e : Nat) : Prop :=
  a < e ∧ e ≤ s.length ∧ L.typesOn s sof a e ≠ [] ∧
  (e = s.length ∨ (∃ c, s[e]? = some c ∧ L.isDelim c = true) ∨ (sof = false ∧ slice s a e = [newline]))

/-- The token is a candidate and its types are all the matching ones; only a token at the beginning of the
text may be matched after the virtual start-of-file character. -/
def Lexer.Recognised (L : Lexer) (s : List Nat) (x : PTok) : Prop :=
  ∃ sof : Bool, (sof = true → x.a = 0) ∧ L.Cand s sof x.a x.e ∧ x.ty = L.typesOn s sof x.a x.e

/-- `[a, e)` is the longest candidate starting at `a`. -/
def Lexer.Longest (L : Lexer) (s : List Nat) (sof : Bool) (a e : Nat) : Prop :=
  L.Cand s sof a e ∧ ∀ e', L.Cand s sof a e' → e' ≤ e

/-- No candidate starts in `[p, a)`. -/
def Lexer.NoneIn (L : Lexer) (s : List Nat) (p a : Nat) : Prop :=
  ∀ x e, p ≤ x → x < a → ¬ L.Cand s false x e

/-- `LexSpec L s p toks`: lexing the text from position `p` gives the tokens `toks`: repeatedly the leftmost,
then longest, candidate; the bytes before it form an uncaught-string token; the end token is last. -/
inductive LexSpec (L : Lexer) (s : List Nat) : Nat → List PTok → Prop
  | done : LexSpec L s s.length [⟨s.length, s.length, [tokenEnd]⟩]
  | rest {p} : p < s.length → L.NoneIn s p s.length →
      LexSpec L s p [⟨p, s.length, [tokenUncaught]⟩, ⟨s.length, s.length, [tokenEnd]⟩]
  | here {p e toks} : L.Longest s false p e → LexSpec L s e toks →
      LexSpec L s p (⟨p, e, L.typesOn s false p e⟩ :: toks)
  | later {p a e toks} : p < a → L.NoneIn s p a → L.Longest s false a e → LexSpec L s e toks →
      LexSpec L s p (⟨p, a, [tokenUncaught]⟩ :: ⟨a, e, L.typesOn s false a e⟩ :: toks)

/-- Lexing a whole text: a candidate after the virtual start-of-file character takes precedence. -/
inductive LexSpecAll (L : Lexer) (s : List Nat) : List PTok → Prop
  | sof {e toks} : L.Longest s true 0 e → LexSpec L s e toks →
      LexSpecAll L s (⟨0, e, L.typesOn s true 0 e⟩ :: toks)
  | plain {toks} : (∀ e, ¬ L.Cand s true 0 e) → LexSpec L s 0 toks → LexSpecAll L s toks

/-- Where lexing really starts if no token is found at the beginning of the text: `h` is the length of the longest prefix without newline
after which a rule could still match, the virtual start-of-file character put in front of it. -/
def Lexer.Hidden (L : Lexer) (s : List Nat) (h : Nat) : Prop :=
  h ≤ s.length ∧ (L.dfa.run 0 (cCharStartOfFile :: s.take h)).isSome ∧ newline ∉ s.take h ∧
  ∀ h', h < h' → h' ≤ s.length → newline ∈ s.take h' ∨ (L.dfa.run 0 (cCharStartOfFile :: s.take h')).isSome = false

/-- No token at the beginning of the text, except that a newline comes before the end of the shortest one. -/
def Lexer.NoStart (L : Lexer) (s : List Nat) : Prop := ∀ e, L.Cand s true 0 e → newline ∈ s.take e

/-- Lexing a whole text, exactly: as `LexSpecAll`, except that a token at the beginning is missed if all of them contain a newline,
and that without one no token begins in the prefix that could have been the beginning of one. -/
inductive LexExact (L : Lexer) (s : List Nat) : List PTok → Prop
  | start {e' e toks} : L.Cand s true 0 e' → newline ∉ s.take e' → L.Longest s true 0 e → LexSpec L s e toks →
      LexExact L s (⟨0, e, L.typesOn s true 0 e⟩ :: toks)
  | done : s = [] → LexExact L s [⟨0, 0, [tokenEnd]⟩]
  | rest {h} : L.NoStart s → L.Hidden s h → 0 < s.length → L.NoneIn s h s.length →
      LexExact L s [⟨0, s.length, [tokenUncaught]⟩, ⟨s.length, s.length, [tokenEnd]⟩]
  | here {e toks} : L.NoStart s → L.Hidden s 0 → L.Longest s false 0 e → LexSpec L s e toks →
      LexExact L s (⟨0, e, L.typesOn s false 0 e⟩ :: toks)
  | later {h a e toks} : L.NoStart s → L.Hidden s h → 0 < a → h ≤ a → L.NoneIn s h a → L.Longest s false a e → LexSpec L s e toks →
      LexExact L s (⟨0, a, [tokenUncaught]⟩ :: ⟨a, e, L.typesOn s false a e⟩ :: toks)

/-- Calling `scan` again and again until the end token (the loop of a client). -/
def Lexer.scanAll (L : Lexer) : Nat → LexState → InBuf → List Token × Option Fail
  | 0, _, _ => ([], some .diverge)
  | k + 1, st, b =>
    match L.scan st b with
    | (_, _, .error e) => ([], some e)
    | (st, b, .ok t) =>
      if t.types = some [tokenEnd] then ([t], none)
      else ((t :: (Lexer.scanAll L k st b).1), (Lexer.scanAll L k st b).2)

/-- How a client starts a lexer on a text: `reset`, `prepend_start_of_file_char`, then the first `size` bytes of the
allocation `ptr` (with content `content`) as storage; `st` and `b` are whatever state lexer and buffer were in. -/
def Lexer.startOn (L : Lexer) (st : LexState) (b : InBuf) (ptr : Nat) (content : List Nat) (size : Nat) (fin : Bool) :
    LexState × InBuf :=
  (L.prependStartOfFile (Lexer.reset st) b.reset,
    ({ b with mem := fun i => if i = ptr then content else b.mem i }).setStorage ptr size 0 fin)

/-- All tokens of the first `size` bytes of `content`, in order, and how the loop ended; `k` bounds the number of calls. -/
def Lexer.lexAll (L : Lexer) (k : Nat) (st : LexState) (b : InBuf) (ptr : Nat) (content : List Nat) (size : Nat)
    (fin : Bool) : List Token × Option Fail :=
  L.scanAll k (L.startOn st b ptr content size fin).1 (L.startOn st b ptr content size fin).2

/-- Tokens as ranges. -/
def Token.range (t : Token) : Option PTok := t.types.map fun ty => ⟨t.startPos, t.endPos, ty⟩

/-- The tokens are contiguous, non-empty, start at `p` and end with the end token at `n`. -/
def Tiles : Nat → Nat → List PTok → Prop
  | _, _, [] => False
  | p, n, [t] => p = n ∧ t = ⟨n, n, [tokenEnd]⟩
  | p, n, t :: ts => t.a = p ∧ p < t.e ∧ t.ty ≠ [tokenEnd] ∧ Tiles t.e n ts

/-- The tokens are contiguous, non-empty, start at `p` and end at `n`; none is an end token. -/
def TilesTo : Nat → Nat → List PTok → Prop
  | p, n, [] => p = n
  | p, n, t :: ts => t.a = p ∧ p < t.e ∧ t.ty ≠ [tokenEnd] ∧ TilesTo t.e n ts

/-- What rules made from a schema satisfy: a newline is a delimiter and a token by itself, no rule matches
the empty string, and apart from rules starting with a newline or the start-of-file character a rule
only matches a delimiter followed by non-delimiters. -/
structure SchemaLike (L : Lexer) : Prop where
  delims : L.hasDelims = true
  nlDelim : L.isDelim newline = true
  nlRule : L.dfa.idsOn [newline] ≠ []
  root : L.dfa.idsOn [] = []
  inner : ∀ c v, (L.dfa.run 0 (c :: v)).isSome → c ≠ newline → c ≠ cCharStartOfFile →
    L.isDelim c = true ∧ ∀ d ∈ v, L.isDelim d = false

/-- The text has no partial match after the virtual start-of-file character that could hide tokens: no rule
can begin to match the text across a newline, and either some rule matches there or no rule can begin to
match there across a delimiter. -/
def SofClear (L : Lexer) (s : List Nat) : Prop :=
  (∀ j, (L.dfa.run 0 (cCharStartOfFile :: s.take j)).isSome → newline ∉ s.take j) ∧
  ((∃ e, L.Cand s true 0 e) ∨
    ∀ j, (L.dfa.run 0 (cCharStartOfFile :: s.take j)).isSome → ∀ d ∈ s.take j, L.isDelim d = false)

end LogSurgeon
