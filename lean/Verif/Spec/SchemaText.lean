import Verif.Model.SchemaRegex
import Verif.Model.Schema
import Verif.Model.SchemaEval
import Mathlib.Data.List.Forall2
/-
The syntax of schema files, character by character, with the meaning of each construct: what docs/schema.md describes, made
precise.  It refers to the abstract syntax of patterns (`Pat`, whose meaning is `Pat.Matches` in Spec/Pattern.lean) and to
nothing else of the model.
-/
namespace LogSurgeon

/-- Letters and digits. -/
def AlphaNum (c : Nat) : Prop := (97 ≤ c ∧ c ≤ 122) ∨ (65 ≤ c ∧ c ≤ 90) ∨ (48 ≤ c ∧ c ≤ 57)

/-- The characters that stand for themselves in a regex: letters, digits, space and ``! " # $ % & ' , / : ; = @ _ ` ~``. -/
def Plain (c : Nat) : Prop := AlphaNum c ∨ c ∈ [32, 33, 34, 35, 36, 37, 38, 39, 44, 47, 58, 59, 61, 64, 95, 96, 126]

/-- The characters that have to be escaped: `( ) * + - . [ ] \ ^ { } | < > ?`. -/
def Special (c : Nat) : Prop := c ∈ [40, 41, 42, 43, 45, 46, 91, 93, 92, 94, 123, 125, 124, 60, 62, 63]

/-- One character as written: itself, an escaped special character, or `\t \n \v \f \r`. -/
inductive WrittenChar : List Nat → Nat → Prop
  | plain {c} : Plain c → WrittenChar [c] c
  | escaped {c} : Special c → WrittenChar [92, c] c
  | tab : WrittenChar [92, 116] 9
  | newline : WrittenChar [92, 110] 10
  | verticalTab : WrittenChar [92, 118] 11
  | formFeed : WrittenChar [92, 102] 12
  | carriageReturn : WrittenChar [92, 114] 13

/-- Names of variables and captures. -/
def IsName (n : List Nat) : Prop := n ≠ [] ∧ ∀ c ∈ n, AlphaNum c

/-- A numeral, most significant digit first. -/
def IsNumeral (ds : List Nat) : Prop := ds ≠ [] ∧ ∀ d ∈ ds, d ≤ 9

/-- How a numeral is written. -/
def digitsText (ds : List Nat) : List Nat := ds.map (48 + ·)

/-- The levels of the syntax of patterns, from the tightest to the loosest. -/
inductive Level where
  /-- a character or something in parentheses -/
  | literal
  /-- an item of a bracket expression -/
  | item
  /-- a bracket expression without its closing bracket -/
  | openClass
  /-- what can be repeated -/
  | single
  /-- something with a repetition -/
  | repeated
  /-- alternatives -/
  | choice
  /-- a sequence: the whole pattern -/
  | seq

/-- `Written l k w p`: the text `w`, which stands at position `k` of the file, is the pattern `p` at level `l`.  Alternatives bind
tighter than sequences, and the second alternative is a character or parenthesised. -/
inductive Written : Level → Nat → List Nat → Pat → Prop
  | char {k w c} : WrittenChar w c → Written .literal k w (.lit c)
  /-- `(p)` -/
  | parens {k w p} : Written .seq (k + 1) w p → Written .literal k (40 :: w ++ [41]) p
  /-- `(?<name>p)`; the capture is identified by its position. -/
  | capture {k n w p} : IsName n → Written .seq (k + n.length + 4) w p →
      Written .literal k ([40, 63, 60] ++ n ++ 62 :: w ++ [41]) (.capture p ⟨k, asString n⟩)
  | itemChar {k w c} : Written .literal k w (.lit c) → Written .item k w (.cls false [.lit c])
  /-- `a-b` -/
  | itemRange {k u v a b} : Written .literal k u (.lit a) → Written .literal (k + u.length + 1) v (.lit b) →
      Written .item k (u ++ 45 :: v) (.cls false [.range a b])
  /-- `\d` -/
  | itemDigit {k} : Written .item k [92, 100] (.cls false [.digit])
  /-- `\s` -/
  | itemSpace {k} : Written .item k [92, 115] (.cls false [.space])
  /-- `[` and a first item -/
  | opened {k w i} : Written .item (k + 1) w (.cls false [i]) → Written .openClass k (91 :: w) (.cls false [i])
  /-- `[^` -/
  | openedHat {k} : Written .openClass k [91, 94] (.cls true [])
  /-- one more item -/
  | more {k u v n is i} : Written .openClass k u (.cls n is) → Written .item (k + u.length) v (.cls false [i]) →
      Written .openClass k (u ++ v) (.cls n (is ++ [i]))
  | ofLiteral {k w p} : Written .literal k w p → Written .single k w p
  /-- `]` -/
  | closed {k w p} : Written .openClass k w p → Written .single k (w ++ [93]) p
  /-- `\d` -/
  | digit {k} : Written .single k [92, 100] .digit
  /-- `\s` -/
  | space {k} : Written .single k [92, 115] .space
  /-- `.` -/
  | wild {k} : Written .single k [46] .wild
  /-- `p*` -/
  | star {k w p} : Written .single k w p → Written .repeated k (w ++ [42]) (.star p)
  /-- `p+` -/
  | plus {k w p} : Written .single k w p → Written .repeated k (w ++ [43]) (.plus p)
  /-- `p{n}` -/
  | exact {k w p n} : Written .single k w p → IsNumeral n → Written .repeated k (w ++ 123 :: digitsText n ++ [125]) (.exact p n)
  /-- `p{n,m}` -/
  | range {k w p n m} : Written .single k w p → IsNumeral n → IsNumeral m →
      Written .repeated k (w ++ 123 :: digitsText n ++ 44 :: digitsText m ++ [125]) (.range p n m)
  | ofSingle {k w p} : Written .single k w p → Written .choice k w p
  | ofRepeated {k w p} : Written .repeated k w p → Written .choice k w p
  /-- `p|q` -/
  | or {k u v p q} : Written .choice k u p → Written .literal (k + u.length + 1) v q → Written .choice k (u ++ 124 :: v) (.or p q)
  | ofChoice {k w p} : Written .choice k w p → Written .seq k w p
  /-- `pq` -/
  | cat {k u v p q} : Written .seq k u p → Written .choice (k + u.length) v q → Written .seq k (u ++ v) (.cat p q)

/-- A list of characters as written, one after the other. -/
inductive WrittenChars : Nat → List Nat → List Nat → Prop
  | one {k w c} : Written .literal k w (.lit c) → WrittenChars k w [c]
  | snoc {k u v cs c} : WrittenChars k u cs → Written .literal (k + u.length) v (.lit c) → WrittenChars k (u ++ v) (cs ++ [c])

/-! ### Files

The word `delimiters` is a keyword wherever it occurs. -/

/-- A unit of the text. -/
inductive Lexeme where
  | char (c : Nat)
  /-- the keyword -/
  | delimiters
deriving Repr, DecidableEq

/-- `delimiters` -/
def delimitersWord : List Nat := [100, 101, 108, 105, 109, 105, 116, 101, 114, 115]

/-- The text of a unit. -/
def Lexeme.text : Lexeme → List Nat
  | .char c => [c]
  | .delimiters => delimitersWord

/-- The text of several units. -/
def textOf (ls : List Lexeme) : List Nat := ls.flatMap Lexeme.text

/-- The units of a text without keyword. -/
def chars (w : List Nat) : List Lexeme := w.map Lexeme.char

/-- A text cut into units: the keyword where it occurs, single characters elsewhere.  `lexemesFrom n`: the first `n` characters belong
to the previous unit. -/
def lexemesFrom : Nat → List Nat → List Lexeme
  | _, [] => []
  | 0, c :: r => if delimitersWord.isPrefixOf (c :: r) then .delimiters :: lexemesFrom 9 r else .char c :: lexemesFrom 0 r
  | n + 1, _ :: r => lexemesFrom n r

/-- A text cut into units. -/
def lexemes (w : List Nat) : List Lexeme := lexemesFrom 0 w

/-- What a schema says: the variables with their patterns and the `delimiters` lines, both from top to bottom. -/
structure SchemaText where
  vars : List (String × Pat) := []
  delims : List (List Nat) := []

/-- `WrittenLine k ls s`: the units `ls`, at position `k` of the file, are a line with the content `s`. -/
inductive WrittenLine : Nat → List Lexeme → SchemaText → Prop
  /-- `//` and any nonempty text -/
  | comment {k ls} : ls ≠ [] → (∀ l ∈ ls, l ≠ .char 10 ∧ l ≠ .char 13) → WrittenLine k (chars [47, 47] ++ ls) {}
  /-- spaces, a name, a colon, a pattern -/
  | var {k i n w p} : IsName n → Written .seq (k + i + n.length + 1) w p →
      WrittenLine k (chars (List.replicate i 32 ++ n ++ 58 :: w)) { vars := [(asString n, p)] }
  /-- `delimiters:` and characters -/
  | delims {k w cs} : WrittenChars (k + 11) w cs → WrittenLine k (.delimiters :: chars (58 :: w)) { delims := [cs] }

/-- `\n` or `\r\n` -/
def WrittenNewline (ls : List Lexeme) : Prop := ls = chars [10] ∨ ls = chars [13, 10]

/-- `WrittenFile k ls s`: the units, from position `k` on, are a schema file: lines separated by newlines; any line but the
first may be empty. -/
inductive WrittenFile : Nat → List Lexeme → SchemaText → Prop
  | first {k ls s} : WrittenLine k ls s → WrittenFile k ls s
  | blank {k ls nl s} : WrittenFile k ls s → WrittenNewline nl → WrittenFile k (ls ++ nl) s
  | line {k ls nl ls' s s'} : WrittenFile k ls s → WrittenNewline nl → WrittenLine (k + (textOf (ls ++ nl)).length) ls' s' →
      WrittenFile k (ls ++ nl ++ ls') { vars := s.vars ++ s'.vars, delims := s.delims ++ s'.delims }

/-! ### Room

The parser enters the children of the nodes of its tree, at most five for each unit, into an array of 10000 entries; when it is through
with a line that declares a variable, other than the first line, and more than 5000 entries are used, it starts again at the front. -/

/-- The lines. -/
def unitLines : List Lexeme → List (List Lexeme)
  | [] => [[]]
  | .char 10 :: r => [] :: unitLines r
  | l :: r =>
    match unitLines r with
    | x :: xs => (l :: x) :: xs
    | [] => [[l]]

/-- The line is not empty, a comment or a `delimiters` line. -/
def Declares : List Lexeme → Bool
  | .char c :: _ => c != 47 && c != 13
  | _ => false

/-- `LinesFit k xs`: there is room for the lines `xs`, none of them the first, if at most `k` entries are used before (two units more than the line
has: the end of the line before). -/
def LinesFit (k : Nat) : List (List Lexeme) → Prop
  | [] => True
  | x :: xs => k + 5 * (x.length + 2) ≤ 10000 ∧
      LinesFit (if Declares x then min (k + 5 * (x.length + 2)) 5000 else k + 5 * (x.length + 2)) xs

instance decLinesFit : ∀ k xs, Decidable (LinesFit k xs)
  | _, [] => inferInstanceAs (Decidable True)
  | k, x :: xs =>
    have := decLinesFit (if Declares x then min (k + 5 * (x.length + 2)) 5000 else k + 5 * (x.length + 2)) xs
    inferInstanceAs (Decidable (_ ∧ _))

/-- There is room for a text of these units if `k` entries are used before: so many units are allowed in the first line and in the lines from one
variable to the next. -/
def Fit (k : Nat) (ls : List Lexeme) : Prop :=
  match unitLines ls with
  | x :: xs => k + 5 * x.length ≤ 10000 ∧ LinesFit (k + 5 * x.length) xs
  | [] => True

instance (k : Nat) (ls : List Lexeme) : Decidable (Fit k ls) := by unfold Fit; split <;> infer_instance

/-- The AST has the variables of the schema in order, each with the regex built from its pattern (`Pat.elab`), and its
delimiters. -/
def SchemaText.Builds (s : SchemaText) (a : SchemaAST) : Prop :=
  a.delims = s.delims ∧ List.Forall₂ (fun v x => x.name = v.1 ∧ v.2.elab = some x.regex) s.vars a.vars

/-- What a text may contain although the parser is not prepared for it. -/
inductive Faulty (ls : List Lexeme) : Prop
  /-- a range `a-b` whose end is not above its beginning -/
  | range {pre u v post k k' a b} : ls = pre ++ chars (u ++ 45 :: v) ++ post → Written .literal k u (.lit a) → Written .literal k' v (.lit b) →
      b ≤ a → Faulty ls
  /-- a number of more than ten digits behind `{` or `,` -/
  | count {pre c ds post} : ls = pre ++ chars (c :: digitsText ds) ++ post → c = 123 ∨ c = 44 → IsNumeral ds → 10 < ds.length → Faulty ls
  /-- the keyword, and something in parentheses that is not a character -/
  | delims {pre w post k p} : .delimiters ∈ ls → ls = pre ++ chars w ++ post → Written .literal k w p → (∀ c, p ≠ .lit c) → Faulty ls

/-- What a text may contain although the parser throws an exception because of it: something in parentheses that is not a character, or `\s`, in brackets. -/
inductive Unsuitable (ls : List Lexeme) : Prop
  /-- an opening bracket, and something in parentheses that is not a character -/
  | item {pre w post k p} : .char 91 ∈ ls → ls = pre ++ chars w ++ post → Written .literal k w p → (∀ c, p ≠ .lit c) → Unsuitable ls
  /-- an opening bracket, and `\s` -/
  | space {pre post} : .char 91 ∈ ls → ls = pre ++ chars [92, 115] ++ post → Unsuitable ls
  /-- an end of a range that is something in parentheses but not a character -/
  | rangeEnd {pre w post k p} : ls = pre ++ chars w ++ post → Written .literal k w p → (∀ c, p ≠ .lit c) →
      (pre.getLast? = some (.char 45) ∨ post.head? = some (.char 45)) → Unsuitable ls

end LogSurgeon
