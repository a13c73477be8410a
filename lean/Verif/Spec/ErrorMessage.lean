import Verif.Spec.SchemaText
/-
What a message about a syntax error in a schema file should say (C47).  Independent of the model.
-/
namespace LogSurgeon

/-- The bytes of a text. -/
def asciiBytes (s : String) : List Nat := s.toList.map Char.toNat

/-- The character ends a line. -/
def endsLine (c : Nat) : Bool := c == 10 || c == 13

/-- The part of the line before a position: what follows the last line end. -/
def lineBefore (before : List Nat) : List Nat := (before.reverse.takeWhile fun c => !endsLine c).reverse

/-- The part of the line after a position: what precedes the next line end. -/
def lineAfter (after : List Nat) : List Nat := after.takeWhile fun c => !endsLine c

/-- The number of the line in which something with `before` before it stands; lines are counted from one. -/
def lineNumber (before : List Nat) : Nat := before.count 10 + 1

/-- How a character is written in a message. -/
def shown (c : Nat) : List Nat :=
  if c = 9 then asciiBytes "\\t" else if c = 10 then asciiBytes "\\n" else if c = 11 then asciiBytes "\\v" else if c = 12 then asciiBytes "\\f"
  else if c = 13 then asciiBytes "\\r" else [c]

/-- `Schema:LINE:COLUMN: error: `, lines and columns counted from one. -/
def messageHead (line column : Nat) : List Nat :=
  asciiBytes "Schema:" ++ asciiBytes (toString line) ++ asciiBytes ":" ++ asciiBytes (toString column) ++ asciiBytes ": error: "

/-- Names, quoted and separated by commas. -/
def quotedList : List (List Nat) → List Nat
  | [] => []
  | [x] => asciiBytes "'" ++ x ++ asciiBytes "'"
  | x :: y :: xs => asciiBytes "'" ++ x ++ asciiBytes "'," ++ quotedList (y :: xs)

/-- What was expected. -/
def expectedPhrase : List (List Nat) → List Nat
  | [] => asciiBytes "expected"
  | names => asciiBytes "expected " ++ quotedList names

/-- What is shown behind an unexpected unit: the rest of the line, unless the unit is the end of the line. -/
def restShown (unit after : List Nat) : List Nat := if endsLine (unit.headD 0) then [] else lineAfter after

/-- The message that in line `line` the `unit` of the text `before ++ unit ++ after` is unexpected; `names` is what would have been expected.
The second line is the line of the text, the third has a caret below the first character of the unit. -/
def unitMessage (line : Nat) (names : List (List Nat)) (before unit after : List Nat) : List Nat :=
  messageHead line ((lineBefore before).length + 1) ++ expectedPhrase names ++ asciiBytes " before '" ++ shown (unit.headD 0) ++
    asciiBytes "' token\n" ++ asciiBytes "          " ++ lineBefore before ++ unit ++ restShown unit after ++ asciiBytes "\n" ++
    List.replicate ((lineBefore before).length + 10) 32 ++ asciiBytes "^\n"

/-- The message if the text ends too early. -/
def endMessage (names : List (List Nat)) (text : List Nat) : List Nat :=
  messageHead (lineNumber text) ((lineBefore text).length + 1) ++ expectedPhrase names ++ asciiBytes " before '" ++ shown 0 ++
    asciiBytes "' token\n" ++ asciiBytes "          " ++ lineBefore text ++ asciiBytes "\n" ++
    List.replicate ((lineBefore text).length + 10) 32 ++ asciiBytes "^\n"

/-- The message if the last line of the text is empty. -/
def emptyMessage (text : List Nat) : List Nat :=
  messageHead (lineNumber text) 1 ++ asciiBytes "empty file\n" ++ asciiBytes "          " ++ asciiBytes "\n^\n"

/-! ### Which message

`ok` says which lists of units are well-formed. -/

/-- `e` is the first unit that does not fit: what is before it can be completed, with it that is not possible. -/
def FirstOffending (ok : List Lexeme → Prop) (ls pre : List Lexeme) (e : Lexeme) (post : List Lexeme) : Prop :=
  ls = pre ++ e :: post ∧ (∃ more, ok (pre ++ more)) ∧ ∀ more, ¬ ok (pre ++ e :: more)

/-- The units are not well-formed, but they are the beginning of something well-formed. -/
def EndsEarly (ok : List Lexeme → Prop) (ls : List Lexeme) : Prop := ¬ ok ls ∧ ∃ more, ok (ls ++ more)

/-! ### Which names are listed

`derives` says what can be derived from a list of symbols, `prods` are the productions. -/

/-- A symbol may come next: something is derived from it, and whatever is derived from it fits behind `pre`. -/
def MayFollow (ok : List Lexeme → Prop) (derives : List String → List Lexeme → Prop) (pre : List Lexeme) (sym : String) : Prop :=
  (∃ ls, derives [sym] ls) ∧ ∀ ls, derives [sym] ls → ∃ more, ok (pre ++ ls ++ more)

/-- A phrase ends here, behind which `sym` may come: the last units are derived from the right side of a production, whatever else is derived from it fits there,
and somewhere (`follows`) its left side is followed by `sym`. -/
def PhraseEnds (ok : List Lexeme → Prop) (derives : List String → List Lexeme → Prop) (prods : List (String × List String)) (follows : String → String → Prop)
    (pre : List Lexeme) (sym : String) : Prop :=
  ∃ d ∈ prods, follows d.1 sym ∧ ∃ a b, pre = a ++ b ∧ derives d.2 b ∧ ∀ ls, derives d.2 ls → ∃ more, ok (a ++ ls ++ more)

/-- `n` may be listed as expected behind `pre`: it is the name of a symbol that may come next, or a phrase ends here and it is the name of a symbol that follows such
phrases somewhere.  (In the second case the symbol need not fit here: the table was made by merging states that differ only in what may come next.) -/
def ExpectedName (ok : List Lexeme → Prop) (derives : List String → List Lexeme → Prop) (prods : List (String × List String)) (follows : String → String → Prop)
    (isName : String → Prop) (pre : List Lexeme) (n : List Nat) : Prop :=
  ∃ sym, n = asciiBytes sym ∧ isName sym ∧ (MayFollow ok derives pre sym ∨ PhraseEnds ok derives prods follows pre sym)

/-- What the message `m` about the text `w` says: which unit is the first that does not fit, or that the text ends too early; `exp` says which names may be
listed.  (The line is one too high if the unit is a newline.) -/
def MessageFor (ok : List Lexeme → Prop) (exp : List Lexeme → List Nat → Prop) (w m : List Nat) : Prop :=
  (∃ pre e post names, FirstOffending ok (lexemes w) pre e post ∧ (∀ n ∈ names, exp pre n) ∧
    m = unitMessage (lineNumber (textOf pre) + if e = .char 10 then 1 else 0) names (textOf pre) e.text (textOf post)) ∨
  (EndsEarly ok (lexemes w) ∧ ((lineBefore w = [] ∧ m = emptyMessage w) ∨ ∃ names, lineBefore w ≠ [] ∧ (∀ n ∈ names, exp (lexemes w) n) ∧ m = endMessage names w))

end LogSurgeon
