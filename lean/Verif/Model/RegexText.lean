import Verif.Model.SchemaRegex
import Verif.Model.NfaText
/-
`serialize` of the regex AST (src/log_surgeon/finite_automata/RegexAST.hpp): the text of a pattern, as code points.

Children are never null here (the constructors dereference them, RegexAST.hpp:776-780, 805-810, 841-844), so the text `null` does not
occur.  Names are converted from `char` to `char32_t` one by one; the schema grammar only allows letters and digits in them.
-/
namespace LogSurgeon

/-- RegexAST.hpp:130-147 `serialize_negative_tags`. -/
def negText (neg : List Tag) : List Nat := neg.flatMap fun t => ascii "<~" ++ ascii t.name ++ ascii ">"

/-- RegexAST.hpp:1085-1100: the ranges, separated by `", "` (the separator is added when something has been written before; no range has an
empty text). -/
def rangesText (ranges : List Range) : List Nat := joinWith (ascii ", ") (ranges.map fun r => r.1 :: 45 :: [r.2])

/-- RegexAST.hpp:717-719 (Empty), 731-737 (Literal), 761-768 (Integer), 791-798 (Or), 823-830 (Cat), 881-892 (Multiplication), 943-951
(Capture), 1079-1107 (Group). -/
def Regex.serialize : Regex → List Nat
  | .empty n => negText n
  | .literal n c => c :: negText n
  | .integer n ds => ds.flatMap decimalText ++ negText n
  | .group n wild negate ranges =>
    ascii "[" ++ ((if negate then ascii "^" else []) ++ ((if wild then ascii "*" else rangesText ranges) ++ (ascii "]" ++ negText n)))
  | .or n l r => ascii "(" ++ (l.serialize ++ (ascii ")|(" ++ (r.serialize ++ (ascii ")" ++ negText n))))
  | .cat n l r => l.serialize ++ (r.serialize ++ negText n)
  | .mult n op min max =>
    ascii "(" ++ (op.serialize ++ (ascii "){" ++ (decimalText min ++ (ascii "," ++ ((if max = 0 then ascii "inf" else decimalText max) ++
      (ascii "}" ++ negText n))))))
  | .capture n i t => ascii "(" ++ (i.serialize ++ (ascii ")<" ++ (ascii t.name ++ (ascii ">" ++ negText n))))

end LogSurgeon
