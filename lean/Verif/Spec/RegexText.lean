import Verif.Model.Regex
import Verif.Model.SchemaRegex
/-
Which characters make the text of a pattern ambiguous.
-/
namespace LogSurgeon

/-- A bound of a bracket expression is not `]`. -/
def ClassItem.PlainChars : ClassItem → Prop
  | .lit c => c ≠ 93
  | .range lo hi => lo ≠ 93 ∧ hi ≠ 93
  | _ => True

/-- The literals of the pattern are none of `(`, `)`, `[`, `<`; no bracket expression has the bound `]`; the names of captures do not
contain `>` (the schema grammar only allows letters and digits). -/
def Pat.PlainChars : Pat → Prop
  | .lit c => c ≠ 40 ∧ c ≠ 41 ∧ c ≠ 91 ∧ c ≠ 60
  | .cls _ items => ∀ i ∈ items, i.PlainChars
  | .cat l r | .or l r => l.PlainChars ∧ r.PlainChars
  | .star p | .plus p | .exact p _ | .range p _ _ => p.PlainChars
  | .capture p t => p.PlainChars ∧ '>' ∉ t.name.toList
  | _ => True

/-- The names of the captures of a pattern, in order of their closing parentheses. -/
def Pat.captureNames : Pat → List String
  | .cat l r | .or l r => l.captureNames ++ r.captureNames
  | .star p | .plus p | .exact p _ | .range p _ _ => p.captureNames
  | .capture p t => p.captureNames ++ [t.name]
  | _ => []

end LogSurgeon
