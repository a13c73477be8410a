import Verif.Model.SchemaRegex
import Verif.Spec.Regex
/-
The documented meaning of the schema's regex syntax (docs/schema.md), directly on the syntax,
independent of the AST the parser builds.
-/
namespace LogSurgeon

/-- The value of a decimal numeral, most significant digit first. -/
def decimal (digits : List Nat) : Nat := digits.foldl (fun v d => 10 * v + d) 0

/-- Code points denoted by an item of a bracket expression. -/
def ClassItem.Has : ClassItem → Nat → Prop
  | .lit a, c => c = a
  | .range lo hi, c => lo ≤ c ∧ c ≤ hi
  | .digit, c => 48 ≤ c ∧ c ≤ 57
  | .space, c => c = 32 ∨ c = 9 ∨ c = 13 ∨ c = 10 ∨ c = 11 ∨ c = 12

/-- Strings of code points matched by a schema regex. -/
def Pat.Matches : Pat → List Nat → Prop
  | .lit c, s => s = [c]
  | .cls negate items, s => ∃ c, s = [c] ∧
      if negate then c ≤ cUnicodeMax ∧ ∀ i ∈ items, ¬ i.Has c else ∃ i ∈ items, i.Has c
  | .digit, s => ∃ c, s = [c] ∧ 48 ≤ c ∧ c ≤ 57
  | .wild, s => ∃ c, s = [c] ∧ c ≤ cUnicodeMax
  | .space, s => ∃ c, s = [c] ∧ (c = 32 ∨ c = 9 ∨ c = 13 ∨ c = 10 ∨ c = 11 ∨ c = 12)
  | .cat l r, s => ∃ s₁ s₂, s = s₁ ++ s₂ ∧ l.Matches s₁ ∧ r.Matches s₂
  | .or l r, s => l.Matches s ∨ r.Matches s
  | .star p, s => ∃ k, Repeat p.Matches k s
  | .plus p, s => ∃ k, 1 ≤ k ∧ Repeat p.Matches k s
  | .exact p n, s => Repeat p.Matches (decimal n) s
  | .range p n m, s => ∃ k, decimal n ≤ k ∧ k ≤ decimal m ∧ Repeat p.Matches k s
  | .capture p _, s => p.Matches s

/-- Digits and size of a numeral the parser can read. -/
def NumeralOk (n : List Nat) : Prop :=
  (∀ d ∈ n, d ≤ 9) ∧ n.length ≤ 10 ∧ decimal n < 2 ^ 32

/-- Sensible repetition bounds: `{n}` with `n ≥ 1`; `{n,m}` with `n ≤ m`, `1 ≤ m`; numerals below
`2^32`; a negated bracket expression is not empty. -/
def Pat.Sensible : Pat → Prop
  | .cls negate items => negate = true → items ≠ []
  | .cat l r | .or l r => l.Sensible ∧ r.Sensible
  | .star p | .plus p | .capture p _ => p.Sensible
  | .exact p n => NumeralOk n ∧ 1 ≤ decimal n ∧ p.Sensible
  | .range p n m => NumeralOk n ∧ NumeralOk m ∧ decimal n ≤ decimal m ∧ 1 ≤ decimal m ∧ p.Sensible
  | _ => True

/-- The pattern uses no construct that may repeat zero times. -/
def Pat.NoZero : Pat → Prop
  | .cat l r | .or l r => l.NoZero ∧ r.NoZero
  | .star _ => False
  | .plus p | .capture p _ => p.NoZero
  | .exact p _ => p.NoZero
  | .range p n _ => 1 ≤ decimal n ∧ p.NoZero
  | _ => True

/-- The pattern with the zero-repetition case of `*` and `{0,m}` left out (`r*` read as `r+`,
`r{0,m}` as `r{1,m}`).  This is what the library implements, see `C09_star_refuted`. -/
def Pat.atLeastOne : Pat → Pat
  | .cat l r => .cat l.atLeastOne r.atLeastOne
  | .or l r => .or l.atLeastOne r.atLeastOne
  | .star p => .plus p.atLeastOne
  | .plus p => .plus p.atLeastOne
  | .exact p n => .exact p.atLeastOne n
  | .range p n m => if decimal n = 0 then .range p.atLeastOne [1] m else .range p.atLeastOne n m
  | .capture p t => .capture p.atLeastOne t
  | p => p

end LogSurgeon
