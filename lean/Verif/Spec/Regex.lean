import Verif.Model.Regex
/-
The textbook meaning of a regex AST, as sets of strings.
-/
namespace LogSurgeon

/-- `Repeat P k s`: `s` is the concatenation of `k` strings satisfying `P`. -/
inductive Repeat (P : List Nat → Prop) : Nat → List Nat → Prop
  | zero : Repeat P 0 []
  | succ {k s t} : P s → Repeat P k t → Repeat P (k + 1) (s ++ t)

/-- Code point `c` lies in one of the ranges. -/
def InRanges (ranges : List Range) (c : Nat) : Prop := ∃ r ∈ ranges, r.1 ≤ c ∧ c ≤ r.2

/-- Character class membership: listed, or (negated) a Unicode code point that is not listed. -/
def ClassMatches (negate : Bool) (ranges : List Range) (c : Nat) : Prop :=
  if negate then c ≤ cUnicodeMax ∧ ¬ InRanges ranges c else InRanges ranges c

/-- `MatchesWith e r s`: the string `s` (of code points) is matched by the regular expression `r`,
with the usual reading of each operator (`max = 0` in a repetition means "no upper bound";
captures do not restrict matching), where the empty expression matches the empty string if `e`
holds and nothing otherwise. -/
def MatchesWith (e : Prop) : Regex → List Nat → Prop
  | .empty _, s => e ∧ s = []
  | .literal _ c, s => s = [c]
  | .integer _ _, _ => False
  | .group _ _ negate ranges, s => ∃ c, s = [c] ∧ ClassMatches negate ranges c
  | .or _ l r, s => MatchesWith e l s ∨ MatchesWith e r s
  | .cat _ l r, s => ∃ s₁ s₂, s = s₁ ++ s₂ ∧ MatchesWith e l s₁ ∧ MatchesWith e r s₂
  | .mult _ op min max, s =>
    ∃ k, min ≤ k ∧ (max = 0 ∨ k ≤ max) ∧ Repeat (MatchesWith e op) k s
  | .capture _ inner _, s => MatchesWith e inner s

/-- The textbook meaning: the empty expression matches the empty string. -/
def Matches (r : Regex) (s : List Nat) : Prop := MatchesWith True r s

/-- The meaning without empty alternatives: every occurrence of the empty expression matches
nothing (it is simply left out of its alternation). -/
def MatchesIgnoringEmpty (r : Regex) (s : List Nat) : Prop := MatchesWith False r s

/-- The repetitions of the expression have consistent bounds (`min ≤ max` or unbounded). -/
def Regex.BoundsOk : Regex → Prop
  | .mult _ op min max => (max = 0 ∨ min ≤ max) ∧ op.BoundsOk
  | .or _ l r | .cat _ l r => l.BoundsOk ∧ r.BoundsOk
  | .capture _ i _ => i.BoundsOk
  | _ => True

/-- No empty alternative and no bare integer occurs in the expression. -/
def Regex.NoEmpty : Regex → Prop
  | .empty _ => False
  | .integer _ _ => False
  | .mult _ op _ _ => op.NoEmpty
  | .or _ l r | .cat _ l r => l.NoEmpty ∧ r.NoEmpty
  | .capture _ i _ => i.NoEmpty
  | _ => True

/-- Negated classes list at least one range and no reversed range. -/
def Regex.ClassesOk : Regex → Prop
  | .group _ _ negate ranges => negate = true → ranges ≠ [] ∧ ∀ r ∈ ranges, r.1 ≤ r.2
  | .mult _ op _ _ => op.ClassesOk
  | .or _ l r | .cat _ l r => l.ClassesOk ∧ r.ClassesOk
  | .capture _ i _ => i.ClassesOk
  | _ => True

/-- `TailLoop r`: the expression ends in an unbounded repetition that is not sealed off by a capture
group or by negated capture tags (so that the loop sits directly on the state where the
expression ends). -/
def Regex.TailLoop : Regex → Prop
  | .or n l r => n = [] ∧ (l.TailLoop ∨ r.TailLoop)
  | .cat n _ r => n = [] ∧ r.TailLoop
  | .mult n op _ max => n = [] ∧ (max = 0 ∨ op.TailLoop)
  | _ => False

/-- The restriction under which matching is sound: an alternative that ends in an open
unbounded repetition may only be paired with the empty alternative, and the operand of a
zero-minimum repetition does not end in an open unbounded repetition. -/
def Regex.LoopSafe : Regex → Prop
  | .or _ l r =>
    ((¬ l.TailLoop ∧ ¬ r.TailLoop) ∨ (∃ n, l = .empty n) ∨ (∃ n, r = .empty n)) ∧
      l.LoopSafe ∧ r.LoopSafe
  | .cat _ l r => l.LoopSafe ∧ r.LoopSafe
  | .mult _ op min _ => (min = 0 → ¬ op.TailLoop) ∧ op.LoopSafe
  | .capture _ i _ => i.LoopSafe
  | _ => True

end LogSurgeon
