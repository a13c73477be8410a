import Verif.Proofs.LalrTerm
import Verif.Proofs.LalrNames
/-
C44: the generation of parse tables terminates.
-/
namespace LogSurgeon
open Grammar

/-- C44: for every grammar and every order of the containers, generation ends, with a table or with a failure other than running for ever: from a certain
number of steps on the result is always the same. -/
theorem C44_generation_terminates (g : Grammar) (o : Orders) :
    ∃ n r, r ≠ .error .diverge ∧ ∀ fuel, n ≤ fuel → g.generate o fuel = r := by
  obtain ⟨n, r, h1, h2⟩ := generate_settles (g := g) o
  exact ⟨n, r, h1, h2⟩

/-! There are no conditions.  Both kinds of results occur: a table for `S → S a | ε`, an exception (a conflict) for
`S → S S a | U`, `U → U u | ε`. -/
section Example

private def exO (nts : List Nat) : Orders := ⟨nts, fun s => List.range s.length⟩
private def exKind (g : Grammar) (nts : List Nat) : Option Fail :=
  match g.generate (exO nts) 200 with
  | .ok _ => none
  | .error e => some e

set_option maxRecDepth 100000 in
example : exKind (Grammar.build ["a"] [("S", ["S", "a"]), ("S", [])]) [9, 10] = none ∧
    exKind (Grammar.build ["a", "u"] [("S", ["S", "S", "a"]), ("S", ["U"]), ("U", ["U", "u"]), ("U", [])]) [10, 11, 12] = some .throws := by
  decide +kernel

end Example
end LogSurgeon
