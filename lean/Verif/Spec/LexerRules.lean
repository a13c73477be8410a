import Verif.Model.LexerRules
/-
Which rules count (C57): histories of calls, in words.
-/
namespace LogSurgeon
namespace LexerRules

/-- The rules added by calls none of which is `generate`. -/
def added : List Call → List Rule
  | [] => []
  | .add r :: cs => r :: added cs
  | .generate _ :: cs => added cs

/-- None of the calls is `generate`. -/
def Quiet (cs : List Call) : Prop := ∀ c ∈ cs, ∃ r, c = .add r

/-- `rs` are the rules added since the last `generate` (or since the beginning). -/
def Since (cs : List Call) (rs : List Rule) : Prop :=
  (Quiet cs ∧ rs = added cs) ∨ ∃ before addr after, cs = before ++ .generate addr :: after ∧ Quiet after ∧ rs = added after

/-- The last `generate` was called with `addr` when `rs` were the rules added since the one before. -/
def Generated (cs : List Call) (addr : Nat → Nat) (rs : List Rule) : Prop :=
  ∃ before after, cs = before ++ .generate addr :: after ∧ Quiet after ∧ Since before rs

end LexerRules
end LogSurgeon
