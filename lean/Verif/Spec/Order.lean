import Verif.Model.Schema
import Verif.Spec.Automata
/-
The order in which the types of a text are listed.
-/
namespace LogSurgeon

/-- `ids` are the ids of those rules for which `P` holds (each as often as there are such rules), listed by increasing rank;
`rank` ranks the rules by their number in the list. -/
def ListedBy (rank : Nat → Nat) (rules : List Rule) (P : Rule → Prop) (ids : List Nat) : Prop :=
  ∃ l : List Nat, l.Pairwise (fun i j => rank i < rank j) ∧ (∀ i, i ∈ l ↔ ∃ r, rules[i]? = some r ∧ P r) ∧
    ids.map some = l.map fun i => rules[i]?.map Rule.id

/-- `u` is listed before `v`. -/
def ListedBefore (ids : List Nat) (u v : Nat) : Prop := ∃ a b c, ids = a ++ u :: b ++ v :: c

end LogSurgeon
