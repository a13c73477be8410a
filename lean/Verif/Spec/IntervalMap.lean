import Verif.Model.IntervalTree
/-
What a map from intervals to values does, as a list sorted by the intervals.
-/
namespace LogSurgeon

/-- The intervals have a character in common. -/
def Touches (a b : Range) : Prop := ∃ c, (a.1 ≤ c ∧ c ≤ a.2) ∧ (b.1 ≤ c ∧ c ≤ b.2)

/-- The order of the intervals: by beginning, then by end. -/
def Before (a b : Range) : Prop := a.1 < b.1 ∨ (a.1 = b.1 ∧ a.2 < b.2)

instance (a b : Range) : Decidable (Before a b) := by unfold Before; infer_instance

/-- What a call returns, and what the map contains afterwards.  The map is a list of intervals with values. -/
inductive MapCall {α : Type} : List (Range × α) → ITreeOp α → List (Range × α) → List (Range × α) → Prop
  /-- the interval gets the value; everything else remains; the order is kept -/
  | insert {m m' a iv x} : (∀ p, p ∈ m' ↔ p = (iv, x) ∨ (p ∈ m ∧ p.1 ≠ iv)) → m'.Pairwise (fun p q => Before p.1 q.1) →
      MapCall m (.insert a iv x) m' []
  /-- everything in order -/
  | all {m} : MapCall m .all m m
  /-- what touches the interval, in order -/
  | find {m i r} : List.Sublist r m → (∀ p, p ∈ r ↔ p ∈ m ∧ Touches p.1 i) → MapCall m (.find i) m r
  /-- what touches the interval is returned in order; the rest remains in order -/
  | pop {m i m' r} : List.Sublist r m → (∀ p, p ∈ r ↔ p ∈ m ∧ Touches p.1 i) → List.Sublist m' m →
      (∀ p, p ∈ m' ↔ p ∈ m ∧ ¬ Touches p.1 i) → MapCall m (.pop i) m' r
  | reset {m} : MapCall m .reset [] []

/-- A history: what each call returns. -/
inductive MapCalls {α : Type} : List (Range × α) → List (ITreeOp α) → List (List (Range × α)) → Prop
  | nil {m} : MapCalls m [] []
  | cons {m m' o os r rs} : MapCall m o m' r → MapCalls m' os rs → MapCalls m (o :: os) (r :: rs)

/-- The intervals in a call are not reversed. -/
def ITreeOp.Proper {α : Type} : ITreeOp α → Prop
  | .insert _ iv _ => iv.1 ≤ iv.2
  | .find i => i.1 ≤ i.2
  | .pop i => i.1 ≤ i.2
  | _ => True

end LogSurgeon
