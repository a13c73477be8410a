import Verif.Spec.Grammar
/-
Conflicts of a grammar, in terms of its productions alone: what may begin, what may follow, which productions may be under way.
`prods` are the productions, including the one for the start symbol, `$START_PRIME → start` (the augmented grammar).
-/
namespace LogSurgeon

/-- The symbol derives the empty sequence. -/
inductive Empties (prods : List (String × List String)) : String → Prop
  | mk {head body} : (head, body) ∈ prods → (∀ x ∈ body, Empties prods x) → Empties prods head

/-- `Begins terms prods x a`: the terminal `a` may begin what is derived from `x`. -/
inductive Begins (terms : List String) (prods : List (String × List String)) : String → String → Prop
  | term {a} : a ∈ terms → Begins terms prods a a
  | prod {head pre x post a} : (head, pre ++ x :: post) ∈ prods → (∀ y ∈ pre, Empties prods y) → Begins terms prods x a →
      Begins terms prods head a

/-- `Follows terms prods x a`: the terminal `a` may come behind what is derived from `x`; behind the whole input comes `$end`. -/
inductive Follows (terms : List String) (prods : List (String × List String)) : String → String → Prop
  | whole : Follows terms prods "$START_PRIME" "$end"
  | next {head pre x mid y post a} : (head, pre ++ x :: (mid ++ y :: post)) ∈ prods → (∀ z ∈ mid, Empties prods z) →
      Begins terms prods y a → Follows terms prods x a
  | last {head pre x post a} : (head, pre ++ x :: post) ∈ prods → (∀ z ∈ post, Empties prods z) → Follows terms prods head a →
      Follows terms prods x a

/-- `UnderWay prods start γ d k`: after the symbols `γ` have been recognised, the production `d` may be under way, with the first `k`
symbols of its right side recognised. -/
inductive UnderWay (prods : List (String × List String)) (start : String) : List String → String × List String → Nat → Prop
  | start : UnderWay prods start [] ("$START_PRIME", [start]) 0
  | inner {γ d k x body} : UnderWay prods start γ d k → d.2[k]? = some x → (x, body) ∈ prods → UnderWay prods start γ (x, body) 0
  | step {γ d k x} : UnderWay prods start γ d k → d.2[k]? = some x → UnderWay prods start (γ ++ [x]) d (k + 1)

/-- After `γ` the symbol `x` may be shifted. -/
def MayShift (prods : List (String × List String)) (start : String) (γ : List String) (x : String) : Prop :=
  ∃ d k, UnderWay prods start γ d k ∧ d.2[k]? = some x

/-- After `γ` the production `d` may be complete, and `x` may follow its head. -/
def MayReduce (terms : List String) (prods : List (String × List String)) (start : String) (γ : List String)
    (d : String × List String) (x : String) : Prop :=
  d ∈ prods ∧ UnderWay prods start γ d d.2.length ∧ Follows terms prods d.1 x

/-- How a production is written in a message. -/
def productionText (d : String × List String) : String := d.1 ++ "-> {" ++ String.join (d.2.map (· ++ ",")) ++ "}"

/-- What the message about a conflict says, and why: after the same symbols, for the same next symbol `x`, there are two things to do. -/
inductive ConflictMessage (terms : List String) (prods : List (String × List String)) (start : String) : String → Prop
  | shiftReduce {γ x d} (n : Nat) : MayShift prods start γ x → MayReduce terms prods start γ d x →
      ConflictMessage terms prods start ("For symbol " ++ x ++ ", adding shift to " ++ toString n ++
        " causes shift-reduce conflict with reduction " ++ productionText d ++ "\n")
  | reduceShift {γ x d} (n : Nat) : MayShift prods start γ x → MayReduce terms prods start γ d x →
      ConflictMessage terms prods start ("For symbol " ++ x ++ ", adding reduction " ++ productionText d ++
        " causes shift-reduce conflict with shift to " ++ toString n ++ "\n")
  | reduceReduce {γ x d d'} : MayReduce terms prods start γ d x → MayReduce terms prods start γ d' x → d ≠ d' →
      ConflictMessage terms prods start ("For symbol " ++ x ++ ", adding reduction " ++ productionText d ++
        " causes reduce-reduce conflict with reduction " ++ productionText d' ++ "\n")

end LogSurgeon
