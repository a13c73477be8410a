import Verif.Model.Regex
import Verif.Model.Dfa
/-
What it means for an NFA to accept a byte string, independent of any algorithm.
-/
namespace LogSurgeon

/-- The labels of NFA transitions (RegexNFAState.hpp:110-114). -/
inductive Label where
  | byte (c : Nat)
  | eps
  | openTag (t : Tag)
  | closeTag (t : Tag)
  | negTags (ts : List Tag)
deriving Repr, DecidableEq

/-- All outgoing transitions of a state. -/
def NState.out (s : NState) : List (Label × Nat) :=
  s.bytes.map (fun p => (.byte p.1, p.2)) ++ s.eps.map (fun q => (.eps, q))
    ++ s.posStart.map (fun p => (.openTag p.1, p.2))
    ++ s.posEnd.toList.map (fun p => (.closeTag p.1, p.2))
    ++ s.neg.toList.map (fun p => (.negTags p.1, p.2))

/-- There is a transition labelled `l` from state `p` to state `q`. -/
def Nfa.Edge (n : Nfa) (p : Nat) (l : Label) (q : Nat) : Prop :=
  ∃ s, n.states[p]? = some s ∧ (l, q) ∈ s.out

/-- `n.Path p w q`: the NFA can go from `p` to `q` along transitions labelled `w`. -/
inductive Nfa.Path (n : Nfa) : Nat → List Label → Nat → Prop
  | nil (p) : Nfa.Path n p [] p
  | cons {p l q w r} : n.Edge p l q → Nfa.Path n q w r → Nfa.Path n p (l :: w) r

/-- The bytes read along a path (all other labels read nothing). -/
def bytesOf : List Label → List Nat
  | [] => []
  | .byte c :: w => c :: bytesOf w
  | _ :: w => bytesOf w

/-- State `q` is an accepting state for variable id `v`. -/
def Nfa.AcceptingFor (n : Nfa) (q v : Nat) : Prop :=
  ∃ s, n.states[q]? = some s ∧ s.accepting = true ∧ s.varId = v

/-- The NFA accepts the byte string `s` for the variable id `v`. -/
def Nfa.Accepts (n : Nfa) (v : Nat) (s : List Nat) : Prop :=
  ∃ w q, n.Path n.root w q ∧ bytesOf w = s ∧ n.AcceptingFor q v

/-- The state the DFA is in after reading `s` from `q` (`none`: dead). -/
def Dfa.run (d : Dfa) (q : Nat) : List Nat → Option Nat
  | [] => some q
  | c :: s => (d.next q c).bind fun q' => d.run q' s

/-- The variable ids the DFA reports for the whole string `s` (none if it dies). -/
def Dfa.idsOn (d : Dfa) (s : List Nat) : List Nat := ((d.run 0 s).map d.ids).getD []

/-- Rule `r`, compiled on its own, accepts the byte string `s`. -/
def Rule.AcceptsAlone (r : Rule) (s : List Nat) : Prop :=
  ∃ n, buildNfa [r] = some n ∧ n.Accepts r.id s

/-- Byte strings. -/
def AllBytes (s : List Nat) : Prop := ∀ c ∈ s, c < cSizeOfByte

end LogSurgeon
