import Verif.Model.Regex
/-
Model of `RegexNFA::get_bfs_traversal_order` and `RegexNFA::serialize` (RegexNFA.hpp:147-214), of
`RegexNFAState::serialize` (RegexNFAState.hpp:173-238) and of the `serialize` methods of
TaggedTransition.hpp.  A state pointer is the position of the state in `m_states`, as in `Model/Regex.lean`.
Pointers never dangle in the model: a destination outside `m_states` yields the default state.
-/
namespace LogSurgeon

/-- RegexNFA.hpp:167-192: the destinations of a state, in the order in which they are pushed. -/
def NState.bfsSuccs (s : NState) : List Nat :=
  (List.range cSizeOfByte).flatMap s.byteTransitions ++ s.eps ++ s.posStart.map (·.2)
    ++ s.posEnd.toList.map (·.2) ++ s.neg.toList.map (·.2)

/-- RegexNFA.hpp:154-159: the lambda `add_to_queue_and_visited`. -/
def bfsAdd (qv : List Nat × List Nat) (dest : Nat) : List Nat × List Nat :=
  if dest ∈ qv.2 then qv else (qv.1 ++ [dest], qv.2 ++ [dest])

/-- RegexNFA.hpp:162-193: the `while` loop, with queue, visited set and visited order.  `none`: the
given number of iterations does not suffice. -/
def Nfa.bfsLoop (n : Nfa) : Nat → List Nat → List Nat → List Nat → Option (List Nat)
  | _, [], _, order => some order
  | 0, _ :: _, _, _ => none
  | fuel + 1, cur :: queue, visited, order =>
    let qv := ((n.states[cur]?.getD {}).bfsSuccs).foldl bfsAdd (queue, visited)
    n.bfsLoop fuel qv.1 qv.2 (order ++ [cur])

/-- RegexNFA.hpp:147-195 `get_bfs_traversal_order`.  The loop is given as many iterations as there are
states (proved to suffice, `C33_bfs`). -/
def Nfa.bfsOrder (n : Nfa) : Option (List Nat) :=
  let qv := bfsAdd ([], []) n.root
  n.bfsLoop n.states.length qv.1 qv.2 []

/-- RegexNFA.hpp:201-204: `state_ids.emplace(state, state_ids.size())` for each state
(`emplace` leaves an existing entry alone). -/
def stateIds (order : List Nat) : List (Nat × Nat) :=
  order.foldl (fun m s => if m.any (·.1 == s) then m else m ++ [(s, m.length)]) []

/-- What `RegexNFAState::serialize` puts into the line of a state, before formatting. -/
structure SerState where
  id : Nat
  accepting : Option Nat
  bytes : List (Nat × Nat)
  eps : List Nat
  posStart : List (Nat × Tag)
  posEnd : Option (Nat × Tag)
  neg : Option (Nat × List Tag)
deriving Repr, DecidableEq

/-- `Option`-valued map over a list, failing at the first failure. -/
def mapAll {α β} (f : α → Option β) : List α → Option (List β)
  | [] => some []
  | a :: as => (f a).bind fun b => (mapAll f as).map fun bs => b :: bs

/-- RegexNFAState.hpp:173-238 `RegexNFAState::serialize`, up to formatting; TaggedTransition.hpp:40-47, 83-93,
84-95.  `none`: `std::out_of_range` from `state_ids.at` or `std::nullopt`. -/
def serializeState (ids : List (Nat × Nat)) (this : Nat) (s : NState) : Option SerState :=
  let idOf := fun q => ids.lookup q
  (mapAll (fun p => (idOf p.2).map fun i => (p.1, i))
      ((List.range cSizeOfByte).flatMap fun b => (s.byteTransitions b).map fun q => (b, q))).bind fun bytes =>
  (mapAll idOf s.eps).bind fun eps =>
  (mapAll (fun p : Tag × Nat => (idOf p.2).map fun i => (i, p.1)) s.posStart).bind fun ps =>
  (mapAll (fun p : Tag × Nat => (idOf p.2).map fun i => (i, p.1)) s.posEnd.toList).bind fun pe =>
  (mapAll (fun p : List Tag × Nat => (idOf p.2).map fun i => (i, p.1)) s.neg.toList).bind fun ng =>
  (idOf this).map fun i =>
    { id := i, accepting := if s.accepting then some s.varId else none, bytes := bytes, eps := eps,
      posStart := ps, posEnd := pe.head?, neg := ng.head? }

/-- RegexNFA.hpp:198-212: all lines of `RegexNFA::serialize`, before formatting. -/
def Nfa.serializeStates (n : Nfa) : Option (List SerState) :=
  n.bfsOrder.bind fun order =>
    mapAll (fun q => serializeState (stateIds order) q (n.states[q]?.getD {})) order

/-- Bytes of an ASCII literal. -/
def ascii (s : String) : List Nat := s.toList.map (·.toNat)

/-- `fmt::format("{}", n)` / `std::to_string` for an unsigned number. -/
def decimalText (n : Nat) : List Nat := (Nat.toDigits 10 n).map (·.toNat)

/-- `fmt::join(parts, sep)`. -/
def joinWith (sep : List Nat) : List (List Nat) → List Nat
  | [] => []
  | [a] => a
  | a :: as => a ++ sep ++ joinWith sep as

/-- TaggedTransition.hpp:46, 92 and 94: `"{}[{}]"` with the tag names joined by commas. -/
def taggedText (name : Tag → List Nat) (i : Nat) (tags : List Tag) : List Nat :=
  decimalText i ++ ascii "[" ++ joinWith (ascii ",") (tags.map name) ++ ascii "]"

/-- RegexNFAState.hpp:223-237 and 225-240: the text of one state.  `static_cast<char>(idx)` is
formatted as the raw character. -/
def SerState.text (name : Tag → List Nat) (s : SerState) : List Nat :=
  decimalText s.id ++ ascii ":"
    ++ (match s.accepting with | some v => ascii "accepting_tag=" ++ decimalText v ++ ascii "," | none => [])
    ++ ascii "byte_transitions={"
    ++ joinWith (ascii ",") (s.bytes.map fun p => p.1 :: (ascii "-->" ++ decimalText p.2))
    ++ ascii "},epsilon_transitions={" ++ joinWith (ascii ",") (s.eps.map decimalText)
    ++ ascii "},positive_tagged_start_transitions={"
    ++ joinWith (ascii ",") (s.posStart.map fun p => taggedText name p.1 [p.2])
    ++ ascii "},positive_tagged_end_transitions={"
    ++ (match s.posEnd with | some p => taggedText name p.1 [p.2] | none => [])
    ++ ascii "},negative_tagged_transition={"
    ++ (match s.neg with | some p => taggedText name p.1 p.2 | none => []) ++ ascii "}"

/-- RegexNFA.hpp:198-214 `RegexNFA::serialize`; `name` gives the names of the tags (Tag.hpp:13). -/
def Nfa.serialize (n : Nfa) (name : Tag → List Nat) : Option (List Nat) :=
  n.serializeStates.map fun ss => joinWith [10] (ss.map (SerState.text name)) ++ [10]

end LogSurgeon
