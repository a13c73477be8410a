import Verif.Model.Regex
/-
Model of the DFA (finite_automata/RegexDFA.hpp, RegexDFA.tpp), of the subset construction
(Lexer.tpp:377-494) and of `get_intersect`.

Pointers to NFA states are indices (order of creation).  `std::set<NFAState const*>` is ordered by
*address*; the address of each state is given by a parameter `addr : Nat → Nat`, so that the order of
iteration over such a set is the order of increasing `addr`.  Sets are represented by the list of
their elements in iteration order.
-/
namespace LogSurgeon

/-- RegexDFA.hpp:22-55.  `trans` records `add_byte_transition` calls, newest first
(`m_bytes_transition[b]` is the newest entry for `b`, `nullptr` if there is none). -/
structure DState where
  ids : List Nat := []
  trans : List (Nat × Nat) := []
deriving Repr, DecidableEq

/-- RegexDFA.tpp:5-9 `RegexDFAState::next` (byte case). -/
def DState.next (s : DState) (c : Nat) : Option Nat := s.trans.lookup c

/-- RegexDFA.hpp:117-144; `get_root` (124) is state 0. -/
structure Dfa where
  states : List DState
deriving Repr, DecidableEq

/-- The transition function on state ids.  (An invalid id cannot occur in the code.) -/
def Dfa.next (d : Dfa) (q c : Nat) : Option Nat := (d.states[q]?).bind (·.next c)

/-- RegexDFA.hpp:30-32 `get_matching_variable_ids`. -/
def Dfa.ids (d : Dfa) (q : Nat) : List Nat := ((d.states[q]?).map (·.ids)).getD []

/-- RegexDFA.hpp:34 `is_accepting`. -/
def Dfa.isAccepting (d : Dfa) (q : Nat) : Bool := !(d.ids q).isEmpty

/-! ### Sets of pointers -/

/-- A `std::set<NFAState const*>`: its elements in increasing address order. -/
abbrev StateSet := List Nat

/-- `std::set::insert` with the ordering given by `addr`. -/
def setInsert (addr : Nat → Nat) (x : Nat) : StateSet → StateSet
  | [] => [x]
  | y :: ys =>
    if addr x < addr y then x :: y :: ys
    else if addr y < addr x then y :: setInsert addr x ys
    else y :: ys

/-- Range insertion `set.insert(first, last)`. -/
def setInsertAll (addr : Nat → Nat) (xs : List Nat) (s : StateSet) : StateSet :=
  xs.foldl (fun s x => setInsert addr x s) s

/-! ### Worklist loop -/

/-- A depth-first worklist loop: pop, skip if visited, mark, push the successors.
`none`: out of fuel (shown not to happen for the fuel used below). -/
def dfs (succ : Nat → List Nat) (ins : Nat → StateSet → StateSet) :
    Nat → List Nat → StateSet → Option StateSet
  | _, [], vis => some vis
  | 0, _ :: _, _ => none
  | k + 1, x :: st, vis =>
    if x ∈ vis then dfs succ ins k st vis
    else dfs succ ins k ((succ x).reverse ++ st) (ins x vis)

/-- Destinations of the transitions that `epsilon_closure` treats as spontaneous, in the order of
the pushes in Lexer.tpp:403-423. -/
def NState.spontaneous (s : NState) : List Nat :=
  s.eps ++ s.posStart.map (·.2) ++ s.posEnd.toList.map (·.2) ++ s.neg.toList.map (·.2)

def Nfa.spontaneous (n : Nfa) (q : Nat) : List Nat :=
  ((n.states[q]?).map (·.spontaneous)).getD []

/-- Enough iterations for `epsilon_closure`: one per push. -/
def Nfa.closureFuel (n : Nfa) : Nat := 1 + (n.states.map (fun s => s.spontaneous.length)).sum

/-- Lexer.tpp:392-426 `epsilon_closure`. -/
def epsilonClosure (n : Nfa) (addr : Nat → Nat) (q : Nat) : Option StateSet :=
  dfs n.spontaneous (setInsert addr) n.closureFuel [q] []

/-! ### Subset construction -/

/-- Collect closures of all `s1`, inserting them into the accumulating set
(Lexer.tpp:453-456, for one byte). -/
def closures (n : Nfa) (addr : Nat → Nat) : List Nat → StateSet → Option StateSet
  | [], acc => some acc
  | q :: qs, acc => (epsilonClosure n addr q).bind fun c => closures n addr qs (setInsertAll addr c acc)

/-- `ascii_transitions_map[i]` after the loops of Lexer.tpp:451-457 (the loop over bytes and the loop over
the states of the set commute, as every byte has its own map entry; the entry exists iff some
transition on `i` exists). -/
def moveSet (n : Nfa) (addr : Nat → Nat) (set : StateSet) (i : Nat) : Option StateSet :=
  closures n addr (set.flatMap fun q => ((n.states[q]?).map (·.byteTransitions i)).getD []) []

/-- RegexDFA.tpp:41-53 `RegexDFA::new_state`: ids of the accepting NFA states of the set, in set order. -/
def acceptIds (n : Nfa) (set : StateSet) : List Nat :=
  set.filterMap fun q => match n.states[q]? with
    | some s => if s.accepting then some s.varId else none
    | none => none

/-- State of the loop of Lexer.tpp:434-442: the DFA, the map `dfa_states` and the stack
`unmarked_sets`. -/
structure SubsetState where
  dfa : List DState
  map : List (StateSet × Nat)
  stack : List StateSet
deriving Repr, DecidableEq

/-- Lexer.tpp:436-442 `create_dfa_state`. -/
def SubsetState.create (n : Nfa) (st : SubsetState) (set : StateSet) : SubsetState × Nat :=
  ({ dfa := st.dfa ++ [{ ids := acceptIds n set }], map := (set, st.dfa.length) :: st.map,
     stack := set :: st.stack }, st.dfa.length)

/-- Lexer.tpp:468-478 `next_dfa_state`. -/
def SubsetState.nextState (n : Nfa) (st : SubsetState) (set : StateSet) : SubsetState × Nat :=
  match st.map.lookup set with
  | some q => (st, q)
  | none => st.create n set

/-- `dfa_state->add_byte_transition(byte, dest)` on state `q`. -/
def SubsetState.addTrans (st : SubsetState) (q c dest : Nat) : SubsetState :=
  { st with dfa := st.dfa.modify q fun s => { s with trans := (c, dest) :: s.trans } }

/-- Lexer.tpp:479-482: one transition per byte that has one, in increasing byte order. -/
def subsetBytes (n : Nfa) (addr : Nat → Nat) (set : StateSet) (q : Nat) :
    List Nat → SubsetState → Option SubsetState
  | [], st => some st
  | c :: cs, st =>
    (moveSet n addr set c).bind fun t =>
      if t.isEmpty then subsetBytes n addr set q cs st
      else
        let (st, dest) := st.nextState n t
        subsetBytes n addr set q cs (st.addTrans q c dest)

/-- The loop of Lexer.tpp:445-492. -/
def subsetLoop (n : Nfa) (addr : Nat → Nat) : Nat → SubsetState → Option SubsetState
  | _, { dfa := d, map := m, stack := [] } => some { dfa := d, map := m, stack := [] }
  | 0, { dfa := _, map := _, stack := _ :: _ } => none
  | k + 1, { dfa := d, map := m, stack := set :: rest } =>
    -- `dfa_states.at(set)`; `none` would be the `std::out_of_range` of `std::map::at`
    (m.lookup set).bind fun q =>
      (subsetBytes n addr set q (List.range cSizeOfByte) { dfa := d, map := m, stack := rest }).bind
        (subsetLoop n addr k)

/-- Lexer.tpp:429-494 `nfa_to_dfa`.  Fuel: at most `2^|states|` sets are ever created. -/
def nfaToDfa (n : Nfa) (addr : Nat → Nat) : Option Dfa :=
  (epsilonClosure n addr n.root).bind fun start =>
    let st := (SubsetState.create n { dfa := [], map := [], stack := [] } start).1
    (subsetLoop n addr (2 ^ n.states.length) st).map fun st => { states := st.dfa }

/-- Lexer.tpp:377-389 `Lexer::generate`, the automaton part (lines 378-383): all rules into one NFA,
determinised. -/
def generateDfa (rules : List Rule) (addr : Nat → Nat) : Option Dfa :=
  (buildNfa rules).bind fun n => nfaToDfa n addr

/-! ### Intersection -/

/-- RegexDFA.tpp:24-39 `get_reachable_pairs`: pairs to insert into `unvisited_pairs`. -/
def reachablePairs (d1 d2 : Dfa) (p : Nat × Nat) (visited : List (Nat × Nat)) : List (Nat × Nat) :=
  (List.range cSizeOfByte).filterMap fun i =>
    match d1.next p.1 i, d2.next p.2 i with
    | some a, some b => if (a, b) ∈ visited then none else some (a, b)
    | _, _ => none

/-- Insertion into a set whose order is irrelevant. -/
def insertNew {α} [DecidableEq α] (x : α) (l : List α) : List α := if x ∈ l then l else x :: l

/-- The loop of RegexDFA.tpp:63-72.  `pick` chooses which unvisited pair is `unvisited_pairs.begin()`
(smallest address: depends on the heap), as an index into the list (taken modulo its length). -/
def intersectLoop (d1 d2 : Dfa) (pick : List (Nat × Nat) → Nat) :
    Nat → List (Nat × Nat) → List (Nat × Nat) → List Nat → Option (List Nat)
  | _, [], _, types => some types
  | 0, _ :: _, _, _ => none
  | k + 1, p0 :: ps, visited, types =>
    let unv := p0 :: ps
    let p := unv.getD (pick unv % unv.length) p0
    let types := if d1.isAccepting p.1 && d2.isAccepting p.2 then
        (d1.ids p.1).foldl (fun t i => insertNew i t) types else types
    let visited := insertNew p visited
    let unv := (reachablePairs d1 d2 p visited).foldl (fun u x => insertNew x u) unv
    intersectLoop d1 d2 pick k (unv.filter (· ≠ p)) visited types

/-- RegexDFA.tpp:55-74 `get_intersect`.  Fuel: number of pairs of states. -/
def getIntersect (d1 d2 : Dfa) (pick : List (Nat × Nat) → Nat) : Option (List Nat) :=
  intersectLoop d1 d2 pick (d1.states.length * d2.states.length) [(0, 0)] [] []

end LogSurgeon
