/-
Model of the regex AST (src/log_surgeon/finite_automata/RegexAST.hpp) and of its
translation into an NFA (RegexNFA.hpp, RegexNFAState.hpp, LexicalRule.hpp).

Only the *byte* instantiation (`RegexNFAByteState`) is modelled: it is the only one the
library instantiates (Lexer.tpp, LogParser.cpp, SchemaParser.cpp).
-/
namespace LogSurgeon

/-- Constants.hpp:10 `cSizeOfByte`. -/
def cSizeOfByte : Nat := 256
/-- Constants.hpp:8 `cUnicodeMax`. -/
def cUnicodeMax : Nat := 0x10FFFF

/-- Tag.hpp:9-17.  Tags are compared and stored by *pointer* in the code: the model adds the identity of the object (a
number) to its name. -/
structure Tag where
  id : Nat
  name : String := ""
deriving Repr, DecidableEq

/-- A tag without a name, for examples. -/
instance (n : Nat) : OfNat Tag n := ⟨⟨n, ""⟩⟩

/-- RegexAST.hpp:297 `using Range = std::pair<uint32_t, uint32_t>`. -/
abbrev Range := Nat × Nat

/-- RegexAST.hpp: the class hierarchy.  The first argument `neg` of each node is the field
`m_negative_tags` (RegexAST.hpp:46-151).  `m_subtree_positive_tags` (147) is determined by the
constructors from the children and never changed afterwards, so it is the function
`Regex.positiveTags` below. -/
inductive Regex where
  /-- RegexAST.hpp:161-188, 716-719 `RegexASTEmpty`. -/
  | empty (neg : List Tag)
  /-- RegexAST.hpp:191-237, 721-728 `RegexASTLiteral`. -/
  | literal (neg : List Tag) (c : Nat)
  /-- RegexAST.hpp:240-292 `RegexASTInteger` (digits, most significant first). -/
  | integer (neg : List Tag) (digits : List Nat)
  /-- RegexAST.hpp:295-425 `RegexASTGroup` (`m_is_wildcard`, `m_negate`, `m_ranges`). -/
  | group (neg : List Tag) (wildcard negate : Bool) (ranges : List Range)
  /-- RegexAST.hpp:428-488 `RegexASTOr`. -/
  | or (neg : List Tag) (l r : Regex)
  /-- RegexAST.hpp:491-551 `RegexASTCat`. -/
  | cat (neg : List Tag) (l r : Regex)
  /-- RegexAST.hpp:554-622 `RegexASTMultiplication` (`m_max = 0` means unbounded, 607). -/
  | mult (neg : List Tag) (op : Regex) (min max : Nat)
  /-- RegexAST.hpp:632-714 `RegexASTCapture`. -/
  | capture (neg : List Tag) (inner : Regex) (tag : Tag)
deriving Repr, DecidableEq

namespace Regex

/-- RegexAST.hpp:149 `get_negative_tags` / field `m_negative_tags`. -/
def negTags : Regex → List Tag
  | empty n | literal n _ | integer n _ | group n _ _ _ | or n _ _ | cat n _ _ | mult n _ _ _
  | capture n _ _ => n

/-- RegexAST.hpp:102-104 `set_negative_tags`. -/
def setNegTags : Regex → List Tag → Regex
  | empty _, n => empty n
  | literal _ c, n => literal n c
  | integer _ d, n => integer n d
  | group _ w g rs, n => group n w g rs
  | or _ l r, n => or n l r
  | cat _ l r, n => cat n l r
  | mult _ o a b, n => mult n o a b
  | capture _ i t, n => capture n i t

/-- `m_subtree_positive_tags` as computed by the constructors: RegexAST.hpp:779-780 (Or), 809-810
(Cat), 844 (Multiplication), 652-655 (Capture); empty for the leaves. -/
def positiveTags : Regex → List Tag
  | empty _ | literal _ _ | integer _ _ | group _ _ _ _ => []
  | or _ l r | cat _ l r => l.positiveTags ++ r.positiveTags
  | mult _ o _ _ => o.positiveTags
  | capture _ i t => i.positiveTags ++ [t]

/-! Constructors as used by clients. -/

/-- RegexAST.hpp:163 -/
def mkEmpty : Regex := .empty []
/-- RegexAST.hpp:722 -/
def mkLiteral (c : Nat) : Regex := .literal [] c
/-- RegexAST.hpp:771-781 `RegexASTOr::RegexASTOr`: the branches negate each other's tags. -/
def mkOr (l r : Regex) : Regex :=
  .or [] (l.setNegTags r.positiveTags) (r.setNegTags l.positiveTags)
/-- RegexAST.hpp:801-809 `RegexASTCat::RegexASTCat`. -/
def mkCat (l r : Regex) : Regex := .cat [] l r
/-- RegexAST.hpp:833-842 `RegexASTMultiplication::RegexASTMultiplication`. -/
def mkMult (o : Regex) (min max : Nat) : Regex := .mult [] o min max
/-- RegexAST.hpp:641-656 `RegexASTCapture::RegexASTCapture`. -/
def mkCapture (i : Regex) (t : Tag) : Regex := .capture [] i t

end Regex

/-! ### Character class helpers -/

/-- Lexicographic order on `std::pair<uint32_t,uint32_t>` used by `std::sort`, RegexAST.hpp:1068. -/
def rangeLe (a b : Range) : Bool := a.1 < b.1 || (a.1 == b.1 && a.2 ≤ b.2)

/-- Insertion used by `sortRanges`. -/
def insertRange (x : Range) : List Range → List Range
  | [] => [x]
  | y :: ys => if rangeLe x y then x :: y :: ys else y :: insertRange x ys

/-- `std::sort(merged_ranges.begin(), merged_ranges.end())`, RegexAST.hpp:1068.  (The order is total
and antisymmetric, so every correct sort returns the same vector; modelled as insertion sort.) -/
def sortRanges : List Range → List Range
  | [] => []
  | x :: xs => insertRange x (sortRanges xs)

/-- Loop of `RegexASTGroup::merge`, RegexAST.hpp:1030-1040, with `cur` the current range. -/
def mergeLoop (cur : Range) : List Range → List Range
  | [] => [cur]
  | r :: rs =>
    if r.1 ≤ cur.2 + 1 then mergeLoop (cur.1, Nat.max r.2 cur.2) rs
    else cur :: mergeLoop r rs

/-- RegexAST.hpp:1025-1042 `RegexASTGroup::merge`.  (`cur.second + 1` cannot overflow: code points
are at most `cUnicodeMax`.) -/
def merge : List Range → List Range
  | [] => []
  | r :: rs => mergeLoop r rs

/-- Loop of `RegexASTGroup::complement`, RegexAST.hpp:1050-1058, with the running `low`. -/
def complementLoop (low : Nat) : List Range → List Range
  | [] => if low > 0 then [(low, cUnicodeMax)] else []
  | (b, e) :: rs =>
    if b > 0 then (low, b - 1) :: complementLoop (e + 1) rs else complementLoop (e + 1) rs

/-- RegexAST.hpp:1046-1060 `RegexASTGroup::complement`. -/
def complement (rs : List Range) : List Range := complementLoop 0 rs

/-- RegexAST.hpp:1067-1072: the ranges a group contributes to the NFA. -/
def groupRanges (negate : Bool) (ranges : List Range) : List Range :=
  let m := merge (sortRanges ranges)
  if negate then complement m else m

/-! ### NFA -/

/-- RegexNFAState.hpp:110-123.  States are identified by their position in `RegexNFA::m_states`
(i.e. by order of creation).  `bytes` lists the entries of `m_bytes_transitions` as pairs
(byte, destination) in insertion order; `m_bytes_transitions[b]` is `byteTransitions b`. -/
structure NState where
  accepting : Bool := false
  varId : Nat := 0
  posStart : List (Tag × Nat) := []
  posEnd : Option (Tag × Nat) := none
  neg : Option (List Tag × Nat) := none
  eps : List Nat := []
  bytes : List (Nat × Nat) := []
deriving Repr, DecidableEq

/-- RegexNFAState.hpp:84-87 `get_byte_transitions`. -/
def NState.byteTransitions (s : NState) (b : Nat) : List Nat :=
  (s.bytes.filter (fun p => p.1 == b)).map (·.2)

/-- RegexNFA.hpp:93-99: `m_states` and `m_root`. -/
structure Nfa where
  states : List NState
  root : Nat
deriving Repr, DecidableEq

namespace Nfa

/-- RegexNFA.hpp:111-114 `new_state` (and the two tagged variants 117-132 via `s`): append a state,
return its id. -/
def pushState (n : Nfa) (s : NState) : Nfa × Nat :=
  ({ n with states := n.states ++ [s] }, n.states.length)

/-- RegexNFA.hpp:111-114 `new_state`. -/
def newState (n : Nfa) : Nfa × Nat := n.pushState {}

/-- RegexNFA.hpp:89 `set_root`. -/
def setRoot (n : Nfa) (r : Nat) : Nfa := { n with root := r }

/-- Mutation of a state through a pointer. -/
def modifyState (n : Nfa) (i : Nat) (f : NState → NState) : Nfa :=
  { n with states := n.states.modify i f }

/-- RegexNFAState.hpp:126-170 `add_interval` (byte case): only the bytes of the interval get a
transition; code points ≥ 256 are silently dropped. -/
def addInterval (n : Nfa) (src : Nat) (r : Range) (dest : Nat) : Nfa :=
  if r.1 < cSizeOfByte then
    let bound := min r.2 (cSizeOfByte - 1)
    n.modifyState src fun s =>
      { s with bytes := s.bytes ++ (List.range' r.1 (bound + 1 - r.1)).map (fun c => (c, dest)) }
  else n

/-- RegexNFAState.hpp:72-74 `add_epsilon_transition`. -/
def addEpsilon (n : Nfa) (src dest : Nat) : Nfa :=
  n.modifyState src fun s => { s with eps := s.eps ++ [dest] }

/-- RegexNFA.hpp:135-144 `new_start_and_end_states_with_positive_tagged_transitions`. -/
def newCaptureStates (n : Nfa) (tag : Tag) (dest : Nat) : Nfa × Nat × Nat :=
  let (n, start) := n.newState
  let n := n.modifyState n.root fun s => { s with posStart := s.posStart ++ [(tag, start)] }
  let (n, stop) := n.pushState { posEnd := some (tag, dest) }
  (n, start, stop)

end Nfa

/-! ### `add_to_nfa` -/

/-- The type of an `add_to_nfa` method: NFA and end state to the extended NFA; `none` is the
`std::runtime_error` of `RegexASTInteger::add_to_nfa`. -/
abbrev Adder := Nfa → Nat → Option Nfa

/-- RegexAST.hpp:111-122 `add_to_nfa_with_negative_tags`, given the node's tags and `add_to_nfa`. -/
def withNegTags (neg : List Tag) (f : Adder) : Adder := fun n e =>
  if neg.isEmpty then f n e
  else
    let (n, s) := n.pushState { neg := some (neg, e) }
    f n s

/-- RegexAST.hpp:853-857 (and 868-872): `k` times: new intermediate state, operand from the current root to
it, make it the root. -/
def chain (f : Adder) : Nat → Nfa → Option Nfa
  | 0, n => some n
  | k + 1, n =>
    let (n, i) := n.newState
    match f n i with
    | none => none
    | some n => chain f k (n.setRoot i)

/-- RegexAST.hpp:869-874: `k` times: operand from the root to the end state, then as `chain`. -/
def chainOpt (f : Adder) (e : Nat) : Nat → Nfa → Option Nfa
  | 0, n => some n
  | k + 1, n =>
    match f n e with
    | none => none
    | some n =>
      let (n, i) := n.newState
      match f n i with
      | none => none
      | some n => chainOpt f e k (n.setRoot i)

/-- RegexAST.hpp:845-878 `RegexASTMultiplication::add_to_nfa`; `f` is the operand's
`add_to_nfa_with_negative_tags`. -/
def addMult (f : Adder) (min max : Nat) : Adder := fun n e =>
  let saved := n.root
  -- 852-861
  let first : Option Nfa :=
    if min = 0 then some (n.addEpsilon n.root e)
    else (chain f (min - 1) n).bind fun n => f n e
  first.bind fun n =>
    -- 862-881
    let second : Option Nfa :=
      if max = 0 then f (n.setRoot e) e
      else if max > min then
        (if min ≠ 0 then chain f 1 n else some n).bind fun n =>
          (chainOpt f e (max - (min + 1)) n).bind fun n => f n e
      else some n
    second.map fun n => n.setRoot saved

/-- RegexAST.hpp `add_to_nfa` of the eight node classes: 180-185 (Empty), 729-733 (Literal),
752-757 (Integer), 1062-1076 (Group), 783-788 (Or), 813-822 (Cat), 848-883 (Multiplication),
895-940 (Capture). -/
def Regex.addToNfa : Regex → Adder
  | .empty _ => fun n _ => some n
  | .literal _ c => fun n e => some (n.addInterval n.root (c, c) e)
  | .integer _ _ => fun _ _ => none
  | .group _ _ negate ranges => fun n e =>
    some ((groupRanges negate ranges).foldl (fun n r => n.addInterval n.root r e) n)
  | .or _ l r => fun n e =>
    (withNegTags l.negTags l.addToNfa n e).bind fun n => withNegTags r.negTags r.addToNfa n e
  | .cat _ l r => fun n e =>
    let saved := n.root
    let (n, i) := n.newState
    (withNegTags l.negTags l.addToNfa n i).bind fun n =>
      (withNegTags r.negTags r.addToNfa (n.setRoot i) e).map fun n => n.setRoot saved
  | .mult _ op min max => addMult (withNegTags op.negTags op.addToNfa) min max
  | .capture _ inner tag => fun n dest =>
    let (n, start, stop) := n.newCaptureStates tag dest
    let saved := n.root
    (withNegTags inner.negTags inner.addToNfa (n.setRoot start) stop).map fun n => n.setRoot saved

/-- LexicalRule.hpp:10-36: variable id and regex. -/
structure Rule where
  id : Nat
  regex : Regex
deriving Repr, DecidableEq

/-- LexicalRule.hpp:39-44 `LexicalRule::add_to_nfa`. -/
def Rule.addToNfa (r : Rule) (n : Nfa) : Option Nfa :=
  let (n, e) := n.pushState { accepting := true, varId := r.id }
  withNegTags r.regex.negTags r.regex.addToNfa n e

/-- The loop of RegexNFA.hpp:105-107. -/
def addRules : List Rule → Nfa → Option Nfa
  | [], n => some n
  | r :: rs, n => (r.addToNfa n).bind (addRules rs)

/-- RegexNFA.hpp:102-108 `RegexNFA::RegexNFA`. -/
def buildNfa (rules : List Rule) : Option Nfa := addRules rules { states := [{}], root := 0 }

end LogSurgeon
