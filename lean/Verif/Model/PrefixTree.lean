/-
Model of finite_automata/PrefixTree.{hpp,cpp} and RegisterHandler.hpp.
-/
namespace LogSurgeon

/-- Abnormal outcomes. -/
inductive TreeErr where
  /-- `std::out_of_range` is thrown. -/
  | outOfRange
  /-- An unchecked vector access is out of bounds (undefined behaviour). -/
  | ub
  /-- The loop of `get_reversed_positions` does not end (cycle of parents). -/
  | diverges
deriving Repr, DecidableEq

/-- PrefixTree.hpp:60-85 `Node`. -/
structure PNode where
  parent : Option Nat
  pos : Int
deriving Repr, DecidableEq

/-- PrefixTree.hpp:87 `m_nodes`. -/
structure PrefixTree where
  nodes : List PNode
deriving Repr, DecidableEq

namespace PrefixTree

/-- PrefixTree.hpp:28 default constructor: the root node only. -/
def empty : PrefixTree := { nodes := [⟨none, -1⟩] }

/-- PrefixTree.hpp:36-43 `insert`. -/
def insert (t : PrefixTree) (parent : Nat) (pos : Int) : Except TreeErr (PrefixTree × Nat) :=
  if t.nodes.length ≤ parent then .error .outOfRange
  else
    let nodes := t.nodes ++ [⟨some parent, pos⟩]
    .ok ({ nodes := nodes }, nodes.length - 1)

/-- PrefixTree.hpp:45-47 `set` (`at` throws on a bad index). -/
def set (t : PrefixTree) (id : Nat) (pos : Int) : Except TreeErr PrefixTree :=
  if id < t.nodes.length then .ok { nodes := t.nodes.modify id fun n => { n with pos := pos } }
  else .error .outOfRange

/-- PrefixTree.hpp:49 `size`. -/
def size (t : PrefixTree) : Nat := t.nodes.length

/-- Loop of PrefixTree.cpp:14-17, starting with the current node. -/
def walk (t : PrefixTree) : Nat → PNode → List Int → Except TreeErr (List Int)
  | 0, _, _ => .error .diverges
  | k + 1, cur, acc =>
    match cur.parent with
    | none => .ok acc
    | some p =>
      match t.nodes[p]? with
      | none => .error .ub
      | some n => walk t k n (acc ++ [cur.pos])

/-- PrefixTree.cpp:7-19 `get_reversed_positions`. -/
def getReversedPositions (t : PrefixTree) (id : Nat) : Except TreeErr (List Int) :=
  match t.nodes[id]? with
  | none => .error .outOfRange
  | some n => t.walk (t.nodes.length + 1) n []

end PrefixTree

/-- RegisterHandler.hpp:46-48. -/
structure RegisterHandler where
  tree : PrefixTree
  regs : List Nat
deriving Repr, DecidableEq

namespace RegisterHandler

/-- Default construction. -/
def empty : RegisterHandler := ⟨.empty, []⟩

/-- RegisterHandler.hpp:20-26 `add_register`. -/
def addRegister (h : RegisterHandler) (parent : Nat) (pos : Int) : Except TreeErr RegisterHandler := do
  let (t, id) ← h.tree.insert parent pos
  .ok ⟨t, h.regs ++ [id]⟩

/-- `m_registers.at(i)`. -/
def at_ (h : RegisterHandler) (i : Nat) : Except TreeErr Nat :=
  match h.regs[i]? with
  | none => .error .outOfRange
  | some n => .ok n

/-- RegisterHandler.hpp:28-30 `set_register`. -/
def setRegister (h : RegisterHandler) (r : Nat) (pos : Int) : Except TreeErr RegisterHandler := do
  let n ← h.at_ r
  let t ← h.tree.set n pos
  .ok { h with tree := t }

/-- RegisterHandler.hpp:32-34 `copy_register`. -/
def copyRegister (h : RegisterHandler) (dst src : Nat) : Except TreeErr RegisterHandler := do
  let n ← h.at_ src
  let _ ← h.at_ dst
  .ok { h with regs := h.regs.set dst n }

/-- RegisterHandler.hpp:36-39 `append_position`. -/
def appendPosition (h : RegisterHandler) (r : Nat) (pos : Int) : Except TreeErr RegisterHandler := do
  let n ← h.at_ r
  let (t, id) ← h.tree.insert n pos
  .ok ⟨t, h.regs.set r id⟩

/-- RegisterHandler.hpp:41-44 `get_reversed_positions`. -/
def getReversedPositions (h : RegisterHandler) (r : Nat) : Except TreeErr (List Int) := do
  let n ← h.at_ r
  h.tree.getReversedPositions n

end RegisterHandler
end LogSurgeon
