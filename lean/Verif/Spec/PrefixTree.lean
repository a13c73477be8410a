import Verif.Model.PrefixTree
/-
What a prefix tree and a register file should do, without parent pointers.
-/
namespace LogSurgeon

/-- Operations of a client. -/
inductive TreeOp where
  | insert (parent : Nat) (pos : Int)
  | set (id : Nat) (pos : Int)
  | query (id : Nat)
deriving Repr, DecidableEq

/-- Observable results. -/
inductive TreeOut where
  | id (n : Nat)
  | unit
  | positions (l : List Int)
  | err (e : TreeErr)
deriving Repr, DecidableEq

/-- Abstract tree: each node id has a fixed chain of node ids (itself first, root excluded); each node
id has a current position. -/
structure AbsTree where
  chains : List (List Nat)
  pos : Nat → Int

def AbsTree.init : AbsTree := ⟨[[]], fun _ => -1⟩

/-- Abstract behaviour of one operation: inserting creates the next id, whose chain is itself
followed by the parent's chain; setting changes one node's position; a query lists the positions of
the chain; an unknown id is reported and changes nothing. -/
def AbsTree.step (a : AbsTree) : TreeOp → AbsTree × TreeOut
  | .insert p x =>
    match a.chains[p]? with
    | none => (a, .err .outOfRange)
    | some c =>
      let new := a.chains.length
      (⟨a.chains ++ [new :: c], fun i => if i = new then x else a.pos i⟩, .id new)
  | .set i x =>
    if i < a.chains.length then (⟨a.chains, fun j => if j = i then x else a.pos j⟩, .unit)
    else (a, .err .outOfRange)
  | .query i =>
    match a.chains[i]? with
    | none => (a, .err .outOfRange)
    | some c => (a, .positions (c.map a.pos))

/-- The implementation, driven by the same operations. -/
def PrefixTree.step (t : PrefixTree) : TreeOp → PrefixTree × TreeOut
  | .insert p x => match t.insert p x with
    | .ok (t', i) => (t', .id i)
    | .error e => (t, .err e)
  | .set i x => match t.set i x with
    | .ok t' => (t', .unit)
    | .error e => (t, .err e)
  | .query i => match t.getReversedPositions i with
    | .ok l => (t, .positions l)
    | .error e => (t, .err e)

/-- Outputs of a whole history. -/
def outputs {σ op out : Type} (step : σ → op → σ × out) : σ → List op → List out
  | _, [] => []
  | s, o :: os => (step s o).2 :: outputs step (step s o).1 os

/-- Final state of a history. -/
def finalState {σ op out : Type} (step : σ → op → σ × out) : σ → List op → σ
  | s, [] => s
  | s, o :: os => finalState step (step s o).1 os

/-! Registers -/

inductive RegOp where
  /-- `add_register(cRootId, pos)` -/
  | add (pos : Int)
  | set (r : Nat) (pos : Int)
  | copy (dst src : Nat)
  | append (r : Nat) (pos : Int)
  | query (r : Nat)
deriving Repr, DecidableEq

inductive RegOut where
  | unit
  | positions (l : List Int)
  | err (e : TreeErr)
deriving Repr, DecidableEq

/-- The abstract register file: one list of positions (newest first) per register. -/
abbrev AbsRegs := List (List Int)

/-- Independent registers: each operation touches only the register it names. -/
def AbsRegs.step (a : AbsRegs) : RegOp → AbsRegs × RegOut
  | .add x => (a ++ [[x]], .unit)
  | .set r x => match a[r]? with
    | none => (a, .err .outOfRange)
    | some l => (a.set r (x :: l.tail), .unit)
  | .copy d s => match a[s]?, a[d]? with
    | some l, some _ => (a.set d l, .unit)
    | _, _ => (a, .err .outOfRange)
  | .append r x => match a[r]? with
    | none => (a, .err .outOfRange)
    | some l => (a.set r (x :: l), .unit)
  | .query r => match a[r]? with
    | none => (a, .err .outOfRange)
    | some l => (a, .positions l)

/-- The implementation driven by the same operations (parent of new registers: the root). -/
def RegisterHandler.step (h : RegisterHandler) : RegOp → RegisterHandler × RegOut
  | .add x => match h.addRegister 0 x with
    | .ok h' => (h', .unit)
    | .error e => (h, .err e)
  | .set r x => match h.setRegister r x with
    | .ok h' => (h', .unit)
    | .error e => (h, .err e)
  | .copy d s => match h.copyRegister d s with
    | .ok h' => (h', .unit)
    | .error e => (h, .err e)
  | .append r x => match h.appendPosition r x with
    | .ok h' => (h', .unit)
    | .error e => (h, .err e)
  | .query r => match h.getReversedPositions r with
    | .ok l => (h, .positions l)
    | .error e => (h, .err e)

/-- Which registers own their newest position: it was written by `add` or `append` on that very
register and the register has not been the source or the target of a copy since. -/
def ownStep (own : List Bool) : RegOp → List Bool
  | .add _ => own ++ [true]
  | .append r _ => own.set r true
  | .copy d s => if d < own.length ∧ s < own.length then (own.set s false).set d false else own
  | .set _ _ => own
  | .query _ => own

/-- `set_register` is only ever used on registers that own their newest position. -/
def SetsOwned : List Bool → List RegOp → Prop
  | _, [] => True
  | own, o :: os => (∀ r x, o = .set r x → own[r]? ≠ some false) ∧ SetsOwned (ownStep own o) os

end LogSurgeon
