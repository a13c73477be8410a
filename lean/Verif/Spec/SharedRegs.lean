import Verif.Spec.PrefixTree
/-
Registers whose positions may be shared (C61).  No tree and no parent pointers: every position written by `add_register` or `append_position` is a cell,
numbered in the order of creation; a register is the list of its cells, newest first; `copy_register` makes two registers lists of the same cells;
`set_register` writes into the newest cell of the register.
-/
namespace LogSurgeon

/-- Operations of a client; `add` may put the new register behind any cell. -/
inductive SharedOp where
  | add (cell : Nat) (pos : Int)
  | set (r : Nat) (pos : Int)
  | copy (dst src : Nat)
  | append (r : Nat) (pos : Int)
  | query (r : Nat)
deriving Repr, DecidableEq

structure SharedRegs where
  /-- the cells of each register, newest first -/
  regs : List (List Nat) := []
  /-- for each cell ever made, the cell and those behind it; cell 0 stands for the empty list -/
  made : List (List Nat) := [[]]
  /-- what is written in the cells -/
  pos : Nat → Int := fun _ => -1

/-- One operation.  An unknown register or cell is reported and nothing changes. -/
def SharedRegs.step (a : SharedRegs) : SharedOp → SharedRegs × RegOut
  | .add c x => match a.made[c]? with
    | none => (a, .err .outOfRange)
    | some l =>
      let new := a.made.length
      (⟨a.regs ++ [new :: l], a.made ++ [new :: l], fun i => if i = new then x else a.pos i⟩, .unit)
  | .set r x => match a.regs[r]? with
    | some (c :: _) => ({ a with pos := fun i => if i = c then x else a.pos i }, .unit)
    | _ => (a, .err .outOfRange)
  | .copy d s => match a.regs[s]?, a.regs[d]? with
    | some l, some _ => ({ a with regs := a.regs.set d l }, .unit)
    | _, _ => (a, .err .outOfRange)
  | .append r x => match a.regs[r]? with
    | none => (a, .err .outOfRange)
    | some l =>
      let new := a.made.length
      (⟨a.regs.set r (new :: l), a.made ++ [new :: l], fun i => if i = new then x else a.pos i⟩, .unit)
  | .query r => match a.regs[r]? with
    | none => (a, .err .outOfRange)
    | some l => (a, .positions (l.map a.pos))

/-- The register handler driven by the same operations. -/
def RegisterHandler.stepShared (h : RegisterHandler) : SharedOp → RegisterHandler × RegOut
  | .add c x => match h.addRegister c x with
    | .ok h' => (h', .unit)
    | .error e => (h, .err e)
  | .set r x => match h.setRegister r x with
    | .ok h' => (h', .unit)
    | .error e => (h, .err e)
  | .copy d s => match h.copyRegister d s with
    | .ok h' => (h', .unit)
    | .error e => (h, .err e)
  | .append r x => match h.appendPosition r x with
    | .ok h' => (h', .unit)
    | .error e => (h, .err e)
  | .query r => match h.getReversedPositions r with
    | .ok l => (h, .positions l)
    | .error e => (h, .err e)

end LogSurgeon
