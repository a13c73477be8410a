import Verif.Model.Lexer
/-
Model of `UnicodeIntervalTree<T>`, UnicodeIntervalTree.hpp and UnicodeIntervalTree.tpp (the transitions of UTF-8 states on characters
above 255, RegexNFAState.hpp:30, RegexDFA.hpp:24).

A node carries the address at which it was allocated, because `balance_factor` subtracts pointers.  What such a subtraction yields (as
an `int`) is the parameter `diff`; the null pointer is address 0.  `ub`: a null pointer is dereferenced, an assertion
fails, or a product of two factors overflows an `int`.
-/
namespace LogSurgeon

/-- UnicodeIntervalTree.hpp:56-57, 162-168 `Node`; `nil` is the null pointer. -/
inductive ITree (α : Type) where
  | nil
  | node (addr : Nat) (left : ITree α) (iv : Range) (val : α) (lower upper height : Nat) (right : ITree α)
deriving Repr, DecidableEq

namespace ITree
variable {α : Type}

/-- The pointer to the node. -/
def addr : ITree α → Nat
  | nil => 0
  | node a .. => a

/-- `m_upper` (of a node that exists). -/
def upper : ITree α → Nat
  | nil => 0
  | node _ _ _ _ _ u _ _ => u

/-- `m_lower`. -/
def lower : ITree α → Nat
  | nil => 0
  | node _ _ _ _ l _ _ _ => l

/-- `m_height`. -/
def height : ITree α → Nat
  | nil => 0
  | node _ _ _ _ _ _ h _ => h

/-- UnicodeIntervalTree.tpp:144-163 `update`, applied to a node with these children. -/
def update (a : Nat) (l : ITree α) (iv : Range) (v : α) (r : ITree α) : ITree α :=
  match l, r with
  | nil, nil => node a l iv v iv.1 iv.2 1 r
  | nil, node .. => node a l iv v iv.1 (max iv.2 r.upper) 2 r
  | node .., nil => node a l iv v l.lower (max iv.2 l.upper) 2 r
  | node .., node .. => node a l iv v l.lower (max iv.2 (max l.upper r.upper)) (max l.height r.height + 1) r

/-- `operator<` on `std::pair`. -/
def ivLt (a b : Range) : Bool := decide (a.1 < b.1) || (a.1 == b.1 && decide (a.2 < b.2))

/-- UnicodeIntervalTree.tpp:34-52 `all`. -/
def all : ITree α → List (Range × α)
  | nil => []
  | node _ l iv v _ _ _ r => l.all ++ (iv, v) :: r.all

/-- UnicodeIntervalTree.tpp:224-229 `overlaps_recursive` and 231-236 `overlaps`: the interval `lo`-`hi` against `i`. -/
def meets (lo hi : Nat) (i : Range) : Bool :=
  (decide (lo ≤ i.1) && decide (i.1 ≤ hi)) || (decide (lo ≤ i.2) && decide (i.2 ≤ hi)) || (decide (i.1 ≤ lo) && decide (lo ≤ i.2))

/-- UnicodeIntervalTree.tpp:62-76 `Node::find`. -/
def findIn (i : Range) : ITree α → List (Range × α)
  | nil => []
  | node _ l iv v lo up _ r =>
    if meets lo up i then l.findIn i ++ (if meets iv.1 iv.2 i then [(iv, v)] else []) ++ r.findIn i else []

/-- UnicodeIntervalTree.tpp:54-60 `find`: the root is dereferenced without a check. -/
def find (t : ITree α) (i : Range) : Except Fail (List (Range × α)) :=
  match t with
  | nil => .error .ub
  | t => .ok (t.findIn i)

/-- A product of two factors, if it fits into an `int`. -/
def intMul (a b : Int) : Except Fail Int :=
  if a * b < -2147483648 ∨ 2147483647 < a * b then .error .ub else .ok (a * b)

/-- UnicodeIntervalTree.tpp:202-211 `rotate_cw`. -/
def rotateCw : ITree α → Except Fail (ITree α)
  | node a (node a' l' iv' v' _ _ _ r') iv v _ _ _ r => .ok (update a' l' iv' v' (update a r' iv v r))
  | _ => .error .ub

/-- UnicodeIntervalTree.tpp:213-222 `rotate_ccw`. -/
def rotateCcw : ITree α → Except Fail (ITree α)
  | node a l iv v _ _ _ (node a' l' iv' v' _ _ _ r') => .ok (update a' (update a l iv v l') iv' v' r')
  | _ => .error .ub

/-- UnicodeIntervalTree.tpp:190-200 `rotate`. -/
def rotate (t : ITree α) (factor : Int) : Except Fail (ITree α) :=
  if factor < 0 then t.rotateCw else if 0 < factor then t.rotateCcw else .ok t

section
variable (diff : Nat → Nat → Int)

/-- UnicodeIntervalTree.tpp:165-168 `balance_factor`: a difference of pointers, not of heights. -/
def balanceFactor : ITree α → Except Fail Int
  | nil => .error .ub
  | node _ l _ _ _ _ _ r => .ok (diff r.addr l.addr)

/-- UnicodeIntervalTree.tpp:170-188 `balance`. -/
def balance : ITree α → Except Fail (ITree α)
  | nil => .error .ub
  | node a l iv v lo up h r => do
    let t := node a l iv v lo up h r
    let factor ← t.balanceFactor diff
    let sq ← intMul factor factor
    if sq ≤ 1 then .ok t
    else
      let sub ← (if factor < 0 then l else r).balanceFactor diff
      let pr ← intMul factor sub
      if 0 < pr then t.rotate factor
      else if factor = 2 then
        let r ← r.rotate sub
        (node a l iv v lo up h r).rotate factor
      else
        let l ← l.rotate sub
        (node a l iv v lo up h r).rotate factor

/-- UnicodeIntervalTree.tpp:9-32 `insert`; `a` is the address of the node in case one is allocated. -/
def insert (a : Nat) (iv : Range) (x : α) : ITree α → Except Fail (ITree α)
  | nil => .ok (update a nil iv x nil)
  | node a' l iv' x' _ _ _ r =>
    if ivLt iv iv' then do
      let l ← l.insert a iv x
      balance diff (update a' l iv' x' r)
    else if ivLt iv' iv then do
      let r ← r.insert a iv x
      balance diff (update a' l iv' x' r)
    else balance diff (update a' l iv' x r)

/-- UnicodeIntervalTree.tpp:129-142 `pop_min`: the tree without its first node, and address, interval and value of that node. -/
def popMin : ITree α → Except Fail (ITree α × (Nat × Range × α))
  | nil => .error .ub
  | node a l iv v _ _ _ r =>
    match l with
    | nil =>
      match r with
      | nil => .error .ub
      | r => .ok (r, (a, iv, v))
    | l => do
      let (l, m) ← l.popMin
      let t ← balance diff (update a l iv v r)
      .ok (t, m)

/-- UnicodeIntervalTree.tpp:93-127 `Node::pop`. -/
def popNode (i : Range) : ITree α → Except Fail (ITree α × Option (Range × α))
  | nil => .ok (nil, none)
  | node a l iv v lo up h r =>
    if !meets lo up i then .ok (node a l iv v lo up h r, none)
    else do
      let (l, x) ← l.popNode i
      match x with
      | some x =>
        let t ← balance diff (update a l iv v r)
        .ok (t, some x)
      | none =>
        if !meets iv.1 iv.2 i then .error .ub
        else
          match l, r with
          | nil, nil => .ok (nil, some (iv, v))
          | nil, r => .ok (r, some (iv, v))
          | l, nil => .ok (l, some (iv, v))
          | l, r => do
            let (s, (a', iv', v')) ← r.popMin diff
            let t ← balance diff (update a' l iv' v' s)
            .ok (t, some (iv, v))

/-- UnicodeIntervalTree.tpp:78-91 `pop`. -/
def pop (i : Range) : Nat → ITree α → Except Fail (ITree α × List (Range × α))
  | 0, _ => .error .diverge
  | k + 1, t => do
    let (t, x) ← t.popNode diff i
    match x with
    | none => .ok (t, [])
    | some x =>
      let (t, xs) ← pop i k t
      .ok (t, x :: xs)

end
end ITree

/-- A call of the interface, UnicodeIntervalTree.hpp:29-53. -/
inductive ITreeOp (α : Type) where
  /-- `insert`, with the address of the new node -/
  | insert (a : Nat) (iv : Range) (x : α)
  | all
  | find (i : Range)
  | pop (i : Range)
  | reset

/-- One call: the new tree and the data returned (nothing for `insert` and `reset`). -/
def ITree.call {α : Type} (diff : Nat → Nat → Int) (t : ITree α) : ITreeOp α → Except Fail (ITree α × List (Range × α))
  | .insert a iv x => do
    let t ← t.insert diff a iv x
    .ok (t, [])
  | .all => .ok (t, t.all)
  | .find i => do
    let r ← t.find i
    .ok (t, r)
  | .pop i => t.pop diff i (t.all.length + 1)
  | .reset => .ok (.nil, [])

/-- A history of calls on a new tree: the data returned by each. -/
def ITree.calls {α : Type} (diff : Nat → Nat → Int) : ITree α → List (ITreeOp α) → Except Fail (List (List (Range × α)))
  | _, [] => .ok []
  | t, o :: os => do
    let (t, r) ← t.call diff o
    let rs ← ITree.calls diff t os
    .ok (r :: rs)

end LogSurgeon
