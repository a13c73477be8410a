import Verif.Model.Lalr
/-
Derivation trees of a context-free grammar, independent of any parsing algorithm.
-/
namespace LogSurgeon

/-- `Derivation decls isTok syms trees toks`: the trees, one for each of the symbols, are derivation trees whose leaves
are the tokens in order.  A leaf is a token that stands for its symbol; an inner node is labelled with
a production `(head, body)` and its children derive the body.  `decls i` is the `i`-th production. -/
inductive Derivation (decls : List (String × List String)) (isTok : Token → String → Prop) :
    List String → List Tree → List Token → Prop
  | nil : Derivation decls isTok [] [] []
  | tok {t s ss ts w} : isTok t s → Derivation decls isTok ss ts w →
      Derivation decls isTok (s :: ss) (.leaf t :: ts) (t :: w)
  | prod {i head body cs ss ts w w'} : decls[i]? = some (head, body) → Derivation decls isTok body cs w →
      Derivation decls isTok ss ts w' → Derivation decls isTok (head :: ss) (.node i cs :: ts) (w ++ w')

/-- `Derives prods isTok syms toks`: the symbols derive the tokens by the productions. -/
inductive Derives {α : Type} (prods : List (String × List String)) (isTok : α → String → Prop) :
    List String → List α → Prop
  | nil : Derives prods isTok [] []
  | tok {t s ss w} : isTok t s → Derives prods isTok ss w → Derives prods isTok (s :: ss) (t :: w)
  | prod {head body ss w w'} : (head, body) ∈ prods → Derives prods isTok body w → Derives prods isTok ss w' →
      Derives prods isTok (head :: ss) (w ++ w')

/-- The symbol derives some sequence of terminals. -/
inductive Productive (terminals : List String) (prods : List (String × List String)) : String → Prop
  | term {s} : s ∈ terminals → Productive terminals prods s
  | prod {s body} : (s, body) ∈ prods → (∀ x ∈ body, Productive terminals prods x) → Productive terminals prods s

/-- The symbols with which a sequence behind the start symbol can begin. -/
inductive BehindStart (prods : List (String × List String)) (start : String) : String → Prop
  | here {head x rest} : (head, start :: x :: rest) ∈ prods → BehindStart prods start x
  | left {head x rest} : BehindStart prods start head → (head, x :: rest) ∈ prods → BehindStart prods start x

/-- The symbols with which a sequence behind the symbol `x` can begin. -/
inductive Beside (prods : List (String × List String)) (x : String) : String → Prop
  | here {head pre y rest} : (head, pre ++ x :: y :: rest) ∈ prods → Beside prods x y
  | left {head y rest} : Beside prods x head → (head, y :: rest) ∈ prods → Beside prods x y

/-- Once the start symbol has been read up to the end of the input nothing can be reduced any more: no production has
the start symbol as its whole body and nothing empty can be added behind it. -/
def EndsCleanly (prods : List (String × List String)) (start : String) : Prop :=
  (∀ d ∈ prods, d.2 ≠ [start]) ∧ ∀ d ∈ prods, d.2 = [] → ¬ BehindStart prods start d.1

/-- Every traversal visits all there is to visit. -/
structure Grammar.Orders.Ok (o : Grammar.Orders) (g : Grammar) : Prop where
  nts : ∀ p ∈ g.prods, p.head ∈ o.nts
  sets : ∀ ks i, i ∈ o.sets ks ↔ i < ks.length

/-- A token the parser can handle in only one way: its types are terminals other than the end of the input, and no row of the
table offers two different actions for them.  (A token of one such type is always clear.) -/
def Grammar.Clear (g : Grammar) (tb : Grammar.Table) (t : Token) : Prop :=
  ∃ tys, t.types = some tys ∧ (∀ ty ∈ tys, ty ∈ g.terminals ∧ ty ≠ tokenEnd) ∧
    ∀ r ∈ tb.actions, ∀ ty ∈ tys, ∀ ty' ∈ tys, ∀ a a', r.2[ty]? = some a → r.2[ty']? = some a' →
      a ≠ .flag false → a' ≠ .flag false → a = a'

/-- The array that holds the children of all nonterminals has 10000 entries and is filled from the front; the parser works
bottom up, so the children of a node are entered after those of its descendants.  Some semantic rules (`resets`) start
again at the front if more than half of the array is used.  `t.counter resets k` is the number of entries used after the
tree if `k` are used before, `none` if the array is too small. -/
def Tree.counter (resets : Nat → Bool) : Tree → Nat → Option Nat
  | .leaf _, k => some k
  | .node p cs, k =>
    match counters cs k with
    | none => none
    | some k =>
      if 0 < cs.length ∧ 10000 < k + cs.length then none
      else some (if resets p = true ∧ 5000 < k + cs.length then 0 else k + cs.length)
where
  /-- The same for several trees, from left to right. -/
  counters : List Tree → Nat → Option Nat
    | [], k => some k
    | t :: ts, k =>
      match t.counter resets k with
      | none => none
      | some k => counters ts k

/-- The number of children of all the nodes of the tree. -/
def Tree.edges : Tree → Nat
  | .leaf _ => 0
  | .node _ cs => cs.length + edgesAll cs
where
  /-- The same for several trees. -/
  edgesAll : List Tree → Nat
    | [] => 0
    | t :: ts => t.edges + edgesAll ts

/-- The token may stand for the terminal named `s`. -/
def Grammar.IsTok (g : Grammar) (terminals : List String) (t : Token) (s : String) : Prop :=
  s ∈ terminals ∧ ∃ id tys, g.symbolId.lookup s = some id ∧ t.types = some tys ∧ id ∈ tys

end LogSurgeon
