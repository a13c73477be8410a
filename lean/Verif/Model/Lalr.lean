import Verif.Model.Lexer
import Verif.Model.Schema
/-
Model of the LALR(1) parser generator and parser, LALR1Parser.{hpp,tpp,cpp} (used by the schema parser).

A `Production*` is the index of the production in `m_productions`; an `ItemSet*` is the `m_index` of the item set.  A
`std::set` is a sorted list without repetitions.  A `std::map` that is only looked up is the list of its entries (the first
entry for a key counts); where the code iterates over a map or an unordered map the order is a parameter
(`Orders`), so everything proved holds for the order of the standard library in use.

Not modelled here: error messages (`report_error` and its helpers, Model/ErrorReport.lean), the semantic rules apart
from the reset of the children counter (Model/SchemaEval.lean), `m_next` of the LR(0) item sets (never read).
-/
namespace LogSurgeon

/-- Constants.hpp:11. -/
def cSizeOfAllChildren : Nat := 10000
/-- Constants.hpp:12. -/
def cNullSymbol : Nat := 10000000

/-- LALR1Parser.hpp:116-129 `Production` (without index and semantic rule). -/
structure Production where
  head : Nat
  body : List Nat
deriving Repr, DecidableEq

/-- LALR1Parser.hpp:138-175 `Item`. -/
structure Item where
  prod : Nat
  dot : Nat
  la : Nat
deriving Repr, DecidableEq

/-- Insertion into a sorted list without repetitions (`std::set::insert`). -/
def sInsert {α} (lt : α → α → Bool) (x : α) : List α → List α
  | [] => [x]
  | y :: ys => if lt x y then x :: y :: ys else if lt y x then y :: sInsert lt x ys else y :: ys

/-- Order on symbols. -/
def natLt (a b : Nat) : Bool := decide (a < b)

/-- LALR1Parser.hpp:150-153 `operator<` for items. -/
def Item.lt (a b : Item) : Bool :=
  decide (a.prod < b.prod) || (a.prod == b.prod && (decide (a.dot < b.dot) ||
    (a.dot == b.dot && decide (a.la < b.la))))

/-- Lookup in a map to sets with `operator[]` (empty if missing). -/
def mget {α β} [BEq α] (m : List (α × List β)) (k : α) : List β := (m.lookup k).getD []

/-- Assignment to an entry of a map. -/
def mput {α β} [BEq α] : List (α × List β) → α → List β → List (α × List β)
  | [], k, v => [(k, v)]
  | (k', v') :: m, k, v => if k' == k then (k', v) :: m else (k', v') :: mput m k v

/-! ### The grammar -/

/-- The part of the parser that describes the grammar: `m_symbol_id` (Lexer.hpp:130-131), `m_terminals`, `m_productions`,
`m_root_production_id` (LALR1Parser.hpp:284-288, 399); `decls` are the keys of `m_productions_map`, in the order of
`m_productions`. -/
structure Grammar where
  symbolId : List (String × Nat) := reserved
  terminals : List Nat := [0, 1, 2, 3, 4, 5, 6, 7]
  prods : List Production := []
  decls : List (String × List String) := []
  root : Nat := 0
deriving Repr, DecidableEq

namespace Grammar

/-- `m_symbol_id[name]`, after adding the name with the next free id if it is new (LALR1Parser.tpp:118-121, 136-139;
Parser.tpp:37-40). -/
def intern (g : Grammar) (name : String) : Grammar × Nat :=
  match g.symbolId.lookup name with
  | some id => (g, id)
  | none => ({ g with symbolId := (name, g.symbolId.length) :: g.symbolId }, g.symbolId.length)

/-- LALR1Parser.tpp:69-75 `add_rule`: the name becomes a terminal (the lexer's side is `ParserTables.addRule`). -/
def addTerminal (g : Grammar) (name : String) : Grammar :=
  let (g, id) := g.intern name
  { g with terminals := sInsert natLt id g.terminals }

/-- LALR1Parser.tpp:135-141: the symbols of the body. -/
def internAll : Grammar → List String → Grammar × List Nat
  | g, [] => (g, [])
  | g, n :: ns =>
    let (g, id) := g.intern n
    let (g, ids) := internAll g ns
    (g, id :: ids)

/-- LALR1Parser.tpp:118-146: everything but the last statement. -/
def addProd (g : Grammar) (head : String) (body : List String) : Grammar :=
  let (g, h) := g.intern head
  if (head, body) ∈ g.decls then g
  else
    let (g, b) := g.internAll body
    { g with prods := g.prods ++ [⟨h, b⟩], decls := g.decls ++ [(head, body)] }

/-- LALR1Parser.tpp:113-151 `add_production`: the first production makes its head the start symbol. -/
def addProduction (g : Grammar) (head : String) (body : List String) : Grammar :=
  let g' := g.addProd head body
  if g'.prods.length = 1 ∧ g.prods.length = 0 then
    { g'.addProd "$START_PRIME" [head] with root := g'.prods.length }
  else g'

/-- All rules, then all productions. -/
def build (terminals : List String) (decls : List (String × List String)) : Grammar :=
  decls.foldl (fun g d => g.addProduction d.1 d.2) (terminals.foldl addTerminal {})

/-- LALR1Parser.hpp:397 `symbol_is_token`. -/
def isToken (g : Grammar) (s : Nat) : Bool := g.terminals.contains s

/-- `m_non_terminals.at(s)`: the productions with head `s`, in the order in which they were added. -/
def prodsOf (g : Grammar) (s : Nat) : List Nat :=
  (List.range g.prods.length).filter fun i => (g.prods[i]?.map (·.head)) == some s

/-- The body of a production. -/
def body (g : Grammar) (i : Nat) : List Nat := (g.prods[i]?.map (·.body)).getD []

/-- The head of a production. -/
def head (g : Grammar) (i : Nat) : Nat := (g.prods[i]?.map (·.head)).getD 0

/-! ### Closures -/

/-- LALR1Parser.tpp:214-234 and 386-419 with the helper 194-211: the loop over the queue (its back is the head of
the list); `next it` are the items to add for an item before a nonterminal.  An item before a symbol that is neither
terminal nor nonterminal makes `m_non_terminals.at` throw. -/
def closureLoop (g : Grammar) (next : Item → List Item) : Nat → List Item → List Item → Except Fail (List Item)
  | _, [], clo => .ok clo
  | 0, _ :: _, _ => .error .diverge
  | k + 1, it :: q, clo =>
    if it ∈ clo then g.closureLoop next k q clo
    else
      let clo := sInsert Item.lt it clo
      match (g.body it.prod)[it.dot]? with
      | none => g.closureLoop next k q clo
      | some s =>
        if g.isToken s then g.closureLoop next k q clo
        else if (g.prodsOf s).isEmpty then .error .throws
        else g.closureLoop next k ((next it).reverse ++ q) clo

/-- The items with the dot at the start for the productions of the symbol after the dot. -/
def freshItems (g : Grammar) (it : Item) (las : List Nat) : List Item :=
  match (g.body it.prod)[it.dot]? with
  | none => []
  | some s => (g.prodsOf s).flatMap fun p => las.map fun l => ⟨p, 0, l⟩

/-- LALR1Parser.tpp:214-234 `generate_lr0_closure`. -/
def lr0Closure (g : Grammar) (fuel : Nat) (kernel : List Item) : Except Fail (List Item) :=
  g.closureLoop (fun it => g.freshItems it [cNullSymbol]) fuel kernel.reverse []

/-! ### LR(0) item sets -/

/-- `m_lr0_item_sets` (kernel and closure by `m_index`) and `m_go_to_table`. -/
structure LR0 where
  sets : List (List Item × List Item) := []
  goTo : List ((Nat × Nat) × Nat) := []
deriving Repr, DecidableEq

/-- LALR1Parser.tpp:243-251: the kernel of the next item set. -/
def advance (g : Grammar) (closure : List Item) (sym : Nat) : List Item :=
  closure.foldl (fun ker it =>
    if (g.body it.prod)[it.dot]? = some sym then sInsert Item.lt ⟨it.prod, it.dot + 1, it.la⟩ ker else ker) []

/-- LALR1Parser.tpp:237-267 `go_to`; also the index of a new item set. -/
def goTo (g : Grammar) (t : LR0) (i : Nat) (closure : List Item) (sym : Nat) : LR0 × List Nat :=
  let ker := g.advance closure sym
  if ker.isEmpty then (t, [])
  else
    match t.sets.findIdx? (fun s => s.1 == ker) with
    | some j => ({ t with goTo := ((i, sym), j) :: t.goTo }, [])
    | none => ({ sets := t.sets ++ [(ker, [])], goTo := ((i, sym), t.sets.length) :: t.goTo }, [t.sets.length])

/-- LALR1Parser.tpp:176-189: all the symbols for one item set; the new sets go to the back of the queue. -/
def goToAll (g : Grammar) (i : Nat) (closure : List Item) : List Nat → LR0 → List Nat → LR0 × List Nat
  | [], t, q => (t, q)
  | s :: ss, t, q =>
    let r := g.goTo t i closure s
    g.goToAll i closure ss r.1 (r.2 ++ q)

/-- The orders in which unordered containers are traversed. -/
structure Orders where
  /-- `m_non_terminals` -/
  nts : List Nat
  /-- `m_lr0_item_sets`, given the kernels by index -/
  sets : List (List Item) → List Nat

/-- LALR1Parser.tpp:173-190: the loop over `unused_item_sets`. -/
def lr0Loop (g : Grammar) (syms : List Nat) (cfuel : Nat) : Nat → List Nat → LR0 → Except Fail LR0
  | _, [], t => .ok t
  | 0, _ :: _, _ => .error .diverge
  | k + 1, i :: q, t =>
    let ker := (t.sets[i]?.map (·.1)).getD []
    match g.lr0Closure cfuel ker with
    | .error e => .error e
    | .ok clo =>
      let t := { t with sets := t.sets.set i (ker, clo) }
      let r := g.goToAll i clo syms t q
      lr0Loop g syms cfuel k r.2 r.1

/-- LALR1Parser.tpp:164-191 `generate_lr0_kernels`. -/
def lr0Sets (g : Grammar) (o : Orders) (fuel : Nat) : Except Fail LR0 :=
  g.lr0Loop (g.terminals ++ o.nts) fuel fuel [0] { sets := [([⟨g.root, 0, cNullSymbol⟩], [])] }

/-! ### FIRST sets -/

/-- `m_firsts`, `m_nullable`, `changed`. -/
structure Firsts where
  firsts : List (Nat × List Nat) := []
  nullable : List Nat := []
  changed : Bool := false
deriving Repr, DecidableEq

/-- Union with the elements of a list. -/
def sUnion (a b : List Nat) : List Nat := b.foldl (fun s x => sInsert natLt x s) a

namespace Firsts

/-- `changed = changed || m_nullable.insert(s).second` (280, 294): no insertion if `changed` is already set. -/
def addNullable (f : Firsts) (s : Nat) : Firsts :=
  if f.changed then f
  else if s ∈ f.nullable then f
  else { f with nullable := sInsert natLt s f.nullable, changed := true }

/-- LALR1Parser.tpp:284-291: the loop over the body; the flag says whether all its symbols are nullable. -/
def ofBody (f : Firsts) (h : Nat) : List Nat → Firsts × Bool
  | [] => (f, true)
  | s :: ss =>
    let f := { f with firsts := mput f.firsts h (sUnion (mget f.firsts h) (mget f.firsts s)) }
    if s ∈ f.nullable then ofBody f h ss else (f, false)

/-- LALR1Parser.tpp:276-296: one production. -/
def step (f : Firsts) (p : Production) : Firsts :=
  if p.body.isEmpty then f.addNullable p.head
  else
    let old := (mget f.firsts p.head).length
    let (f, all) := f.ofBody p.head p.body
    let f := if all then f.addNullable p.head else f
    { f with changed := f.changed || (mget f.firsts p.head).length != old }

/-- LALR1Parser.tpp:275-298: the outer loop. -/
def loop (ps : List Production) : Nat → Firsts → Except Fail Firsts
  | 0, _ => .error .diverge
  | k + 1, f =>
    let f := ps.foldl step { f with changed := false }
    if f.changed then loop ps k f else .ok f

end Firsts

/-- LALR1Parser.tpp:270-299 `generate_first_sets`. -/
def firstSets (g : Grammar) (fuel : Nat) : Except Fail Firsts :=
  Firsts.loop g.prods fuel { firsts := g.terminals.map fun t => (t, [t]) }

/-! ### LR(1) item sets -/

/-- LALR1Parser.tpp:396-412: the lookaheads for the productions of the symbol before `rest`.  (`m_firsts.find` finds all
symbols that can occur here.) -/
def lookaheadsAfter (f : Firsts) (la : Nat) : List Nat → List Nat
  | [] => [la]
  | s :: ss => mget f.firsts s ++ if s ∈ f.nullable then lookaheadsAfter f la ss else []

/-- LALR1Parser.tpp:386-419 `generate_lr1_closure`. -/
def lr1Closure (g : Grammar) (f : Firsts) (fuel : Nat) (kernel : List Item) : Except Fail (List Item) :=
  g.closureLoop (fun it => g.freshItems it (lookaheadsAfter f it.la ((g.body it.prod).drop (it.dot + 1)))) fuel
    kernel.reverse []

/-- `m_spontaneous_map`, `m_propagate_map`. -/
structure LaMaps where
  spont : List (Nat × List Nat) := []
  prop : List (Item × List Item) := []
deriving Repr, DecidableEq

/-- LALR1Parser.tpp:310-318: one item of the closure of one kernel item. -/
def LaMaps.note (g : Grammar) (from' : Item) (m : LaMaps) (it : Item) : LaMaps :=
  if it.la ≠ cNullSymbol then
    { m with spont := mput m.spont it.prod (sInsert natLt it.la (mget m.spont it.prod)) }
  else if it.dot < (g.body it.prod).length then
    { m with prop := mput m.prop from' (sInsert Item.lt ⟨it.prod, it.dot + 1, cNullSymbol⟩ (mget m.prop from')) }
  else m

/-- LALR1Parser.tpp:303-321: all kernel items. -/
def laMaps (g : Grammar) (f : Firsts) (fuel : Nat) : List Item → LaMaps → Except Fail LaMaps
  | [], m => .ok m
  | it :: its, m =>
    match g.lr1Closure f fuel [it] with
    | .error e => .error e
    | .ok clo => g.laMaps f fuel its (clo.foldl (LaMaps.note g it) m)

/-- `lookaheads` of `generate_lr1_item_sets` and `changed`. -/
structure Las where
  las : List (Item × List Nat) := []
  changed : Bool := false
deriving Repr, DecidableEq

/-- LALR1Parser.tpp:322-333: one kernel item. -/
def initLas (g : Grammar) (m : LaMaps) (l : List (Item × List Nat)) (it : Item) : List (Item × List Nat) :=
  let s := sUnion (mget l it) (mget m.spont it.prod)
  mput l it (if it.prod = g.root then sInsert natLt tokenEnd s else s)

/-- LALR1Parser.tpp:340-347: one propagation. -/
def Las.propagate (from' : Item) (l : Las) (to : Item) : Las :=
  let s := sUnion (mget l.las to) (mget l.las from')
  { las := mput l.las to s, changed := l.changed || decide (s.length > (mget l.las to).length) }

/-- LALR1Parser.tpp:337-349: one round.  (The entries come in the order of their creation, in the code in the order of
the items; the loop ends with the least fixed point in any case.) -/
def Las.round (m : LaMaps) (l : Las) : Las :=
  (m.prop.map (·.1)).foldl (fun l from' => (mget m.prop from').foldl (Las.propagate from') l) l

/-- LALR1Parser.tpp:335-350: the loop. -/
def Las.loop (m : LaMaps) : Nat → Las → Except Fail Las
  | 0, _ => .error .diverge
  | k + 1, l =>
    let l := Las.round m { l with changed := false }
    if l.changed then Las.loop m k l else .ok l

/-- LALR1Parser.hpp:184-203 `ItemSet` (an LR(1) item set). -/
structure LR1Set where
  index : Nat
  kernel : List Item
  closure : List Item
deriving Repr, DecidableEq

/-- LALR1Parser.tpp:352-363: the kernel of the LR(1) item set. -/
def lr1Kernel (las : List (Item × List Nat)) (ker : List Item) : List Item :=
  ker.foldl (fun k it => (mget las it).foldl (fun k l => sInsert Item.lt ⟨it.prod, it.dot, l⟩ k) k) []

/-- LALR1Parser.tpp:350-367: the LR(1) item sets, in the given order; a set with the kernel of an earlier one replaces
it. -/
def lr1Sets (g : Grammar) (f : Firsts) (fuel : Nat) (t : LR0) (las : List (Item × List Nat)) :
    List Nat → List LR1Set → Except Fail (List LR1Set)
  | [], acc => .ok acc
  | i :: is, acc =>
    let ker := lr1Kernel las ((t.sets[i]?.map (·.1)).getD [])
    match g.lr1Closure f fuel ker with
    | .error e => .error e
    | .ok clo => lr1Sets g f fuel t las is (⟨i, ker, clo⟩ :: acc.filter (fun s => s.kernel != ker))

/-- LALR1Parser.tpp:358-362: `m_root_item_set_ptr`. -/
def rootSet (g : Grammar) (t : LR0) (order : List Nat) : Option Nat :=
  (order.filter fun i => ((t.sets[i]?.map (·.1)).getD []).any fun it => it.prod == g.root && it.dot == 0).getLast?

/-- LALR1Parser.tpp:369-383: `m_next` of the item set with index `i`; `none`: no entry (`operator[]` then yields a null
pointer). -/
def nextSet (t : LR0) (sets : List LR1Set) (i sym : Nat) : Option Nat :=
  match t.goTo.lookup (i, sym) with
  | none => none
  | some j => if sets.any (·.index == j) then some j else none

/-! ### Actions -/

/-- LALR1Parser.hpp:36 `Action`; a null `ItemSet*` is `shift none`. -/
inductive Action where
  | flag (b : Bool)
  | shift (s : Option Nat)
  | reduce (p : Nat)
deriving Repr, DecidableEq

/-- LALR1Parser.tpp:440-517: one item of the closure.  `throws`: a conflict; `ub`: a symbol beyond the
table. -/
def setAction (g : Grammar) (next : Nat → Option Nat) (acts : List Action) (it : Item) : Except Fail (List Action) :=
  match (g.body it.prod)[it.dot]? with
  | some s =>
    if !g.isToken s && (g.prodsOf s).isEmpty then .ok acts
    else
      match acts[s]? with
      | none => .error .ub
      | some (.flag _) => .ok (acts.set s (.shift (next s)))
      | some (.shift x) => if x = next s then .ok acts else .error .throws
      | some (.reduce _) => .error .throws
  | none =>
    if it.prod = g.root then
      if tokenEnd < acts.length then .ok (acts.set tokenEnd (.flag true)) else .error .ub
    else
      match acts[it.la]? with
      | none => .error .ub
      | some (.flag _) => .ok (acts.set it.la (.reduce it.prod))
      | some _ => .error .throws

def setActions (g : Grammar) (next : Nat → Option Nat) : List Item → List Action → Except Fail (List Action)
  | [], acts => .ok acts
  | it :: its, acts =>
    match g.setAction next acts it with
    | .error e => .error e
    | .ok acts => g.setActions next its acts

/-- LALR1Parser.tpp:434-519 `generate_lalr1_action`: the actions of each item set. -/
def actionTable (g : Grammar) (t : LR0) (sets : List LR1Set) : List LR1Set → Except Fail (List (Nat × List Action))
  | [] => .ok []
  | s :: ss =>
    match g.setActions (nextSet t sets s.index) s.closure (List.replicate g.symbolId.length (.flag false)) with
    | .error e => .error e
    | .ok acts =>
      match g.actionTable t sets ss with
      | .error e => .error e
      | .ok rest => .ok ((s.index, acts) :: rest)

/-- What `parse` uses: `m_root_item_set_ptr` and the actions of the item sets. -/
structure Table where
  root : Option Nat
  actions : List (Nat × List Action)
deriving Repr, DecidableEq

/-- LALR1Parser.tpp:154-161 `generate` (the lexer apart).  `fuel` bounds every loop. -/
def generate (g : Grammar) (o : Orders) (fuel : Nat) : Except Fail Table :=
  if g.prods.isEmpty then .error .throws
  else
    match g.lr0Sets o fuel with
    | .error e => .error e
    | .ok t =>
      match g.firstSets fuel with
      | .error e => .error e
      | .ok f =>
        let order := o.sets (t.sets.map (·.1))
        let items := order.flatMap fun i => (t.sets[i]?.map (·.1)).getD []
        match g.laMaps f fuel items {} with
        | .error e => .error e
        | .ok m =>
          match Las.loop m fuel { las := items.foldl (initLas g m) [] } with
          | .error e => .error e
          | .ok l =>
            match lr1Sets g f fuel t l.las order [] with
            | .error e => .error e
            | .ok sets =>
              match g.actionTable t sets sets with
              | .error e => .error e
              | .ok acts => .ok { root := g.rootSet t order, actions := acts }

end Grammar

/-! ### Parsing -/

/-- `MatchedSymbol` (LALR1Parser.hpp:56): a token or a nonterminal with its production and the children it was
reduced from (in the code the children lie in the shared array `m_all_children` until they are overwritten; the
semantic rule has used them by then). -/
inductive Tree where
  | leaf (t : Token)
  | node (prod : Nat) (children : List Tree)
deriving Repr

/-- LALR1Parser.hpp:280-283: the parse stacks (tops first; a null `ItemSet*` is `none`), `m_next_token`; LALR1Parser.cpp:8:
the static `m_next_children_start`. -/
structure PState where
  states : List (Option Nat)
  matched : List Tree
  next : Option Token
  kids : Nat
deriving Repr

namespace Grammar

/-- The last reset of the children counter: SchemaParser.cpp:159-161.  `resets p` says whether the semantic rule of the
production contains it. -/
def resetKids (resets : Nat → Bool) (p kids : Nat) : Nat :=
  if resets p && decide (kids > cSizeOfAllChildren / 2) then 0 else kids

/-- LALR1Parser.tpp:722-753: a reduction.  `ub`: pop or top of an empty stack, a null state, or children beyond the end of
`m_all_children`; `throws`: `std::get` on another action. -/
def reduce (g : Grammar) (tb : Table) (resets : Nat → Bool) (s : PState) (tok : Token) (p : Nat) : Except Fail PState :=
  let n := (g.body p).length
  if s.states.length < n || s.matched.length < n || decide (0 < n ∧ cSizeOfAllChildren < s.kids + n) then .error .ub
  else
    let states := s.states.drop n
    match states with
    | some q :: _ =>
      match tb.actions.lookup q with
      | none => .error .ub
      | some acts =>
        match acts[g.head p]? with
        | none => .error .ub
        | some (.shift q') =>
          .ok { states := q' :: states, matched := .node p (s.matched.take n).reverse :: s.matched.drop n,
                next := some tok, kids := resetKids resets p (s.kids + n) }
        | some _ => .error .throws
    | _ => .error .ub

/-- What `parse_symbol` tells its caller. -/
inductive Sym where
  | no
  | accepted
  | moved (s : PState)

/-- LALR1Parser.tpp:697-758 `parse_symbol`. -/
def parseSymbol (g : Grammar) (tb : Table) (resets : Nat → Bool) (s : PState) (tok : Token) (ty : Nat) : Except Fail Sym :=
  match s.states with
  | some q :: _ =>
    match tb.actions.lookup q with
    | none => .error .ub
    | some acts =>
      match acts[ty]? with
      | none => .error .ub
      | some (.flag false) => .ok .no
      | some (.flag true) => .ok .accepted
      | some (.shift q') => .ok (.moved { s with states := q' :: s.states, matched := .leaf tok :: s.matched })
      | some (.reduce p) =>
        match g.reduce tb resets s tok p with
        | .error e => .error e
        | .ok s => .ok (.moved s)
  | _ => .error .ub

/-- LALR1Parser.tpp:683-694 `parse_advance`: the types of the token in order. -/
def parseAdvance (g : Grammar) (tb : Table) (resets : Nat → Bool) (s : PState) (tok : Token) : List Nat → Except Fail Sym
  | [] => .ok .no
  | ty :: tys =>
    match g.parseSymbol tb resets s tok ty with
    | .error e => .error e
    | .ok .no => g.parseAdvance tb resets s tok tys
    | .ok r => .ok r

/-- LALR1Parser.tpp:636-645 `parse` and 666-680 `get_next_symbol` with the tokens the lexer delivers (a failing scan is
the end of the list).  Returns the tree, the tokens that were not asked for, and the children counter. -/
def parseLoop (g : Grammar) (tb : Table) (resets : Nat → Bool) :
    Nat → PState → List Token → Except Fail (Tree × List Token × Nat)
  | 0, _, _ => .error .diverge
  | k + 1, s, input =>
    match (match s.next with
      | some t => some (t, input)
      | none => match input with
        | [] => none
        | t :: ts => some (t, ts)) with
    | none => .error .throws
    | some (tok, input) =>
      match tok.types with
      | none => .error .ub
      | some tys =>
        match g.parseAdvance tb resets { s with next := none } tok tys with
        | .error e => .error e
        | .ok .no => .error .throws
        | .ok .accepted =>
          match s.matched with
          | [] => .error .ub
          | .leaf _ :: _ => .error .throws
          | t :: _ => .ok (t, input, s.kids)
        | .ok (.moved s) => g.parseLoop tb resets k s input

/-- LALR1Parser.tpp:632-651 `parse`. -/
def parse (g : Grammar) (tb : Table) (resets : Nat → Bool) (fuel kids : Nat) (input : List Token) :
    Except Fail (Tree × List Token × Nat) :=
  g.parseLoop tb resets fuel { states := [tb.root], matched := [], next := none, kids := kids } input

end Grammar
end LogSurgeon
