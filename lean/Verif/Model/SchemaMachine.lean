import Verif.Model.SchemaParse
/-
Model of `LALR1Parser::parse` as it runs (LALR1Parser.tpp:632-758): the children of a reduction are moved into the static array
`NonTerminal::m_all_children`, shared by all parsers of the process, and the semantic rule of the production reads them there, at the reduction.

One step is one iteration of the loop of `parse` (637-643); between two steps of a parser other parsers may make steps (a `Reader` is called in
`read_if_safe` and may parse another schema; steps of different threads at the same time are a data race, undefined behaviour in C++, and
are not described).  Simplification: that a semantic rule moves the values out of the children is not modelled (the array is read nowhere else but
in `report_error`, which looks at tokens only); the identity of a `Tag` is, as in `Model/SchemaEval.lean`, the position in the text of the
parenthesis that opens the capture (`len` is there for this purpose only).
-/
namespace LogSurgeon

/-- LALR1Parser.hpp:56 `MatchedSymbol`; 64-107 `NonTerminal`: where its children begin in the array, its production, its value (`m_ast`); `len` is
the length of its text. -/
inductive Matched where
  | tok (t : Token)
  | nt (start prod : Nat) (val : SemVal) (len : Nat)

/-- LALR1Parser.cpp:4-8: the static members of `NonTerminal`, `m_next_children_start` and `m_all_children` (whatever is in it). -/
structure Statics where
  kids : Nat
  arr : Nat → Matched

/-- What the rule of the parent reads: the text of a token, the value of a nonterminal (LALR1Parser.hpp:75-98 `token_cast`, `non_terminal_cast`). -/
def Matched.child (text : Token → List Nat) : Matched → SemChild
  | .tok t => .tok (text t)
  | .nt _ _ v _ => .val v

/-- The length of the text of a symbol. -/
def Matched.len (text : Token → List Nat) : Matched → Nat
  | .tok t => (text t).length
  | .nt _ _ _ n => n

/-- The stacks of one parser (LALR1Parser.hpp:280-283), tops first. -/
structure MStack where
  states : List (Option Nat)
  matched : List Matched
  next : Option Token

/-- LALR1Parser.tpp:725-733: the children, from left to right, are written behind `start`. -/
def Statics.store (G : Statics) (start : Nat) (cs : List Matched) : Statics :=
  { G with arr := fun i => if start ≤ i then (match cs[i - start]? with | some c => c | none => G.arr i) else G.arr i }

/-- What a parser can find out in one step. -/
inductive MSym where
  | no
  | accepted
  | moved (s : MStack)

/-- How a step can fail: as elsewhere, or because the array is full (the assertion LALR1Parser.tpp:727-728). -/
inductive MFail where
  | full
  | fail (e : Fail)

/-- LALR1Parser.tpp:722-753: a reduction; LALR1Parser.cpp:10-14 `NonTerminal(Production*)`; SchemaParser.cpp:159-161 the reset of the counter. -/
def reduceM (g : Grammar) (tb : Grammar.Table) (ruleOf : Nat → Option SemRule) (resets : Nat → Bool) (text : Token → List Nat)
    (s : MStack) (tok : Token) (p : Nat) (G : Statics) : Except MFail MStack × Statics :=
  let n := (g.body p).length
  let start := G.kids
  if s.states.length < n || s.matched.length < n then (.error (.fail .ub), G)
  else
  let G := { G with kids := G.kids + n }
  if 0 < n ∧ cSizeOfAllChildren < start + n then (.error .full, G)
  else
    let G := G.store start (s.matched.take n).reverse
    let below := s.matched.drop n
    match ruleOf p with
    | none => (.error (.fail .ub), G)
    | some r =>
      match r.apply ((below.map (Matched.len text)).sum) ((List.range n).map fun i => (G.arr (start + i)).child text) with
      | .error e => (.error (.fail e), G)
      | .ok v =>
        let G := { G with kids := Grammar.resetKids resets p G.kids }
        match s.states.drop n with
        | some q :: qs =>
          match tb.actions.lookup q with
          | none => (.error (.fail .ub), G)
          | some acts =>
            match acts[g.head p]? with
            | none => (.error (.fail .ub), G)
            | some (.shift q') =>
              (.ok { states := q' :: some q :: qs,
                     matched := .nt start p v (((List.range n).map fun i => (G.arr (start + i)).len text).sum) :: below,
                     next := some tok }, G)
            | some _ => (.error (.fail .throws), G)
        | _ => (.error (.fail .ub), G)

/-- LALR1Parser.tpp:697-758 `parse_symbol`. -/
def parseSymbolM (g : Grammar) (tb : Grammar.Table) (ruleOf : Nat → Option SemRule) (resets : Nat → Bool) (text : Token → List Nat)
    (s : MStack) (tok : Token) (ty : Nat) (G : Statics) : Except MFail MSym × Statics :=
  match s.states with
  | some q :: _ =>
    match tb.actions.lookup q with
    | none => (.error (.fail .ub), G)
    | some acts =>
      match acts[ty]? with
      | none => (.error (.fail .ub), G)
      | some (.flag false) => (.ok .no, G)
      | some (.flag true) => (.ok .accepted, G)
      | some (.shift q') => (.ok (.moved { s with states := q' :: s.states, matched := .tok tok :: s.matched }), G)
      | some (.reduce p) =>
        match reduceM g tb ruleOf resets text s tok p G with
        | (.error e, G) => (.error e, G)
        | (.ok s, G) => (.ok (.moved s), G)
  | _ => (.error (.fail .ub), G)

/-- LALR1Parser.tpp:683-694 `parse_advance`. -/
def parseAdvanceM (g : Grammar) (tb : Grammar.Table) (ruleOf : Nat → Option SemRule) (resets : Nat → Bool) (text : Token → List Nat)
    (s : MStack) (tok : Token) : List Nat → Statics → Except MFail MSym × Statics
  | [], G => (.ok .no, G)
  | ty :: tys, G =>
    match parseSymbolM g tb ruleOf resets text s tok ty G with
    | (.error e, G) => (.error e, G)
    | (.ok .no, G) => parseAdvanceM g tb ruleOf resets text s tok tys G
    | (.ok r, G) => (.ok r, G)

/-- LALR1Parser.tpp:735-742, see `noteConsumed`. -/
def noteConsumedM (hasRule : Nat → Bool) (s : MStack) (b : InBuf) : InBuf :=
  match s.next, s.matched with
  | some t, .nt _ p _ _ :: _ => if hasRule p then { b with consumedPos := if t.startPos = 0 then b.size - 1 else t.startPos - 1 } else b
  | _, _ => b

/-- A parser in the middle of `parse`: its stacks, its lexer and buffer, and the reader. -/
structure MThread (σ : Type) where
  s : MStack
  src : σ
  st : LexState
  b : InBuf

/-- What a call of `generate_schema_ast` has come to. -/
inductive MPhase (σ : Type) where
  | running (th : MThread σ)
  | done (a : SchemaAST)
  /-- the loop ends without acceptance; what follows is `report_error` -/
  | rejected (th : MThread σ) (tok : Token)
  | failed (e : MFail)

/-- The things that do not change during a parse of a schema. -/
structure MParser (σ : Type) where
  L : Lexer
  specials : List String
  tb : Grammar.Table
  rd : σ → Nat → σ × InBuf.ReadRes

/-- LALR1Parser.tpp:637-643 one iteration of the loop of `parse`; 646-650 and SchemaParser.cpp:51-57 what follows acceptance
(a violated assertion is undefined behaviour). -/
def MParser.step {σ : Type} (P : MParser σ) (th : MThread σ) (G : Statics) : MPhase σ × Statics :=
  let (src, b, _) := th.b.readIfSafe P.rd th.src
  match getNextSymbol P.L th.s.next th.st b with
  | (_, _, .error e) => (.failed (.fail (scanFail e)), G)
  | (st, b, .ok tok) =>
    match tok.types with
    | none => (.failed (.fail .ub), G)
    | some tys =>
      match parseAdvanceM (schemaGrammar P.specials) P.tb (schemaRuleOf P.specials) (schemaResets (schemaGrammar P.specials)) (tokenText b.mem)
          { th.s with next := none } tok tys G with
      | (.error e, G) => (.failed e, G)
      | (.ok .no, G) => (.rejected ⟨{ th.s with next := none }, src, st, b⟩ tok, G)
      | (.ok .accepted, G) =>
        match th.s.matched with
        | [] => (.failed (.fail .ub), G)
        | .tok _ :: _ => (.failed (.fail .throws), G)
        | .nt _ _ (.schema a) _ :: [] => (.done a, G)
        | .nt _ _ _ _ :: _ => (.failed (.fail .ub), G)
      | (.ok (.moved s), G) => (.running ⟨s, src, st, noteConsumedM (schemaHasRule P.specials) s b⟩, G)

/-- A parser that has stopped makes no steps. -/
def MParser.advance {σ : Type} (P : MParser σ) (x : MPhase σ) (G : Statics) : MPhase σ × Statics :=
  match x with
  | .running th => P.step th G
  | x => (x, G)

/-- A parser at the beginning of `parse`: LALR1Parser.tpp:633-634, 654-664. -/
def MParser.start {σ : Type} (P : MParser σ) (src : σ) (b : InBuf) : MPhase σ :=
  .running ⟨{ states := [P.tb.root], matched := [], next := none }, src, {}, b.reset⟩

/-- SchemaParser.cpp:45-49: a freshly constructed `SchemaParser`, about to read from a reader. -/
def SchemaEnv.machine {σ : Type} (E : SchemaEnv) (rd : σ → Nat → σ × InBuf.ReadRes) : Except Fail (MParser σ) :=
  match schemaLexer E.specials E.addr with
  | .error e => .error e
  | .ok L =>
    match (schemaGrammar (E.specials.map (·.2))).generate E.orders E.fuel with
    | .error e => .error e
    | .ok tb => .ok ⟨L, E.specials.map (·.2), tb, rd⟩

/-- Its buffer has `cStaticByteBuffSize` (48000) bytes. -/
def SchemaEnv.begin {σ : Type} (E : SchemaEnv) (P : MParser σ) (src : σ) : MPhase σ := P.start src (InBuf.init E.mem 48000 E.nextId)

/-- `k` steps without interruption. -/
def MParser.alone {σ : Type} (P : MParser σ) : Nat → MPhase σ → Statics → MPhase σ × Statics
  | 0, x, G => (x, G)
  | k + 1, x, G => P.alone k (P.advance x G).1 (P.advance x G).2

/-- Several parsers in one process: the entries of the schedule say which parser makes the next step. -/
def runSchedule {σ : Type} (P : Nat → MParser σ) : List Nat → (Nat → MPhase σ) → Statics → (Nat → MPhase σ) × Statics
  | [], x, G => (x, G)
  | i :: is, x, G =>
    runSchedule P is (fun j => if j = i then ((P i).advance (x i) G).1 else x j) ((P i).advance (x i) G).2

end LogSurgeon
