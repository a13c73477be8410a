import Verif.Model.ErrorReport
/-
Model of the functions of `SchemaParser` that turn a text into a `SchemaAST`, or complain about it.

Simplification: the semantic rules of the trees on the stack are evaluated when the parse stops, not at each reduction, with the texts
the tokens have in the buffer at the end.  Values do not influence the parse, and the rules are evaluated in the order of the reductions.
If one of them fails, its failure is the result of the call, as in the code, where it happens before the offending token is found.  The
bytes of a token are the same as at the reduction if the reader delivers the whole text at once, the case the theorems are about.
-/
namespace LogSurgeon

/-- The production has a semantic rule (not a null pointer). -/
def schemaHasRule (specials : List String) (p : Nat) : Bool :=
  match schemaRuleOf specials p with
  | none => false
  | some .null => false
  | some _ => true

/-- SchemaParser.cpp:51-57 `generate_schema_ast`, with LALR1Parser.tpp:632-664 `parse` and `reset`.  `kids` is the static counter of
children; the result contains its new value. -/
def generateSchemaAst {σ : Type} (L : Lexer) (rules : List (Nat × Regex)) (specials : List String) (tb : Grammar.Table) (fuel kids : Nat)
    (rd : σ → Nat → σ × InBuf.ReadRes) (src : σ) (b : InBuf) : Except Fail (SchemaAST × Nat) :=
  match stopFrom L (schemaGrammar specials) tb (schemaResets (schemaGrammar specials)) (schemaHasRule specials) rd fuel
      { states := [tb.root], matched := [], next := none, kids := kids } src {} b.reset with
  | .error e => .error e
  | .ok (.accepted t kids b) =>
    match schemaOfTree specials (tokenText b.mem) t with
    | .error e => .error e
    | .ok a => .ok (a, kids)
  | .ok (.rejected s tok st b) =>
    match Tree.eval.evals (schemaRuleOf specials) (tokenText b.mem) s.matched.reverse 0 with
    | .error e => .error e
    | .ok _ =>
      match reportError L rules (schemaGrammar specials) tb fuel s tok st b with
      | .error e => .error e
      | .ok _ => .error .throws

/-- What a freshly constructed `SchemaParser` (SchemaParser.cpp:45-49) depends on: the order of the special characters in their unordered
map, the addresses of the NFA states, the orders in which containers are traversed during the generation, bounds for the number
of steps of the generation and of the parse, and the memory. -/
structure SchemaEnv where
  specials : List (Nat × String)
  addr : Nat → Nat
  orders : Grammar.Orders
  fuel : Nat
  steps : Nat
  mem : Mem
  nextId : Nat

/-- The lexical rules the lexer still has when a text is parsed, by symbol: none, `Lexer::generate` (Lexer.tpp:377-378), called by the constructor, moves
`m_rules` into the NFA (RegexNFA.hpp:102-108), and the vector it is moved from is empty. -/
def SchemaEnv.rules (_ : SchemaEnv) : List (Nat × Regex) := []

/-- `SchemaParser sp; sp.generate_schema_ast(reader)` with an input buffer of `size` bytes. -/
def SchemaEnv.parseIn {σ : Type} (E : SchemaEnv) (size kids : Nat) (rd : σ → Nat → σ × InBuf.ReadRes) (src : σ) : Except Fail (SchemaAST × Nat) :=
  match schemaLexer E.specials E.addr with
  | .error e => .error e
  | .ok L =>
    match (schemaGrammar (E.specials.map (·.2))).generate E.orders E.fuel with
    | .error e => .error e
    | .ok tb => generateSchemaAst L E.rules (E.specials.map (·.2)) tb E.steps kids rd src (InBuf.init E.mem size E.nextId)

/-- The input buffer has `cStaticByteBuffSize` (48000, Constants.hpp:49) bytes. -/
def SchemaEnv.parse {σ : Type} (E : SchemaEnv) (kids : Nat) (rd : σ → Nat → σ × InBuf.ReadRes) (src : σ) : Except Fail (SchemaAST × Nat) :=
  E.parseIn 48000 kids rd src

/-- SchemaParser.cpp:86-105 `try_schema_string`. -/
def trySchemaString (E : SchemaEnv) (kids : Nat) (text : List Nat) : Except Fail (SchemaAST × Nat) :=
  E.parse kids (fun (_ : Unit) n => ((), schemaStringRead text n)) ()

/-- SchemaParser.cpp:59-84 `try_schema_file`; `fs` is the content of the file at the path, `none` if there is no such file. -/
def trySchemaFile (E : SchemaEnv) (kids : Nat) (fs : Option (List Nat)) : Except Fail (SchemaAST × Nat) :=
  match ({} : FileReader).tryOpen fs with
  | (r, .success) => E.parse kids schemaFileRead r
  | _ => .error .throws

/-- What a call that parses a schema does about syntax: `none` if the text is accepted by the parser, otherwise the message given
to the exception. -/
def SchemaEnv.complaint {σ : Type} (E : SchemaEnv) (kids : Nat) (rd : σ → Nat → σ × InBuf.ReadRes) (src : σ) : Except Fail (Option (List Nat)) :=
  match schemaLexer E.specials E.addr with
  | .error e => .error e
  | .ok L =>
    let g := schemaGrammar (E.specials.map (·.2))
    match g.generate E.orders E.fuel with
    | .error e => .error e
    | .ok tb =>
      match stopFrom L g tb (schemaResets g) (schemaHasRule (E.specials.map (·.2))) rd E.steps
          { states := [tb.root], matched := [], next := none, kids := kids } src {} (InBuf.init E.mem 48000 E.nextId).reset with
      | .error e => .error e
      | .ok (.accepted _ _ _) => .ok none
      | .ok (.rejected s tok st b) =>
        match Tree.eval.evals (schemaRuleOf (E.specials.map (·.2))) (tokenText b.mem) s.matched.reverse 0 with
        | .error e => .error e
        | .ok _ =>
          match reportError L E.rules g tb E.steps s tok st b with
          | .error e => .error e
          | .ok m => .ok (some m)

/-- The complaint of SchemaParser.cpp:86-105 `try_schema_string`. -/
def schemaStringComplaint (E : SchemaEnv) (kids : Nat) (text : List Nat) : Except Fail (Option (List Nat)) :=
  E.complaint kids (fun (_ : Unit) n => ((), schemaStringRead text n)) ()

/-- The complaint of SchemaParser.cpp:59-84 `try_schema_file` about the content of a file that exists. -/
def schemaFileComplaint (E : SchemaEnv) (kids : Nat) (content : List Nat) : Except Fail (Option (List Nat)) :=
  E.complaint kids schemaFileRead { file := some { content := content } }

/-- Schema.cpp:13-16 `Schema::add_variable`: the first variable of the text is inserted. -/
def schemaAddVariable (E : SchemaEnv) (kids : Nat) (s : SchemaAST) (text : List Nat) (priority : Int) : Except Fail (SchemaAST × Nat) :=
  match trySchemaString E kids text with
  | .error e => .error e
  | .ok (a, kids) =>
    match s.addVariable a priority with
    | none => .error .ub
    | some s => .ok (s, kids)

end LogSurgeon
