import Verif.Model.SchemaParse
/-
Model of the line numbers of the variables of a schema: `SchemaVarAST::m_line_num` (SchemaParser.hpp:44-59), set by `schema_var_rule`
(SchemaParser.cpp:120-125) and carried along by the rules that put variables into a `SchemaAST` (127-178).  `Tree.eval` (Model/SchemaEval.lean) computes
the other parts of the AST.
-/
namespace LogSurgeon

/-- A child of a node: a token, here its `m_line`, or a nonterminal, here the line numbers of the variables in its value, in order. -/
inductive LineChild where
  | tok (line : Nat)
  | val (lines : List Nat)
deriving Repr, DecidableEq

/-- The line numbers in the value of a nonterminal. -/
def childLines (cs : List LineChild) (i : Nat) : List Nat :=
  match cs[i]? with
  | some (.val l) => l
  | _ => []

/-- SchemaParser.cpp:107-417: the line numbers in the result of a semantic rule. -/
def SemRule.varLines (cs : List LineChild) : SemRule → List Nat
  -- 120-125: `colon_token->m_line`
  | .schemaVar =>
    match cs[(2 : Nat)]? with
    | some (.tok l) => [l]
    | _ => []
  -- 131-136
  | .newSchemaWithVar => childLines cs 0
  -- 145-151
  | .existingSchemaWithDelimiter => childLines cs 0
  -- 153-163
  | .existingSchema => childLines cs 0 ++ childLines cs 2
  -- 174-178
  | .schemaIdentity => childLines cs 0
  -- the others make no `SchemaAST` and no `SchemaVarAST`, or one without variables
  | _ => []

/-- LALR1Parser.tpp:722-753: bottom up. -/
def Tree.varLines (ruleOf : Nat → Option SemRule) : Tree → LineChild
  | .leaf t => .tok t.line
  | .node p cs =>
    .val (match ruleOf p with
      | some r => r.varLines (all cs)
      | none => [])
where
  /-- The children. -/
  all : List Tree → List LineChild
    | [] => []
    | t :: ts => t.varLines ruleOf :: all ts

/-- SchemaParser.cpp:51-57 `generate_schema_ast` (`generateSchemaAst`), with the line numbers. -/
def generateSchemaLines {σ : Type} (L : Lexer) (rules : List (Nat × Regex)) (specials : List String) (tb : Grammar.Table) (fuel kids : Nat)
    (rd : σ → Nat → σ × InBuf.ReadRes) (src : σ) (b : InBuf) : Except Fail (SchemaAST × List Nat × Nat) :=
  match stopFrom L (schemaGrammar specials) tb (schemaResets (schemaGrammar specials)) (schemaHasRule specials) rd fuel
      { states := [tb.root], matched := [], next := none, kids := kids } src {} b.reset with
  | .error e => .error e
  | .ok (.accepted t kids b) =>
    match schemaOfTree specials (tokenText b.mem) t with
    | .error e => .error e
    | .ok a => .ok (a, childLines [t.varLines (schemaRuleOf specials)] 0, kids)
  | .ok (.rejected s tok st b) =>
    match Tree.eval.evals (schemaRuleOf specials) (tokenText b.mem) s.matched.reverse 0 with
    | .error e => .error e
    | .ok _ =>
      match reportError L rules (schemaGrammar specials) tb fuel s tok st b with
      | .error e => .error e
      | .ok _ => .error .throws

/-- `SchemaParser sp; sp.generate_schema_ast(reader)` with an input buffer of `size` bytes (`SchemaEnv.parseIn`), with the line numbers. -/
def SchemaEnv.parseLinesIn {σ : Type} (E : SchemaEnv) (size kids : Nat) (rd : σ → Nat → σ × InBuf.ReadRes) (src : σ) : Except Fail (SchemaAST × List Nat × Nat) :=
  match schemaLexer E.specials E.addr with
  | .error e => .error e
  | .ok L =>
    match (schemaGrammar (E.specials.map (·.2))).generate E.orders E.fuel with
    | .error e => .error e
    | .ok tb => generateSchemaLines L E.rules (E.specials.map (·.2)) tb E.steps kids rd src (InBuf.init E.mem size E.nextId)

/-- The input buffer has `cStaticByteBuffSize` (48000, Constants.hpp:49) bytes. -/
def SchemaEnv.parseLines {σ : Type} (E : SchemaEnv) (kids : Nat) (rd : σ → Nat → σ × InBuf.ReadRes) (src : σ) : Except Fail (SchemaAST × List Nat × Nat) :=
  E.parseLinesIn 48000 kids rd src

/-- SchemaParser.cpp:86-105 `try_schema_string` (`trySchemaString`), with the line numbers. -/
def trySchemaStringLines (E : SchemaEnv) (kids : Nat) (text : List Nat) : Except Fail (SchemaAST × List Nat × Nat) :=
  E.parseLines kids (fun (_ : Unit) n => ((), schemaStringRead text n)) ()

/-- SchemaParser.cpp:59-84 `try_schema_file` (`trySchemaFile`), with the line numbers. -/
def trySchemaFileLines (E : SchemaEnv) (kids : Nat) (fs : Option (List Nat)) : Except Fail (SchemaAST × List Nat × Nat) :=
  match ({} : FileReader).tryOpen fs with
  | (r, .success) => E.parseLines kids schemaFileRead r
  | _ => .error .throws

end LogSurgeon
