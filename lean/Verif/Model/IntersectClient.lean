import Verif.Model.SchemaParse
import Verif.Model.Dfa
/-
Model of the documented client of `get_intersect`: examples/intersect-test.cpp, which answers the question which variables of a schema
can have an instance that matches a search string with wildcards.

Simplification: the map from ids to names is the list of the names (its keys are `0, 1, ...`), and the answer to a query is the list
of the names printed between the colon and the end of the line, without the commas.
-/
namespace LogSurgeon

/-- examples/intersect-test.cpp:27-34: all `*` are replaced by `.*`. -/
def processQuery : List Nat → List Nat
  | [] => []
  | c :: q => if c = 42 then 46 :: c :: processQuery q else c :: processQuery q

/-- examples/intersect-test.cpp:36: `search:` and the processed search string. -/
def queryText (q : List Nat) : List Nat := [115, 101, 97, 114, 99, 104, 58] ++ processQuery q

/-- examples/intersect-test.cpp:38-42: the rules of the query. -/
def queryRules (s : SchemaAST) : List Rule := s.vars.map fun v => ⟨0, v.regex⟩

/-- examples/intersect-test.cpp:73-78: the loop over the variables of the schema; `names` is the map of ids to names. -/
def numberRules : List SchemaVar → List Rule → List String → List Rule × List String
  | [], rules, names => (rules, names)
  | v :: vs, rules, names => numberRules vs (rules ++ [⟨names.length, v.regex⟩]) (names ++ [v.name])

/-- What a query depends on besides its text: the schema parser it constructs, the addresses of its NFA states, and the order of the set of
pairs of DFA states. -/
structure QueryEnv where
  schema : SchemaEnv
  addr : Nat → Nat
  pick : List (Nat × Nat) → Nat

/-- examples/intersect-test.cpp:22-49 `get_intersect_for_query`; `kids` is the static counter of the schema parser.  The set of types is
ordered. -/
def intersectQuery (E : QueryEnv) (kids : Nat) (names : List String) (dfa1 : Dfa) (q : List Nat) : Except Fail (List String × Nat) :=
  match schemaAddVariable E.schema kids {} (queryText q) (-1) with
  | .error e => .error e
  | .ok (a, kids) =>
    match generateDfa (queryRules a) E.addr with
    | none => .error .ub
    | some dfa2 =>
      match getIntersect dfa1 dfa2 E.pick with
      | none => .error .ub
      | some types => .ok ((sortNat types).map (fun t => names.getD t ""), kids)

/-- examples/intersect-test.cpp:56-61, 64-69: the calls of `add_variable` (priority -1), each with its schema parser. -/
def addVariables : List (SchemaEnv × List Nat) → Nat → SchemaAST → Except Fail (SchemaAST × Nat)
  | [], kids, s => .ok (s, kids)
  | (E, text) :: r, kids, s =>
    match schemaAddVariable E kids s text (-1) with
    | .error e => .error e
    | .ok (s, kids) => addVariables r kids s

/-- examples/intersect-test.cpp:82-90: the queries one after the other. -/
def intersectQueries (names : List String) (dfa1 : Dfa) : List (QueryEnv × List Nat) → Nat → Except Fail (List (List String) × Nat)
  | [], kids => .ok ([], kids)
  | (E, q) :: r, kids =>
    match intersectQuery E kids names dfa1 q with
    | .error e => .error e
    | .ok (a, kids) =>
      match intersectQueries names dfa1 r kids with
      | .error e => .error e
      | .ok (as, kids) => .ok (a :: as, kids)

/-- examples/intersect-test.cpp:52-91, the body of the loop: the schema `vars` is built and `queries` are asked; `addr` gives the addresses of
the states of the NFA of the schema.  Simplification: the schema and the queries are parameters. -/
def intersectProgram (addr : Nat → Nat) (vars : List (SchemaEnv × List Nat)) (queries : List (QueryEnv × List Nat)) (kids : Nat) :
    Except Fail (List (List String) × Nat) :=
  match addVariables vars kids {} with
  | .error e => .error e
  | .ok (a, kids) =>
    let (rules, names) := numberRules a.vars [] []
    match generateDfa rules addr with
    | none => .error .ub
    | some dfa => intersectQueries names dfa queries kids

end LogSurgeon
