import Verif.Model.SchemaGrammar
/-
Model of the semantic rules by which `SchemaParser` turns the text of a schema into a `SchemaAST`: SchemaParser.cpp:107-417,
called by `LALR1Parser::parse_symbol` (LALR1Parser.tpp:735-745) for every reduction.

A rule reads the children of the node to which it belongs: tokens (their text, `Token::to_string`) and the values of
nonterminals (`NonTerminal::m_ast`).  Simplifications: the rules are applied after the whole text has been parsed, not during the
parse (they depend on nothing but the children, so only the choice between two failures can differ); that values are
moved out of the children is not modelled (a node is used once); a `Tag` allocated for a capture gets as its identity the
position in the text of the parenthesis that opens the capture.
-/
namespace LogSurgeon

/-- `ParserAST` (LALR1Parser.hpp:38-54) with its subclasses `IdentifierAST`, `DelimiterStringAST`, `SchemaAST`,
`SchemaVarAST` (SchemaParser.hpp:12-70) and `ParserValue<unique_ptr<RegexAST>>`; `null` is the null pointer. -/
inductive SemVal where
  | null
  | ident (name : List Nat)
  | delims (cs : List Nat)
  | schema (s : SchemaAST)
  | var (v : SchemaVar)
  | regex (r : Regex)
deriving Repr, DecidableEq

/-- An element of `m_all_children` (LALR1Parser.hpp:56-107): a token, here its text, or a nonterminal, here its value. -/
inductive SemChild where
  | tok (text : List Nat)
  | val (v : SemVal)
deriving Repr, DecidableEq

/-- A `std::string` of `char`s. -/
def asString (cs : List Nat) : String := String.ofList (cs.map Char.ofNat)

/-- `m->non_terminal_cast(i)->get_parser_ast()->get<unique_ptr<RegexAST>>()`; `ub` for anything else (this cannot happen: the
grammar determines the kinds of the children). -/
def childRegex (cs : List SemChild) (i : Nat) : Except Fail Regex :=
  match cs[i]? with
  | some (.val (.regex r)) => .ok r
  | _ => .error .ub

/-- `m->non_terminal_cast(i)->get_parser_ast()`, released or cast to a `SchemaAST`. -/
def childSchema (cs : List SemChild) (i : Nat) : Except Fail SchemaAST :=
  match cs[i]? with
  | some (.val (.schema s)) => .ok s
  | _ => .error .ub

/-- The same for a `SchemaVarAST`. -/
def childVar (cs : List SemChild) (i : Nat) : Except Fail SchemaVar :=
  match cs[i]? with
  | some (.val (.var v)) => .ok v
  | _ => .error .ub

/-- The same for a `DelimiterStringAST`. -/
def childDelims (cs : List SemChild) (i : Nat) : Except Fail (List Nat) :=
  match cs[i]? with
  | some (.val (.delims d)) => .ok d
  | _ => .error .ub

/-- The same for an `IdentifierAST`. -/
def childIdent (cs : List SemChild) (i : Nat) : Except Fail (List Nat) :=
  match cs[i]? with
  | some (.val (.ident n)) => .ok n
  | _ => .error .ub

/-- `m->token_cast(i)->to_string()[0]`. -/
def childChar (cs : List SemChild) (i : Nat) : Except Fail Nat :=
  match cs[i]? with
  | some (.tok (c :: _)) => .ok c
  | _ => .error .ub

/-- The same after `assert(token->to_string().size() == 1)`. -/
def childOneChar (cs : List SemChild) (i : Nat) : Except Fail Nat :=
  match cs[i]? with
  | some (.tok [c]) => .ok c
  | _ => .error .ub

/-- `dynamic_cast<RegexASTLiteral*>` and `get_character()`; `e` says what a null pointer leads to. -/
def literalChar (e : Fail) : Regex → Except Fail Nat
  | .literal _ c => .ok c
  | _ => .error e

/-- `dynamic_cast<RegexASTGroup*>`: `m_negate` and `m_ranges` (always a group where it is used; a null pointer would be
dereferenced). -/
def groupParts : Regex → Except Fail (Bool × List Range)
  | .group _ _ negate ranges => .ok (negate, ranges)
  | _ => .error .ub

/-- `dynamic_cast<RegexASTInteger*>`: the digits. -/
def integerDigits : Regex → Except Fail (List Nat)
  | .integer _ ds => .ok ds
  | _ => .error .ub

/-- `right->m_ranges[0]` after `assert(right->m_ranges.size() == 1)`, RegexAST.hpp:972, 989. -/
def onlyRange : List Range → Except Fail Range
  | [r] => .ok r
  | _ => .error .ub

/-- The count of a repetition; too many digits are undefined behaviour, see `repetitionCount`. -/
def countOf (ds : List Nat) : Except Fail Nat :=
  match repetitionCount ds with
  | some n => .ok n
  | none => .error .ub

/-- SchemaParser.cpp:107-417: the semantic rules, in the order of the file; `start` is the position in the text at
which the node begins. -/
def SemRule.apply (start : Nat) (cs : List SemChild) : SemRule → Except Fail SemVal
  | .null => .ok .null
  -- 107-110
  | .newIdentifier => do
    let c ← childChar cs 0
    .ok (.ident [c])
  -- 112-118
  | .existingIdentifier => do
    let n ← childIdent cs 0
    let c ← childChar cs 1
    .ok (.ident (n ++ [c]))
  -- 120-125
  | .schemaVar => do
    let n ← childIdent cs 1
    let r ← childRegex cs 3
    .ok (.var ⟨asString n, r⟩)
  -- 127-129
  | .newSchema => .ok (.schema {})
  -- 131-136 (`add_schema_var` with the default position)
  | .newSchemaWithVar => do
    let v ← childVar cs 0
    .ok (.schema { vars := [v] })
  -- 138-143
  | .newSchemaWithDelimiters => do
    let d ← childDelims cs 2
    .ok (.schema (SchemaAST.addDelimiters {} d))
  -- 145-151
  | .existingSchemaWithDelimiter => do
    let s ← childSchema cs 0
    let d ← childDelims cs 4
    .ok (.schema (s.addDelimiters d))
  -- 153-163 (the children counter: `schemaResets`)
  | .existingSchema => do
    let s ← childSchema cs 0
    let v ← childVar cs 2
    match s.addSchemaVar v (-1) with
    | some s => .ok (.schema s)
    | none => .error .ub
  -- 165-172
  | .capture => do
    let n ← childIdent cs 3
    let r ← childRegex cs 5
    .ok (.regex (.mkCapture r ⟨start, asString n⟩))
  -- 174-178
  | .schemaIdentity => do
    let s ← childSchema cs 0
    .ok (.schema s)
  -- 180-184
  | .identity => do
    let r ← childRegex cs 0
    .ok (.regex r)
  -- 186-192
  | .cat => do
    let r1 ← childRegex cs 0
    let r2 ← childRegex cs 1
    .ok (.regex (.mkCat r1 r2))
  -- 194-200
  | .or => do
    let r1 ← childRegex cs 0
    let r2 ← childRegex cs 2
    .ok (.regex (.mkOr r1 r2))
  -- 202-210
  | .star => do
    let r1 ← childRegex cs 0
    .ok (.regex (starRule r1))
  -- 212-217
  | .plus => do
    let r1 ← childRegex cs 0
    .ok (.regex (plusRule r1))
  -- 219-231
  | .exactly => do
    let r3 ← childRegex cs 2
    let ds ← integerDigits r3
    let reps ← countOf ds
    let r1 ← childRegex cs 0
    .ok (.regex (exactRule r1 reps))
  -- 233-261
  | .between => do
    let r3 ← childRegex cs 2
    let ds ← integerDigits r3
    let min ← countOf ds
    let r5 ← childRegex cs 4
    let ds' ← integerDigits r5
    let max ← countOf ds'
    let r1 ← childRegex cs 0
    .ok (.regex (rangeRule r1 min max))
  -- 263-271, RegexAST.hpp:953-966
  | .addLiteralExisting => do
    let r1 ← childRegex cs 0
    let r2 ← childRegex cs 1
    let c ← literalChar .throws r2
    let g ← groupParts r1
    .ok (.regex (.group [] false g.1 (g.2 ++ [(c, c)])))
  -- 273-281, RegexAST.hpp:968-974
  | .addRangeExisting => do
    let r1 ← childRegex cs 0
    let r2 ← childRegex cs 1
    let g1 ← groupParts r1
    let g2 ← groupParts r2
    let r ← onlyRange g2.2
    .ok (.regex (.group [] false g1.1 (g1.2 ++ [r])))
  -- 283-289, RegexAST.hpp:976-985
  | .addLiteralNew => do
    let r2 ← childRegex cs 1
    let c ← literalChar .throws r2
    .ok (.regex (.group [] false false [(c, c)]))
  -- 291-297, RegexAST.hpp:987-991
  | .addRangeNew => do
    let r2 ← childRegex cs 1
    let g2 ← groupParts r2
    let r ← onlyRange g2.2
    .ok (.regex (.group [] false false [r]))
  -- 299-301, RegexAST.hpp:424 (`m_negate` is true by default)
  | .complement => .ok (.regex (.group [] false true []))
  -- 303-311, RegexAST.hpp:993-1008
  | .literalRange => do
    let r1 ← childRegex cs 0
    let r2 ← childRegex cs 2
    let a ← literalChar .throws r1
    let b ← literalChar .throws r2
    if a < b then .ok (.regex (.group [] false false [(a, b)])) else .error .ub
  -- 313-317
  | .middleIdentity => do
    let r ← childRegex cs 1
    .ok (.regex r)
  -- 319-325
  | .literal => do
    let c ← childOneChar cs 0
    .ok (.regex (.mkLiteral c))
  -- 327-333
  | .cancelLiteral => do
    let c ← childOneChar cs 1
    .ok (.regex (.mkLiteral c))
  -- 335-343, RegexAST.hpp:745-750
  | .existingInteger => do
    let r ← childRegex cs 0
    let ds ← integerDigits r
    let c ← childOneChar cs 1
    .ok (.regex (.integer [] (ds ++ [c - 48])))
  -- 345-351, RegexAST.hpp:739-743
  | .newInteger => do
    let c ← childOneChar cs 0
    .ok (.regex (.integer [] [c - 48]))
  -- 353-357
  | .digit => .ok (.regex (.group [] false false [(48, 57)]))
  -- 359-363
  | .wildcard => .ok (.regex (.group [] true false [(0, cUnicodeMax)]))
  -- 365-393
  | .const c => .ok (.regex (.mkLiteral c))
  -- 395-402
  | .whiteSpace => .ok (.regex (.group [] false false [(32, 32), (9, 9), (13, 13), (10, 10), (11, 11), (12, 12)]))
  -- 404-411 (a null pointer is dereferenced if the child is no literal)
  | .existingDelimiterString => do
    let d ← childDelims cs 0
    let r ← childRegex cs 1
    let c ← literalChar .ub r
    .ok (.delims (d ++ [c]))
  -- 413-417
  | .newDelimiterString => do
    let r ← childRegex cs 0
    let c ← literalChar .ub r
    .ok (.delims [c])

/-- The semantic rule of a production.  Adding a production again replaces its rule (LALR1Parser.tpp:148): the last one
counts. -/
def semRule (decls : List ((String × List String) × SemRule)) (d : String × List String) : Option SemRule :=
  decls.reverse.lookup d

/-- LALR1Parser.tpp:722-753: the value of a tree, bottom up; `text` is `Token::to_string`.  Also returns the position behind the
tree.  `ruleOf p` is the rule of the `p`-th production. -/
def Tree.eval (ruleOf : Nat → Option SemRule) (text : Token → List Nat) : Tree → Nat → Except Fail (SemChild × Nat)
  | .leaf t, k => .ok (.tok (text t), k + (text t).length)
  | .node p cs, k =>
    match evals cs k with
    | .error e => .error e
    | .ok (vs, k') =>
      match ruleOf p with
      | none => .error .ub
      | some r =>
        match r.apply k vs with
        | .error e => .error e
        | .ok v => .ok (.val v, k')
where
  /-- The children, from left to right. -/
  evals : List Tree → Nat → Except Fail (List SemChild × Nat)
    | [], k => .ok ([], k)
    | t :: ts, k =>
      match t.eval ruleOf text k with
      | .error e => .error e
      | .ok (v, k') =>
        match evals ts k' with
        | .error e => .error e
        | .ok (vs, k'') => .ok (v :: vs, k'')

/-- The rules of the grammar of schema files. -/
def schemaRuleOf (specials : List String) (p : Nat) : Option SemRule :=
  ((schemaGrammar specials).decls[p]?).bind (semRule (schemaDecls specials))

/-- SchemaParser.cpp:51-57 `generate_schema_ast` after `parse`: the value of the tree as a `SchemaAST`. -/
def schemaOfTree (specials : List String) (text : Token → List Nat) (t : Tree) : Except Fail SchemaAST :=
  match t.eval (schemaRuleOf specials) text 0 with
  | .ok (.val (.schema s), _) => .ok s
  | .ok _ => .error .ub
  | .error e => .error e

end LogSurgeon
