import Verif.Model.Lalr
/-
The grammar of schema files, SchemaParser.cpp.
-/
namespace LogSurgeon

/-- SchemaParser.cpp:420-437 `m_special_regex_characters`.  It is an unordered map: the order in which it is traversed is a
parameter below. -/
def schemaSpecials : List String :=
  ["Lparen", "Rparen", "Star", "Plus", "Dash", "Dot", "Lbracket", "Rbracket", "Backslash", "Hat", "Lbrace", "Rbrace", "Vbar",
    "Langle", "Rangle", "QuestionMark"]

/-- SchemaParser.cpp:420-482 `add_lexical_rules`: the names of the tokens. -/
def schemaTerminals (specials : List String) : List String :=
  specials ++ ["Tab", "NewLine", "VerticalTab", "FormFeed", "CarriageReturn", "Space", "Bang", "Quotation", "Hash",
    "DollarSign", "Percent", "Ampersand", "Apostrophe", "Comma", "ForwardSlash", "Numeric", "Colon", "SemiColon", "Equal", "At",
    "AlphaNumeric", "AlphaNumeric", "AlphaNumeric", "Underscore", "Backtick", "Tilde", "d", "s", "n", "r", "t", "f", "v",
    "Delimiters", "CommentCharacters"]

/-- The semantic rules, functions of SchemaParser.cpp:107-417 (what they do: `Model/SchemaEval.lean`); `null` is the null
pointer, `const c` are the five rules 365-393 for an escaped control character. -/
inductive SemRule where
  | null
  | newSchema | newSchemaWithVar | newSchemaWithDelimiters | schemaIdentity | existingSchema | existingSchemaWithDelimiter
  | existingDelimiterString | newDelimiterString
  | schemaVar | existingIdentifier | newIdentifier
  | identity | cat | or | star | plus | exactly | between
  | addRangeExisting | addLiteralExisting | addRangeNew | addLiteralNew | complement | literalRange
  | const (c : Nat) | literal | cancelLiteral | capture | middleIdentity
  | existingInteger | newInteger | digit | wildcard | whiteSpace
deriving Repr, DecidableEq

/-- SchemaParser.cpp:484-637 `add_productions`: head, body and semantic rule. -/
def schemaDecls (specials : List String) : List ((String × List String) × SemRule) :=
  [(("Schema", ["Comment"]), .newSchema),
    (("Schema", ["SchemaVar"]), .newSchemaWithVar),
    (("Schema", ["Delimiters", "Colon", "DelimiterString"]), .newSchemaWithDelimiters),
    (("Schema", ["Schema", "PortableNewLine"]), .schemaIdentity),
    (("Schema", ["Schema", "PortableNewLine", "Comment"]), .schemaIdentity),
    (("Schema", ["Schema", "PortableNewLine", "SchemaVar"]), .existingSchema),
    (("Schema", ["Schema", "PortableNewLine", "Delimiters", "Colon", "DelimiterString"]), .existingSchemaWithDelimiter),
    (("DelimiterString", ["DelimiterString", "Literal"]), .existingDelimiterString),
    (("DelimiterString", ["Literal"]), .newDelimiterString),
    (("PortableNewLine", ["CarriageReturn", "NewLine"]), .null),
    (("PortableNewLine", ["NewLine"]), .null),
    (("Comment", ["ForwardSlash", "ForwardSlash", "Text"]), .null),
    (("Text", ["Text", "CommentCharacters"]), .null),
    (("Text", ["CommentCharacters"]), .null),
    (("Text", ["Text", "Delimiters"]), .null),
    (("Text", ["Delimiters"]), .null),
    (("SchemaVar", ["WhitespaceStar", "Identifier", "Colon", "Regex"]), .schemaVar),
    (("Identifier", ["Identifier", "AlphaNumeric"]), .existingIdentifier),
    (("Identifier", ["AlphaNumeric"]), .newIdentifier),
    (("WhitespaceStar", ["WhitespaceStar", "Space"]), .null),
    (("WhitespaceStar", []), .null),
    (("Regex", ["Concat"]), .identity),
    (("Concat", ["Concat", "Or"]), .cat),
    (("Concat", ["Or"]), .identity),
    (("Or", ["Or", "Vbar", "Literal"]), .or),
    (("Or", ["MatchStar"]), .identity),
    (("Or", ["MatchPlus"]), .identity),
    (("Or", ["MatchExact"]), .identity),
    (("Or", ["MatchRange"]), .identity),
    (("Or", ["CompleteGroup"]), .identity),
    (("MatchStar", ["CompleteGroup", "Star"]), .star),
    (("MatchPlus", ["CompleteGroup", "Plus"]), .plus),
    (("MatchExact", ["CompleteGroup", "Lbrace", "Integer", "Rbrace"]), .exactly),
    (("MatchRange", ["CompleteGroup", "Lbrace", "Integer", "Comma", "Integer", "Rbrace"]), .between),
    (("CompleteGroup", ["IncompleteGroup", "Rbracket"]), .identity),
    (("CompleteGroup", ["Literal"]), .identity),
    (("CompleteGroup", ["Digit"]), .identity),
    (("CompleteGroup", ["Wildcard"]), .identity),
    (("CompleteGroup", ["WhiteSpace"]), .identity),
    (("IncompleteGroup", ["IncompleteGroup", "LiteralRange"]), .addRangeExisting),
    (("IncompleteGroup", ["IncompleteGroup", "Digit"]), .addRangeExisting),
    (("IncompleteGroup", ["IncompleteGroup", "Literal"]), .addLiteralExisting),
    (("IncompleteGroup", ["IncompleteGroup", "WhiteSpace"]), .addLiteralExisting),
    (("IncompleteGroup", ["Lbracket", "LiteralRange"]), .addRangeNew),
    (("IncompleteGroup", ["Lbracket", "Digit"]), .addRangeNew),
    (("IncompleteGroup", ["Lbracket", "Literal"]), .addLiteralNew),
    (("IncompleteGroup", ["Lbracket", "WhiteSpace"]), .addLiteralNew),
    (("IncompleteGroup", ["Lbracket", "Hat"]), .complement),
    (("LiteralRange", ["Literal", "Dash", "Literal"]), .literalRange),
    (("Literal", ["Backslash", "t"]), .const 9),
    (("Literal", ["Backslash", "n"]), .const 10),
    (("Literal", ["Backslash", "v"]), .const 11),
    (("Literal", ["Backslash", "f"]), .const 12),
    (("Literal", ["Backslash", "r"]), .const 13),
    (("Literal", ["Space"]), .literal),
    (("Literal", ["Bang"]), .literal),
    (("Literal", ["Quotation"]), .literal),
    (("Literal", ["Hash"]), .literal),
    (("Literal", ["DollarSign"]), .literal),
    (("Literal", ["Percent"]), .literal),
    (("Literal", ["Ampersand"]), .literal),
    (("Literal", ["Apostrophe"]), .literal),
    (("Literal", ["Backslash", "Lparen"]), .cancelLiteral),
    (("Literal", ["Backslash", "Rparen"]), .cancelLiteral),
    (("Literal", ["Backslash", "Star"]), .cancelLiteral),
    (("Literal", ["Backslash", "Plus"]), .cancelLiteral),
    (("Literal", ["Comma"]), .literal),
    (("Literal", ["Backslash", "Dash"]), .cancelLiteral),
    (("Literal", ["Backslash", "Dot"]), .cancelLiteral),
    (("Literal", ["ForwardSlash"]), .literal),
    (("Literal", ["AlphaNumeric"]), .literal),
    (("Literal", ["Colon"]), .literal),
    (("Literal", ["SemiColon"]), .literal),
    (("Literal", ["Equal"]), .literal),
    (("Literal", ["At"]), .literal),
    (("Literal", ["Backslash", "Lbracket"]), .cancelLiteral),
    (("Literal", ["Backslash", "Backslash"]), .cancelLiteral),
    (("Literal", ["Backslash", "Rbracket"]), .cancelLiteral),
    (("Literal", ["Backslash", "Hat"]), .cancelLiteral),
    (("Literal", ["Underscore"]), .literal),
    (("Literal", ["Backtick"]), .literal),
    (("Literal", ["Backslash", "Lbrace"]), .cancelLiteral),
    (("Literal", ["Backslash", "Vbar"]), .cancelLiteral),
    (("Literal", ["Backslash", "Rbrace"]), .cancelLiteral),
    (("Literal", ["Backslash", "Langle"]), .cancelLiteral),
    (("Literal", ["Backslash", "Rangle"]), .cancelLiteral),
    (("Literal", ["Backslash", "QuestionMark"]), .cancelLiteral),
    (("Literal", ["Tilde"]), .literal),
    (("Literal", ["Lparen", "QuestionMark", "Langle", "Identifier", "Rangle", "Regex", "Rparen"]), .capture),
    (("Literal", ["Lparen", "Regex", "Rparen"]), .middleIdentity)] ++
  specials.map (fun n => (("Literal", ["Backslash", n]), .cancelLiteral)) ++
  [(("Integer", ["Integer", "Numeric"]), .existingInteger),
    (("Integer", ["Numeric"]), .newInteger),
    (("Digit", ["Backslash", "d"]), .digit),
    (("Wildcard", ["Dot"]), .wildcard),
    (("WhiteSpace", ["Backslash", "s"]), .whiteSpace)]

/-- The productions without the semantic rules. -/
def schemaProductions (specials : List String) : List (String × List String) := (schemaDecls specials).map (·.1)

/-- SchemaParser.cpp:45-49: the grammar of schema files. -/
def schemaGrammar (specials : List String) : Grammar :=
  Grammar.build (schemaTerminals specials) (schemaProductions specials)

/-- SchemaParser.cpp:153-163, 502-506: the only semantic rule that resets the children counter is that of this production. -/
def schemaResets (g : Grammar) (p : Nat) : Bool :=
  g.decls[p]? == some ("Schema", ["Schema", "PortableNewLine", "SchemaVar"])

end LogSurgeon
