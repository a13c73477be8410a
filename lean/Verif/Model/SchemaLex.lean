import Verif.Model.SchemaGrammar
/-
The lexical rules of schema files, SchemaParser.cpp:419-482, and the lexer generated from them.
-/
namespace LogSurgeon

/-- SchemaParser.cpp:420-437 `m_special_regex_characters`: the characters with the names of their tokens.  It is an unordered map:
the order in which it is traversed is a parameter below. -/
def schemaSpecialChars : List (Nat × String) :=
  [(40, "Lparen"), (41, "Rparen"), (42, "Star"), (43, "Plus"), (45, "Dash"), (46, "Dot"), (91, "Lbracket"), (93, "Rbracket"),
    (92, "Backslash"), (94, "Hat"), (123, "Lbrace"), (125, "Rbrace"), (124, "Vbar"), (60, "Langle"), (62, "Rangle"),
    (63, "QuestionMark")]

/-- LALR1Parser.tpp:86-110 `add_token_chain`: the regex for a fixed string. -/
def chainRegex : List Nat → Regex
  | [] => .mkEmpty
  | c :: cs => cs.foldl (fun r c => .mkCat r (.mkLiteral c)) (.mkLiteral c)

/-- A `RegexASTGroup` given by its ranges. -/
def rangesRegex (rs : List Range) : Regex := .group [] false false rs

/-- SchemaParser.cpp:419-482 `add_lexical_rules`: names and regexes of the tokens (`add_token`: a literal, LALR1Parser.tpp). -/
def schemaLexDecls (specials : List (Nat × String)) : List (String × Regex) :=
  specials.map (fun p => (p.2, .mkLiteral p.1)) ++
  [("Tab", .mkLiteral 9), ("NewLine", .mkLiteral 10), ("VerticalTab", .mkLiteral 11), ("FormFeed", .mkLiteral 12),
    ("CarriageReturn", .mkLiteral 13), ("Space", .mkLiteral 32), ("Bang", .mkLiteral 33), ("Quotation", .mkLiteral 34),
    ("Hash", .mkLiteral 35), ("DollarSign", .mkLiteral 36), ("Percent", .mkLiteral 37), ("Ampersand", .mkLiteral 38),
    ("Apostrophe", .mkLiteral 39), ("Comma", .mkLiteral 44), ("ForwardSlash", .mkLiteral 47), ("Numeric", rangesRegex [(48, 57)]),
    ("Colon", .mkLiteral 58), ("SemiColon", .mkLiteral 59), ("Equal", .mkLiteral 61), ("At", .mkLiteral 64),
    ("AlphaNumeric", rangesRegex [(97, 122)]), ("AlphaNumeric", rangesRegex [(65, 90)]), ("AlphaNumeric", rangesRegex [(48, 57)]),
    ("Underscore", .mkLiteral 95), ("Backtick", .mkLiteral 96), ("Tilde", .mkLiteral 126), ("d", .mkLiteral 100), ("s", .mkLiteral 115),
    ("n", .mkLiteral 110), ("r", .mkLiteral 114), ("t", .mkLiteral 116), ("f", .mkLiteral 102), ("v", .mkLiteral 118),
    ("Delimiters", chainRegex [100, 101, 108, 105, 109, 105, 116, 101, 114, 115]),
    ("CommentCharacters", .group [] false true [(13, 13), (10, 10)])]

/-- The rules of the lexer (LALR1Parser.tpp:69-75 with Parser.tpp:33-47); no delimiters are added. -/
def schemaLexTables (specials : List (Nat × String)) : ParserTables :=
  (schemaLexDecls specials).foldl (fun t d => t.addRule d.1 d.2) ParserTables.init

/-- Lexer.tpp:377-389 `generate` as called by LALR1Parser.tpp:154-161: the lexer of the schema parser.  `addr` is the address order of
the NFA states. -/
def schemaLexer (specials : List (Nat × String)) (addr : Nat → Nat) : Except Fail Lexer :=
  match generateDfa (schemaLexTables specials).rules addr with
  | none => .error .throws
  | some d => .ok { dfa := d, isDelim := fun _ => false, hasDelims := false }

/-- The names of the rules are those the parser knows as terminals. -/
example : (schemaLexDecls schemaSpecialChars).map (·.1) = schemaTerminals schemaSpecials := rfl

end LogSurgeon
