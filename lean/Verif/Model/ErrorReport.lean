import Verif.Model.SchemaEval
import Verif.Model.SchemaLex
import Verif.Model.SchemaReader
/-
Model of the loop of `LALR1Parser::parse` with lexer, input buffer and reader, and of what it says about a syntax error:
LALR1Parser.tpp:13-53, 521-651, 666-694.

Simplifications: the trees on the stack contain their children, in the code these lie in the shared array `m_all_children` (those of the
current line are not yet overwritten: the counter is set back only when a complete line is reduced, SchemaParser.cpp:159-161).  `std::to_string` is Lean's decimal notation.
-/
namespace LogSurgeon

/-- LALR1Parser.tpp:735-742: a reduction by a production with a semantic rule declares what is before the next token as consumed. -/
def noteConsumed (hasRule : Nat → Bool) (s : PState) (b : InBuf) : InBuf :=
  match s.next, s.matched with
  | some t, .node p _ :: _ => if hasRule p then { b with consumedPos := if t.startPos = 0 then b.size - 1 else t.startPos - 1 } else b
  | _, _ => b

/-- LALR1Parser.tpp:670-674: an error code of `scan` becomes an exception. -/
def scanFail : Fail → Fail
  | .oob => .throws
  | .error => .throws
  | e => e

/-- LALR1Parser.tpp:667-680 `get_next_symbol`. -/
def getNextSymbol (L : Lexer) (next : Option Token) (st : LexState) (b : InBuf) : LexState × InBuf × Except Fail Token :=
  match next with
  | some t => (st, b, .ok t)
  | none => L.scan st b

/-- `Token::to_string` (an out of bounds access gives nothing; it does not happen, see `Proofs/SchemaParse.lean`). -/
def tokenText (m : Mem) (t : Token) : List Nat := ((t.toString m).map (·.1)).getD []

/-- Where the loop of `parse` ends. -/
inductive Stop where
  /-- with a tree, the children counter and the buffer -/
  | accepted (t : Tree) (kids : Nat) (b : InBuf)
  /-- with the stacks, the token for which there is no action, the lexer and the buffer -/
  | rejected (s : PState) (tok : Token) (st : LexState) (b : InBuf)

/-- LALR1Parser.tpp:636-645, the loop of `parse`. -/
def stopFrom {σ : Type} (L : Lexer) (g : Grammar) (tb : Grammar.Table) (resets hasRule : Nat → Bool) (rd : σ → Nat → σ × InBuf.ReadRes) :
    Nat → PState → σ → LexState → InBuf → Except Fail Stop
  | 0, _, _, _, _ => .error .diverge
  | k + 1, s, src, st, b =>
    let (src, b, _) := b.readIfSafe rd src
    match getNextSymbol L s.next st b with
    | (_, _, .error e) => .error (scanFail e)
    | (st, b, .ok tok) =>
      match tok.types with
      | none => .error .ub
      | some tys =>
        match g.parseAdvance tb resets { s with next := none } tok tys with
        | .error e => .error e
        | .ok .no => .ok (.rejected { s with next := none } tok st b)
        | .ok .accepted =>
          match s.matched with
          | [] => .error .ub
          | .leaf _ :: _ => .error .throws
          | t :: _ => .ok (.accepted t s.kids b)
        | .ok (.moved s) => stopFrom L g tb resets hasRule rd k s src st (noteConsumed hasRule s b)

/-- Where a parse of given tokens ends. -/
inductive TokStop where
  /-- with a tree, the tokens not asked for and the children counter -/
  | accepted (t : Tree) (rest : List Token) (kids : Nat)
  /-- with the stacks, the token for which there is no action, and the tokens behind it -/
  | rejected (s : PState) (tok : Token) (rest : List Token)

/-- LALR1Parser.tpp:636-645, 666-680; like `Grammar.parseLoop`, but it also says where the parse fails. -/
def Grammar.stopLoop (g : Grammar) (tb : Grammar.Table) (resets : Nat → Bool) : Nat → PState → List Token → Except Fail TokStop
  | 0, _, _ => .error .diverge
  | k + 1, s, input =>
    match (match s.next with
      | some t => some (t, input)
      | none => match input with
        | [] => none
        | t :: ts => some (t, ts)) with
    | none => .error .throws
    | some (tok, input) =>
      match tok.types with
      | none => .error .ub
      | some tys =>
        match g.parseAdvance tb resets { s with next := none } tok tys with
        | .error e => .error e
        | .ok .no => .ok (.rejected { s with next := none } tok input)
        | .ok .accepted =>
          match s.matched with
          | [] => .error .ub
          | .leaf _ :: _ => .error .throws
          | t :: _ => .ok (.accepted t input s.kids)
        | .ok (.moved s) => g.stopLoop tb resets k s input

/-- LALR1Parser.tpp:632-651 `parse`, up to the point where it would report an error. -/
def Grammar.stop (g : Grammar) (tb : Grammar.Table) (resets : Nat → Bool) (fuel kids : Nat) (input : List Token) : Except Fail TokStop :=
  g.stopLoop tb resets fuel { states := [tb.root], matched := [], next := none, kids := kids } input

/-- LALR1Parser.tpp:38-53 `unescape`. -/
def unescape (c : Nat) : List Nat :=
  if c = 9 then [92, 116] else if c = 13 then [92, 114] else if c = 10 then [92, 110] else if c = 11 then [92, 118]
  else if c = 12 then [92, 102] else [c]

/-- LALR1Parser.tpp:521-558 `get_input_after_last_newline`: the stack is emptied from the top; a nonterminal is replaced by its
children.  `acc` is what was collected so far, already in the right order. -/
def afterLastNewline (text : Token → List Nat) : Nat → List Tree → List Nat → Except Fail (List Nat)
  | _, [], acc => .ok acc
  | 0, _ :: _, _ => .error .diverge
  | k + 1, .leaf t :: ts, acc => if text t = [13] ∨ text t = [10] then .ok acc else afterLastNewline text k ts (text t ++ acc)
  | k + 1, .node _ cs :: ts, acc => afterLastNewline text k (cs.reverse ++ ts) acc

/-- The text contains a newline or a carriage return (LALR1Parser.tpp:565-566, 569-570). -/
def hasNewline (t : List Nat) : Bool := t.contains 10 || t.contains 13

/-- The first type is the end of the input (LALR1Parser.tpp:564, 573, 597); `none`: no types, out of bounds. -/
def isEnd (t : Token) : Option Bool := t.types.bind fun tys => tys.head?.map (· == tokenEnd)

/-- LALR1Parser.tpp:567-575: the loop of `get_input_until_next_newline`. -/
def untilNewline (L : Lexer) : Nat → LexState → InBuf → List Nat → Except Fail (List Nat)
  | 0, _, _, _ => .error .diverge
  | k + 1, st, b, acc =>
    match getNextSymbol L none st b with
    | (_, _, .error e) => .error (scanFail e)
    | (st, b, .ok tok) =>
      let text := tokenText b.mem tok
      if hasNewline text then .ok acc
      else
        match isEnd tok with
        | none => .error .ub
        | some true => .ok (acc ++ text)
        | some false => untilNewline L k st b (acc ++ text)

/-- LALR1Parser.tpp:560-578 `get_input_until_next_newline`. -/
def restOfLine (L : Lexer) (fuel : Nat) (tok : Token) (st : LexState) (b : InBuf) : Except Fail (List Nat) :=
  match isEnd tok with
  | none => .error .ub
  | some true => .ok [10]
  | some false =>
    if hasNewline (tokenText b.mem tok) then .ok [10]
    else
      match untilNewline L fuel st b [] with
      | .error e => .error e
      | .ok r => .ok (r ++ [10])

/-- The bytes of an ASCII string. -/
def plainText (s : String) : List Nat := s.toList.map Char.toNat

/-- LALR1Parser.tpp:605-614: how a symbol is named in a message (Lexer.tpp:366-374 `get_rule`: the first rule of the symbol
that the lexer has; see `SchemaEnv.rules`). -/
def symbolText (rules : List (Nat × Regex)) (g : Grammar) (i : Nat) : List Nat :=
  match rules.lookup i with
  | some (.literal _ c) => unescape c
  | _ => plainText (((g.symbolId.find? (fun p => p.2 == i)).map (·.1)).getD "")

/-- LALR1Parser.tpp:602-616: the symbols for which the row of the table has something other than a `bool`, quoted, with a comma behind each. -/
def expectedText (rules : List (Nat × Regex)) (g : Grammar) (acts : List Grammar.Action) : List Nat :=
  (List.range acts.length).flatMap fun (i : Nat) =>
    match acts[i]? with
    | some (.shift _) => [39] ++ symbolText rules g i ++ [39, 44]
    | some (.reduce _) => [39] ++ symbolText rules g i ++ [39, 44]
    | _ => []

/-- LALR1Parser.tpp:580-629 `report_error`.  The token is the one on top of `m_parse_stack_matches`, `s.matched` is what is below
it; `get_line_num` (13-36) of a token is its line. -/
def reportError (L : Lexer) (rules : List (Nat × Regex)) (g : Grammar) (tb : Grammar.Table) (fuel : Nat) (s : PState) (tok : Token)
    (st : LexState) (b : InBuf) : Except Fail (List Nat) := do
  let consumed ← afterLastNewline (tokenText b.mem) fuel s.matched []
  let rest ← restOfLine L fuel tok st b
  match isEnd tok with
  | none => .error .ub
  | some e =>
    let text := tokenText b.mem tok
    let position := plainText "Schema:" ++ plainText (toString (tok.line + 1)) ++ plainText ":" ++ plainText (toString (consumed.length + 1)) ++ plainText ": error: "
    if e && consumed.isEmpty then
      .ok (position ++ plainText "empty file" ++ [10] ++ List.replicate 10 32 ++ consumed ++ text ++ rest ++ [94, 10])
    else
      match s.states with
      | some q :: _ =>
        match tb.actions.lookup q with
        | none => .error .ub
        | some acts =>
          .ok (position ++ (plainText "expected " ++ expectedText rules g acts).dropLast ++ plainText " before '" ++ unescape (text.headD 0) ++ plainText "' token" ++
            [10] ++ List.replicate 10 32 ++ consumed ++ text ++ rest ++ List.replicate (consumed.length + 10) 32 ++ [94, 10])
      | _ => .error .ub

/-- What the caller sees of a message: `what()` is a C string, it ends at the first NUL. -/
def whatText (m : List Nat) : List Nat := m.takeWhile (· ≠ 0)

end LogSurgeon
