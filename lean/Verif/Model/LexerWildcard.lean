import Verif.Model.Lexer
/-
Model of `Lexer::scan_with_wildcard` (Lexer.tpp:169-300).
-/
namespace LogSurgeon
namespace Lexer

/-- Lexer.tpp:272-280: the states pushed for `q` (the last one is on top of the stack); `none` is a null
pointer, which is never in `visited_states`. -/
def wildSuccs (L : Lexer) (vis : List Nat) (q : Nat) : List (Option Nat) :=
  ((List.range cSizeOfByte).filterMap fun c =>
    if L.isDelim c then none
    else match L.dfa.next q c with
      | none => some none
      | some q' => if q' ∈ vis then none else some (some q')).reverse

/-- Lexer.tpp:254-282: the search from the top of the stack, with `visited_states`.  `some false`: a null or
non-accepting state was found (returns from the function); `some true`: the stack ran empty; `none`: the
given number of iterations does not suffice. -/
def wildSearch (L : Lexer) : Nat → List (Option Nat) → List Nat → Option Bool
  | _, [], _ => some true
  | 0, _ :: _, _ => none
  | _ + 1, none :: _, _ => some false
  | k + 1, some q :: rest, vis =>
    if L.dfa.isAccepting q = false then some false
    else
      let vis := if q ∈ vis then vis else q :: vis
      L.wildSearch k (L.wildSuccs vis q ++ rest) vis

/-- Lexer.tpp:240-253: the loop for `?`.  `some (some false)`: a non-accepting state was found; `some (some true)`: all 256
successors accept; `some none`: null dereference. -/
def wildOne (L : Lexer) (q : Nat) : List Nat → Option Bool
  | [] => some true
  | c :: cs =>
    match L.dfa.next q c with
    | none => none
    | some q' => if L.dfa.isAccepting q' = false then some false else L.wildOne q cs

/-- The token for "not a variable", Lexer.tpp:229-236 (also 237-243, 254-261). -/
def wildUncaught (st : LexState) (b : InBuf) : LexState × InBuf × Except Fail Token :=
  (st, b, .ok (mkToken b st.lastMatchPos b.pos st.lastMatchLine (some [tokenUncaught])))

/-- Lexer.tpp:283-295: the token for the match. -/
def wildMatch (st : LexState) (b : InBuf) : LexState × InBuf × Except Fail Token :=
  let b := { b with pos := st.matchPos }
  ({ st with line := st.matchLine, isMatch := false, lastMatchPos := st.matchPos,
             lastMatchLine := st.matchLine }, b,
    .ok (mkToken b st.startPos st.matchPos st.matchLine st.typeIds))

/-- Enough iterations of the search. -/
def wildFuel (L : Lexer) : Nat := cSizeOfByte * L.dfa.states.length + 1

/-- Lexer.tpp:226-297: what happens at the end of the text or of the DFA.  `none`: carry on with the
loop (not possible after the `assert`: both conditions of 220 and 230 cover all cases). -/
def wildEnd (L : Lexer) (wildcard q : Nat) (st : LexState) (b : InBuf) : LexState × InBuf × Except Fail Token :=
  if !st.isMatch || (st.isMatch && st.matchPos != b.pos) then wildUncaught st b
  else if wildcard = 63 then
    match L.wildOne q (List.range cSizeOfByte) with
    | none => (st, b, .error .ub)
    | some false => wildUncaught st b
    | some true => wildMatch st b
  else if wildcard = 42 then
    match L.wildSearch L.wildFuel [some q] [] with
    | none => (st, b, .error .diverge)
    | some false => wildUncaught st b
    | some true => wildMatch st b
  else wildMatch st b

/-- The loop of Lexer.tpp:198-299.  `asserts`: assertions are compiled in (the `assert` of line 219 aborts, modelled as
`throws`). -/
def wildLoop (L : Lexer) (asserts : Bool) (wildcard : Nat) :
    Nat → Option Nat → LexState → InBuf → LexState × InBuf × Except Fail Token
  | 0, _, st, b => (st, b, .error .diverge)
  | k + 1, state, st, b =>
    let prev := b.pos
    match b.getNext with
    | (b, .oob) => ({ st with asked := true, prevState := state }, b, .error .oob)
    | (b, .ub) => (st, b, .error .ub)
    | (b, .char c) =>
      match state with
      | none => (st, b, .error .ub)
      | some q =>
        match L.noteNewline q prev c (L.noteMatch q prev c st b) b with
        | none => (st, b, .error .ub)
        | some (st, next) =>
          if b.consumed || next.isNone then
            if asserts && !b.consumed then (st, b, .error .throws)
            else L.wildEnd wildcard q st b
          else wildLoop L asserts wildcard k next st b

/-- Lexer.tpp:169-300 `scan_with_wildcard`. -/
def scanWithWildcard (L : Lexer) (asserts : Bool) (wildcard : Nat) (st : LexState) (b : InBuf) :
    LexState × InBuf × Except Fail Token :=
  if st.asked then
    L.wildLoop asserts wildcard (scanFuel b) st.prevState { st with asked := false } b
  else if st.isMatch then
    ({ st with isMatch := false, lastMatchPos := st.matchPos, lastMatchLine := st.matchLine }, b,
      .ok (mkToken b st.startPos st.matchPos st.matchLine st.typeIds))
  else
    L.wildLoop asserts wildcard (scanFuel b) (some 0)
      { st with startPos := b.pos, matchPos := b.pos, matchLine := st.line, typeIds := none } b

end Lexer
end LogSurgeon
