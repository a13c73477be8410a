import Verif.Model.Regex
/-
Model of the semantic actions by which `SchemaParser` turns the parse tree of a schema regex into a
`RegexAST` (SchemaParser.cpp).  `Pat` is the parse tree (one constructor per family of grammar
productions, SchemaParser.cpp:531-636); how text is turned into a parse tree is the LALR(1) parser,
see `Model/Lalr.lean`.
-/
namespace LogSurgeon

/-- Items of a bracket expression: productions `IncompleteGroup -> ... LiteralRange | Digit | Literal |
WhiteSpace`, SchemaParser.cpp:557-581. -/
inductive ClassItem where
  | lit (c : Nat)
  | range (lo hi : Nat)
  | digit
  | space
deriving Repr, DecidableEq

/-- Parse trees of schema regexes. -/
inductive Pat where
  /-- `Literal` (580-630): an ordinary or escaped character. -/
  | lit (c : Nat)
  /-- `[...]` and `[^...]` (548, 555-578). -/
  | cls (negate : Bool) (items : List ClassItem)
  /-- `\d` (634). -/
  | digit
  /-- `.` (635). -/
  | wild
  /-- `\s` (636). -/
  | space
  /-- `Concat -> Concat Or` (532). -/
  | cat (l r : Pat)
  /-- `Or -> Or Vbar Literal` (534). -/
  | or (l r : Pat)
  /-- `r*` (540). -/
  | star (p : Pat)
  /-- `r+` (541). -/
  | plus (p : Pat)
  /-- `r{n}` (542-546); `n` as written, most significant digit first. -/
  | exact (p : Pat) (n : List Nat)
  /-- `r{n,m}` (547-551). -/
  | range (p : Pat) (n m : List Nat)
  /-- `(?<name>r)` (624-628). -/
  | capture (p : Pat) (t : Tag)
deriving Repr, DecidableEq

/-- One step of building a bracket expression: the constructors RegexAST.hpp:954-966, 968-991
(new and existing group) called from SchemaParser.cpp:263-297.  `none`: exception or failed assert
(`\s` is a group, not a literal, so the `dynamic_cast` of SchemaParser.cpp:267, 285 gives `nullptr`, which
throws, RegexAST.hpp:959; a range must be strictly increasing, RegexAST.hpp:1006). -/
def addItem (ranges : List Range) : ClassItem → Option (List Range)
  | .lit c => some (ranges ++ [(c, c)])
  | .range lo hi => if lo < hi then some (ranges ++ [(lo, hi)]) else none
  | .digit => some (ranges ++ [(48, 57)])
  | .space => none

/-- All items, left to right (the left-recursive productions SchemaParser.cpp:557-581). -/
def addItems (ranges : List Range) : List ClassItem → Option (List Range)
  | [] => some ranges
  | i :: is => (addItem ranges i).bind fun r => addItems r is

/-- SchemaParser.cpp:221-226 (same code at 235-240, 242-247): the number written in a repetition.
`(uint32_t)pow(10, k)` is undefined for `10^k ≥ 2^32`, i.e. for more than 10 digits (`none`); the sum
wraps modulo `2^32`. -/
def repetitionCount (digits : List Nat) : Option Nat :=
  if digits.length > 10 then none
  else some (((List.range digits.length).map
    (fun i => digits.getD i 0 * 10 ^ (digits.length - i - 1))).sum % 2 ^ 32)

/-- SchemaParser.cpp:202-210 `regex_match_zero_or_more_rule`. -/
def starRule (r : Regex) : Regex := .mkOr .mkEmpty (.mkMult r 1 0)
/-- SchemaParser.cpp:212-217 `regex_match_one_or_more_rule`. -/
def plusRule (r : Regex) : Regex := .mkMult r 1 0
/-- SchemaParser.cpp:219-231 `regex_match_exactly_rule`. -/
def exactRule (r : Regex) (n : Nat) : Regex := .mkMult r n n
/-- SchemaParser.cpp:233-261 `regex_match_range_rule`. -/
def rangeRule (r : Regex) (n m : Nat) : Regex :=
  if n = 0 then .mkOr .mkEmpty (.mkMult r 1 m) else .mkMult r n m

/-- SchemaParser.cpp:165-172 (capture), 180-184 (identity), 186-192 (cat), 194-200 (or), 202-261
(repetitions), 263-311 (bracket expressions), 319-333 (literals), 353-357 (`\d`), 359-363 (`.`),
395-402 (`\s`).  Both classes of group keep `m_negate = false` except after `[^`
(RegexASTGroup's default constructor, RegexAST.hpp:299, 423, used at SchemaParser.cpp:299-301). -/
def Pat.elab : Pat → Option Regex
  | .lit c => some (.literal [] c)
  | .cls negate items => (addItems [] items).map fun rs => .group [] false negate rs
  | .digit => some (.group [] false false [(48, 57)])
  | .wild => some (.group [] true false [(0, cUnicodeMax)])
  | .space => some (.group [] false false [(32, 32), (9, 9), (13, 13), (10, 10), (11, 11), (12, 12)])
  | .cat l r => l.elab.bind fun a => r.elab.map fun b => .mkCat a b
  | .or l r => l.elab.bind fun a => r.elab.map fun b => .mkOr a b
  | .star p => p.elab.map starRule
  | .plus p => p.elab.map plusRule
  | .exact p n => p.elab.bind fun r => (repetitionCount n).map fun k => exactRule r k
  | .range p n m => p.elab.bind fun r => (repetitionCount n).bind fun k =>
      (repetitionCount m).map fun j => rangeRule r k j
  | .capture p t => p.elab.map fun r => .mkCapture r t

end LogSurgeon
