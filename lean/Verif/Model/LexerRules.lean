import Verif.Model.Dfa
/-
Model of the rules a `Lexer` holds and of what `generate` makes of them: Lexer.tpp:358-389.
-/
namespace LogSurgeon

/-- `m_rules` (Lexer.hpp:154) and the root row of `m_dfa` (Lexer.hpp:157), with `m_is_first_char` (Lexer.hpp:153). -/
structure LexerRules where
  rules : List Rule := []
  dfa : Option Dfa := none
  firstChar : Nat → Bool := fun _ => false

namespace LexerRules

/-- Lexer.tpp:358-363 `add_rule`. -/
def addRule (l : LexerRules) (r : Rule) : LexerRules := { l with rules := l.rules ++ [r] }

/-- Lexer.tpp:366-374 `get_rule`: the first rule with this id; `none` is the null pointer. -/
def getRule (l : LexerRules) (id : Nat) : Option Regex := (l.rules.find? fun r => r.id == id).map (·.regex)

/-- Lexer.tpp:377-389 `generate`: `std::move(m_rules)` (378) leaves an empty vector behind (RegexNFA.hpp:102-108 takes it by value);
lines 382-388 fill `m_is_first_char`.  `none`: no automaton (an assertion in the construction of the NFA). -/
def generate (l : LexerRules) (addr : Nat → Nat) : Option LexerRules :=
  (generateDfa l.rules addr).map fun d => { rules := [], dfa := some d, firstChar := fun i => decide (i < cSizeOfByte) && (d.next 0 i).isSome }

/-- A call. -/
inductive Call where
  | add (r : Rule)
  | generate (addr : Nat → Nat)

/-- The calls one after the other. -/
def run (l : LexerRules) : List Call → Option LexerRules
  | [] => some l
  | .add r :: cs => (l.addRule r).run cs
  | .generate addr :: cs => (l.generate addr).bind fun l => l.run cs

end LexerRules
end LogSurgeon
