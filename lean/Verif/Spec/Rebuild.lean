import Verif.Spec.LogEvent
/-
Putting the variables back into a logtype (C65).
-/
namespace LogSurgeon

/-- `<newLine>` -/
def newLineMark : List Nat := [60, 110, 101, 119, 76, 105, 110, 101, 62]

/-- The text begins with `<name>` of a variable: a `<` that is not followed by another one and does not begin `<newLine>`. -/
def startsName : List Nat → Bool
  | 60 :: x :: r => x != 60 && !newLineMark.isPrefixOf (60 :: x :: r)
  | _ => false

/-- Replaces every `<newLine>`, and every `<name>` with the character before it, by the next element of the list.  `inside`: within the angle
brackets. -/
def rebuildFrom : Bool → List Nat → List (List Nat) → List Nat
  | _, [], _ => []
  | true, c :: r, vs => rebuildFrom (c != 62) r vs
  | false, c :: r, vs =>
    if newLineMark.isPrefixOf (c :: r) || startsName r then vs.headD [] ++ rebuildFrom true r vs.tail
    else c :: rebuildFrom false r vs

def rebuild (logtype : List Nat) (vs : List (List Nat)) : List Nat := rebuildFrom false logtype vs

/-- The tokens of an event without its timestamp. -/
def PEvent.body (e : PEvent) : List PTok := if e.ts then e.toks.tail else e.toks

/-- The texts of the tokens, without the timestamp, that are not static text. -/
def PEvent.variables (e : PEvent) (s : List Nat) : List (List Nat) :=
  (e.body.filter fun x => x.kind != tokenUncaught).map (·.text s)

/-- The static text contains no `<`. -/
def PEvent.NoBracket (e : PEvent) (s : List Nat) : Prop := ∀ x ∈ e.body, x.kind = tokenUncaught → 60 ∉ x.text s

/-- The names of the variables contain no angle brackets. -/
def SchemaAST.NoBracket (a : SchemaAST) : Prop := ∀ v ∈ a.vars, '<' ∉ v.name.toList ∧ '>' ∉ v.name.toList

end LogSurgeon
