import Verif.Model.BufferClient
/-
What is different about an event when it is the last one of a log: the newline at its end.
-/
namespace LogSurgeon

/-- `a` is what is printed for an event that ends with a newline and is followed by another event, `b` for the same event at the end of
a log: the newline is static text in the logtype of `a`, and `<newLine>` in that of `b`; the rest is the same. -/
def Printed.LastOf (a b : Printed) : Prop :=
  ∃ l, a.logtype = .ok (l ++ [newline]) ∧ b = { a with logtype := .ok (l ++ EventView.nameBytes "<newLine>") }

/-- What is printed except for the logtype. -/
def Printed.withoutLogtype (a : Printed) : Printed := { a with logtype := .ok [] }

/-- The number of bytes of the texts printed. -/
def textSize (ps : List Printed) : Nat := (ps.flatMap fun p => p.text.getD []).length

/-- The text divided after the bytes of each group of events. -/
def divided (file : List Nat) : List (List Printed) → List (List Nat)
  | [] => []
  | g :: gs => file.take (textSize g) :: divided (file.drop (textSize g)) gs

end LogSurgeon
