import Verif.Spec.EndToEnd
import Verif.Spec.Reading
/-
Search strings with wildcards, and the variables of a schema that can match them.
-/
namespace LogSurgeon

/-- `Glob k q s`: the text `s` matches the search string `q`, in which `*` stands for any text of at least `k` characters (as users know it, `k`
is 0). -/
inductive Glob (k : Nat) : List Nat → List Nat → Prop
  | nil : Glob k [] []
  | char {c q s} : c ≠ 42 → Glob k q s → Glob k (c :: q) (c :: s)
  | star {t q s} : k ≤ t.length → Glob k q s → Glob k (42 :: q) (t ++ s)

/-- A search string the example can handle: not empty, no characters that are special in a schema (except `*`), and not containing the
keyword `delimiters`. -/
def IsQuery (q : List Nat) : Prop := q ≠ [] ∧ (∀ c ∈ q, Plain c ∨ c = 42) ∧ ¬ delimitersWord <:+: q

/-- A variable given to `add_variable` as `name:text`. -/
structure VarText where
  name : List Nat
  text : List Nat
  pat : Pat

/-- The text is that of the pattern, which has sensible repetitions and usable brackets; the keyword `delimiters` does not occur. -/
def VarText.Ok (v : VarText) : Prop :=
  IsName v.name ∧ Written .seq (v.name.length + 1) v.text v.pat ∧ ¬ delimitersWord <:+: v.name ++ 58 :: v.text ∧
    v.pat.Sensible ∧ v.pat.ClassesUsable

/-- Some text is an instance of the variable, as the library reads patterns (Spec/Reading.lean: `*` stands for at least one repetition), and matches the search
string, where `*` also stands for at least one character. -/
def VarText.Meets (v : VarText) (q : List Nat) : Prop := ∃ s, AllBytes s ∧ v.pat.ReadAs [] s ∧ Glob 1 q s

open Classical in
/-- The names of the variables that meet the search string, in the order of the schema. -/
noncomputable def searchAnswers (vs : List VarText) (q : List Nat) : List String := (vs.filter fun v => decide (v.Meets q)).map fun v => asString v.name

/-- Some text is an instance of the variable and matches the search string. -/
def VarText.MeetsProperly (v : VarText) (q : List Nat) : Prop := ∃ s, AllBytes s ∧ v.pat.Matches s ∧ Glob 0 q s

end LogSurgeon
