import Verif.Spec.SchemaChange
import Verif.Spec.Reader
/-
What the changes of a schema of C71–C73 leave alone for `ReaderParser` (src/log_surgeon/ReaderParser.cpp, src/log_surgeon/LogEvent.cpp): definitions for
the statements only, nothing here models code.
-/
namespace LogSurgeon

/-- Two tokens as a client sees them are alike: the same bytes, and types of the same names. -/
def ShownAlike (id id' : String → Option Nat) (x x' : Option (List Nat) × Option (List Nat)) : Prop :=
  x.1 = x'.1 ∧ x.1.isSome ∧ ∃ ty ty', x.2 = some ty ∧ x'.2 = some ty' ∧ ∀ n, (∃ i, id n = some i ∧ i ∈ ty) ↔ ∃ i, id' n = some i ∧ i ∈ ty'

/-- Two events a client of `ReaderParser` sees are alike: the same text, the same flags, alike tokens, alike timestamps, and for every name in `P` alike
variables of this name, in the same order. -/
structure Seen.Alike (P : String → Prop) (id id' : String → Option Nat) (o o' : Seen) : Prop where
  text : o.text = o'.text ∧ o.text.isSome
  ts : o.ts = o'.ts
  multiline : o.multiline = o'.multiline
  tokens : List.Forall₂ (ShownAlike id id') o.tokens o'.tokens
  timestamp : Option.Rel (ShownAlike id id') o.timestamp o'.timestamp
  vars : ∀ n i i', P n → id n = some i → id' n = some i' → List.Forall₂ (ShownAlike id id') (o.vars i) (o'.vars i')

/-- Two reader parsers made from two schemas (the first from `s`; `id`, `id'` are the ids of the names, `names`, `names'` the names for the logtypes), with buffers of `2 * h` and `2 * h'` bytes, show alike events for every text two readers
deliver, if the events of the text fit the buffers (those of a text shorter
than half of a buffer do); if the instances of every name are instances of nothing else, the logtypes are the same. -/
def SameSeen {σ σ' : Type} (s : SchemaText) (id id' : String → Option Nat) (names names' : Nat → Option String) (h h' : Nat) (P : ReaderParser σ) (P' : ReaderParser σ') (r : Reader σ) (r' : Reader σ')
    (rest : σ → List Nat) (rest' : σ' → List Nat) (Ok : List Nat → Prop) : Prop :=
  ∀ src src' (w : List Nat), rest src = w → rest' src' = w → AllBytes w → 0xFD ∉ w → (w.length % (2 * h) = 0 → w = []) → (w.length % (2 * h') = 0 → w = []) →
    s.ClearLines w → Ok w →
    ∃ ps xs, s.Division w ps ∧ List.Forall₂ (SchemaText.Piece.Is s id w) ps xs ∧
      (w.length + 1 < h → EventsFit h w (segment w none xs)) ∧ (w.length + 1 < h' → EventsFit h' w (segment w none xs)) ∧
      (EventsFit h w (segment w none xs) → EventsFit h' w (segment w none xs) → ∀ j j' k k', 0 < j → 0 < j' → w.length < k → w.length < k' →
        (P.parseReader r j k src).status = none ∧ (P'.parseReader r' j' k' src').status = none ∧
        List.Forall₂ (Seen.Alike (s.Only w) id id') (P.parseReader r j k src).events (P'.parseReader r' j' k' src').events ∧
        ((∀ n, s.Only w n) → (P.parseReader r j k src).events.map (fun o => o.logtype names) = (P'.parseReader r' j' k' src').events.map fun o => o.logtype names'))

end LogSurgeon
