import Verif.Spec.EndToEnd
import Verif.Model.LogEvent
/-
What two parsers made from two schemas have in common: events that are alike.  Tokens are compared by their bytes and by the names of their types
(the numbers of the types may differ).
-/
namespace LogSurgeon

/-- Two tokens are alike: the same bytes, types of the same names; and for the names in `P`: the first type of one has the name iff that of the other has.
(`id` and `id'` are `get_symbol_id` of the two parsers.) -/
structure PTok.Alike (P : String → Prop) (id id' : String → Option Nat) (x x' : PTok) : Prop where
  first : x.a = x'.a
  last : x.e = x'.e
  types : ∀ n, (∃ i, id n = some i ∧ i ∈ x.ty) ↔ ∃ i, id' n = some i ∧ i ∈ x'.ty
  kind : ∀ n, P n → (id n = some x.kind ↔ id' n = some x'.kind)

/-- Two events are alike: the same text, the same flags, alike tokens, alike timestamps; and for every name in `P` alike variables of this name, in
the same order. -/
structure EventOut.Alike (P : String → Prop) (id id' : String → Option Nat) (o o' : EventOut) : Prop where
  text : o.text = o'.text
  hasTimestamp : o.view.out.hasTimestamp = o'.view.out.hasTimestamp
  multiline : o.view.multiline = o'.view.multiline
  tokens : ∃ xs xs', o.view.tokens.map Token.range = xs.map some ∧ o'.view.tokens.map Token.range = xs'.map some ∧ List.Forall₂ (PTok.Alike P id id') xs xs'
  timestamp : Option.Rel (PTok.Alike P id id') (o.view.getTimestamp.bind Token.range) (o'.view.getTimestamp.bind Token.range)
  vars : ∀ n i i', P n → id n = some i → id' n = some i' → ∃ xs xs',
    (o.view.occ i).map (fun j => (o.view.out.get j).range) = xs.map some ∧ (o'.view.occ i').map (fun j => (o'.view.out.get j).range) = xs'.map some ∧
    List.Forall₂ (PTok.Alike P id id') xs xs'

namespace SchemaText

/-- In this text, what is an instance of `n` is an instance of nothing else. -/
def Only (s : SchemaText) (text : List Nat) (n : String) : Prop :=
  ∀ start a e m, a < e → e ≤ text.length → s.Instance text start a e n → s.Instance text start a e m → m = n

/-- Newlines and timestamps are nothing else. -/
def ClearLines (s : SchemaText) (text : List Nat) : Prop :=
  s.Only text "newLine" ∧ s.Only text "newLineTimestamp" ∧ s.Only text "firstTimestamp"

/-- No variable has a name the library uses itself.  (Names in a schema text have no `$`.) -/
def Names (s : SchemaText) : Prop :=
  ∀ v ∈ s.vars, v.1 ∉ ["$end", "$UncaughtString", "newLine", "newLineTimestamp", "firstTimestamp"]

/-- The two schemas have the same delimiters, and read the same strings as instances of each name, however the patterns are written. -/
def ReadsAlike (s s' : SchemaText) : Prop :=
  (∀ d, d ∈ s.delimiters ↔ d ∈ s'.delimiters) ∧
  ∀ n u, (∃ p, (n, p) ∈ s.vars ∧ p.ReadAs (if n = "timestamp" then [] else s.delimiters) u) ↔
    ∃ p, (n, p) ∈ s'.vars ∧ p.ReadAs (if n = "timestamp" then [] else s'.delimiters) u

/-- The same is found in the text by the two schemas: they have the same delimiters as far as those occur in the text, the same parts of the text are
instances of the same names, and the same beginnings of the text can be continued to an instance of something. -/
structure Agree (s s' : SchemaText) (text : List Nat) : Prop where
  delims : ∀ d ∈ text, d ∈ s.delimiters ↔ d ∈ s'.delimiters
  inst : ∀ start a e n, a < e → e ≤ text.length → (s.Instance text start a e n ↔ s'.Instance text start a e n)
  opens : ∀ j, s.Opens text j → s'.Opens text j
  opened : ∀ j, 0 < j → s'.Opens text j → s.Opens text j

/-- The schema with other names for its variables. -/
def rename (s : SchemaText) (f : String → String) : SchemaText := { s with vars := s.vars.map fun v => (f v.1, v.2) }

/-- `d` is a further delimiter of the second schema, which declares the same variables; some byte but 0xFD is no delimiter. -/
structure MoreDelims (s s' : SchemaText) (d : Nat) : Prop where
  vars : ∀ v, v ∈ s'.vars ↔ v ∈ s.vars
  delims : ∀ c, c ∈ s'.delimiters ↔ c = d ∨ c ∈ s.delimiters
  byte : d < 256
  other : ∃ c, c < 256 ∧ c ≠ 0xFD ∧ c ∉ s'.delimiters

/-- Nothing in the text is an instance of the variable, and nothing at its beginning can be continued to one (by bytes other than 0xFD). -/
def Unused (s : SchemaText) (v : String × Pat) (text : List Nat) : Prop :=
  (∀ start a e n, a < e → e ≤ text.length → n ≠ "newLine" → ¬ ({ s with vars := [v] } : SchemaText).Instance text start a e n) ∧
  ∀ j, 0 < j → ¬ ({ s with vars := [v] } : SchemaText).Opens text j

end SchemaText

/-- Different names stay different, and the names with a meaning to the library are kept. -/
def Renames (f : String → String) : Prop :=
  (∀ n m, f n = f m → n = m) ∧ ∀ n ∈ ["$end", "$UncaughtString", "newLine", "newLineTimestamp", "firstTimestamp", "timestamp"], f n = n

/-- Two parsers made from two schemas (the first from `s`), whatever complete parses they have been used for, give for every text with `Ok` alike events, each
variable name being compared whose instances are instances of nothing else; if this holds for all names, the logtypes are the same. -/
def SameEvents (s : SchemaText) (t t' : ParserTables) (p p' : BufferParser) (Ok : List Nat → Prop) : Prop :=
  ∀ q q', p.Used q → p'.Used q' → ∀ (text : List Nat) ptr ptr' content content' size size' k k',
    content.take size = text → content'.take size' = text → size < content.length → size' < content'.length → size < k → size' < k' →
    AllBytes text → 0xFD ∉ text → s.ClearLines text → Ok text →
    (q.parseBuffer k ptr content size true).status = none ∧ (q'.parseBuffer k' ptr' content' size' true).status = none ∧
    List.Forall₂ (EventOut.Alike (s.Only text) t.getSymbolId t'.getSymbolId)
      (q.parseBuffer k ptr content size true).events (q'.parseBuffer k' ptr' content' size' true).events ∧
    ((∀ n, s.Only text n) → ∀ m m' : Mem, m ptr = content → m' ptr' = content' →
      (q.parseBuffer k ptr content size true).events.map (fun o => o.view.getLogtype m t.getIdSymbol) =
        (q'.parseBuffer k' ptr' content' size' true).events.map (fun o => o.view.getLogtype m' t'.getIdSymbol))

end LogSurgeon
