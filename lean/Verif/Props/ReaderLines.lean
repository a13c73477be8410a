import Verif.Proofs.ReaderLines
import Verif.Props.ReaderClient
/-
C28, C29, C51 for logs whose lines are short: the condition `BufferParser.Fits` of Props/Reader.lean holds when every event together with
the first line of the next one is shorter than half of the buffer (`BufferParser.LinesFit`, Spec/Reader.lean), given that newline is a
delimiter of the schema, that no variable is called "newLine" or "newLineTimestamp", and that no timestamp contains a newline.
-/
namespace LogSurgeon

variable {s : SchemaAST} {addr : Nat → Nat} {t : ParserTables} {L : Lexer}

/-- C28 for logs with short lines: `ReaderParser` shows exactly the events that `BufferParser` shows for the whole text.  (Partial:
`hlen`, and the end of an event without timestamp is not at a multiple of half of the buffer.) -/
theorem C28_short_lines_partial (hC : s.Compiled addr t L) (hv : s.vars ≠ []) (hnl : s.IsDelim newline) (hres : s.NlReserved)
    (hline : s.LineTimestamps) {h : Nat} (hh : 2 ≤ h) {σ : Type} {r : Reader σ} {rest : σ → List Nat} (hr : r.Full rest) {P : ReaderParser σ}
    (hI : P.Idle t L h) {pb : BufferParser} (hIb : pb.Idle t L) (src : σ) (hlen : (rest src).length % (2 * h) = 0 → rest src = [])
    (hfit : pb.LinesFit h (rest src)) {j k : Nat} (hj : 0 < j) (hk : (rest src).length < k) :
    (P.parseReader r j k src).status = none ∧ (P.parseReader r j k src).events = pb.seenOf (rest src) true :=
  C28_events_are_those_of_the_buffer_parser_partial hC hv hh hr hI hIb src hlen (fits_of_lines hC hv hnl hres hline hIb hfit) hj hk

/-- C29 for logs with short lines. -/
theorem C29_short_lines_partial (hC : s.Compiled addr t L) (hv : s.vars ≠ []) (hnl : s.IsDelim newline) (hres : s.NlReserved)
    (hline : s.LineTimestamps) {h : Nat} (hh : 2 ≤ h) {σ : Type} {r : Reader σ} {rest : σ → List Nat} (hr : r.Full rest) {P : ReaderParser σ}
    (hI : P.Idle t L h) {pb : BufferParser} (hIb : pb.Idle t L) (src : σ) (hlen : (rest src).length % (2 * h) = 0 → rest src = [])
    (hfit : pb.LinesFit h (rest src)) : (P.parseReader r 1 ((rest src).length + 1) src).status = none ∧
    (P.parseReader r 1 ((rest src).length + 1) src).parser.lp.input.size = 2 * h :=
  C29_terminates_within_its_buffer_partial hC hv hh hr hI hIb src hlen (fits_of_lines hC hv hnl hres hline hIb hfit)

/-- C51 for logs with short lines: the two examples print the same, whatever the size of the buffer of the other one. -/
theorem C51_short_lines_partial (hC : s.Compiled addr t L) (hv : s.vars ≠ []) (hmono : ∀ a b, a < b → addr a < addr b) (hnl : s.IsDelim newline)
    (hres : s.Reserved) (hline : s.LineTimestamps) {h : Nat} (hh : 2 ≤ h) {P : ReaderParser FileStream} (hI : P.Idle t L h)
    {p : BufferParser} (hIb : p.Idle t L) (alloc : Nat → Nat) {cap : Nat} (hcap : 0 < cap) {file : List Nat} (hb : ∀ c ∈ file, c < 256)
    (hfd : cCharStartOfFile ∉ file) (hlen : file.length % (2 * h) = 0 → file = []) (hfit : p.LinesFit h file) {var : Nat}
    (hv5 : var ≠ tokenFirstTimestamp) (hv6 : var ≠ tokenNewlineTimestamp)
    (hts : (p.parseBuffer (file.length + 1) 0 (file ++ [0]) file.length true).beginsWithTimestamp) {j : Nat} (hj : 0 < j) :
    ∃ K, ∀ k ≥ K, processLogsReader j t.getIdSymbol var k P file = processLogs alloc t.getIdSymbol var k p cap file :=
  C51_same_partial hC hv hmono hnl hres hline hh hI hIb alloc hcap hb hfd hlen
    (fits_of_lines hC hv hnl (fun v hm => ⟨(hres v hm).2.2, (hres v hm).2.1⟩) hline hIb hfit) hv5 hv6 hts hj

/-! ### Concrete cases -/

instance (p : BufferParser) (h : Nat) (w : List Nat) : Decidable (p.LinesFit h w) :=
  decidable_of_iff (∀ i ∈ List.range (p.seenOf w true).length, ∀ x ∈ (p.seenOf w true)[i]?,
    (x.text.getD []).length + (firstLine (((p.seenOf w true)[i + 1]?.bind (·.text)).getD [])).length + 1 < h ∧
    (x.ts = false → i + 1 < (p.seenOf w true).length → seenLength (p.seenOf w true) (i + 1) % h ≠ 0))
    ⟨fun h i x hx => h i (List.mem_range.mpr (List.getElem?_eq_some_iff.mp hx).1) x hx, fun h i _ x hx => h i x hx⟩

/-- `T b⏎T b⏎T c⏎ b⏎T⏎T c b⏎a⏎T`. -/
def linesText : List Nat :=
  [84, 32, 98, 10, 84, 32, 98, 10, 84, 32, 99, 10, 32, 98, 10, 84, 10, 84, 32, 99, 32, 98, 10, 97, 10, 84]

/-- A reader parser of a file with a buffer of `2 * h` bytes. -/
def newFileParser (s : SchemaAST) (h : Nat) : Option (ReaderParser FileStream) :=
  match ReaderParser.new s id (fun _ => List.replicate (2 * h) 0) (2 * h) 10 ⟨[], false⟩ with | .ok p => some p | .error _ => none

theorem newFileParser_spec {s : SchemaAST} (hs : s.Sensible) (h : Nat) (hn : (newFileParser s h).isSome = true) :
    ∃ t L P pb, s.Compiled id t L ∧ newFileParser s h = some P ∧ P.Idle t L h ∧ newParser s = some pb ∧ BufferParser.Idle pb t L := by
  unfold newFileParser newParser at *
  cases hb : buildLexer s id with
  | error e => simp [ReaderParser.new, LogParser.new, hb] at hn
  | ok x =>
    obtain ⟨t, L⟩ := x
    cases hp : ReaderParser.new s id (fun _ => List.replicate (2 * h) 0) (2 * h) 10 (⟨[], false⟩ : FileStream) with
    | error e => rw [hp] at hn; cases hn
    | ok P =>
      cases hq : BufferParser.new s id (fun _ => []) 100 10 with
      | error e => simp [BufferParser.new, LogParser.new, hb] at hq
      | ok pb => exact ⟨t, L, P, pb, ⟨hs, fun _ _ h => h, hb⟩, rfl, idle_newReader hb hp (by simp) (by decide), rfl, idle_new hb hq (by decide)⟩

set_option maxRecDepth 100000 in
/-- The hypotheses are met by `linesText` (26 bytes) in a buffer of 22 bytes. -/
example : ∃ t L P pb, evSchema.Compiled id t L ∧ evSchema.vars ≠ [] ∧ (evSchema.IsDelim newline ∧ evSchema.Reserved ∧ evSchema.LineTimestamps) ∧
    ReaderParser.Idle (σ := FileStream) P t L 11 ∧ BufferParser.Idle pb t L ∧ cCharStartOfFile ∉ linesText ∧ linesText.length % (2 * 11) ≠ 0 ∧
    pb.LinesFit 11 linesText ∧
    (pb.parseBuffer (linesText.length + 1) 0 (linesText ++ [0]) linesText.length true).beginsWithTimestamp ∧
    (processLogsReader 1 t.getIdSymbol 8 28 P linesText).1.map (fun o => (o.text, o.vars, o.multiline)) =
      [(some [84, 32, 98, 10], [some [32, 98]], false), (some [84, 32, 98, 10], [some [32, 98]], false), (some [84, 32, 99, 10, 32, 98, 10], [some [32, 98]], true),
        (some [84, 10], [], false), (some [84, 32, 99, 32, 98, 10, 97, 10], [some [32, 98]], true), (some [84], [], false)] := by
  obtain ⟨t, L, P, pb, h1, h2, h3, h4, h5⟩ := newFileParser_spec evSchema_sensible 11 (by decide +kernel)
  refine ⟨t, L, P, pb, h1, by simp [evSchema], evSchema_lines, h3, h5, by decide, by decide, ?_, ?_, ?_⟩
  · have : (newParser evSchema).map (fun p => decide (p.LinesFit 11 linesText)) = some true := by decide +kernel
    rw [h4] at this
    simpa using this
  · have : (newParser evSchema).map (fun p => (p.parseBuffer (linesText.length + 1) 0 (linesText ++ [0]) linesText.length true).events.head?.map
        fun o => o.view.getTimestamp.isSome) = some (some true) := by decide +kernel
    rw [h4] at this
    simp only [Option.map_some, Option.some.injEq, Option.map_eq_some_iff] at this
    obtain ⟨o, h6, h7⟩ := this
    exact ⟨o, h6, h7⟩
  · have hn : t.getIdSymbol = namesOf evSchema := by
      funext i
      unfold namesOf
      rw [h1.ok]
    rw [hn]
    have : (newFileParser evSchema 11).map (fun P => (processLogsReader 1 (namesOf evSchema) 8 28 P linesText).1.map
        (fun o => (o.text, o.vars, o.multiline))) =
      some [(some [84, 32, 98, 10], [some [32, 98]], false), (some [84, 32, 98, 10], [some [32, 98]], false), (some [84, 32, 99, 10, 32, 98, 10], [some [32, 98]], true),
        (some [84, 10], [], false), (some [84, 32, 99, 32, 98, 10, 97, 10], [some [32, 98]], true), (some [84], [], false)] := by decide +kernel
    rw [h2] at this
    simpa using this

set_option maxRecDepth 100000 in
/-- C51 fails when an event is longer than half of the buffer: for the file `T ccb d` the example for `ReaderParser` with a buffer of 8 bytes
prints a variable (` ccb`, see C28), the example for `BufferParser` none. -/
theorem C51_refuted : ∃ (s : SchemaAST) (t : ParserTables) (L : Lexer) (P : ReaderParser FileStream) (p : BufferParser),
    s.Compiled id t L ∧ s.vars ≠ [] ∧ (s.IsDelim newline ∧ s.Reserved ∧ s.LineTimestamps) ∧ P.Idle t L 4 ∧ p.Idle t L ∧
    (processLogsReader 9 t.getIdSymbol 8 20 P [84, 32, 99, 99, 98, 32, 100]).1.map (fun o => (o.text, o.vars)) =
      [(some [84, 32, 99, 99, 98, 32, 100], [some [32, 99, 99, 98]])] ∧
    (processLogs (· + 1) t.getIdSymbol 8 20 p 8 [84, 32, 99, 99, 98, 32, 100]).1.map (fun o => (o.text, o.vars)) =
      [(some [84, 32, 99, 99, 98, 32, 100], [])] := by
  obtain ⟨t, L, P, pb, h1, h2, h3, h4, h5⟩ := newFileParser_spec evSchema_sensible 4 (by decide +kernel)
  refine ⟨evSchema, t, L, P, pb, h1, by simp [evSchema], evSchema_lines, h3, h5, ?_⟩
  have hn : t.getIdSymbol = namesOf evSchema := by
    funext i
    unfold namesOf
    rw [h1.ok]
  rw [hn]
  have a : (newFileParser evSchema 4).map (fun P =>
      (processLogsReader 9 (namesOf evSchema) 8 20 P [84, 32, 99, 99, 98, 32, 100]).1.map (fun o => (o.text, o.vars))) =
      some [(some [84, 32, 99, 99, 98, 32, 100], [some [32, 99, 99, 98]])] := by decide +kernel
  have b : (newParser evSchema).map (fun p =>
      (processLogs (· + 1) (namesOf evSchema) 8 20 p 8 [84, 32, 99, 99, 98, 32, 100]).1.map (fun o => (o.text, o.vars))) =
      some [(some [84, 32, 99, 99, 98, 32, 100], [])] := by decide +kernel
  rw [h2] at a
  rw [h4] at b
  exact ⟨by simpa using a, by simpa using b⟩

end LogSurgeon
