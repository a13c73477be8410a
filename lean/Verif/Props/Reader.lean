import Verif.Proofs.ReaderAll
import Verif.Proofs.Stuck
import Verif.Props.Buffer
/-
C28, C29: `ReaderParser`.

The reader needs: `Spec/Reader.lean` (`Reader.Full`: a reader that gives as much as it is asked for until its end;
`ReaderParser.parseReader`: `reset_and_set_reader`, then `parse_next_event` until done or error; `Seen`: what a client sees of an
event; `BufferParser.seenOf`: what `BufferParser` shows for a whole text; `Fits`) and the model of the parsers.

`j` is the number of rounds that a call may take (each round but the last doubles the buffer), `k` the number of calls allowed.
-/
namespace LogSurgeon

variable {s : SchemaAST} {addr : Nat → Nat} {t : ParserTables} {L : Lexer}

/-- A new reader parser is idle. -/
theorem idle_newReader {σ : Type} {mem : Mem} {h outStatic : Nat} {src : σ} {p : ReaderParser σ} (hb : buildLexer s addr = .ok (t, L))
    (hp : ReaderParser.new s addr mem (2 * h) outStatic src = .ok p) (hm : (mem 0).length = 2 * h) (ho : 3 ≤ outStatic) : p.Idle t L h := by
  unfold ReaderParser.new LogParser.new at hp
  rw [hb] at hp
  cases hp
  exact ⟨rfl, rfl, ho, rfl, rfl, hm, by simp [InBuf.init]⟩

/-- The files of this model are full readers. -/
theorem textReader_full : textReader.Full id := by
  intro w n hn
  unfold textReader
  simp only [id]
  split
  · rename_i h; subst h; simp
  · simp

/-! ### C28 -/

/-- C28 for readers that give as much as they are asked for, texts whose events fit the buffer (`BufferParser.Fits`) and whose length is
not a multiple of the size of the buffer: `ReaderParser` shows exactly the events that `BufferParser` shows for the whole text: tokens,
types, timestamps, variables, multiline flags, in order.  In particular the result does not depend on the size of the buffer. -/
theorem C28_events_are_those_of_the_buffer_parser_partial (hC : s.Compiled addr t L) (hv : s.vars ≠ []) {h : Nat} (hh : 2 ≤ h) {σ : Type}
    {r : Reader σ} {rest : σ → List Nat} (hr : r.Full rest) {P : ReaderParser σ} (hI : P.Idle t L h) {pb : BufferParser}
    (hIb : pb.Idle t L) (src : σ) (hlen : (rest src).length % (2 * h) = 0 → rest src = []) (hfit : pb.Fits h (rest src))
    {j k : Nat} (hj : 0 < j) (hk : (rest src).length < k) :
    (P.parseReader r j k src).status = none ∧ (P.parseReader r j k src).events = pb.seenOf (rest src) true :=
  have h := parseReader_spec hC hv hh hr hI hIb src hlen hfit hj hk
  ⟨h.1, h.2.1⟩

/-- Two reader parsers of the same schema, with buffers of different sizes, different readers, used in any (completed) way before, show the
same events for the same text if it fits both. -/
theorem C28_independent_of_reader_and_buffer_size_partial (hC : s.Compiled addr t L) (hv : s.vars ≠ []) {h h' : Nat} (hh : 2 ≤ h) (hh' : 2 ≤ h')
    {σ τ : Type} {r : Reader σ} {r' : Reader τ} {rest : σ → List Nat} {rest' : τ → List Nat} (hr : r.Full rest) (hr' : r'.Full rest')
    {P : ReaderParser σ} {P' : ReaderParser τ} (hI : P.Idle t L h) (hI' : P'.Idle t L h') {pb : BufferParser} (hIb : pb.Idle t L)
    (src : σ) (src' : τ) (hsame : rest src = rest' src') (hlen : (rest src).length % (2 * h) = 0 → rest src = [])
    (hlen' : (rest src).length % (2 * h') = 0 → rest src = []) (hfit : pb.Fits h (rest src)) (hfit' : pb.Fits h' (rest src))
    {j j' k k' : Nat} (hj : 0 < j) (hj' : 0 < j') (hk : (rest src).length < k) (hk' : (rest src).length < k') :
    (P.parseReader r j k src).events = (P'.parseReader r' j' k' src').events := by
  rw [(parseReader_spec hC hv hh hr hI hIb src hlen hfit hj hk).2.1,
    (parseReader_spec hC hv hh' hr' hI' hIb src' (by rw [← hsame]; exact hlen') (by rw [← hsame]; exact hfit') hj' (by rw [← hsame]; exact hk')).2.1,
    hsame]

/-- A completed parse leaves the parser ready for the next reader. -/
theorem C28_ready_for_the_next_reader_partial (hC : s.Compiled addr t L) (hv : s.vars ≠ []) {h : Nat} (hh : 2 ≤ h) {σ : Type}
    {r : Reader σ} {rest : σ → List Nat} (hr : r.Full rest) {P : ReaderParser σ} (hI : P.Idle t L h) {pb : BufferParser}
    (hIb : pb.Idle t L) (src : σ) (hlen : (rest src).length % (2 * h) = 0 → rest src = []) (hfit : pb.Fits h (rest src))
    {j k : Nat} (hj : 0 < j) (hk : (rest src).length < k) : (P.parseReader r j k src).parser.Idle t L h :=
  (parseReader_spec hC hv hh hr hI hIb src hlen hfit hj hk).2.2.2

/-! ### C29 -/

/-- C29 under the same conditions: the loop ends after at most one call per byte (and one more), no call goes round its loop twice, and the
buffer is not grown. -/
theorem C29_terminates_within_its_buffer_partial (hC : s.Compiled addr t L) (hv : s.vars ≠ []) {h : Nat} (hh : 2 ≤ h) {σ : Type}
    {r : Reader σ} {rest : σ → List Nat} (hr : r.Full rest) {P : ReaderParser σ} (hI : P.Idle t L h) {pb : BufferParser}
    (hIb : pb.Idle t L) (src : σ) (hlen : (rest src).length % (2 * h) = 0 → rest src = []) (hfit : pb.Fits h (rest src)) :
    (P.parseReader r 1 ((rest src).length + 1) src).status = none ∧
    (P.parseReader r 1 ((rest src).length + 1) src).parser.lp.input.size = 2 * h :=
  have h := parseReader_spec hC hv hh hr hI hIb src hlen hfit (j := 1) (k := (rest src).length + 1) (by decide) (by omega)
  ⟨h.1, h.2.2.1⟩

/-! ### Concrete cases -/

/-- A reader parser with a buffer of `2 * h` bytes. -/
def newReaderParser (s : SchemaAST) (h : Nat) : Option (ReaderParser (List Nat)) :=
  match ReaderParser.new s id (fun _ => List.replicate (2 * h) 0) (2 * h) 10 [] with | .ok p => some p | .error _ => none

theorem newReaderParser_spec {s : SchemaAST} (hs : s.Sensible) (h : Nat) (hn : (newReaderParser s h).isSome = true) :
    ∃ t L P pb, s.Compiled id t L ∧ newReaderParser s h = some P ∧ P.Idle t L h ∧ newParser s = some pb ∧ BufferParser.Idle pb t L := by
  unfold newReaderParser newParser at *
  cases hb : buildLexer s id with
  | error e => simp [ReaderParser.new, LogParser.new, hb] at hn
  | ok x =>
    obtain ⟨t, L⟩ := x
    cases hp : ReaderParser.new s id (fun _ => List.replicate (2 * h) 0) (2 * h) 10 ([] : List Nat) with
    | error e => rw [hp] at hn; cases hn
    | ok P =>
      cases hq : BufferParser.new s id (fun _ => []) 100 10 with
      | error e => simp [BufferParser.new, LogParser.new, hb] at hq
      | ok pb => exact ⟨t, L, P, pb, ⟨hs, fun _ _ h => h, hb⟩, rfl, idle_newReader hb hp (by simp) (by decide), rfl, idle_new hb hq (by decide)⟩

instance (p : BufferParser) (h : Nat) (w : List Nat) : Decidable (p.Fits h w) :=
  decidable_of_iff (∀ i ∈ List.range (p.seenOf w true).length,
    (0 < i → seenLength (p.seenOf w true) i % h ≠ 0 ∨ (((p.seenOf w true)[i - 1]?).map (·.ts) = some true)) ∧
    (w.length < seenLength (p.seenOf w true) i + h - 1 ∨
      i < (p.seenOf (w.take (seenLength (p.seenOf w true) i + h - 1)) false).length))
    (by simp [BufferParser.Fits])

/-- `a b\nb\nT c\nT b\nT\n b\nT b c`. -/
def wrapText : List Nat := [97, 32, 98, 10, 98, 10, 84, 32, 99, 10, 84, 32, 98, 10, 84, 10, 32, 98, 10, 84, 32, 98, 32, 99]

set_option maxRecDepth 100000 in
/-- The hypotheses are met by a text longer than the buffer (24 bytes in a buffer of 16), with timestamps. -/
example : ∃ t L P pb, evSchema.Compiled id t L ∧ evSchema.vars ≠ [] ∧ textReader.Full id ∧ ReaderParser.Idle (σ := List Nat) P t L 8 ∧
    BufferParser.Idle pb t L ∧ wrapText.length % (2 * 8) ≠ 0 ∧ pb.Fits 8 wrapText ∧
    (P.parseReader textReader 1 25 wrapText).events.map (fun x => (x.ts, x.multiline, x.text)) =
      [(false, false, some [97, 32, 98, 10]),
        (false, false, some [98, 10]),
        (true, false, some [84, 32, 99, 10]),
        (true, false, some [84, 32, 98, 10]),
        (true, true, some [84, 10, 32, 98, 10]),
        (true, false, some [84, 32, 98, 32, 99])] := by
  obtain ⟨t, L, P, pb, h1, h2, h3, h4, h5⟩ := newReaderParser_spec evSchema_sensible 8 (by decide +kernel)
  refine ⟨t, L, P, pb, h1, by simp [evSchema], textReader_full, h3, h5, by decide, ?_, ?_⟩
  · have : (newParser evSchema).map (fun p => decide (p.Fits 8 wrapText)) = some true := by decide +kernel
    rw [h4] at this
    simpa using this
  · have : (newReaderParser evSchema 8).map (fun P => (P.parseReader textReader 1 25 wrapText).events.map (fun x => (x.ts, x.multiline, x.text))) =
      some [(false, false, some [97, 32, 98, 10]),
        (false, false, some [98, 10]),
        (true, false, some [84, 32, 99, 10]),
        (true, false, some [84, 32, 98, 10]),
        (true, true, some [84, 10, 32, 98, 10]),
        (true, false, some [84, 32, 98, 32, 99])] := by decide +kernel
    rw [h2] at this
    simpa using this

/-! ### Where C28 and C29 fail -/

set_option maxRecDepth 100000 in
/-- C28 fails for a reader that gives at most three bytes at a time: the first short read is taken for the end of the input
(ParserInputBuffer.cpp:53-55), and only `a b` of `a b\nb\n` is parsed. -/
theorem C28_refuted_short_reads : ∃ (s : SchemaAST) (t : ParserTables) (L : Lexer) (P : ReaderParser (List Nat)) (pb : BufferParser),
    s.Compiled id t L ∧ s.vars ≠ [] ∧ P.Idle t L 8 ∧ pb.Idle t L ∧ pb.Fits 8 [97, 32, 98, 10, 98, 10] ∧
    (pb.seenOf [97, 32, 98, 10, 98, 10] true).map (·.text) = [some [97, 32, 98, 10], some [98, 10], some []] ∧
    (P.parseReader (chunkReader 3) 9 9 [97, 32, 98, 10, 98, 10]).status = none ∧
    (P.parseReader (chunkReader 3) 9 9 [97, 32, 98, 10, 98, 10]).events.map (·.text) = [some [97, 32, 98]] := by
  obtain ⟨t, L, P, pb, h1, h2, h3, h4, h5⟩ := newReaderParser_spec evSchema_sensible 8 (by decide +kernel)
  have a : (newParser evSchema).map (fun pb => decide (pb.Fits 8 [97, 32, 98, 10, 98, 10] ∧
    (pb.seenOf [97, 32, 98, 10, 98, 10] true).map (·.text) = [some [97, 32, 98, 10], some [98, 10], some []])) = some true := by decide +kernel
  have b : (newReaderParser evSchema 8).map (fun P => decide ((P.parseReader (chunkReader 3) 9 9 [97, 32, 98, 10, 98, 10]).status = none ∧
    (P.parseReader (chunkReader 3) 9 9 [97, 32, 98, 10, 98, 10]).events.map (·.text) = [some [97, 32, 98]])) = some true := by decide +kernel
  rw [h4] at a
  rw [h2] at b
  simp only [Option.map_some, Option.some.injEq, decide_eq_true_eq] at a b
  exact ⟨evSchema, t, L, P, pb, h1, by simp [evSchema], h3, h5, a.1, a.2, b.1, b.2⟩

set_option maxRecDepth 100000 in
/-- C28 fails when an event without a timestamp ends exactly in the middle of the buffer (here of 8 bytes): the buffer is grown with nothing
to keep, and events are joined and followed by bytes that are not in the input. -/
theorem C28_refuted_at_the_middle : ∃ (s : SchemaAST) (t : ParserTables) (L : Lexer) (P : ReaderParser (List Nat)) (pb : BufferParser),
    s.Compiled id t L ∧ s.vars ≠ [] ∧ P.Idle t L 4 ∧ pb.Idle t L ∧ textReader.Full id ∧
    (pb.seenOf [97, 97, 97, 10, 98, 98, 98, 10] true).map (·.text) = [some [97, 97, 97, 10], some [98, 98, 98, 10], some []] ∧
    (P.parseReader textReader 9 9 [97, 97, 97, 10, 98, 98, 98, 10]).status = none ∧
    (P.parseReader textReader 9 9 [97, 97, 97, 10, 98, 98, 98, 10]).events.map (·.text) =
      [some [97, 97, 97, 10, 98, 98, 98, 10, 0, 0, 0, 0], some []] := by
  obtain ⟨t, L, P, pb, h1, h2, h3, h4, h5⟩ := newReaderParser_spec evSchema_sensible 4 (by decide +kernel)
  have a : (newParser evSchema).map (fun pb => decide (
    (pb.seenOf [97, 97, 97, 10, 98, 98, 98, 10] true).map (·.text) = [some [97, 97, 97, 10], some [98, 98, 98, 10], some []])) = some true := by
    decide +kernel
  have b : (newReaderParser evSchema 4).map (fun P => decide ((P.parseReader textReader 9 9 [97, 97, 97, 10, 98, 98, 98, 10]).status = none ∧
    (P.parseReader textReader 9 9 [97, 97, 97, 10, 98, 98, 98, 10]).events.map (·.text) =
      [some [97, 97, 97, 10, 98, 98, 98, 10, 0, 0, 0, 0], some []])) = some true := by decide +kernel
  rw [h4] at a
  rw [h2] at b
  simp only [Option.map_some, Option.some.injEq, decide_eq_true_eq] at a b
  exact ⟨evSchema, t, L, P, pb, h1, by simp [evSchema], h3, h5, textReader_full, a, b.1, b.2⟩

set_option maxRecDepth 100000 in
/-- C28 fails when the buffer ends within a word that is not a variable: `a ccb d` is static text, but with a buffer of 8 bytes ` ccb` is
reported as the variable `x` (whose pattern is `b`), because the scan is resumed in the state before the word (Lexer.tpp:145-150). -/
theorem C28_refuted_within_a_word : ∃ (s : SchemaAST) (t : ParserTables) (L : Lexer) (P : ReaderParser (List Nat)) (pb : BufferParser),
    s.Compiled id t L ∧ s.vars ≠ [] ∧ P.Idle t L 4 ∧ pb.Idle t L ∧ textReader.Full id ∧
    (pb.seenOf [97, 32, 99, 99, 98, 32, 100] true).map (·.tokens) = [[(some [97, 32, 99, 99, 98, 32, 100], some [tokenUncaught])]] ∧
    (P.parseReader textReader 9 9 [97, 32, 99, 99, 98, 32, 100]).status = none ∧
    (P.parseReader textReader 9 9 [97, 32, 99, 99, 98, 32, 100]).events.map (·.tokens) =
      [[(some [97], some [tokenUncaught]), (some [32, 99, 99, 98], some [8]), (some [32, 100], some [tokenUncaught])]] := by
  obtain ⟨t, L, P, pb, h1, h2, h3, h4, h5⟩ := newReaderParser_spec evSchema_sensible 4 (by decide +kernel)
  have a : (newParser evSchema).map (fun pb => decide (
    (pb.seenOf [97, 32, 99, 99, 98, 32, 100] true).map (·.tokens) = [[(some [97, 32, 99, 99, 98, 32, 100], some [tokenUncaught])]])) = some true := by
    decide +kernel
  have b : (newReaderParser evSchema 4).map (fun P => decide ((P.parseReader textReader 9 9 [97, 32, 99, 99, 98, 32, 100]).status = none ∧
    (P.parseReader textReader 9 9 [97, 32, 99, 99, 98, 32, 100]).events.map (·.tokens) =
      [[(some [97], some [tokenUncaught]), (some [32, 99, 99, 98], some [8]), (some [32, 100], some [tokenUncaught])]])) = some true := by
    decide +kernel
  rw [h4] at a
  rw [h2] at b
  simp only [Option.map_some, Option.some.injEq, decide_eq_true_eq] at a b
  exact ⟨evSchema, t, L, P, pb, h1, by simp [evSchema], h3, h5, textReader_full, a, b.1, b.2⟩

/-- `a b c\na b c\na b\n`, and 16 bytes more. -/
def stuckText : List Nat := [97, 32, 98, 32, 99, 10, 97, 32, 98, 32, 99, 10, 97, 32, 98, 10, 97, 32, 97, 32, 97, 32, 97, 32, 97, 32, 97, 32, 97, 10, 32, 97]

set_option maxRecDepth 100000 in
/-- C29 fails: with a buffer of 16 bytes, the first three events of this text are parsed, and the fourth call never returns.  Whatever the number
`j` of rounds allowed, it is used up, and the buffer has then `2 ^ j * 16` bytes. -/
theorem C29_refuted : ∃ (s : SchemaAST) (t : ParserTables) (L : Lexer) (P : ReaderParser (List Nat)), s.Compiled id t L ∧ s.vars ≠ [] ∧
    P.Idle t L 8 ∧ textReader.Full id ∧ ∀ j k, 0 < j → 4 ≤ k →
      (P.parseReader textReader j k stuckText).status = some .diverge ∧
      (P.parseReader textReader j k stuckText).events.map (·.text) = [some [97, 32, 98, 32, 99, 10], some [97, 32, 98, 32, 99, 10], some [97, 32, 98, 10]] ∧
      (P.parseReader textReader j k stuckText).parser.lp.input.size = 2 ^ j * 16 := by
  obtain ⟨t, L, P, pb, h1, h2, h3, h4, h5⟩ := newReaderParser_spec evSchema_sensible 8 (by decide +kernel)
  have b : (newReaderParser evSchema 8).map (fun P => ((P.resetAndSetReader stuckText).after textReader 1 3).map fun x =>
      (x.1.map (·.text), (x.2.round textReader).map fun q => decide (q.lp.Stuck ∧ q.lp.input.size = 32))) = some (some ([some [97, 32, 98, 32, 99, 10], some [97, 32, 98, 32, 99, 10], some [97, 32, 98, 10]], some true)) := by decide +kernel
  rw [h2] at b
  simp only [Option.map_some, Option.some.injEq] at b
  rw [Option.map_eq_some_iff] at b
  obtain ⟨⟨es, q⟩, b1, b2⟩ := b
  simp only [Prod.mk.injEq, Option.map_eq_some_iff, decide_eq_true_eq] at b2
  obtain ⟨b2, q2, b3, b4, b5⟩ := b2
  refine ⟨evSchema, t, L, P, h1, by simp [evSchema], h3, textReader_full, fun j k hj hk => ?_⟩
  obtain ⟨j, rfl⟩ : ∃ i, j = i + 1 := ⟨j - 1, by omega⟩
  obtain ⟨k, rfl⟩ := Nat.exists_eq_add_of_le (show 3 + 1 ≤ k from hk)
  unfold ReaderParser.parseReader
  rw [Nat.add_assoc, parseAll_after textReader 3 1 (j + 1) (1 + k) _ q es (by omega) b1, Nat.add_comm 1 k]
  obtain ⟨c1, c2⟩ := parseNextEvent_stuck textReader j b3 b4
  unfold ReaderParser.parseAll
  rw [b5] at c2
  generalize q.parseNextEvent textReader (j + 1) = x at c1 c2
  obtain ⟨q', e⟩ := x
  simp only at c1 c2
  subst c1
  simp only [List.append_nil]
  exact ⟨trivial, b2, by rw [c2, Nat.pow_succ]; omega⟩

end LogSurgeon
