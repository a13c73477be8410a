import Verif.Proofs.AnyReader
import Verif.Props.ReaderLines
/-
C28, C29 for readers of any kind, also those that give less than they are asked for (sockets, terminals, pipes).

`Reader.Gives` (Spec/Reader.lean) is the text that such a reader gives to a buffer with halves of `h` bytes: its answers up to the first one with less
than `h` bytes.  `ReaderParser` shows exactly the events of this text, whatever the reader would have given afterwards.
-/
namespace LogSurgeon

variable {s : SchemaAST} {addr : Nat → Nat} {t : ParserTables} {L : Lexer} {σ : Type}

/-- C28 and C29 for any reader (partial: the events of the text have to fit the buffer): the events are those that `BufferParser` shows for the text that the
reader gives up to its first short answer, every call takes one round, the buffer is not grown, and the parser is ready for the next reader. -/
theorem C28_any_reader_partial (hC : s.Compiled addr t L) (hv : s.vars ≠ []) {h : Nat} (hh : 2 ≤ h) {r : Reader σ} {src : σ} {w : List Nat}
    (hg : r.Gives h src w) {P : ReaderParser σ} (hI : P.Idle t L h) {pb : BufferParser} (hIb : pb.Idle t L)
    (hlen : w.length % (2 * h) = 0 → w = []) (hfit : pb.Fits h w) {j k : Nat} (hj : 0 < j) (hk : w.length < k) :
    (P.parseReader r j k src).status = none ∧ (P.parseReader r j k src).events = pb.seenOf w true ∧
    (P.parseReader r j k src).parser.lp.input.size = 2 * h ∧ (P.parseReader r j k src).parser.Idle t L h := by
  obtain ⟨h1, h2, h3, h4⟩ := parseReader_spec (P := { lp := P.lp, done := P.done, src := w }) hC hv hh textReader_full
    ⟨hI.lexer, hI.numVars, hI.static, hI.hasStart, hI.size, hI.storage, hI.fresh⟩ hIb w hlen hfit (j := 1) (by decide) hk
  obtain ⟨g1, g2, g3⟩ := anyReader (by omega) hI.size hg hj h1
  refine ⟨g1, g2.trans h2, by rw [g3]; exact h3, ?_⟩
  constructor <;> rw [g3]
  · exact h4.lexer
  · exact h4.numVars
  · exact h4.static
  · exact h4.hasStart
  · exact h4.size
  · exact h4.storage
  · exact h4.fresh

/-- The same with the condition on the lengths of lines. -/
theorem C28_any_reader_lines_partial (hC : s.Compiled addr t L) (hv : s.vars ≠ []) (hnl : s.IsDelim newline) (hres : s.NlReserved)
    (hline : s.LineTimestamps) {h : Nat} (hh : 2 ≤ h) {r : Reader σ} {src : σ} {w : List Nat} (hg : r.Gives h src w) {P : ReaderParser σ}
    (hI : P.Idle t L h) {pb : BufferParser} (hIb : pb.Idle t L) (hlen : w.length % (2 * h) = 0 → w = [])
    (hfit : pb.LinesFit h w) {j k : Nat} (hj : 0 < j) (hk : w.length < k) :
    (P.parseReader r j k src).status = none ∧ (P.parseReader r j k src).events = pb.seenOf w true :=
  have h := C28_any_reader_partial hC hv hh hg hI hIb hlen (fits_of_lines hC hv hnl hres hline hIb hfit) hj hk
  ⟨h.1, h.2.1⟩

/-- What a reader gives is determined by its answers. -/
theorem C28_given_unique {r : Reader σ} {h : Nat} {src : σ} {w w' : List Nat} (hg : r.Gives h src w) (hg' : r.Gives h src w') : w = w' := by
  induction hg generalizing w' with
  | eof he =>
    cases hg' with
    | eof => rfl
    | short he' => rw [he] at he'; cases he'
    | full he' => rw [he] at he'; cases he'
  | short he hne hlt =>
    cases hg' with
    | eof he' => rw [he] at he'; cases he'
    | short he' => rw [he] at he'; cases he'; rfl
    | full he' hl => rw [he] at he'; cases he'; omega
  | full he hl _ ih =>
    cases hg' with
    | eof he' => rw [he] at he'; cases he'
    | short he' _ hlt => rw [he] at he'; cases he'; omega
    | full he' _ hw =>
      rw [he] at he'
      cases he'
      rw [ih hw]

/-- A reader that gives as much as it is asked for gives all it has. -/
theorem C28_full_gives {r : Reader σ} {rest : σ → List Nat} (hr : r.Full rest) {h : Nat} (hh : 0 < h) (src : σ) : r.Gives h src (rest src) := by
  generalize hn : (rest src).length = n
  induction n using Nat.strongRecOn generalizing src with
  | ind n ih =>
    obtain ⟨h1, h2⟩ := hr src h hh
    by_cases h0 : rest src = []
    · rw [if_pos h0] at h2
      rw [h0]
      exact .eof h2
    · rw [if_neg h0] at h2
      have hpos : 0 < (rest src).length := List.length_pos_iff.mpr h0
      by_cases hlt : (rest src).length < h
      · rw [List.take_of_length_le (Nat.le_of_lt hlt)] at h2
        exact .short h2 h0 hlt
      · have := ih ((rest src).length - h) (by omega) (r.read src h).1 (by rw [h1, List.length_drop])
        rw [h1] at this
        have hf := Reader.Gives.full h2 (by rw [List.length_take]; omega) this
        rwa [List.take_append_drop] at hf

/-- A reader that gives at most `m` bytes at a time, less than half of the buffer: what it gives is its first answer, the rest is lost. -/
theorem C28_chunks_given {m h : Nat} (hm : 0 < m) (hmh : m < h) (w : List Nat) : (chunkReader m).Gives h w (w.take m) := by
  by_cases h0 : w = []
  · subst h0
    rw [List.take_nil]
    exact Reader.Gives.eof (r := chunkReader m) (h := h) (src := []) rfl
  · have : ((chunkReader m).read w h).2 = .bytes (w.take m) := by
      unfold chunkReader
      simp only [if_neg h0, Nat.min_eq_left (Nat.le_of_lt hmh)]
    refine .short this ?_ ?_
    · intro he
      have h1 := congrArg List.length he
      rw [List.length_take, List.length_nil] at h1
      have h2 := List.length_pos_iff.mpr h0
      omega
    · rw [List.length_take]; omega

/-- `T b⏎T c⏎T b⏎T bc`: 16 bytes. -/
def alignedText : List Nat := [84, 32, 98, 10, 84, 32, 99, 10, 84, 32, 98, 10, 84, 32, 98, 99]

set_option maxRecDepth 100000 in
/-- The condition that the length of the text is no multiple of the size of the buffer is needed: this text fits a buffer of 16 bytes, but its last word
` bc`, which is no variable, is reported as the variable `x` (whose pattern is `b`).  The end of the input is only noticed after the buffer has been grown
(ParserInputBuffer.cpp:56-59 leaves the end at 16, a position that is never reached), and then the scan is resumed in the state before the word
(Lexer.tpp:145-150). -/
theorem C28_refuted_aligned : ∃ (s : SchemaAST) (t : ParserTables) (L : Lexer) (P : ReaderParser (List Nat)) (pb : BufferParser),
    s.Compiled id t L ∧ s.vars ≠ [] ∧ P.Idle t L 8 ∧ pb.Idle t L ∧ textReader.Full id ∧ pb.Fits 8 alignedText ∧
    (pb.seenOf alignedText true).map (·.tokens) =
      [[(some [84], some [5]), (some [32, 98], some [8]), (some [10], some [1])], [(some [84], some [6]), (some [32, 99], some [1]), (some [10], some [1])],
        [(some [84], some [6]), (some [32, 98], some [8]), (some [10], some [1])], [(some [84], some [6]), (some [32, 98, 99], some [1])]] ∧
    (P.parseReader textReader 9 17 alignedText).status = none ∧
    (P.parseReader textReader 9 17 alignedText).events.map (·.tokens) =
      [[(some [84], some [5]), (some [32, 98], some [8]), (some [10], some [1])], [(some [84], some [6]), (some [32, 99], some [1]), (some [10], some [1])],
        [(some [84], some [6]), (some [32, 98], some [8]), (some [10], some [1])], [(some [84], some [6]), (some [32, 98, 99], some [8])]] := by
  obtain ⟨t, L, P, pb, h1, h2, h3, h4, h5⟩ := newReaderParser_spec evSchema_sensible 8 (by decide +kernel)
  have a : (newParser evSchema).map (fun pb => decide (pb.Fits 8 alignedText ∧ (pb.seenOf alignedText true).map (·.tokens) =
      [[(some [84], some [5]), (some [32, 98], some [8]), (some [10], some [1])], [(some [84], some [6]), (some [32, 99], some [1]), (some [10], some [1])],
        [(some [84], some [6]), (some [32, 98], some [8]), (some [10], some [1])], [(some [84], some [6]), (some [32, 98, 99], some [1])]])) = some true := by
    decide +kernel
  have b : (newReaderParser evSchema 8).map (fun P => decide ((P.parseReader textReader 9 17 alignedText).status = none ∧
    (P.parseReader textReader 9 17 alignedText).events.map (·.tokens) =
      [[(some [84], some [5]), (some [32, 98], some [8]), (some [10], some [1])], [(some [84], some [6]), (some [32, 99], some [1]), (some [10], some [1])],
        [(some [84], some [6]), (some [32, 98], some [8]), (some [10], some [1])], [(some [84], some [6]), (some [32, 98, 99], some [8])]])) = some true := by
    decide +kernel
  rw [h4] at a
  rw [h2] at b
  simp only [Option.map_some, Option.some.injEq, decide_eq_true_eq] at a b
  exact ⟨evSchema, t, L, P, pb, h1, by simp [evSchema], h3, h5, textReader_full, a.1, a.2, b.1, b.2⟩

/-! ### A concrete case -/

/-- A reader that gives its answers one after the other. -/
def scriptReader : Reader (List (List Nat)) where
  read l n := match l with
    | [] => ([], .eof)
    | c :: cs => (cs, .bytes (c.take n))

/-- `a b⏎b⏎T `, `c⏎T b⏎T⏎`, ` b⏎` and then `T c⏎`. -/
def script : List (List Nat) := [[97, 32, 98, 10, 98, 10, 84, 32], [99, 10, 84, 32, 98, 10, 84, 10], [32, 98, 10], [84, 32, 99, 10]]

set_option maxRecDepth 100000 in
/-- With halves of 8 bytes the third answer is short: its text is the end of the last event, the fourth answer is not asked for. -/
example : ∃ t L P pb, evSchema.Compiled id t L ∧ evSchema.vars ≠ [] ∧ scriptReader.Gives 8 script (script.take 3).flatten ∧
    ReaderParser.Idle (σ := List (List Nat)) P t L 8 ∧ BufferParser.Idle pb t L ∧ (script.take 3).flatten.length % (2 * 8) ≠ 0 ∧
    pb.Fits 8 (script.take 3).flatten ∧
    (P.parseReader scriptReader 1 25 script).events.map (fun x => (x.ts, x.multiline, x.text)) =
      [(false, false, some [97, 32, 98, 10]),
        (false, false, some [98, 10]),
        (true, false, some [84, 32, 99, 10]),
        (true, false, some [84, 32, 98, 10]),
        (true, true, some [84, 10, 32, 98, 10])] := by
  obtain ⟨t, L, P, pb, h1, h2, h3, h4, h5⟩ := newReaderParser_spec evSchema_sensible 8 (by decide +kernel)
  have hfit : (newParser evSchema).map (fun p => decide (p.Fits 8 (script.take 3).flatten)) = some true := by decide +kernel
  rw [h4] at hfit
  have hG : scriptReader.Gives 8 script (script.take 3).flatten := by
    refine .full (bs := [97, 32, 98, 10, 98, 10, 84, 32]) rfl rfl (.full (bs := [99, 10, 84, 32, 98, 10, 84, 10]) rfl rfl (.short rfl ?_ ?_)) <;> decide
  refine ⟨t, L, { lp := P.lp, done := P.done, src := [] }, pb, h1, by simp [evSchema], hG,
    ⟨h3.lexer, h3.numVars, h3.static, h3.hasStart, h3.size, h3.storage, h3.fresh⟩, h5, by decide, by simpa using hfit, ?_⟩
  have : (newReaderParser evSchema 8).map (fun P => (({ lp := P.lp, done := P.done, src := [] } : ReaderParser (List (List Nat))).parseReader scriptReader 1 25 script).events.map
      (fun x => (x.ts, x.multiline, x.text))) =
      some [(false, false, some [97, 32, 98, 10]),
        (false, false, some [98, 10]),
        (true, false, some [84, 32, 99, 10]),
        (true, false, some [84, 32, 98, 10]),
        (true, true, some [84, 10, 32, 98, 10])] := by decide +kernel
  rw [h2] at this
  simpa using this

end LogSurgeon
