import Verif.Props.LineVars
import Verif.Props.ReaderLines
/-
C67, C69 for `ReaderParser`: the events and variables of a log that is read through a buffer, in terms of its lines.

The reader needs: `Spec/LineEvents.lean` (`grouped`, `splitLines`, `Lexer.BeginsWithTs`), `Spec/Reader.lean` (`ReaderParser.parseReader`: the loop of
a client; `Seen`: what it sees of an event).
-/
namespace LogSurgeon

variable {s : SchemaAST} {addr : Nat → Nat} {t : ParserTables} {L : Lexer}

/-- The events of a buffer, as a client sees them, in terms of lines. -/
theorem seen_lines (hC : s.Compiled addr t L) (hv : s.vars ≠ []) (hnl : s.IsDelim newline) (hres : s.Reserved) (hline : s.LineTimestamps) :
    ∃ tsFirst tsLine : List Nat → Bool, (∀ l, tsFirst l = true ↔ L.FirstWithTs l) ∧ (∀ l, tsLine l = true ↔ L.BeginsWithTs l) ∧
      ∀ {p : BufferParser} (_ : p.Idle t L) {file : List Nat} (_ : cCharStartOfFile ∉ file),
        (p.seenOf file true).map (fun x => (x.ts, x.text)) =
          (lineEvents tsLine [] (tsFirst (firstLine file)) file).map fun x => (x.1, some x.2) := by
  classical
  refine ⟨fun l => decide (L.FirstWithTs l), fun l => decide (L.BeginsWithTs l), fun l => decide_eq_true_iff, fun l => decide_eq_true_iff, ?_⟩
  obtain ⟨q, hq, hqa, hs⟩ := seenOf_spec hC hv
  intro p hI file hfd
  have h := buildLexer_ok hC.ok
  have hx : LexedAll L file (L.toks file true (.sof q)).1 :=
    pureAll_all (h.opening hC.sensible hC.inj) (h.typesProper hC.sensible) ⟨hq, hqa⟩ (Nat.lt_succ_self _)
  rw [hs hI, List.map_map,
    ← all_lineEvents hC hnl hres hline hfd hx (f := fun l => decide (L.BeginsWithTs l)) (g := fun l => decide (L.FirstWithTs l))
      (fun l => decide_eq_true_iff) (fun l => decide_eq_true_iff), List.map_map]
  rfl

/-- C67 for `ReaderParser`: a log that begins with a timestamp is read as the groups of its lines that begin with a timestamp, whatever the
size of the buffer, if every group together with the first line of the next one is shorter than half of the buffer.  (Partial: as
`C67_grouped_partial`, and a nonempty log's length is not a multiple of the buffer size; without that: C28_refuted_*.) -/
theorem C67_reader_partial (hC : s.Compiled addr t L) (hv : s.vars ≠ []) (hnl : s.IsDelim newline) (hres : s.Reserved) (hline : s.LineTimestamps)
    {pb : BufferParser} (hIb : pb.Idle t L) :
    ∃ tsLine : List Nat → Bool, (∀ l, tsLine l = true ↔ L.BeginsWithTs l) ∧
      ∀ {h : Nat} (_ : 2 ≤ h) {σ : Type} {r : Reader σ} {rest : σ → List Nat} (_ : r.Full rest) {P : ReaderParser σ} (_ : P.Idle t L h) (src : σ)
        (_ : (rest src).length % (2 * h) = 0 → rest src = []) (_ : cCharStartOfFile ∉ rest src) (_ : L.FirstWithTs (firstLine (rest src)))
        {l : List Nat} {ls : List (List Nat)} (_ : splitLines (rest src) = l :: ls)
        (_ : ∀ i x, (grouped tsLine l ls)[i]? = some x →
          x.length + (firstLine (((grouped tsLine l ls)[i + 1]?).getD [])).length + 1 < h)
        {j k : Nat} (_ : 0 < j) (_ : (rest src).length < k),
        (P.parseReader r j k src).status = none ∧
          (P.parseReader r j k src).events.map (fun x => (x.ts, x.text)) = (grouped tsLine l ls).map fun x => (true, some x) := by
  obtain ⟨g, f, hg, hf, hs⟩ := seen_lines hC hv hnl hres hline
  refine ⟨f, hf, ?_⟩
  intro h hh σ r rest hr P hI src hlen hfd hfirst l ls hl hshort j k hj hk
  have hseen : (pb.seenOf (rest src) true).map (fun x => (x.ts, x.text)) = (grouped f l ls).map fun x => (true, some x) := by
    rw [hs hIb hfd, (hg _).mpr hfirst, lineEvents_grouped, hl]
    simp
  have hat : ∀ (i : Nat), (pb.seenOf (rest src) true)[i]?.map (fun x : Seen => (x.ts, x.text)) = (grouped f l ls)[i]?.map fun x => (true, some x) := by
    intro i
    rw [← List.getElem?_map, hseen, List.getElem?_map]
  have hfit : pb.LinesFit h (rest src) := by
    intro i x hx
    have h1 := hat i
    rw [hx] at h1
    cases hgi : (grouped f l ls)[i]? with
    | none => rw [hgi] at h1; cases h1
    | some w =>
      rw [hgi] at h1
      simp only [Option.map_some, Option.some.injEq, Prod.mk.injEq] at h1
      have h2 := hshort i w hgi
      have h3 : ((pb.seenOf (rest src) true)[i + 1]?.bind (·.text)).getD [] = ((grouped f l ls)[i + 1]?).getD [] := by
        have h4 := hat (i + 1)
        cases hn : (pb.seenOf (rest src) true)[i + 1]? with
        | none =>
          rw [hn] at h4
          cases hm : (grouped f l ls)[i + 1]? with
          | none => rfl
          | some y => rw [hm] at h4; cases h4
        | some y =>
          rw [hn] at h4
          cases hm : (grouped f l ls)[i + 1]? with
          | none => rw [hm] at h4; cases h4
          | some z =>
            rw [hm] at h4
            simp only [Option.map_some, Option.some.injEq, Prod.mk.injEq] at h4
            simp [h4.2]
      rw [h3, h1.2]
      exact ⟨h2, fun h => by rw [h1.1] at h; cases h⟩
  obtain ⟨a1, a2⟩ := C28_short_lines_partial hC hv hnl (fun v hm => ⟨(hres v hm).2.2, (hres v hm).2.1⟩) hline hh hr hI hIb src hlen hfit hj hk
  exact ⟨a1, by rw [a2, hseen]⟩

/-- C69 for the example that reads a log file through a buffer: the variables it prints are those of the pieces of the log, each parsed by itself in
one buffer.  (Partial: as `C69_append_partial`; the log's length is not a multiple of the buffer size, and its events fit.) -/
theorem C69_reader_partial (hC : s.Compiled addr t L) (hv : s.vars ≠ []) (hnl : s.IsDelim newline) (hres : s.Reserved) (hline : s.LineTimestamps)
    {var : Nat} (hvar : var ≠ tokenUncaught) {h : Nat} (hh : 2 ≤ h) {P : ReaderParser FileStream} (hI : P.Idle t L h) {p p' : BufferParser}
    (hIp : p.Idle t L) (hI' : p'.Idle t L) {file : List Nat} (hfd : cCharStartOfFile ∉ file) (hlen : file.length % (2 * h) = 0 → file = [])
    (hfit : p.LinesFit h file) {j k : Nat} (hj : 0 < j) (hk : file.length + 2 ≤ k) :
    (processLogsReader j t.getIdSymbol var k P file).1.flatMap (fun a => a.vars.map (Option.map stripNl)) =
      (newlinePieces file).flatMap fun piece =>
        ((p'.parseBuffer (file.length + 1) 0 (piece ++ [0]) piece.length true).printed (fun _ => piece ++ [0]) t.getIdSymbol var).flatMap
          fun a => a.vars.map (Option.map stripNl) := by
  rw [C51_whole_partial hC hv hh hI hIp hlen
    (fits_of_lines hC hv hnl (fun v hm => ⟨(hres v hm).2.2, (hres v hm).2.1⟩) hline hIp hfit) (pad := [0]) (by simp) 0 (Nat.lt_succ_self _)
    (m := fun _ => file ++ [0]) rfl var hj hk]
  exact C69_pieces_partial (m' := fun piece _ => piece ++ [0]) hC hv hnl hres hline hvar hIp hI' hfd (by simp) (by simp) 0 0 (Nat.lt_succ_self _)
    (Nat.lt_succ_self _) rfl (fun _ => rfl)

/-! ### The hypotheses are met -/

set_option maxRecDepth 100000 in
/-- A log that meets the hypotheses of `C67_reader_partial`, for a buffer of 16 bytes: `T⏎T`, where a timestamp is `T`.  Whichever lines begin with a
timestamp, the groups are short. -/
example : ∃ (t : ParserTables) (L : Lexer) (P : ReaderParser FileStream) (pb : BufferParser), evSchema.Compiled id t L ∧ evSchema.vars ≠ [] ∧
    evSchema.IsDelim newline ∧ evSchema.Reserved ∧ evSchema.LineTimestamps ∧ P.Idle t L 8 ∧ pb.Idle t L ∧
    L.FirstWithTs (firstLine [84, 10, 84]) ∧ splitLines [84, 10, 84] = [[84, 10], [84]] ∧
    ∀ (f : List Nat → Bool) (i : Nat) (x : List Nat), (grouped f [84, 10] [[84]])[i]? = some x →
      x.length + (firstLine (((grouped f [84, 10] [[84]])[i + 1]?).getD [])).length + 1 < 8 := by
  obtain ⟨t, L, P, pb, hC, _, hI, hp, hIb⟩ := newFileParser_spec evSchema_sensible 8 (by decide +kernel)
  obtain ⟨t', L', hc, hC'⟩ := compiled_spec evSchema_sensible (by decide +kernel)
  have he := hC.ok.symm.trans hC'.ok
  simp only [Except.ok.injEq, Prod.mk.injEq] at he
  obtain ⟨rfl, rfl⟩ := he
  have h2 : (compiled evSchema).map (fun x => ((List.range 3).map fun e => x.2.typesOn [84, 10] true 0 e)) = some [[], [5], []] := by decide +kernel
  rw [hc] at h2
  simp only [Option.map_some, Option.some.injEq, List.range, List.range.loop, List.map_cons, List.map_nil, List.cons.injEq, and_true] at h2
  obtain ⟨b0, b1, b2⟩ := h2
  have hd : L.isDelim 10 = true := ((buildLexer_ok hC.ok).delim 10).mpr (.inr ⟨[32, 10], rfl, by simp⟩)
  refine ⟨t, L, P, pb, hC, by simp [evSchema], evSchema_lines.1, evSchema_lines.2.1, evSchema_lines.2.2, hI, hIb, ?_, rfl, ?_⟩
  · refine ⟨1, ⟨⟨by decide, by decide, by show L.typesOn [84, 10] true 0 1 ≠ []; rw [b1]; decide, .inr (.inl ⟨10, rfl, hd⟩)⟩, ?_⟩,
      by show (L.typesOn [84, 10] true 0 1).head? = _; rw [b1]; rfl⟩
    rintro e ⟨e1, e2, e3, _⟩
    have e2 : e ≤ 2 := e2
    rcases Nat.lt_or_ge 1 e with h | h
    · exfalso
      obtain rfl : e = 2 := by omega
      exact e3 b2
    · exact h
  · intro f i x hx
    cases hf : f [84] with
    | false =>
      simp only [grouped, hf] at hx ⊢
      rcases i with - | i
      · cases hx; decide
      · simp at hx
    | true =>
      simp only [grouped, hf] at hx ⊢
      rcases i with - | - | i
      · cases hx; decide
      · cases hx; decide
      · simp at hx

end LogSurgeon
