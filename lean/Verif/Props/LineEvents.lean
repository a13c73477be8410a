import Verif.Proofs.LineTs
import Verif.Props.Search
import Verif.Props.BufferClient
/-
C67: how a log is divided into events, in terms of its lines.

The reader needs: `Spec/LineEvents.lean` (`lineEvents`: the division, given which lines begin with a timestamp; `Lexer.BeginsWithTs`: which do)
and `Model/BufferClient.lean` (`Printed`: what a program prints of the events of a buffer).
-/
namespace LogSurgeon

variable {s : SchemaAST} {addr : Nat → Nat} {t : ParserTables} {L : Lexer}

/-- What is printed of the events says whether they have a timestamp, and their texts. -/
theorem printed_events (T : List Nat) (names : Nat → Option String) (var : Nat) (es : List PEvent) :
    (es.map (PEvent.printed T names var)).map (fun a => (a.timestamp.isSome, a.text)) = (es.map fun e => (e.ts, e.text T)).map fun x => (x.1, some x.2) := by
  rw [List.map_map, List.map_map]
  refine List.map_congr_left fun e _ => ?_
  simp only [Function.comp_apply, PEvent.printed, Prod.mk.injEq, and_true]
  cases e.ts <;> rfl

/-- C67: the events of a log are those of `lineEvents`: their texts, and which of them have a timestamp, are determined by its lines and by which
of the lines begin with a timestamp; whether a line does is a matter of this line alone.  (Partial: newline is a delimiter; no variable has
a reserved name; timestamps contain no newline; the byte 0xFD does not occur in the log.) -/
theorem C67_lines_partial (hC : s.Compiled addr t L) (hv : s.vars ≠ []) (hnl : s.IsDelim newline) (hres : s.Reserved) (hline : s.LineTimestamps) :
    ∃ tsFirst tsLine : List Nat → Bool, (∀ l, tsFirst l = true ↔ L.FirstWithTs l) ∧ (∀ l, tsLine l = true ↔ L.BeginsWithTs l) ∧
      ∀ {p : BufferParser} (_ : p.Idle t L) {file : List Nat} (_ : cCharStartOfFile ∉ file) {pad : List Nat} (_ : pad ≠ []) (ptr : Nat) {k : Nat}
        (_ : file.length < k) {m : Mem} (_ : m ptr = file ++ pad) (var : Nat),
        ((p.parseBuffer k ptr (file ++ pad) file.length true).printed m t.getIdSymbol var).map (fun a => (a.timestamp.isSome, a.text)) =
          (lineEvents tsLine [] (tsFirst (firstLine file)) file).map fun x => (x.1, some x.2) := by
  classical
  refine ⟨fun l => decide (L.FirstWithTs l), fun l => decide (L.BeginsWithTs l), fun l => decide_eq_true_iff, fun l => decide_eq_true_iff, ?_⟩
  obtain ⟨q, hq, hqa, hw⟩ := whole_printed hC hv
  intro p hI file hfd pad hpad ptr k hk m hm var
  have h := buildLexer_ok hC.ok
  have hx : LexedAll L file (L.toks file true (.sof q)).1 :=
    pureAll_all (h.opening hC.sensible hC.inj) (h.typesProper hC.sensible) ⟨hq, hqa⟩ (Nat.lt_succ_self _)
  rw [(hw hI ptr hpad hk hm var).1, printed_events,
    all_lineEvents hC hnl hres hline hfd hx (f := fun l => decide (L.BeginsWithTs l)) (g := fun l => decide (L.FirstWithTs l))
      (fun l => decide_eq_true_iff) (fun l => decide_eq_true_iff)]

/-- C67: a line begins with a timestamp iff, behind the newline in front of it, the longest text that the schema takes for anything is taken for
a timestamp (`SchemaAST.Takes`, Spec/Reading.lean, says what is taken for what in terms of the regexes of the schema).  The first line of a
log: the same with the start of the file in place of the newline.  (Partial: timestamps are declared before the other variables; the addresses of the
NFA states are in the order of their creation; no variable has a reserved name.) -/
theorem C67_timestamp_partial (hC : s.Compiled addr t L) (hmono : ∀ a b, a < b → addr a < addr b) (hres : s.Reserved) (hord : s.TimestampsFirst)
    {line : List Nat} (hb : ∀ c ∈ line, c < 256) : (L.BeginsWithTs line ↔ s.LongestIs newline "newLineTimestamp" line) ∧
      (L.FirstWithTs line ↔ s.LongestIs cCharStartOfFile "firstTimestamp" line) :=
  ⟨line_ts hC hmono hres hord hb, first_ts hC hmono hres hord hb⟩

/-- C67: in a log that begins with a timestamp every event has one, and the events are the groups of lines that begin with a timestamp: a line
without timestamp belongs to the event in front of it.  If the log ends with a newline there is no event for the nothing behind it.
(Partial: as `C67_lines_partial`.) -/
theorem C67_grouped_partial (hC : s.Compiled addr t L) (hv : s.vars ≠ []) (hnl : s.IsDelim newline) (hres : s.Reserved) (hline : s.LineTimestamps) :
    ∃ tsLine : List Nat → Bool, (∀ l, tsLine l = true ↔ L.BeginsWithTs l) ∧
      ∀ {p : BufferParser} (_ : p.Idle t L) {file : List Nat} (_ : cCharStartOfFile ∉ file) (_ : L.FirstWithTs (firstLine file))
        {pad : List Nat} (_ : pad ≠ []) (ptr : Nat) {k : Nat} (_ : file.length < k) {m : Mem} (_ : m ptr = file ++ pad) (var : Nat)
        {l : List Nat} {ls : List (List Nat)} (_ : splitLines file = l :: ls),
        ((p.parseBuffer k ptr (file ++ pad) file.length true).printed m t.getIdSymbol var).map (fun a => (a.timestamp.isSome, a.text)) =
          (grouped tsLine l ls).map fun x => (true, some x) := by
  obtain ⟨g, f, hg, hf, h⟩ := C67_lines_partial hC hv hnl hres hline
  refine ⟨f, hf, ?_⟩
  intro p hI file hfd hfirst pad hpad ptr k hk m hm var l ls hl
  rw [h hI hfd hpad ptr hk hm var, (hg _).mpr hfirst, lineEvents_grouped, hl]
  simp

/-- C67: without timestamps in the schema no event has one, and if no line of the log is empty every line is an event; so is the nothing behind
the last newline.  (Partial: newline is a delimiter; no variable has a reserved name; the byte 0xFD does not occur.) -/
theorem C67_plain_partial (hC : s.Compiled addr t L) (hv : s.vars ≠ []) (hnl : s.IsDelim newline) (hres : s.Reserved)
    (hno : ∀ v ∈ s.vars, v.name ≠ "timestamp") {p : BufferParser} (hI : p.Idle t L) {file : List Nat} (hfd : cCharStartOfFile ∉ file)
    (hempty : ∀ l ∈ splitLines file, l ≠ [newline]) {pad : List Nat} (hpad : pad ≠ []) (ptr : Nat) {k : Nat} (hk : file.length < k) {m : Mem}
    (hm : m ptr = file ++ pad) (var : Nat) :
    ((p.parseBuffer k ptr (file ++ pad) file.length true).printed m t.getIdSymbol var).map (fun a => (a.timestamp.isSome, a.text)) =
      (splitLines file).map fun x => (false, some x) := by
  obtain ⟨g, f, hg, hf, h⟩ := C67_lines_partial hC hv hnl hres (fun v hv h => absurd h (hno v hv))
  have hg0 : g (firstLine file) = false := by
    cases hb : g (firstLine file) with
    | false => rfl
    | true => exact absurd ((hg _).mp hb) (no_ts hC hres hno _).2
  have hf0 : f = fun _ => false := by
    funext l
    cases hb : f l with
    | false => rfl
    | true => exact absurd ((hf _).mp hb) (no_ts hC hres hno _).1
  obtain ⟨ls, hl⟩ := splitLines_cons file
  rw [hl] at hempty
  rw [h hI hfd hpad ptr hk hm var, hg0, hf0, lineEvents_plain file [] (fun _ => hempty _ (by simp)) (by rw [hl]; exact fun l h => hempty l (by simp at h; simp [h])), hl]
  simp

/-! ### The hypotheses are met, and an empty line is different -/

/-- `x:b` with space and newline as delimiters. -/
def plainSchema : SchemaAST where
  delims := [[32, 10]]
  vars := [⟨"x", .literal [] 98⟩]

theorem plainSchema_sensible : plainSchema.Sensible := by
  intro v hv
  simp only [plainSchema, List.mem_cons, List.not_mem_nil, or_false] at hv
  subst hv
  exact ⟨(by decide : '$' ∉ "x".toList), .lit 98, rfl, trivial⟩

set_option maxRecDepth 100000 in
set_option synthInstance.maxSize 2000 in
/-- C67: an empty line is no event, nor part of the event in front of it: in `a⏎⏎b⏎` the events are `a⏎`, `⏎b⏎` and nothing.  The other hypotheses of
`C67_plain_partial` are met. -/
theorem C67_empty_line_refuted : ∃ (s : SchemaAST) (t : ParserTables) (L : Lexer) (p : BufferParser) (file : List Nat), s.Compiled id t L ∧ s.vars ≠ [] ∧
    s.IsDelim newline ∧ s.Reserved ∧ (∀ v ∈ s.vars, v.name ≠ "timestamp") ∧ p.Idle t L ∧ cCharStartOfFile ∉ file ∧
    splitLines file = [[97, newline], [newline], [98, newline], []] ∧
    ((p.parseBuffer 8 1 (file ++ [0]) file.length true).printed (fun _ => file ++ [0]) t.getIdSymbol 8).map
      (fun a => (a.timestamp.isSome, a.text)) = [(false, some [97, newline]), (false, some [newline, 98, newline]), (false, some [])] := by
  obtain ⟨t, L, p, h1, h2, h3⟩ := newParser_spec plainSchema_sensible (by decide +kernel)
  have hv : ∀ v ∈ plainSchema.vars, v.name = "x" := by
    intro v hv
    simp only [plainSchema, List.mem_cons, List.not_mem_nil, or_false] at hv
    subst hv
    rfl
  refine ⟨plainSchema, t, L, p, [97, 10, 10, 98, 10], h1, by simp [plainSchema], .inr ⟨[32, 10], rfl, by decide⟩, ?_, ?_, h3, by decide, rfl, ?_⟩
  · intro v h
    rw [hv v h]
    decide
  · intro v h
    rw [hv v h]
    decide
  · have hn : t.getIdSymbol = namesOf plainSchema := by
      funext i
      unfold namesOf
      rw [h1.ok]
    rw [hn]
    have : (newParser plainSchema).map (fun p => ((p.parseBuffer 8 1 ([97, 10, 10, 98, 10] ++ [0]) 5 true).printed
        (fun _ => [97, 10, 10, 98, 10] ++ [0]) (namesOf plainSchema) 8).map (fun a => (a.timestamp.isSome, a.text))) =
        some [(false, some [97, newline]), (false, some [newline, 98, newline]), (false, some [])] := by decide +kernel
    rw [h2] at this
    exact Option.some.inj this

set_option maxRecDepth 100000 in
/-- Lines that meet the hypotheses of `C67_timestamp_partial` and `C67_grouped_partial`: `T a⏎` and `T`, where a timestamp is `T`; in the log `T⏎T a⏎` both
lines begin with a timestamp. -/
example : ∃ (t : ParserTables) (L : Lexer), evSchema.Compiled id t L ∧ evSchema.TimestampsFirst ∧ evSchema.Reserved ∧
    L.BeginsWithTs [84, 32, 97, 10] ∧ L.FirstWithTs [84, 10] ∧ evSchema.LongestIs newline "newLineTimestamp" [84, 32, 97, 10] ∧
    evSchema.LongestIs cCharStartOfFile "firstTimestamp" [84, 10] := by
  obtain ⟨t, L, hc, hC⟩ := compiled_spec evSchema_sensible (by decide +kernel)
  have h1 : (compiled evSchema).map (fun x => ((List.range 6).map fun e => x.2.typesOn [10, 84, 32, 97, 10] false 0 e)) =
      some [[], [7], [6], [], [], []] := by decide +kernel
  have h2 : (compiled evSchema).map (fun x => ((List.range 3).map fun e => x.2.typesOn [84, 10] true 0 e)) = some [[], [5], []] := by decide +kernel
  rw [hc] at h1 h2
  simp only [Option.map_some, Option.some.injEq, List.range, List.range.loop, List.map_cons, List.map_nil, List.cons.injEq, and_true] at h1 h2
  obtain ⟨a0, a1, a2, a3, a4, a5⟩ := h1
  obtain ⟨b0, b1, b2⟩ := h2
  have hd : ∀ c, c ∈ [32, 10] → L.isDelim c = true := fun c hcm => ((buildLexer_ok hC.ok).delim c).mpr (.inr ⟨[32, 10], rfl, hcm⟩)
  have hA : L.BeginsWithTs [84, 32, 97, 10] := by
    refine ⟨2, ⟨⟨by decide, by decide, by show L.typesOn [10, 84, 32, 97, 10] false 0 2 ≠ []; rw [a2]; decide, .inr (.inl ⟨32, rfl, hd 32 (by simp)⟩)⟩, ?_⟩, ?_⟩
    · rintro e ⟨e1, e2, e3, _⟩
      simp only [List.length_cons, List.length_nil] at e2
      rcases Nat.lt_or_ge 2 e with h | h
      · exfalso
        obtain rfl | rfl | rfl : e = 3 ∨ e = 4 ∨ e = 5 := by omega
        · exact e3 a3
        · exact e3 a4
        · exact e3 a5
      · exact h
    · show (L.typesOn [10, 84, 32, 97, 10] false 0 2).head? = _
      rw [a2]; rfl
  have hB : L.FirstWithTs [84, 10] := by
    refine ⟨1, ⟨⟨by decide, by decide, by rw [b1]; decide, .inr (.inl ⟨10, rfl, hd 10 (by simp)⟩)⟩, ?_⟩, by rw [b1]; rfl⟩
    rintro e ⟨e1, e2, e3, _⟩
    simp only [List.length_cons, List.length_nil] at e2
    rcases Nat.lt_or_ge 1 e with h | h
    · exfalso
      obtain rfl : e = 2 := by omega
      exact e3 b2
    · exact h
  have hord : evSchema.TimestampsFirst := ⟨[⟨"timestamp", .literal [] 84⟩], [⟨"x", .literal [] 98⟩], rfl, by simp, by simp⟩
  exact ⟨t, L, hC, hord, evSchema_lines.2.1, hA, hB,
    (C67_timestamp_partial hC (fun a b h => h) evSchema_lines.2.1 hord (by decide)).1.mp hA,
    (C67_timestamp_partial hC (fun a b h => h) evSchema_lines.2.1 hord (by decide)).2.mp hB⟩

end LogSurgeon
