import Verif.Proofs.Client
/-
C49: the documented client of `BufferParser` (examples/buffer-parser.cpp) prints the same for a log file whatever the size of the
buffer it begins with.
-/
namespace LogSurgeon
open Ctx

variable {s : SchemaAST} {addr : Nat → Nat} {t : ParserTables} {L : Lexer}

/-- What is printed for the events of a parse of the whole file in one buffer. -/
def RunOut.printed (r : RunOut) (m : Mem) (names : Nat → Option String) (var : Nat) : List Printed :=
  r.events.map fun o => o.view.print m names var

/-- The first event of the parse has a timestamp. -/
def RunOut.beginsWithTimestamp (r : RunOut) : Prop := ∃ o, r.events.head? = some o ∧ o.view.getTimestamp.isSome = true

theorem whole_printed (hC : s.Compiled addr t L) (hv : s.vars ≠ []) : ∃ q, L.dfa.next 0 cCharStartOfFile = some q ∧ L.dfa.isAccepting q = false ∧
    ∀ {p : BufferParser} (_ : p.Idle t L) (ptr : Nat) {file pad : List Nat} (_ : pad ≠ []) {k : Nat} (_ : file.length < k) {m : Mem}
      (_ : m ptr = file ++ pad) (var : Nat),
      (p.parseBuffer k ptr (file ++ pad) file.length true).printed m t.getIdSymbol var =
        (segment file none (L.toks file true (.sof q)).1).map (PEvent.printed file t.getIdSymbol var) ∧
      ((p.parseBuffer k ptr (file ++ pad) file.length true).beginsWithTimestamp →
        ∃ x xs, (L.toks file true (.sof q)).1 = x :: xs ∧ x.kind = tokenFirstTimestamp) := by
  obtain ⟨q, hq, hqa, hspec⟩ := parseBuffer_spec hC hv
  refine ⟨q, hq, hqa, ?_⟩
  intro p hI ptr file pad hpad k hk m hm var
  have hpl : 0 < pad.length := List.length_pos_iff.mpr hpad
  have hsize : file.length ≤ (file ++ pad).length := by simp
  have hslack : true = true → file.length < (file ++ pad).length := by simp; omega
  have h := (hspec hI true ptr hsize hslack hk).events
  have htake : (file ++ pad).take file.length = file := List.take_left
  constructor
  · have key : ∀ {os : List EventOut} {es : List PEvent},
        (∀ e ∈ es, e ∈ segment ((file ++ pad).take file.length) none (L.toks ((file ++ pad).take file.length) true (.sof q)).1) →
        List.Forall₂ (Ctx.EvOut ⟨L, true, ptr, file ++ pad, file.length, t.idSymbol.length⟩) os es →
        os.map (fun o => o.view.print m t.getIdSymbol var) = es.map (PEvent.printed ((file ++ pad).take file.length) t.getIdSymbol var) := by
      intro os es hes h
      induction h with
      | nil => rfl
      | cons h _ ih =>
        rw [List.map_cons, List.map_cons, ih (fun e he => hes e (by simp [he])), print_spec hC hq hqa hsize hslack (hes _ (by simp)) h.ev hm var]
    have := key (fun e he => he) h
    rw [htake] at this
    exact this
  · rintro ⟨o, ho, hts⟩
    rw [htake] at h
    cases hW : (L.toks file true (.sof q)).1 with
    | nil => have := (whole_facts hC hq hqa file).2; rw [hW] at this; exact this.elim
    | cons x xs =>
      refine ⟨x, xs, rfl, ?_⟩
      rw [hW] at h
      generalize p.parseBuffer k ptr (file ++ pad) file.length true = r at *
      obtain ⟨evs, st, off, pp⟩ := r
      simp only at h ho
      cases h2 : segment file none (x :: xs) with
      | nil => rw [h2] at h; cases h; cases ho
      | cons e es =>
        rw [h2] at h
        cases h with
        | cons h3 _ =>
          simp only [List.head?_cons, Option.some.injEq] at ho
          subst ho
          have hets : e.ts = true := by
            rw [← h3.ev.out.ts]
            unfold EventView.getTimestamp at hts
            split at hts
            · assumption
            · cases hts
          rw [segment] at h2
          split at h2
          · cases h2; cases hets
          · split at h2
            · cases h2; cases hets
            · rename_i hn6
              have h4 := segment_head xs (.start x) e (by simp [PEvent.start]) (by rw [h2]; rfl)
              have h5 : x.isTs = true := by rw [← hets]; exact h4.1.symm
              simp only [PTok.isTs, Bool.or_eq_true, beq_iff_eq] at h5
              exact h5.resolve_right hn6

theorem start_inv {p : BufferParser} (hI : p.Idle t L) {cap : Nat} (hcap : 0 < cap) (file : List Nat) :
    ClientInv t L (BufferClient.start p cap file) file ∧ (file.length < cap → (BufferClient.start p cap file).inputDone = true) := by
  let c : BufferClient := ⟨p, List.replicate cap 0, 0, 0, false, file⟩
  obtain ⟨f1, f2, f3, f4, f5, f6⟩ := fill_spec c (Nat.zero_le _)
  obtain ⟨f6, f7⟩ := f6 rfl
  have hl : c.buf.length = cap := by show (List.replicate cap 0).length = cap; simp
  refine ⟨⟨⟨c.fill.parser, rfl, by rw [f5]; exact hI⟩, f4, f2, by show 0 < c.fill.buf.length; omega, f6, fun h => (f7 h).1⟩, fun h => ?_⟩
  show c.fill.inputDone = true
  cases hd : c.fill.inputDone with
  | true => rfl
  | false =>
    have := (f7 hd).2.2
    rw [hl] at this
    have e : c.rest = file := rfl
    have e2 : c.valid = 0 := rfl
    rw [e, e2] at this
    omega

/-- C49: a file that fits in the buffer (with room for one more byte) is printed as one parse of it shows it, and the program ends. -/
theorem C49_whole (hC : s.Compiled addr t L) (hv : s.vars ≠ []) {p p2 : BufferParser} (hI : p.Idle t L) (hI2 : p2.Idle t L) (alloc : Nat → Nat)
    {cap : Nat} {file : List Nat} (hcap : file.length < cap) {pad : List Nat} (hpad : pad ≠ []) (ptr : Nat) {n : Nat} (hn : file.length < n)
    {m : Mem} (hm : m ptr = file ++ pad) (var : Nat) :
    ∃ K, ∀ k ≥ K, processLogs alloc t.getIdSymbol var k p cap file =
      ((p2.parseBuffer n ptr (file ++ pad) file.length true).printed m t.getIdSymbol var, .done) := by
  obtain ⟨q, hq, hqa, hw⟩ := whole_printed hC hv
  obtain ⟨h1, _⟩ := hw hI2 ptr hpad hn hm var
  obtain ⟨hS, hdone⟩ := start_inv hI (cap := cap) (by omega) file
  obtain ⟨j, h2, _⟩ := client_buffer hC hq hqa alloc var hS
  refine ⟨j, fun k hk => ?_⟩
  have := h2 (hdone hcap) (k - j)
  rw [Nat.sub_add_cancel hk] at this
  rw [h1]
  exact this

/-- C49: if the log begins with a timestamp, then with a buffer of any size at the beginning (and wherever the vector is allocated when
it is resized) the client prints exactly the events of a parse of the whole file, and ends: nothing is lost, repeated or cut at the
boundaries of the pieces.  (Partial: the log has to begin with a timestamp, see `C49_repeats_refuted`; newline is a delimiter; no
variable has a reserved name; timestamps contain no newline; the addresses of the NFA states are in the order of their
creation; byte 0xFD does not occur; `var` is not the id of a kind of timestamp.) -/
theorem C49_chunks_partial (hC : s.Compiled addr t L) (hv : s.vars ≠ []) (hmono : ∀ a b, a < b → addr a < addr b) (hnl : s.IsDelim newline)
    (hres : s.Reserved) (hline : s.LineTimestamps) {p p2 : BufferParser} (hI : p.Idle t L) (hI2 : p2.Idle t L) (alloc : Nat → Nat)
    {cap : Nat} (hcap : 0 < cap) {file : List Nat} (hb : ∀ c ∈ file, c < 256) (hfd : cCharStartOfFile ∉ file)
    {pad : List Nat} (hpad : pad ≠ []) (ptr : Nat) {n : Nat} (hn : file.length < n) {m : Mem} (hm : m ptr = file ++ pad) {var : Nat}
    (hv5 : var ≠ tokenFirstTimestamp) (hv6 : var ≠ tokenNewlineTimestamp)
    (hts : (p2.parseBuffer n ptr (file ++ pad) file.length true).beginsWithTimestamp) :
    ∃ K, ∀ k ≥ K, processLogs alloc t.getIdSymbol var k p cap file =
      ((p2.parseBuffer n ptr (file ++ pad) file.length true).printed m t.getIdSymbol var, .done) := by
  obtain ⟨q, hq, hqa, hw⟩ := whole_printed hC hv
  obtain ⟨h1, h2⟩ := hw hI2 ptr hpad hn hm var
  obtain ⟨hS, _⟩ := start_inv hI hcap file
  obtain ⟨j, h3⟩ := client_run hC hmono hnl hres hline hq hqa alloc hv5 hv6 _ _ _ (Nat.le_refl _) hS hb hfd (h2 hts)
  refine ⟨j, fun k hk => ?_⟩
  have := h3 (k - j)
  rw [Nat.sub_add_cancel hk] at this
  rw [h1]
  exact this

/-- C49: two clients with buffers of different sizes print the same. -/
theorem C49_sizes_partial (hC : s.Compiled addr t L) (hv : s.vars ≠ []) (hmono : ∀ a b, a < b → addr a < addr b) (hnl : s.IsDelim newline)
    (hres : s.Reserved) (hline : s.LineTimestamps) {p p' : BufferParser} (hI : p.Idle t L) (hI' : p'.Idle t L) (alloc alloc' : Nat → Nat)
    {cap cap' : Nat} (hcap : 0 < cap) (hcap' : 0 < cap') {file : List Nat} (hb : ∀ c ∈ file, c < 256) (hfd : cCharStartOfFile ∉ file)
    {var : Nat} (hv5 : var ≠ tokenFirstTimestamp) (hv6 : var ≠ tokenNewlineTimestamp)
    (hts : (p.parseBuffer (file.length + 1) 0 (file ++ [0]) file.length true).beginsWithTimestamp) :
    ∃ K, ∀ k ≥ K, ∀ k' ≥ K, processLogs alloc t.getIdSymbol var k p cap file = processLogs alloc' t.getIdSymbol var k' p' cap' file := by
  obtain ⟨K, h⟩ := C49_chunks_partial hC hv hmono hnl hres hline hI hI alloc hcap hb hfd (pad := [0]) (by simp) 0 (Nat.lt_succ_self _)
    (m := fun _ => file ++ [0]) rfl hv5 hv6 hts
  obtain ⟨K', h'⟩ := C49_chunks_partial hC hv hmono hnl hres hline hI' hI alloc' hcap' hb hfd (pad := [0]) (by simp) 0 (Nat.lt_succ_self _)
    (m := fun _ => file ++ [0]) rfl hv5 hv6 hts
  exact ⟨max K K', fun k hk k' hk' => by rw [h k (by omega), h' k' (by omega)]⟩

/-! ### The hypotheses are met, and are needed -/

theorem evSchema_lines : evSchema.IsDelim newline ∧ evSchema.Reserved ∧ evSchema.LineTimestamps := by
  refine ⟨.inr ⟨[32, 10], rfl, by decide⟩, ?_, ?_⟩
  · intro v hv
    simp only [evSchema, List.mem_cons, List.not_mem_nil, or_false] at hv
    rcases hv with rfl | rfl <;> decide
  · intro v hv _
    simp only [evSchema, List.mem_cons, List.not_mem_nil, or_false] at hv
    rcases hv with rfl | rfl <;> decide

set_option maxRecDepth 100000 in
/-- The schema with delimiters blank and newline, timestamp `T` and variable `x:b` meets the hypotheses, with the log
`T b⏎T⏎a`. -/
example : ∃ t L p, evSchema.Compiled id t L ∧ evSchema.vars ≠ [] ∧ (evSchema.IsDelim newline ∧ evSchema.Reserved ∧ evSchema.LineTimestamps) ∧
    BufferParser.Idle p t L ∧ (∀ c ∈ [84, 32, 98, 10, 84, 10, 97], c < 256) ∧
    (p.parseBuffer 8 1 ([84, 32, 98, 10, 84, 10, 97] ++ [0]) 7 true).beginsWithTimestamp := by
  obtain ⟨t, L, p, h1, h2, h3⟩ := newParser_spec evSchema_sensible (by decide +kernel)
  refine ⟨t, L, p, h1, by simp [evSchema], evSchema_lines, h3, by decide, ?_⟩
  have : (newParser evSchema).map (fun p => (p.parseBuffer 8 1 ([84, 32, 98, 10, 84, 10, 97] ++ [0]) 7 true).events.head?.map
      fun o => o.view.getTimestamp.isSome) = some (some true) := by decide +kernel
  rw [h2] at this
  simp only [Option.map_some, Option.some.injEq, Option.map_eq_some_iff] at this
  obtain ⟨o, h4, h5⟩ := this
  exact ⟨o, h4, h5⟩

set_option maxRecDepth 100000 in
/-- What the client prints for `T b⏎T⏎a` with a buffer of three bytes. -/
example : (newParser evSchema).map (fun p => (fun r => (r.1.map Printed.text, r.2))
    (processLogs (· + 1) (namesOf evSchema) 8 20 p 3 [84, 32, 98, 10, 84, 10, 97])) =
    some ([some [84, 32, 98, 10], some [84, 10, 97]], .done) := by decide +kernel

set_option maxRecDepth 100000 in
/-- C49 fails for a log without timestamps: with a buffer of 9 bytes the first event of `c⏎a b b b b⏎` is printed twice; with one
of 20 bytes once.  (When the parser runs out of bytes in an event without timestamp it reports the start of token 0, which was never
written, LogParser.cpp/BufferParser.cpp:36-42; the client begins again with the same bytes.) -/
theorem C49_repeats_refuted : ∃ (s : SchemaAST) (t : ParserTables) (L : Lexer) (p : BufferParser), s.Compiled id t L ∧ s.vars ≠ [] ∧
    (s.IsDelim newline ∧ s.Reserved ∧ s.LineTimestamps) ∧ p.Idle t L ∧
    (processLogs (· + 1) t.getIdSymbol 8 40 p 9 [99, 10, 97, 32, 98, 32, 98, 32, 98, 32, 98, 10]).1.map Printed.text =
      [some [99, 10], some [99, 10], some [97, 32, 98, 32, 98, 32, 98, 32, 98, 10], some []] ∧
    (processLogs (· + 1) t.getIdSymbol 8 40 p 20 [99, 10, 97, 32, 98, 32, 98, 32, 98, 32, 98, 10]).1.map Printed.text =
      [some [99, 10], some [97, 32, 98, 32, 98, 32, 98, 32, 98, 10], some []] := by
  obtain ⟨t, L, p, h1, h2, h3⟩ := newParser_spec evSchema_sensible (by decide +kernel)
  refine ⟨evSchema, t, L, p, h1, by simp [evSchema], evSchema_lines, h3, ?_⟩
  have hn : t.getIdSymbol = namesOf evSchema := by
    funext i
    unfold namesOf
    rw [h1.ok]
  rw [hn]
  have : (newParser evSchema).map (fun p =>
      ((processLogs (· + 1) (namesOf evSchema) 8 40 p 9 [99, 10, 97, 32, 98, 32, 98, 32, 98, 32, 98, 10]).1.map Printed.text,
      (processLogs (· + 1) (namesOf evSchema) 8 40 p 20 [99, 10, 97, 32, 98, 32, 98, 32, 98, 32, 98, 10]).1.map Printed.text)) =
      some ([some [99, 10], some [99, 10], some [97, 32, 98, 32, 98, 32, 98, 32, 98, 10], some []],
        [some [99, 10], some [97, 32, 98, 32, 98, 32, 98, 32, 98, 10], some []]) := by decide +kernel
  rw [h2] at this
  simpa using this

/-- Timestamps `S` and `T⏎U`. -/
def twoLineSchema : SchemaAST where
  delims := [[32, 10]]
  vars := [⟨"timestamp", .literal [] 83⟩, ⟨"timestamp", .cat [] (.cat [] (.literal [] 84) (.literal [] 10)) (.literal [] 85)⟩,
    ⟨"x", .literal [] 98⟩]

theorem twoLineSchema_sensible : twoLineSchema.Sensible := by
  intro v hv
  simp only [twoLineSchema, List.mem_cons, List.not_mem_nil, or_false] at hv
  rcases hv with rfl | rfl | rfl
  · exact ⟨(by decide : '$' ∉ "timestamp".toList), .lit 83, rfl, trivial⟩
  · exact ⟨(by decide : '$' ∉ "timestamp".toList), .cat (.cat (.lit 84) (.lit 10)) (.lit 85), rfl, ⟨trivial, trivial⟩, trivial⟩
  · exact ⟨(by decide : '$' ∉ "x".toList), .lit 98, rfl, trivial⟩

set_option maxRecDepth 100000 in
/-- C49 fails for a timestamp containing a newline: with a buffer of 7 bytes the second event of `S⏎T⏎U b b` is divided, since the
timestamp is not recognised at the beginning of a piece; with one of 20 bytes it is not. -/
theorem C49_twoLine_refuted : ∃ (s : SchemaAST) (t : ParserTables) (L : Lexer) (p : BufferParser), s.Compiled id t L ∧ s.vars ≠ [] ∧
    (s.IsDelim newline ∧ s.Reserved) ∧ p.Idle t L ∧
    (processLogs (· + 1) t.getIdSymbol 8 40 p 7 [83, 10, 84, 10, 85, 32, 98, 32, 98]).1.map Printed.text =
      [some [83, 10], some [84, 10], some [85, 32, 98, 32, 98]] ∧
    (processLogs (· + 1) t.getIdSymbol 8 40 p 20 [83, 10, 84, 10, 85, 32, 98, 32, 98]).1.map Printed.text =
      [some [83, 10], some [84, 10, 85, 32, 98, 32, 98]] := by
  obtain ⟨t, L, p, h1, h2, h3⟩ := newParser_spec twoLineSchema_sensible (by decide +kernel)
  refine ⟨twoLineSchema, t, L, p, h1, by simp [twoLineSchema], ⟨.inr ⟨[32, 10], rfl, by decide⟩, ?_⟩, h3, ?_⟩
  · intro v hv
    simp only [twoLineSchema, List.mem_cons, List.not_mem_nil, or_false] at hv
    rcases hv with rfl | rfl | rfl <;> decide
  have hn : t.getIdSymbol = namesOf twoLineSchema := by
    funext i
    unfold namesOf
    rw [h1.ok]
  rw [hn]
  have : (newParser twoLineSchema).map (fun p =>
      ((processLogs (· + 1) (namesOf twoLineSchema) 8 40 p 7 [83, 10, 84, 10, 85, 32, 98, 32, 98]).1.map Printed.text,
      (processLogs (· + 1) (namesOf twoLineSchema) 8 40 p 20 [83, 10, 84, 10, 85, 32, 98, 32, 98]).1.map Printed.text)) =
      some ([some [83, 10], some [84, 10], some [85, 32, 98, 32, 98]], [some [83, 10], some [84, 10, 85, 32, 98, 32, 98]]) := by decide +kernel
  rw [h2] at this
  simpa using this

end LogSurgeon
