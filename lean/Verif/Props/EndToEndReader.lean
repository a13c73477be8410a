import Verif.Props.EndToEnd
import Verif.Props.ReaderLines
import Verif.Spec.ReaderLogtype
/-
C48 for `ReaderParser`: from the text of a schema file to the events shown for a log delivered by a reader.
-/
namespace LogSurgeon
open Grammar

variable {E : SchemaEnv} {kids : Nat} {schema : List Nat} {s : SchemaText} {addr : Nat → Nat} {mem : Mem} {outStatic : Nat}

/-- No timestamp pattern mentions a newline. -/
def SchemaText.LineTimestamps (s : SchemaText) : Prop := ∀ v ∈ s.vars, v.1 = "timestamp" → ¬ v.2.Mentions true 10

/-- No variable has one of the two names the parser reserves for the newline. -/
def SchemaText.NlReserved (s : SchemaText) : Prop := ∀ v ∈ s.vars, v.1 ≠ "newLine" ∧ v.1 ≠ "newLineTimestamp"

theorem logtypesE_named {w : List Nat} {names : Nat → Option String} {xs : List PTok} (h : ∀ x ∈ xs, ∃ n, names x.kind = some n) :
    logtypesE w names xs = .ok (xs.flatMap (PTok.logtype w names)) := by
  induction xs with
  | nil => rfl
  | cons x xs ih =>
    rw [List.forall_mem_cons] at h
    have h1 : x.logtypeE w names = .ok (x.logtype w names) := by
      unfold PTok.logtypeE
      split
      · rename_i hk
        unfold PTok.logtype
        rw [if_pos hk]
      · obtain ⟨n, hn⟩ := h.1
        rw [hn]
    rw [logtypesE, h1, ih h.2]
    rfl

theorem kinds_named {a : SchemaAST} {t : ParserTables} {L : Lexer} (hC : a.Compiled addr t L) (hv : a.vars ≠ []) {p : BufferParser} (hI : p.Idle t L) {q : Nat}
    (hq : L.dfa.next 0 cCharStartOfFile = some q) (w : List Nat) :
    ∀ e ∈ segment w none (L.toks w true (.sof q)).1, ∀ x ∈ e.toks, ∃ n, t.getIdSymbol x.kind = some n := by
  obtain ⟨q', hq', _, hspec⟩ := parseBuffer_spec hC hv
  rw [hq] at hq'
  obtain rfl := Option.some.inj hq'
  have hE := (hspec hI true 1 (content := w ++ [0]) (size := w.length) (by simp) (by simp) (k := w.length + 1) (by omega)).events
  have hw : (w ++ [0]).take w.length = w := by simp
  rw [hw] at hE
  intro e he x hx
  obtain ⟨o, _, hO⟩ := forall₂_left hE.flip e he
  have hlt : x.kind < t.idSymbol.length := (hO.ev.out.good x hx).kind
  obtain ⟨ds, _, _, _, _, _, hsym, _⟩ := addRules_ok (buildLexer_ok hC.ok).tables
  apply lookup_isSome_iff.mpr
  rw [hsym.swap] at hlt ⊢
  rw [List.map_map]
  exact (hsym.ids x.kind).mp (by rw [List.length_map] at hlt; exact hlt)

/-- C48 for `ReaderParser` (partial: the conditions of `C48_events_partial` on the schema and the log, and those of C28 on the reader and the
log: `hlen`, `EventsFit`): the constructor given the path of a schema file returns a parser with buffers of `2 * h` bytes; a
log delivered by a reader is parsed to its end, and the events shown are those (`segment`) of the tokens `xs` which are, one by one, the pieces
into which the schema text divides the log, with exactly the types the schema text gives them.  A log shorter than half of the buffer always fits. -/
theorem C48_reader_partial (hE : E.Ok) (ho : E.orders.Ok (schemaGrammar (E.specials.map (·.2)))) (hl : schema.length < 24000) (hb : AllBytes schema)
    (hk : Fit kids (lexemes schema)) (hw : WrittenFile 0 (lexemes schema) s) (hg : s.Good) (hacc : s.Accepted)
    (hnl : 10 ∈ s.delimiters) (hv : s.vars ≠ []) (hres : s.NlReserved) (hline : s.LineTimestamps)
    (hinj : ∀ x y, addr x = addr y → x = y) (hout : 3 ≤ outStatic) {h : Nat} (hh : 2 ≤ h) (hm : (mem 0).length = 2 * h)
    {σ : Type} {r : Reader σ} {rest : σ → List Nat} (hr : r.Full rest) (src0 : σ) :
    ∃ n, ∀ fuel steps, n ≤ fuel → n ≤ steps → ∃ t P kids',
      ReaderParser.ofFile { E with fuel := fuel, steps := steps } kids (some schema) addr mem (2 * h) outStatic src0 = .ok (t, P, kids') ∧
      ∀ src, AllBytes (rest src) → 0xFD ∉ rest src → ((rest src).length % (2 * h) = 0 → rest src = []) →
        ∃ ps xs, s.Division (rest src) ps ∧ List.Forall₂ (SchemaText.Piece.Is s t.getSymbolId (rest src)) ps xs ∧
          ((rest src).length + 1 < h → EventsFit h (rest src) (segment (rest src) none xs)) ∧
          (EventsFit h (rest src) (segment (rest src) none xs) → ∀ j k, 0 < j → (rest src).length < k →
            (P.parseReader r j k src).status = none ∧
            List.Forall₂ (fun o e => Seen.Shows o (rest src) e) (P.parseReader r j k src).events (segment (rest src) none xs) ∧
            List.Forall₂ (fun o e => Seen.LogtypeOf t o (rest src) e) (P.parseReader r j k src).events (segment (rest src) none xs)) := by
  obtain ⟨a, ha⟩ := SchemaText.Builds.exists hg
  have hwf := writtenFile_wf hw
  have hsens := ha.sensible hwf fun v hv => (hg v hv).1
  obtain ⟨n, kids', hn⟩ := schema_complete hE ho hl hb (file_delivers hl) hk hw ha
  refine ⟨n, fun fuel steps h1 h2 => ?_⟩
  have he : trySchemaFile { E with fuel := fuel, steps := steps } kids (some schema) = .ok (a, kids') := hn fuel steps (by omega) (by omega)
  obtain ⟨t, ht⟩ := hacc.tables ha hwf
  obtain ⟨L, hL⟩ := buildLexer_total hsens ht hinj
  have hC : a.Compiled addr t L := ⟨hsens, hinj, hL⟩
  have hva : a.vars ≠ [] := by
    intro e
    have := ha.2
    rw [e] at this
    cases hvs : s.vars with
    | nil => exact hv hvs
    | cons v vs => rw [hvs] at this; cases this
  obtain ⟨P, hP⟩ : ∃ P, ReaderParser.new a addr mem (2 * h) outStatic src0 = .ok P := by
    unfold ReaderParser.new LogParser.new
    rw [hL]
    exact ⟨_, rfl⟩
  obtain ⟨pb, hpb⟩ : ∃ p, BufferParser.new a addr mem 0 outStatic = .ok p := by
    unfold BufferParser.new LogParser.new
    rw [hL]
    exact ⟨_, rfl⟩
  have hI := idle_newReader hL hP hm hout
  have hIb := idle_new hL hpb hout
  refine ⟨t, P, kids', ?_, fun src hbt hfd hlen => ?_⟩
  · unfold ReaderParser.ofFile
    rw [he]
    simp only [hL, hP]
  have hset : SchemaText.Setting s a addr t L (rest src) := ⟨ha, hwf, hg, buildLexer_ok hL, hinj, hbt, hfd⟩
  have hnl' : a.IsDelim newline := (ha.isDelim _).mpr (.inr hnl)
  obtain ⟨q, hq, hqa, hs⟩ := seenOf_spec hC hva
  have hO := buildLexer_ok hL
  have hx := pureAll_exact (hO.schemaLike hsens hinj hnl') (hO.typesProper hsens) hfd (q := q)
    (k := (rest src).length - (Cfg.sof q).cov + 1) ⟨hq, hqa⟩ (by simp only [Cfg.cov]; omega)
  obtain ⟨ps, e1, e2⟩ := hset.division hx
  have hres' : a.NlReserved := by
    intro v hv
    obtain ⟨p, h1, _⟩ := ha.pat hv
    exact hres _ h1
  refine ⟨ps, _, e1, e2, fun hlt => events_fit_short hC hres' hq hqa hlt, fun hfit j k hj hkk => ?_⟩
  have hfit' : pb.LinesFit h (rest src) := by
    unfold BufferParser.LinesFit
    simp only [hs hIb, List.length_map, seenLength_map, List.getElem?_map]
    intro i x hx
    obtain ⟨e, he, rfl⟩ := Option.map_eq_some_iff.mp hx
    obtain ⟨f1, f2⟩ := hfit i e he
    refine ⟨?_, f2⟩
    change (e.text (rest src)).length + _ + 1 < h
    unfold Lexer.toks
    cases hn : (segment (rest src) none (L.pureAll (rest src) true ((rest src).length - (Cfg.sof q).cov + 1) (.sof q)).1)[i + 1]? with
    | none => rw [hn] at f1; exact f1
    | some e' => rw [hn] at f1; exact f1
  have hline' : a.LineTimestamps := by
    intro v hv hn
    obtain ⟨p, h1, h2⟩ := ha.pat hv
    have := hline _ h1 hn
    rw [← elab_possible p h2] at this
    exact Bool.eq_false_iff.mpr this
  obtain ⟨g1, g2⟩ := C28_short_lines_partial hC hva hnl' hres' hline' hh hr hI hIb src hlen hfit' hj hkk
  refine ⟨g1, ?_⟩
  rw [g2, hs hIb]
  change List.Forall₂ _ ((segment (rest src) none (L.toks (rest src) true (.sof q)).1).map (PEvent.seen (rest src)))
      (segment (rest src) none (L.toks (rest src) true (.sof q)).1) ∧
    List.Forall₂ _ ((segment (rest src) none (L.toks (rest src) true (.sof q)).1).map (PEvent.seen (rest src)))
      (segment (rest src) none (L.toks (rest src) true (.sof q)).1)
  rw [List.forall₂_map_left_iff, List.forall₂_map_left_iff]
  have hk := kinds_named hC hva hIb hq (rest src)
  refine ⟨List.forall₂_same.mpr fun e _ => ⟨rfl, rfl, rfl, rfl, by simp [PEvent.seen], fun _ => rfl⟩,
    List.forall₂_same.mpr fun e he => ⟨hk e he, fun names hall => logtypesE_named fun x hx => ?_⟩⟩
  obtain ⟨n, hn⟩ := hk e he x (by
    split at hx
    · exact List.mem_of_mem_tail hx
    · exact hx)
  exact hall _ n hn

namespace EndToEndExample

theorem lineTimestamps : text.LineTimestamps := by
  intro v hv hn
  simp only [text, List.mem_cons, List.not_mem_nil, or_false] at hv
  rcases hv with rfl | rfl
  · simp [tsPat, Pat.Mentions]
  · exact absurd hn (by decide)

theorem nlReserved : text.NlReserved := by
  intro v hv
  simp only [text, List.mem_cons, List.not_mem_nil, or_false] at hv
  rcases hv with rfl | rfl <;> decide

/-- The conditions are met by the file and the log of Props/EndToEnd.lean, with buffers of 40 bytes. -/
example : ∃ n, ∀ fuel steps, n ≤ fuel → n ≤ steps → ∃ t P kids',
    ReaderParser.ofFile { exEnv with fuel := fuel, steps := steps } 0 (some file) id (fun _ => List.replicate 40 0) 40 48000 [] = .ok (t, P, kids') ∧
    (P.parseReader textReader 1 15 log).status = none := by
  obtain ⟨n, h⟩ := C48_reader_partial (kids := 0) (addr := id) (mem := fun _ => List.replicate 40 0) (outStatic := 48000) exEnv_ok exEnv_orders
    (by decide) file_bytes (by decide) file_written good accepted (by decide) (by simp [text]) nlReserved lineTimestamps (fun _ _ h => h) (by decide)
    (h := 20) (by decide) (by simp) textReader_full []
  refine ⟨n, fun fuel steps h1 h2 => ?_⟩
  obtain ⟨t, P, kids', h3, h4⟩ := h fuel steps h1 h2
  have hb : AllBytes log := by
    have : ∀ c ∈ log, c < 256 := by decide
    exact this
  obtain ⟨ps, xs, _, _, h5, h6⟩ := h4 log hb (by decide) (by decide)
  exact ⟨t, P, kids', h3, (h6 (h5 (by decide)) 1 15 (by decide) (by decide)).1⟩

end EndToEndExample

end LogSurgeon
