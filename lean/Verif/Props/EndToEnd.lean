import Verif.Model.ParserFile
import Verif.Proofs.Division
import Verif.Props.SchemaText
import Verif.Props.Buffer
import Verif.Props.Lexing
import Verif.Props.SchemaFile
/-
C48: from the text of a schema file to the log events.

The reader needs: Spec/SchemaText.lean (`WrittenFile`: what a schema file says), Spec/EndToEnd.lean (what follows for a log text),
Spec/Events.lean (`segment`, `EventOut.Shows`) and from the model `BufferParser.ofFile` (the constructor).
-/
namespace LogSurgeon
open Grammar

variable {E : SchemaEnv} {kids : Nat} {schema : List Nat} {s : SchemaText} {addr : Nat → Nat} {mem : Mem} {inStatic outStatic : Nat}

/-- The constructor, unfolded. -/
theorem ofFile_eq {a : SchemaAST} {kids' : Nat} (h : trySchemaFile E kids (some schema) = .ok (a, kids')) {r : ParserTables × BufferParser × Nat} :
    BufferParser.ofFile E kids (some schema) addr mem inStatic outStatic = .ok r ↔
      ∃ t L, buildLexer a addr = .ok (t, L) ∧ BufferParser.new a addr mem inStatic outStatic = .ok r.2.1 ∧ r = (t, r.2.1, kids') := by
  unfold BufferParser.ofFile BufferParser.new LogParser.new
  rw [h]
  simp only
  cases hb : buildLexer a addr with
  | error e => simp
  | ok x =>
    obtain ⟨t, L⟩ := x
    obtain ⟨r1, r2, r3⟩ := r
    simp only [Except.ok.injEq, Prod.mk.injEq, true_and, and_true]
    constructor
    · rintro ⟨rfl, rfl, rfl⟩; exact ⟨t, L, ⟨rfl, rfl⟩, rfl, rfl, rfl⟩
    · rintro ⟨t', L', ⟨rfl, rfl⟩, rfl, rfl, rfl⟩; exact ⟨rfl, rfl, rfl⟩

/-- C48 (partial: short schema texts): the constructor of a parser, given the path of a schema file whose patterns are usable, returns a parser if and only if
delimiters are declared and no variable but the timestamp mentions a delimiter (or the byte 0xFD).  The conditions on the length of the text and the free
entries in the array for children are those of C43. -/
theorem C48_constructor_partial (hE : E.Ok) (ho : E.orders.Ok (schemaGrammar (E.specials.map (·.2)))) (hl : schema.length < 24000) (hb : AllBytes schema)
    (hk : Fit kids (lexemes schema)) (hw : WrittenFile 0 (lexemes schema) s)
    (hg : ∀ v ∈ s.vars, v.2.Sensible ∧ v.2.ClassesUsable) (hinj : ∀ x y, addr x = addr y → x = y) :
    ∃ n, ∀ fuel steps, n ≤ fuel → n ≤ steps →
      ((∃ r, BufferParser.ofFile { E with fuel := fuel, steps := steps } kids (some schema) addr mem inStatic outStatic = .ok r) ↔ s.Accepted) := by
  obtain ⟨a, ha⟩ := SchemaText.Builds.exists hg
  have hwf := writtenFile_wf hw
  obtain ⟨n, kids', h⟩ := schema_complete hE ho hl hb (file_delivers hl) hk hw ha
  refine ⟨n, fun fuel steps h1 h2 => ?_⟩
  have he : trySchemaFile { E with fuel := fuel, steps := steps } kids (some schema) = .ok (a, kids') := h fuel steps h1 h2
  constructor
  · rintro ⟨r, hr⟩
    obtain ⟨t, L, h3, _⟩ := (ofFile_eq he).mp hr
    exact SchemaText.accepted_of_tables ha hwf (buildLexer_ok h3).tables
  · intro hacc
    obtain ⟨t, ht⟩ := hacc.tables ha hwf
    obtain ⟨L, hL⟩ := buildLexer_total (ha.sensible hwf fun v hv => (hg v hv).1) ht hinj
    refine ⟨(t, ⟨{ lexer := L, input := InBuf.init mem inStatic 1, view := { out := OutBuf.init outStatic, numVars := t.idSymbol.length } }, false⟩, kids'),
      (ofFile_eq he).mpr ⟨t, L, hL, ?_, rfl⟩⟩
    unfold BufferParser.new LogParser.new
    rw [hL]

theorem idle_used {a : SchemaAST} {t : ParserTables} {L : Lexer} (hC : a.Compiled addr t L) (hv : a.vars ≠ []) {p q : BufferParser} (hI : p.Idle t L)
    (h : p.Used q) : q.Idle t L := by
  induction h with
  | new => exact hI
  | parsed _ h1 h2 h3 ih => exact idle_parseBuffer hC hv ih _ _ h1 h2 h3

/-- C48, from the AST on (partial: a byte behind the input, no byte 0xFD in the input): for an AST that says what a schema text says, the constructor returns a parser;
whatever complete parses it has been used for, a buffer is parsed to its end, and the events are those (`segment`) of the tokens `xs` which are, one by one, the
pieces into which the schema text divides the input, with exactly the types the schema text gives them.  The texts of the events make up the input. -/
theorem C48_ast_events_partial {a : SchemaAST} (ha : s.Builds a) (hwf : s.Wf) (hg : s.Good) (hacc : s.Accepted)
    (hnl : 10 ∈ s.delimiters) (hv : s.vars ≠ []) (hinj : ∀ x y, addr x = addr y → x = y) (hout : 3 ≤ outStatic) :
    ∃ t L p, buildLexer a addr = .ok (t, L) ∧ BufferParser.new a addr mem inStatic outStatic = .ok p ∧
      ∀ q, p.Used q → ∀ ptr content size k, size < content.length → size < k → AllBytes (content.take size) → 0xFD ∉ content.take size →
        (q.parseBuffer k ptr content size true).status = none ∧
        (∃ texts : List (List Nat), (q.parseBuffer k ptr content size true).events.map (·.text) = texts.map some ∧ texts.flatten = content.take size) ∧
        ∃ ps xs, s.Division (content.take size) ps ∧ List.Forall₂ (SchemaText.Piece.Is s t.getSymbolId (content.take size)) ps xs ∧
          List.Forall₂ (fun o e => EventOut.Shows o (content.take size) e) (q.parseBuffer k ptr content size true).events
            (segment (content.take size) none xs) := by
  have hsens := ha.sensible hwf fun v hv => (hg v hv).1
  obtain ⟨t, ht⟩ := hacc.tables ha hwf
  obtain ⟨L, hL⟩ := buildLexer_total hsens ht hinj
  obtain ⟨p, hp⟩ : ∃ p, BufferParser.new a addr mem inStatic outStatic = .ok p := by
    unfold BufferParser.new LogParser.new
    rw [hL]
    exact ⟨_, rfl⟩
  refine ⟨t, L, p, hL, hp, fun q hq ptr content size k hs hsk hbt hfd => ?_⟩
  have hC : a.Compiled addr t L := ⟨hsens, hinj, hL⟩
  have hva : a.vars ≠ [] := by
    intro e
    have := ha.2
    rw [e] at this
    cases hvs : s.vars with
    | nil => exact hv hvs
    | cons v vs => rw [hvs] at this; cases this
  have hI := idle_used hC hva (idle_new hL hp hout) hq
  have hset : SchemaText.Setting s a addr t L (content.take size) := ⟨ha, hwf, hg, buildLexer_ok hL, hinj, hbt, hfd⟩
  obtain ⟨g1, xs, g2, _, _, _, g5, _⟩ := buffer_facts hC hva hI true ptr (by omega) (fun _ => hs) hsk hsk {} (InBuf.init (fun _ => []) 0 0)
  obtain ⟨ys, f1, f2, _⟩ := C06_exact hC hva ((ha.isDelim _).mpr (.inr hnl)) {} (InBuf.init (fun _ => []) 0 0) ptr (by omega : size ≤ content.length)
    hsk hfd
  have : xs = ys := (List.map_injective_iff.mpr (Option.some_injective _)) (g2.symm.trans f1)
  subst this
  obtain ⟨ps, e1, e2⟩ := hset.division f2
  exact ⟨g1, (C01_lossless_partial hC hva hI ptr hs hsk).2, ps, xs, e1, e2, g5⟩

/-- C48 (partial: short schema texts, a byte behind the input, no byte 0xFD in the input):
from the text of a schema file to the log events.  The constructor given the path of the file returns a parser; whatever complete parses it has been
used for, a buffer is parsed to its end, and the events are those (`segment`) of the tokens `xs` which are, one by one, the pieces into
which the schema text divides the input, with exactly the types the schema text gives them.  The texts of the events make up the input. -/
theorem C48_events_partial (hE : E.Ok) (ho : E.orders.Ok (schemaGrammar (E.specials.map (·.2)))) (hl : schema.length < 24000) (hb : AllBytes schema)
    (hk : Fit kids (lexemes schema)) (hw : WrittenFile 0 (lexemes schema) s) (hg : s.Good) (hacc : s.Accepted)
    (hnl : 10 ∈ s.delimiters) (hv : s.vars ≠ []) (hinj : ∀ x y, addr x = addr y → x = y) (hout : 3 ≤ outStatic) :
    ∃ n, ∀ fuel steps, n ≤ fuel → n ≤ steps → ∃ t p kids',
      BufferParser.ofFile { E with fuel := fuel, steps := steps } kids (some schema) addr mem inStatic outStatic = .ok (t, p, kids') ∧
      ∀ q, p.Used q → ∀ ptr content size k, size < content.length → size < k → AllBytes (content.take size) → 0xFD ∉ content.take size →
        (q.parseBuffer k ptr content size true).status = none ∧
        (∃ texts : List (List Nat), (q.parseBuffer k ptr content size true).events.map (·.text) = texts.map some ∧ texts.flatten = content.take size) ∧
        ∃ ps xs, s.Division (content.take size) ps ∧ List.Forall₂ (SchemaText.Piece.Is s t.getSymbolId (content.take size)) ps xs ∧
          List.Forall₂ (fun o e => EventOut.Shows o (content.take size) e) (q.parseBuffer k ptr content size true).events
            (segment (content.take size) none xs) := by
  obtain ⟨a, ha⟩ := SchemaText.Builds.exists hg
  have hwf := writtenFile_wf hw
  obtain ⟨n, kids', h⟩ := schema_complete hE ho hl hb (file_delivers hl) hk hw ha
  obtain ⟨t, L, p, h3, h4, h5⟩ := C48_ast_events_partial (mem := mem) (inStatic := inStatic) ha hwf hg hacc hnl hv hinj hout
  refine ⟨n, fun fuel steps h1 h2 => ⟨t, p, kids', ?_, h5⟩⟩
  exact (ofFile_eq (h fuel steps h1 h2)).mpr ⟨t, L, h3, h4, rfl⟩

/-- C48 (partial as before, for schema files of any length in place of short ones; the length is no multiple of 48000, see finding 27): `try_schema_file`, step by step
on its buffer of 48000 bytes, ends with an AST, from which the constructor makes a parser with the events of `C48_events_partial`. -/
theorem C48_file_any_length_partial (hE : E.Ok) (ho : E.orders.Ok (schemaGrammar (E.specials.map (·.2)))) (hmem : (E.mem 0).length = 48000) (hnid : 0 < E.nextId)
    (hb : AllBytes schema) (hlen : schema.length % 48000 = 0 → schema = []) (hw : WrittenFile 0 (lexemes schema) s) (hg : s.Good) (hacc : s.Accepted)
    (hnl : 10 ∈ s.delimiters) (hv : s.vars ≠ []) (hinj : ∀ x y, addr x = addr y → x = y) (hout : 3 ≤ outStatic) :
    ∃ n M, (∀ fuel, n ≤ fuel → ({ E with fuel := fuel } : SchemaEnv).machine schemaFileRead = .ok M) ∧
      ∀ G : Statics, Fit G.kids (lexemes schema) → ∀ steps, 6 * (lexemes schema).length + 2 ≤ steps → ∃ a t L p,
        (M.alone steps (E.begin M (({} : FileReader).tryOpen (some schema)).1) G).1 = .done a ∧ buildLexer a addr = .ok (t, L) ∧
        BufferParser.new a addr mem inStatic outStatic = .ok p ∧
        ∀ q, p.Used q → ∀ ptr content size k, size < content.length → size < k → AllBytes (content.take size) → 0xFD ∉ content.take size →
          (q.parseBuffer k ptr content size true).status = none ∧
          (∃ texts : List (List Nat), (q.parseBuffer k ptr content size true).events.map (·.text) = texts.map some ∧ texts.flatten = content.take size) ∧
          ∃ ps xs, s.Division (content.take size) ps ∧ List.Forall₂ (SchemaText.Piece.Is s t.getSymbolId (content.take size)) ps xs ∧
            List.Forall₂ (fun o e => EventOut.Shows o (content.take size) e) (q.parseBuffer k ptr content size true).events
              (segment (content.take size) none xs) := by
  obtain ⟨n, M, hM, h⟩ := C43_file_any_length_partial hE ho hmem hnid hb hlen
  refine ⟨n, M, hM, fun G hfit steps hst => ?_⟩
  obtain ⟨a, ha⟩ := SchemaText.Builds.exists hg
  obtain ⟨t, L, p, h3, h4, h5⟩ := C48_ast_events_partial (mem := mem) (inStatic := inStatic) ha (writtenFile_wf hw) hg hacc hnl hv hinj hout
  exact ⟨a, t, L, p, ((h G hfit steps hst).2 a).mpr ⟨s, hw, ha⟩, h3, h4, h5⟩

/-- C48: when no alternative of a `|` ends in `*` or `+`, the instances are those of the usual meaning of the patterns (with `r*` read as `r+`). -/
theorem C48_textbook_partial (hwf : s.Wf) (hg : s.Good) (hacc : s.Accepted) (hno : ∀ v ∈ s.vars, v.2.NoOpenChoice) {text : List Nat} (hb : AllBytes text)
    {start : Bool} {x e : Nat} {n : String} : s.Instance text start x e n ↔ s.PlainInstance text start x e n := by
  obtain ⟨a, ha⟩ := SchemaText.Builds.exists hg
  have hpat : ∀ {n : String} {p : Pat}, (n, p) ∈ s.vars → ∃ r, p.elab = some r := fun h => (ha.var h).elim fun v hv => ⟨v.regex, hv.2.2⟩
  have hne : s.delimiters ≠ [] := by
    unfold SchemaText.delimiters
    cases h : s.delims.getLast? with
    | none => exact absurd (List.getLast?_eq_none_iff.mp h) hacc.1
    | some ds => exact (hwf.delims ds (List.mem_of_getLast? h)).1
  have hmax : ∀ d ∈ s.delimiters, d ≤ cUnicodeMax := fun d hd => by
    have := hwf.delimiters d hd
    simp only [cUnicodeMax]
    omega
  have hbs : ∀ {x e : Nat} {u : List Nat}, (∀ c ∈ u, c ∈ slice text x e) → AllBytes u := fun hu c hc => hb c (SchemaText.mem_slice_mem (hu c hc))
  have ts : ∀ {n : String} {p : Pat} {u : List Nat}, (n, p) ∈ s.vars → AllBytes u → (p.ReadAs [] u ↔ p.atLeastOne.Matches u) := by
    intro n p u h hu
    obtain ⟨r, hr⟩ := hpat h
    exact readAs_textbook hr (hg _ h).1 ((elab_open p hr (hg _ h).1).2 (hno _ h)) hu
  have vr : ∀ {n : String} {p : Pat} {u : List Nat}, (n, p) ∈ s.vars → AllBytes u →
      (p.ReadAs s.delimiters u ↔ (p.dotAs s.delimiters).atLeastOne.Matches u) := by
    intro n p u h hu
    obtain ⟨r, hr⟩ := hpat h
    exact readAs_textbook_dot hne hmax hr (hg _ h).1 ((elab_open p hr (hg _ h).1).2 (hno _ h)) hu
  constructor
  · intro h
    cases h with
    | newLine h => exact .newLine h
    | newLineTimestamp h1 h2 h3 => exact .newLineTimestamp h1 h2 ((ts h1 (hbs (x := x) (e := e) fun c hc => by rw [h2]; exact .tail _ hc)).mp h3)
    | var h1 h2 h3 h4 h5 => exact .var h1 h2 h3 h4 ((vr h1 (hbs (x := x) (e := e) fun c hc => by rw [h3]; exact .tail _ hc)).mp h5)
    | firstTimestamp h1 h2 => exact .firstTimestamp h1 ((ts h1 (hbs fun c hc => hc)).mp h2)
    | firstVar h1 h2 h3 => exact .firstVar h1 h2 ((vr h1 (hbs fun c hc => hc)).mp h3)
  · intro h
    cases h with
    | newLine h => exact .newLine h
    | newLineTimestamp h1 h2 h3 => exact .newLineTimestamp h1 h2 ((ts h1 (hbs (x := x) (e := e) fun c hc => by rw [h2]; exact .tail _ hc)).mpr h3)
    | var h1 h2 h3 h4 h5 => exact .var h1 h2 h3 h4 ((vr h1 (hbs (x := x) (e := e) fun c hc => by rw [h3]; exact .tail _ hc)).mpr h5)
    | firstTimestamp h1 h2 => exact .firstTimestamp h1 ((ts h1 (hbs fun c hc => hc)).mpr h2)
    | firstVar h1 h2 h3 => exact .firstVar h1 h2 ((vr h1 (hbs fun c hc => hc)).mpr h3)

/-- C48: the schema text divides an input in one way only. -/
theorem C48_division_unique {text : List Nat} {ps qs : List SchemaText.Piece} (h : s.Division text ps) (h' : s.Division text qs) : ps = qs := h.unique h'

/-- C48: if what could be the beginning of something contains no newline and no delimiter (or something is recognised there), the
division is the expected one. -/
theorem C48_simple {text : List Nat} {ps : List SchemaText.Piece} (hnl : 10 ∈ s.delimiters) (hc : s.StartClear text) (h : s.Division text ps) :
    s.SimpleDivision text ps := h.simple hnl hc

/-! ### A schema file and a log -/

namespace EndToEndExample

/-- `delimiters: \\n`, `timestamp:\\d \\d`, `num:\\d+` -/
def file : List Nat :=
  [100, 101, 108, 105, 109, 105, 116, 101, 114, 115, 58, 32, 92, 110, 10,
    116, 105, 109, 101, 115, 116, 97, 109, 112, 58, 92, 100, 32, 92, 100, 10,
    110, 117, 109, 58, 92, 100, 43]

def tsPat : Pat := .cat (.cat .digit (.lit 32)) .digit

def text : SchemaText := { vars := [("timestamp", tsPat), ("num", .plus .digit)], delims := [[32, 10]] }

theorem file_bytes : AllBytes file := by
  have : ∀ c ∈ file, c < 256 := by decide
  exact this

theorem file_written : WrittenFile 0 (lexemes file) text := by
  have sp : ∀ {k}, Written .literal k [32] (.lit 32) := fun {k} => .char (.plain (by simp [Plain]))
  have h1 : WrittenLine 0 (.delimiters :: chars (58 :: ([32] ++ [92, 110]))) { delims := [[32] ++ [10]] } :=
    .delims (.snoc (.one sp) (.char .newline))
  have p1 : Written .seq 25 ([92, 100] ++ [32] ++ [92, 100]) tsPat :=
    .cat (.cat (.ofChoice (.ofSingle .digit)) (.ofSingle (.ofLiteral sp))) (.ofSingle .digit)
  have h2 : WrittenLine 15 _ _ := .var (i := 0) (n := [116, 105, 109, 101, 115, 116, 97, 109, 112]) ⟨by simp, by simp [AlphaNum]⟩ p1
  have p2 : Written .seq 35 ([92, 100] ++ [43]) (.plus .digit) := .ofChoice (.ofRepeated (.plus .digit))
  have h3 : WrittenLine 31 _ _ := .var (i := 0) (n := [110, 117, 109]) ⟨by simp, by simp [AlphaNum]⟩ p2
  exact .line (.line (.first h1) (.inl rfl) h2) (.inl rfl) h3

theorem good : text.Good := by
  intro v hv
  simp only [text, List.mem_cons, List.not_mem_nil, or_false] at hv
  rcases hv with rfl | rfl
  · exact ⟨⟨⟨trivial, trivial⟩, trivial⟩, ⟨⟨trivial, trivial⟩, trivial⟩⟩
  · exact ⟨trivial, trivial⟩

theorem noOpenChoice : ∀ v ∈ text.vars, v.2.NoOpenChoice := by
  intro v hv
  simp only [text, List.mem_cons, List.not_mem_nil, or_false] at hv
  rcases hv with rfl | rfl
  · exact ⟨⟨trivial, trivial⟩, trivial⟩
  · exact trivial

theorem accepted : text.Accepted := by
  refine ⟨by simp [text], fun v hv hn d hd => ?_⟩
  simp only [text, List.mem_cons, List.not_mem_nil, or_false] at hv
  rcases hv with rfl | rfl
  · exact absurd rfl hn
  · simp only [SchemaText.delimiters, text, List.getLast?_singleton, Option.getD_some, List.mem_cons, List.not_mem_nil, or_false] at hd
    simp only [Pat.Mentions]
    omega

/-- `1 2 42`, a newline, `3 4 x`, a newline, `7` -/
def log : List Nat := [49, 32, 50, 32, 52, 50, 10, 51, 32, 52, 32, 120, 10, 55]

theorem instance_iff {w : List Nat} (hw : AllBytes w) {start : Bool} {x e : Nat} {n : String} : text.Instance w start x e n ↔ text.PlainInstance w start x e n :=
  C48_textbook_partial (writtenFile_wf file_written) good accepted noOpenChoice hw

theorem log_bytes : AllBytes log := by
  have : ∀ c ∈ log, c < 256 := by decide
  exact this

theorem log_cand : text.Cand log true 0 3 := by
  refine ⟨by decide, by decide, ⟨_, (instance_iff log_bytes).mpr (.firstTimestamp (p := tsPat) (.head _) ?_)⟩, .inr (.inl ⟨32, by decide, rfl⟩)⟩
  exact ⟨[49, 32], [50], rfl, ⟨[49], [32], rfl, ⟨49, rfl, by omega, by omega⟩, rfl⟩, 50, rfl, by omega, by omega⟩

theorem log_clear : text.StartClear log := by
  intro j hj
  have hj3 : j ≤ 3 := by
    by_contra hlt
    obtain ⟨v, n, hv, hi⟩ := hj
    rw [instance_iff (by
      intro c hc
      rcases List.mem_append.mp hc with hc | hc
      · exact log_bytes c (List.mem_of_mem_take hc)
      · exact (hv c hc).1)] at hi
    have e : ∀ w : List Nat, slice w 0 w.length = w := by intro w; simp [slice]
    have hm : log.take j = [49, 32, 50, 32] ++ (log.drop 4).take (j - 4) := by
      obtain ⟨i, rfl⟩ : ∃ i, j = i + 4 := ⟨j - 4, by omega⟩
      rfl
    generalize hw : log.take j ++ v = w at hi
    rw [hm] at hw
    generalize hb : true = start at hi
    generalize hl : w.length = len at hi
    generalize hz : 0 = z at hi
    cases hi with
    | newLine => cases hb
    | newLineTimestamp => cases hb
    | var => cases hb
    | firstTimestamp h1 h2 =>
      rw [← hl, e] at h2
      simp only [text, List.mem_cons, Prod.mk.injEq, List.not_mem_nil, or_false] at h1
      rcases h1 with ⟨_, rfl⟩ | ⟨h, _⟩
      · obtain ⟨x, y, h3, ⟨x1, x2, h4, ⟨c, h5, _⟩, h6⟩, d, h7, _⟩ := h2
        subst h6 h5 h4 h7
        rw [h3] at hw
        have := congrArg List.length hw
        simp at this
      · exact absurd h (by decide)
    | firstVar h1 h2 h3 =>
      rw [← hl, e] at h3
      simp only [text, List.mem_cons, Prod.mk.injEq, List.not_mem_nil, or_false] at h1
      rcases h1 with ⟨h, _⟩ | ⟨_, rfl⟩
      · exact absurd h h2
      · simp only [Pat.dotAs, Pat.atLeastOne, Pat.Matches] at h3
        obtain ⟨k, _, hr⟩ := h3
        have : ∀ k w, Repeat (Pat.digit.Matches) k w → ∀ c ∈ w, 48 ≤ c := by
          intro k w hr
          induction hr with
          | zero => simp
          | succ h _ ih =>
            obtain ⟨c, rfl, h1, _⟩ := h
            intro d hd
            rcases List.mem_append.mp hd with hd | hd
            · simp at hd; omega
            · exact ih d hd
        have := this k w hr 32 (by rw [← hw]; simp)
        omega
  refine ⟨?_, .inl ⟨3, log_cand⟩⟩
  have : j = 0 ∨ j = 1 ∨ j = 2 ∨ j = 3 := by omega
  rcases this with rfl | rfl | rfl | rfl <;> decide

/-- The conditions of C48 are met by this file and this log. -/
example : ∃ n, ∀ fuel steps, n ≤ fuel → n ≤ steps → ∃ t p kids',
    BufferParser.ofFile { exEnv with fuel := fuel, steps := steps } 0 (some file) id (fun _ => []) 48000 48000 = .ok (t, p, kids') ∧
    (p.parseBuffer 15 1 (log ++ [0]) 14 true).status = none := by
  obtain ⟨n, h⟩ := C48_events_partial (kids := 0) (addr := id) (mem := fun _ => []) (inStatic := 48000) (outStatic := 48000) exEnv_ok exEnv_orders
    (by decide) file_bytes (by decide) file_written good accepted (by decide) (by simp [text]) (fun _ _ h => h) (by decide)
  refine ⟨n, fun fuel steps h1 h2 => ?_⟩
  obtain ⟨t, p, kids', h3, h4⟩ := h fuel steps h1 h2
  have hb : AllBytes log := by
    have : ∀ c ∈ log, c < 256 := by decide
    exact this
  have e : (log ++ [0]).take 14 = log := rfl
  exact ⟨t, p, kids', h3, (h4 p .new 1 (log ++ [0]) 14 15 (by decide) (by decide) (by rw [e]; exact hb) (by decide)).1⟩

end EndToEndExample

end LogSurgeon
