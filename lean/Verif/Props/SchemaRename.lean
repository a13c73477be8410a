import Verif.Props.SchemaChange
import Verif.Props.SchemaChangeReader
/-
C74: other names for the variables of a schema.

The reader needs: Spec/EndToEnd.lean (`Instance`, `Division`) and Spec/SchemaChange.lean (`EventOut.Alike`, `rename`, `Renames`).
-/
namespace LogSurgeon
open Grammar

namespace SchemaText
variable {s : SchemaText} {f : String → String}

theorem rename_mem {v : String × Pat} : v ∈ (s.rename f).vars ↔ ∃ n, (n, v.2) ∈ s.vars ∧ v.1 = f n := by
  unfold rename
  simp only [List.mem_map]
  constructor
  · rintro ⟨w, h, rfl⟩; exact ⟨w.1, h, rfl⟩
  · rintro ⟨n, h, e⟩; exact ⟨(n, v.2), h, by rw [← e]⟩

theorem rename_timestamp (hf : Renames f) {p : Pat} : ("timestamp", p) ∈ (s.rename f).vars ↔ ("timestamp", p) ∈ s.vars := by
  have ht : f "timestamp" = "timestamp" := hf.2 _ (by simp)
  rw [rename_mem]
  constructor
  · rintro ⟨n, h, e⟩
    rwa [← hf.1 _ _ (ht.trans e)] at h
  · exact fun h => ⟨_, h, ht.symm⟩

theorem rename_other (hf : Renames f) {n : String} : f n ≠ "timestamp" ↔ n ≠ "timestamp" := by
  have ht : f "timestamp" = "timestamp" := hf.2 _ (by simp)
  exact not_congr ⟨fun e => hf.1 _ _ (e.trans ht.symm), fun e => by rw [e, ht]⟩

theorem Instance.rename (hf : Renames f) {w : List Nat} {start : Bool} {a e : Nat} {n : String} (h : s.Instance w start a e n) :
    (s.rename f).Instance w start a e (f n) := by
  cases h with
  | newLine h => rw [hf.2 "newLine" (by simp)]; exact .newLine h
  | newLineTimestamp h1 h2 h3 => rw [hf.2 "newLineTimestamp" (by simp)]; exact .newLineTimestamp ((rename_timestamp hf).mpr h1) h2 h3
  | var h1 h2 h3 h4 h5 => exact .var (rename_mem.mpr ⟨_, h1, rfl⟩) ((rename_other hf).mpr h2) h3 h4 h5
  | firstTimestamp h1 h2 => rw [hf.2 "firstTimestamp" (by simp)]; exact .firstTimestamp ((rename_timestamp hf).mpr h1) h2
  | firstVar h1 h2 h3 => exact .firstVar (rename_mem.mpr ⟨_, h1, rfl⟩) ((rename_other hf).mpr h2) h3

theorem Instance.renamed (hf : Renames f) {w : List Nat} {start : Bool} {a e : Nat} {m : String} (h : (s.rename f).Instance w start a e m) :
    ∃ n, m = f n ∧ s.Instance w start a e n := by
  cases h with
  | newLine h => exact ⟨_, (hf.2 "newLine" (by simp)).symm, .newLine h⟩
  | newLineTimestamp h1 h2 h3 => exact ⟨_, (hf.2 "newLineTimestamp" (by simp)).symm, .newLineTimestamp ((rename_timestamp hf).mp h1) h2 h3⟩
  | var h1 h2 h3 h4 h5 =>
    obtain ⟨n, g1, g2⟩ := rename_mem.mp h1
    exact ⟨n, g2, .var g1 ((rename_other hf).mp (g2 ▸ h2)) h3 h4 h5⟩
  | firstTimestamp h1 h2 => exact ⟨_, (hf.2 "firstTimestamp" (by simp)).symm, .firstTimestamp ((rename_timestamp hf).mp h1) h2⟩
  | firstVar h1 h2 h3 =>
    obtain ⟨n, g1, g2⟩ := rename_mem.mp h1
    exact ⟨n, g2, .firstVar g1 ((rename_other hf).mp (g2 ▸ h2)) h3⟩

theorem instance_rename (hf : Renames f) {w : List Nat} {start : Bool} {a e : Nat} {n : String} :
    (s.rename f).Instance w start a e (f n) ↔ s.Instance w start a e n :=
  ⟨fun h => by obtain ⟨m, e, h'⟩ := h.renamed hf; rwa [hf.1 _ _ e], fun h => h.rename hf⟩

theorem rename_any (hf : Renames f) {text : List Nat} : s.AgreeAny (s.rename f) text := by
  have hi : ∀ (w : List Nat) start a e, (∃ n, s.Instance w start a e n) ↔ ∃ n, (s.rename f).Instance w start a e n :=
    fun w start a e => ⟨fun ⟨n, h⟩ => ⟨_, h.rename hf⟩, fun ⟨_, h⟩ => (h.renamed hf).imp fun _ h => h.2⟩
  refine ⟨fun _ _ => Iff.rfl, fun start a e _ _ => hi _ _ _ _, ?_, ?_⟩
  · rintro j ⟨v, n, h1, h2⟩
    exact ⟨v, _, h1, h2.rename hf⟩
  · rintro j _ ⟨v, n, h1, h2⟩
    obtain ⟨m, _, h⟩ := h2.renamed hf
    exact ⟨v, m, h1, h⟩

theorem rename_any' (hf : Renames f) {text : List Nat} : (s.rename f).AgreeAny s text := by
  refine ⟨fun _ _ => Iff.rfl, fun start a e h1 h2 => ((rename_any hf).inst start a e h1 h2).symm, ?_, ?_⟩
  · rintro j ⟨v, n, h1, h2⟩
    obtain ⟨m, _, h⟩ := h2.renamed hf
    exact ⟨v, m, h1, h⟩
  · rintro j _ ⟨v, n, h1, h2⟩
    exact ⟨v, _, h1, h2.rename hf⟩

theorem Ids.rename {id : String → Option Nat} (h : Ids id) (hf : Renames f) : Ids fun n => id (f n) := by
  refine ⟨fun n m i h1 h2 => hf.1 _ _ (h.inj _ _ _ h1 h2), ?_, ?_, ?_, ?_, ?_⟩ <;> simp only [hf.2 _ (by simp : "$end" ∈ _),
    hf.2 "$UncaughtString" (by simp), hf.2 "firstTimestamp" (by simp), hf.2 "newLineTimestamp" (by simp), hf.2 "newLine" (by simp)]
  · exact h.finish
  · exact h.static
  · exact h.first
  · exact h.later
  · exact h.newLine

theorem Piece.Is.rename {id : String → Option Nat} (hf : Renames f) {w : List Nat} {q : Piece} {x : PTok} (h : q.Is (s.rename f) id w x) :
    q.Is s (fun n => id (f n)) w x := by
  obtain ⟨a, e, kind⟩ := q
  obtain ⟨h1, h2, h3⟩ := h
  refine ⟨h1, h2, ?_⟩
  cases kind with
  | static => exact h3
  | finish => exact h3
  | token start =>
    simp only at h3 ⊢
    intro i
    rw [h3 i]
    constructor
    · rintro ⟨m, g1, g2⟩
      obtain ⟨n, rfl, g⟩ := g2.renamed hf
      exact ⟨n, g1, g⟩
    · rintro ⟨n, g1, g2⟩
      exact ⟨_, g1, g2.rename hf⟩

theorem Agree.refl {text : List Nat} : s.Agree s text := ⟨fun _ _ => Iff.rfl, fun _ _ _ _ _ _ => Iff.rfl, fun _ h => h, fun _ _ h => h⟩

end SchemaText

/-! ### The logtypes with other names -/

section
variable {s : SchemaAST} {addr : Nat → Nat} {t : ParserTables} {L : Lexer}

/-- `C24_logtype` for other names than those of the tables, given to the same ids. -/
theorem logtype_names (hC : s.Compiled addr t L) (hv : s.vars ≠ []) {p : BufferParser} (hI : p.Idle t L) (fin : Bool)
    (ptr : Nat) {content : List Nat} {size : Nat} (hsize : size ≤ content.length) (hslack : fin = true → size < content.length)
    {k : Nat} (hk : size < k) {o : EventOut} (ho : o ∈ (p.parseBuffer k ptr content size fin).events) {m : Mem} (hm : m ptr = content)
    {names : Nat → Option String} (hall : ∀ i n, t.getIdSymbol i = some n → ∃ n', names i = some n') :
    ∃ e, o.Shows (content.take size) e ∧ (∀ x ∈ e.toks, ∃ n, t.getIdSymbol x.kind = some n) ∧ o.view.getLogtype m names =
      .ok ((if e.ts then e.toks.tail else e.toks).flatMap (PTok.logtype (content.take size) names)) := by
  obtain ⟨q, hq, hqa, e, he, hO⟩ := buffer_outs hC hv hI fin ptr hsize hslack hk ho
  have hX := ctx_ok hC fin ptr hsize hslack
  have hne := logtype_nonempty hC hq hqa fin (content.take size) e he
  have hnames : ∀ x ∈ e.toks, ∃ n, t.getIdSymbol x.kind = some n := by
    intro x hx
    have hlt : x.kind < t.idSymbol.length := (hO.ev.out.good x hx).kind
    obtain ⟨ds, _, _, _, _, _, hsym, _⟩ := addRules_ok (buildLexer_ok hC.ok).tables
    apply lookup_isSome_iff.mpr
    rw [hsym.swap] at hlt ⊢
    rw [List.map_map]
    have h2 := (hsym.ids x.kind).mp (by rw [List.length_map] at hlt; exact hlt)
    exact h2
  refine ⟨e, hO.shows (segment_nonempty _ none (fun e h => by cases h) e he), hnames, ?_⟩
  unfold EventView.getLogtype
  have key : ∀ (ts : List Token) (xs : List PTok), List.Forall₂ (Ctx.TokIs ⟨L, fin, ptr, content, size, t.idSymbol.length⟩) ts xs →
      (∀ x ∈ xs, x ∈ e.toks ∧ (x.kind = tokenUncaught ∨ x.a < x.e)) →
      EventView.logtypeLoop m names ts = .ok (xs.flatMap (PTok.logtype (content.take size) names)) := by
    intro ts xs h
    induction h with
    | nil => intro _; rfl
    | cons h _ ih =>
      intro hx
      rename_i tk x ts xs _
      obtain ⟨h1, h2⟩ := hx x (by simp)
      obtain ⟨n, hn⟩ := hnames x h1
      rw [EventView.logtypeLoop, logtypeToken_spec hX hm h (hO.ev.out.good x h1) h2 (hall _ n hn), ih (fun y hy => hx y (by simp [hy]))]
      rfl
  apply key
  · have htok := hO.ev.out.tokens
    unfold EventView.tokens EventView.first at htok
    rw [hO.ev.out.ts] at htok
    cases hts : e.ts with
    | false => rw [hts] at htok; simpa using htok
    | true =>
      rw [hts] at htok
      simp only [if_true] at htok ⊢
      cases hp : o.view.out.pos with
      | zero =>
        rw [hp] at htok
        generalize e.toks = xs at htok
        cases htok; exact .nil
      | succ n =>
        rw [hp, Nat.sub_zero, List.range'_succ, List.map_cons] at htok
        generalize e.toks = xs at htok
        cases htok with
        | cons _ h => exact h
  · intro x hx
    refine ⟨?_, hne x hx⟩
    split at hx
    · exact List.mem_of_mem_tail hx
    · exact hx

/-- Of two lists of views that show alike events, with the names of the second for the first, the logtypes are the same. -/
theorem alike_all_logtypes_rename {P : String → Prop} (hP : ∀ n, P n) {id id' : String → Option Nat} (hid : SchemaText.Ids id) (hid' : SchemaText.Ids id')
    {names names' : Nat → Option String} {f : String → String}
    (hn : ∀ n i, id n = some i → names i = some (f n)) (hn' : ∀ n i, id' n = some i → names' i = some (f n)) {s : List Nat}
    {g g' : EventOut → Except Fail (List Nat)} {es es' : List PEvent} (h : List.Forall₂ (PEvent.Alike P id id') es es') :
    ∀ {os os' : List EventOut}, List.Forall₂ (fun o e => EventOut.Shows o s e) os es → List.Forall₂ (fun o e => EventOut.Shows o s e) os' es' →
      (∀ o ∈ os, ∃ e, o.Shows s e ∧ (∀ x ∈ e.toks, ∃ n, id n = some x.kind) ∧
        g o = .ok ((if e.ts then e.toks.tail else e.toks).flatMap (PTok.logtype s names))) →
      (∀ o ∈ os', ∃ e, o.Shows s e ∧ g' o = .ok ((if e.ts then e.toks.tail else e.toks).flatMap (PTok.logtype s names'))) → os.map g = os'.map g' := by
  have hlist : ∀ {xs xs' : List PTok}, List.Forall₂ (PTok.Alike P id id') xs xs' → (∀ x ∈ xs, ∃ n, id n = some x.kind) →
      xs.flatMap (PTok.logtype s names) = xs'.flatMap (PTok.logtype s names') := by
    intro xs xs' h
    induction h with
    | nil => exact fun _ => rfl
    | cons h1 _ ih =>
      intro hx
      rw [List.forall_mem_cons] at hx
      rw [List.flatMap_cons, List.flatMap_cons, ih hx.2, h1.logtype_rename hP hid hid' hn hn' hx.1]
  induction h with
  | nil => intro os os' h1 h2; cases h1; cases h2; exact fun _ _ => rfl
  | @cons e e' _ _ h1 _ ih =>
    intro os os' h2 h3 h4 h5
    cases h2 with
    | cons a1 a2 =>
      cases h3 with
      | cons b1 b2 =>
        rw [List.forall_mem_cons] at h4 h5
        obtain ⟨⟨e1, g1, gk, g2⟩, g3⟩ := h4
        obtain ⟨⟨e1', g1', g2'⟩, g3'⟩ := h5
        obtain rfl := shows_unique a1 g1
        obtain rfl := shows_unique b1 g1'
        rw [List.map_cons, List.map_cons, ih a2 b2 g3 g3', g2, g2', h1.ts]
        congr 2
        cases e'.ts with
        | false => exact hlist h1.toks gk
        | true =>
          have ht : ∀ {xs xs' : List PTok}, List.Forall₂ (PTok.Alike P id id') xs xs' → List.Forall₂ (PTok.Alike P id id') xs.tail xs'.tail := by
            intro xs xs' h
            cases h with
            | nil => exact .nil
            | cons _ h => exact h
          exact hlist (ht h1.toks) fun x hx => gk x (List.mem_of_mem_tail hx)

end

section
variable {s : SchemaText} {f : String → String} {a a' : SchemaAST} {addr addr' : Nat → Nat} {mem mem' : Mem}
  {inStatic outStatic inStatic' outStatic' : Nat}

/-- C74: with other names for its variables a schema divides every text into the same pieces, -/
theorem C74_division (hf : Renames f) {text : List Nat} {ps : List SchemaText.Piece} : s.Division text ps ↔ (s.rename f).Division text ps :=
  ⟨(SchemaText.rename_any hf).division, (SchemaText.rename_any' hf).division⟩

/-- C74 (partial: as C71): and the events are alike, with the other names, and so are their logtypes. -/
theorem C74_rename_partial (ha : s.Builds a) (ha' : (s.rename f).Builds a') (hwf : s.Wf) (hwf' : (s.rename f).Wf) (hg : s.Good) (hacc : s.Accepted)
    (hnl : 10 ∈ s.delimiters) (hv : s.vars ≠ []) (hn : s.Names) (hf : Renames f)
    (hinj : ∀ x y, addr x = addr y → x = y) (hinj' : ∀ x y, addr' x = addr' y → x = y) (hout : 3 ≤ outStatic) (hout' : 3 ≤ outStatic') :
    ∃ t L p t' L' p', buildLexer a addr = .ok (t, L) ∧ BufferParser.new a addr mem inStatic outStatic = .ok p ∧
      buildLexer a' addr' = .ok (t', L') ∧ BufferParser.new a' addr' mem' inStatic' outStatic' = .ok p' ∧
      ∀ q q', p.Used q → p'.Used q' → ∀ (text : List Nat) ptr ptr' content content' size size' k k',
        content.take size = text → content'.take size' = text → size < content.length → size' < content'.length → size < k → size' < k' →
        AllBytes text → 0xFD ∉ text → s.ClearLines text →
        (q.parseBuffer k ptr content size true).status = none ∧ (q'.parseBuffer k' ptr' content' size' true).status = none ∧
        List.Forall₂ (EventOut.Alike (s.Only text) t.getSymbolId fun n => t'.getSymbolId (f n))
          (q.parseBuffer k ptr content size true).events (q'.parseBuffer k' ptr' content' size' true).events ∧
        ((∀ n, s.Only text n) → ∀ m m' : Mem, m ptr = content → m' ptr' = content' →
          ((q.parseBuffer k ptr content size true).events.map fun o => o.view.getLogtype m fun i => (t.getIdSymbol i).map f) =
            (q'.parseBuffer k' ptr' content' size' true).events.map fun o => o.view.getLogtype m' t'.getIdSymbol) := by
  have hg' : (s.rename f).Good := by
    intro v hv
    obtain ⟨n, h1, _⟩ := SchemaText.rename_mem.mp hv
    exact hg (n, v.2) h1
  have hacc' : (s.rename f).Accepted := by
    refine ⟨hacc.1, fun v hv hne d hd => ?_⟩
    obtain ⟨n, h1, h2⟩ := SchemaText.rename_mem.mp hv
    exact hacc.2 _ h1 ((SchemaText.rename_other hf).mp (h2 ▸ hne)) d hd
  have hv' : (s.rename f).vars ≠ [] := by
    unfold SchemaText.rename
    simpa using hv
  obtain ⟨t, L, p, h1, h2, h3⟩ := C48_ast_events_partial (mem := mem) (inStatic := inStatic) ha hwf hg hacc hnl hv hinj hout
  obtain ⟨t', L', p', h1', h2', h3'⟩ := C48_ast_events_partial (mem := mem') (inStatic := inStatic') ha' hwf' hg' hacc' hnl hv' hinj' hout'
  refine ⟨t, L, p, t', L', p', h1, h2, h1', h2', ?_⟩
  intro q q' hq hq' text ptr ptr' content content' size size' k k' htx htx' hs hs' hk hk' hb hfd hcl
  obtain ⟨g1, _, ps, xs, g3, g4, g5⟩ := h3 q hq ptr content size k hs hk (htx ▸ hb) (htx ▸ hfd)
  obtain ⟨g1', _, ps', xs', g3', g4', g5'⟩ := h3' q' hq' ptr' content' size' k' hs' hk' (htx' ▸ hb) (htx' ▸ hfd)
  rw [htx] at g3 g4 g5
  rw [htx'] at g3' g4' g5'
  obtain rfl := (C74_division hf |>.mp g3).unique g3'
  have hI := SchemaText.ids_of_tables h1
  have hI' := (SchemaText.ids_of_tables h1').rename hf
  have hnm : ∀ n start x e, x < e → e ≤ text.length → s.Instance text start x e n → ((∃ i, t.getSymbolId n = some i) ∧ ∃ i, t'.getSymbolId (f n) = some i) :=
    fun n start x e _ _ hi => ⟨SchemaText.instance_name ha h1 hi, SchemaText.instance_name ha' h1' (hi.rename hf)⟩
  have halike : ∀ {ps xs xs'}, (∀ q ∈ ps, SchemaText.Piece.Fine s text q) → List.Forall₂ (SchemaText.Piece.Is s t.getSymbolId text) ps xs →
      List.Forall₂ (SchemaText.Piece.Is (s.rename f) t'.getSymbolId text) ps xs' →
      List.Forall₂ (PTok.Alike (s.Only text) t.getSymbolId fun n => t'.getSymbolId (f n)) xs xs' := by
    intro ps xs xs' hfi hx hx'
    induction hx generalizing xs' with
    | nil => cases hx'; exact .nil
    | cons b1 b2 ih =>
      cases hx' with
      | cons c1 c2 =>
        rw [List.forall_mem_cons] at hfi
        exact .cons (SchemaText.Agree.refl.alike hI hI' hnm (fun n hn => hn) hfi.1 b1 (c1.rename hf)) (ih hfi.2 c2)
  have hxs := halike g3.fine g4 g4'
  have hL : Lines (s.Only text) t.getSymbolId fun n => t'.getSymbolId (f n) :=
    ⟨hI, hI', fun start x e m _ _ hi _ => (hn.none rfl hi).elim, hcl.1, hcl.2.1, hcl.2.2⟩
  have hev := (segment_alike hL text hxs).1
  refine ⟨g1, g1', alike_all_shows hev g5 g5', fun hall m m' hm hm' => ?_⟩
  have hC : a.Compiled addr t L := ⟨ha.sensible hwf fun v hv => (hg v hv).1, hinj, h1⟩
  have hC' : a'.Compiled addr' t' L' := ⟨ha'.sensible hwf' fun v hv => (hg' v hv).1, hinj', h1'⟩
  have hva : a.vars ≠ [] := fun e => hv (by have := ha.2; rw [e] at this; cases hvs : s.vars with | nil => rfl | cons v vs => rw [hvs] at this; cases this)
  have hva' : a'.vars ≠ [] := fun e =>
    hv' (by have := ha'.2; rw [e] at this; cases hvs : (s.rename f).vars with | nil => rfl | cons v vs => rw [hvs] at this; cases this)
  have hid := idle_used hC hva (idle_new h1 h2 hout) hq
  have hid' := idle_used hC' hva' (idle_new h1' h2' hout') hq'
  refine alike_all_logtypes_rename (names := fun i => (t.getIdSymbol i).map f) (names' := t'.getIdSymbol) (f := f) hall hI hI' (fun n i h => ?_)
    (fun n i h => ((C16_bijection h1').1 _ _).mp h) hev g5 g5' (fun o ho => ?_) fun o ho => ?_
  · rw [((C16_bijection h1).1 _ _).mp h]; rfl
  · obtain ⟨e, b1, b2, b3⟩ := logtype_names hC hva hid true ptr (Nat.le_of_lt hs) (fun _ => hs) hk ho hm (names := fun i => (t.getIdSymbol i).map f)
      fun i n h => ⟨f n, by rw [h]; rfl⟩
    rw [htx] at b1 b3
    exact ⟨e, b1, fun x hx => (b2 x hx).imp fun n h => ((C16_bijection h1).1 _ _).mpr h, b3⟩
  · obtain ⟨e, b1, b2⟩ := C24_logtype hC' hva' hid' true ptr' (Nat.le_of_lt hs') (fun _ => hs') hk' ho hm'
    rw [htx'] at b1 b2
    exact ⟨e, b1, b2⟩

/-- C74, from the texts of the schema files on (partial: as `C74_rename_partial`, and the files are below 24000 bytes). -/
theorem C74_files_partial {E E' : SchemaEnv} {kids kids' : Nat} {schema schema' : List Nat}
    (hE : E.Ok) (ho : E.orders.Ok (schemaGrammar (E.specials.map (·.2)))) (hl : schema.length < 24000) (hb : AllBytes schema)
    (hk : Fit kids (lexemes schema)) (hw : WrittenFile 0 (lexemes schema) s)
    (hE' : E'.Ok) (ho' : E'.orders.Ok (schemaGrammar (E'.specials.map (·.2)))) (hl' : schema'.length < 24000) (hb' : AllBytes schema')
    (hk' : Fit kids' (lexemes schema')) (hw' : WrittenFile 0 (lexemes schema') (s.rename f))
    (hg : s.Good) (hacc : s.Accepted) (hnl : 10 ∈ s.delimiters) (hv : s.vars ≠ []) (hn : s.Names) (hf : Renames f)
    (hinj : ∀ x y, addr x = addr y → x = y) (hinj' : ∀ x y, addr' x = addr' y → x = y) (hout : 3 ≤ outStatic) (hout' : 3 ≤ outStatic') :
    ∃ n t p k t' p' k', (∀ fuel steps, n ≤ fuel → n ≤ steps →
        BufferParser.ofFile { E with fuel := fuel, steps := steps } kids (some schema) addr mem inStatic outStatic = .ok (t, p, k) ∧
        BufferParser.ofFile { E' with fuel := fuel, steps := steps } kids' (some schema') addr' mem' inStatic' outStatic' = .ok (t', p', k')) ∧
      ∀ q q', p.Used q → p'.Used q' → ∀ (text : List Nat) ptr ptr' content content' size size' k k',
        content.take size = text → content'.take size' = text → size < content.length → size' < content'.length → size < k → size' < k' →
        AllBytes text → 0xFD ∉ text → s.ClearLines text →
        (q.parseBuffer k ptr content size true).status = none ∧ (q'.parseBuffer k' ptr' content' size' true).status = none ∧
        List.Forall₂ (EventOut.Alike (s.Only text) t.getSymbolId fun n => t'.getSymbolId (f n))
          (q.parseBuffer k ptr content size true).events (q'.parseBuffer k' ptr' content' size' true).events ∧
        ((∀ n, s.Only text n) → ∀ m m' : Mem, m ptr = content → m' ptr' = content' →
          ((q.parseBuffer k ptr content size true).events.map fun o => o.view.getLogtype m fun i => (t.getIdSymbol i).map f) =
            (q'.parseBuffer k' ptr' content' size' true).events.map fun o => o.view.getLogtype m' t'.getIdSymbol) := by
  have hg' : (s.rename f).Good := by
    intro v hv
    obtain ⟨n, h1, _⟩ := SchemaText.rename_mem.mp hv
    exact hg (n, v.2) h1
  obtain ⟨a, ha⟩ := SchemaText.Builds.exists hg
  obtain ⟨a', ha'⟩ := SchemaText.Builds.exists hg'
  obtain ⟨t, L, p, t', L', p', h1, h2, h3, h4, h5⟩ := C74_rename_partial (mem := mem) (mem' := mem') (inStatic := inStatic) (inStatic' := inStatic') ha ha'
    (writtenFile_wf hw) (writtenFile_wf hw') hg hacc hnl hv hn hf hinj hinj' hout hout'
  obtain ⟨n, k, g⟩ := ofFile_of_builds hE ho hl hb hk hw ha h1 h2
  obtain ⟨n', k', g'⟩ := ofFile_of_builds hE' ho' hl' hb' hk' hw' ha' h3 h4
  exact ⟨max n n', t, p, k, t', p', k', fun fuel steps f1 f2 => ⟨g fuel steps (by omega) (by omega), g' fuel steps (by omega) (by omega)⟩, h5⟩

end

section
variable {E E' : SchemaEnv} {kids kids' : Nat} {schema schema' : List Nat} {s : SchemaText} {f : String → String} {addr addr' : Nat → Nat} {mem mem' : Mem}
  {outStatic outStatic' h h' : Nat} {σ σ' : Type} {r : Reader σ} {r' : Reader σ'} {rest : σ → List Nat} {rest' : σ' → List Nat}

/-- C74 for `ReaderParser`, from the texts of the schema files on (partial: as `C74_rename_partial` and `C48_reader_partial`). -/
theorem C74_reader_partial (hE : E.Ok) (ho : E.orders.Ok (schemaGrammar (E.specials.map (·.2)))) (hl : schema.length < 24000) (hb : AllBytes schema)
    (hk : Fit kids (lexemes schema)) (hw : WrittenFile 0 (lexemes schema) s) (hg : s.Good) (hacc : s.Accepted)
    (hnl : 10 ∈ s.delimiters) (hv : s.vars ≠ []) (hn : s.Names) (hline : s.LineTimestamps)
    (hinj : ∀ x y, addr x = addr y → x = y) (hout : 3 ≤ outStatic) (hh : 2 ≤ h) (hm : (mem 0).length = 2 * h) (hr : r.Full rest)
    (hE' : E'.Ok) (ho' : E'.orders.Ok (schemaGrammar (E'.specials.map (·.2)))) (hl' : schema'.length < 24000) (hb' : AllBytes schema')
    (hk' : Fit kids' (lexemes schema')) (hw' : WrittenFile 0 (lexemes schema') (s.rename f))
    (hinj' : ∀ x y, addr' x = addr' y → x = y) (hout' : 3 ≤ outStatic') (hh' : 2 ≤ h') (hm' : (mem' 0).length = 2 * h') (hr' : r'.Full rest')
    (hf : Renames f)
    (src0 : σ) (src0' : σ') :
    ∃ n, ∀ fuel steps, n ≤ fuel → n ≤ steps → ∃ t P k t' P' k',
      ReaderParser.ofFile { E with fuel := fuel, steps := steps } kids (some schema) addr mem (2 * h) outStatic src0 = .ok (t, P, k) ∧
      ReaderParser.ofFile { E' with fuel := fuel, steps := steps } kids' (some schema') addr' mem' (2 * h') outStatic' src0' = .ok (t', P', k') ∧
      SameSeen s t.getSymbolId (fun n => t'.getSymbolId (f n)) (fun i => (t.getIdSymbol i).map f) t'.getIdSymbol h h' P P' r r' rest rest' fun _ => True := by
  have hg' : (s.rename f).Good := by
    intro v hv
    obtain ⟨n, h1, _⟩ := SchemaText.rename_mem.mp hv
    exact hg (n, v.2) h1
  have hacc' : (s.rename f).Accepted := by
    refine ⟨hacc.1, fun v hv hne d hd => ?_⟩
    obtain ⟨n, h1, h2⟩ := SchemaText.rename_mem.mp hv
    exact hacc.2 _ h1 ((SchemaText.rename_other hf).mp (h2 ▸ hne)) d hd
  have hv' : (s.rename f).vars ≠ [] := by
    unfold SchemaText.rename
    simpa using hv
  have hn' : (s.rename f).NlReserved := by
    intro v hv
    obtain ⟨n, h1, h2⟩ := SchemaText.rename_mem.mp hv
    rw [h2]
    refine ⟨fun e => (hn.reserved _ h1).1 (hf.1 _ _ (e.trans (hf.2 "newLine" (by simp)).symm)),
      fun e => (hn.reserved _ h1).2 (hf.1 _ _ (e.trans (hf.2 "newLineTimestamp" (by simp)).symm))⟩
  have hline' : (s.rename f).LineTimestamps := by
    intro v hv he
    obtain ⟨n, h1, h2⟩ := SchemaText.rename_mem.mp hv
    exact hline (n, v.2) h1 (hf.1 _ _ ((h2.symm.trans he).trans (hf.2 "timestamp" (by simp)).symm))
  obtain ⟨a, ha⟩ := SchemaText.Builds.exists hg
  obtain ⟨a', ha'⟩ := SchemaText.Builds.exists hg'
  obtain ⟨n1, k1, c1⟩ := schema_complete hE ho hl hb (file_delivers hl) hk hw ha
  obtain ⟨n1', k1', c1'⟩ := schema_complete hE' ho' hl' hb' (file_delivers hl') hk' hw' ha'
  obtain ⟨n2, d⟩ := C48_reader_partial (mem := mem) hE ho hl hb hk hw hg hacc hnl hv hn.reserved hline hinj hout hh hm hr src0
  obtain ⟨n2', d'⟩ := C48_reader_partial (mem := mem') hE' ho' hl' hb' hk' hw' hg' hacc' hnl hv' hn' hline' hinj' hout' hh' hm' hr' src0'
  refine ⟨max (max n1 n1') (max n2 n2'), fun fuel steps f1 f2 => ?_⟩
  obtain ⟨t, P, k, e1, e2⟩ := d fuel steps (by omega) (by omega)
  obtain ⟨t', P', k', e1', e2'⟩ := d' fuel steps (by omega) (by omega)
  have b1 : trySchemaFile { E with fuel := fuel, steps := steps } kids (some schema) = .ok (a, k1) := c1 fuel steps (by omega) (by omega)
  have b1' : trySchemaFile { E' with fuel := fuel, steps := steps } kids' (some schema') = .ok (a', k1') := c1' fuel steps (by omega) (by omega)
  obtain ⟨L, h1⟩ := ofFile_built b1 e1
  obtain ⟨L', h1'⟩ := ofFile_built b1' e1'
  refine ⟨t, P, k, t', P', k', e1, e1', ?_⟩
  intro src src' w hw1 hw2 hbw hfd hz hz' hcl _
  obtain ⟨ps, xs, g1, g2, g3, g4⟩ := e2 src (hw1 ▸ hbw) (hw1 ▸ hfd) (hw1 ▸ hz)
  obtain ⟨ps', xs', g1', g2', g3', g4'⟩ := e2' src' (hw2 ▸ hbw) (hw2 ▸ hfd) (hw2 ▸ hz')
  rw [hw1] at g1 g2 g3 g4
  rw [hw2] at g1' g2' g3' g4'
  obtain rfl := ((C74_division hf).mp g1).unique g1'
  have hI := SchemaText.ids_of_tables h1
  have hI' := (SchemaText.ids_of_tables h1').rename hf
  have hnm : ∀ n start x e, x < e → e ≤ w.length → s.Instance w start x e n → ((∃ i, t.getSymbolId n = some i) ∧ ∃ i, t'.getSymbolId (f n) = some i) :=
    fun n start x e _ _ hi => ⟨SchemaText.instance_name ha h1 hi, SchemaText.instance_name ha' h1' (hi.rename hf)⟩
  have halike : ∀ {ps xs xs'}, (∀ q ∈ ps, SchemaText.Piece.Fine s w q) → List.Forall₂ (SchemaText.Piece.Is s t.getSymbolId w) ps xs →
      List.Forall₂ (SchemaText.Piece.Is (s.rename f) t'.getSymbolId w) ps xs' →
      List.Forall₂ (PTok.Alike (s.Only w) t.getSymbolId fun n => t'.getSymbolId (f n)) xs xs' := by
    intro ps xs xs' hfi hx hx'
    induction hx generalizing xs' with
    | nil => cases hx'; exact .nil
    | cons b1 b2 ih =>
      cases hx' with
      | cons c1 c2 =>
        rw [List.forall_mem_cons] at hfi
        exact .cons (SchemaText.Agree.refl.alike hI hI' hnm (fun n hn => hn) hfi.1 b1 (c1.rename hf)) (ih hfi.2 c2)
  have hxs := halike g1.fine g2 g2'
  have hL : Lines (s.Only w) t.getSymbolId fun n => t'.getSymbolId (f n) :=
    ⟨hI, hI', fun start x e m _ _ hi _ => (hn.none rfl hi).elim, hcl.1, hcl.2.1, hcl.2.2⟩
  have hev := (segment_alike hL w hxs).1
  refine ⟨ps, xs, g1, g2, g3, fun hlt => (alike_fit hev).mpr (g3' hlt), fun hft hft' j j' k k' hj hj' hk hk' => ?_⟩
  obtain ⟨i1, i2⟩ := g4 hft j k hj hk
  obtain ⟨i1', i2'⟩ := g4' ((alike_fit hev).mp hft') j' k' hj' hk'
  refine ⟨i1, i1', seen_all hev i2.1 i2'.1, fun hall => seen_all_logtypes hall hI hI' (f := f) (fun n i h => ((C16_bijection h1).1 _ _).mpr h) (fun n i h => ?_)
    (fun n i h => ((C16_bijection h1').1 _ _).mp h) (fun i n h => ⟨f n, by rw [h]; rfl⟩) (fun i n h => ⟨n, h⟩) hev i2.2 i2'.2⟩
  rw [((C16_bijection h1).1 _ _).mp h]; rfl

end

namespace SchemaChangeExample
open EndToEndExample

/-- `num` and `count` are exchanged. -/
def swapNames (n : String) : String := if n = "num" then "count" else if n = "count" then "num" else n

theorem swapNames_renames : Renames swapNames := by
  refine ⟨fun n m h => ?_, by decide⟩
  unfold swapNames at h
  split_ifs at h with h1 h2 h3 h4 h5 h6 h7 <;> simp_all

/-- C74 applies: the schema with `count:\\d+` instead of `num:\\d+`. -/
example : ∃ a a' t L p t' L' p', text.Builds a ∧ (text.rename swapNames).Builds a' ∧ buildLexer a id = .ok (t, L) ∧
    BufferParser.new a id (fun _ => []) 48000 48000 = .ok p ∧ buildLexer a' id = .ok (t', L') ∧ BufferParser.new a' id (fun _ => []) 48000 48000 = .ok p' ∧
    List.Forall₂ (EventOut.Alike (fun _ => True) t.getSymbolId fun n => t'.getSymbolId (swapNames n)) (p.parseBuffer 15 1 (log ++ [0]) 14 true).events
      (p'.parseBuffer 15 1 (log ++ [0]) 14 true).events := by
  have hvars : ∀ v ∈ (text.rename swapNames).vars, v = ("timestamp", tsPat) ∨ v = ("count", .plus .digit) := by
    intro v hv
    have : (text.rename swapNames).vars = [("timestamp", tsPat), ("count", .plus .digit)] := by
      simp [SchemaText.rename, text, swapNames]
    rw [this] at hv
    simpa only [List.mem_cons, List.not_mem_nil, or_false] using hv
  have hwf0 := writtenFile_wf file_written
  have hwf : (text.rename swapNames).Wf := by
    refine ⟨hwf0.delims, fun v hv => ?_, fun v hv => ?_⟩
    · rcases hvars v hv with rfl | rfl
      · exact hwf0.names _ (.head _)
      · exact ⟨[99, 111, 117, 110, 116], ⟨by simp, by simp [AlphaNum]⟩, by decide⟩
    · rcases hvars v hv with rfl | rfl
      · exact hwf0.pats _ (.head _)
      · exact hwf0.pats ("num", .plus .digit) (.tail _ (.head _))
  have hg : (text.rename swapNames).Good := by
    intro v hv
    rcases hvars v hv with rfl | rfl
    · exact good _ (.head _)
    · exact good ("num", .plus .digit) (.tail _ (.head _))
  obtain ⟨a, ha⟩ := SchemaText.Builds.exists good
  obtain ⟨a', ha'⟩ := SchemaText.Builds.exists hg
  obtain ⟨t, L, p, t', L', p', h1, h2, h3, h4, h5⟩ := C74_rename_partial (addr := id) (addr' := id) (mem := fun _ => []) (mem' := fun _ => [])
    (inStatic := 48000) (inStatic' := 48000) (outStatic := 48000) (outStatic' := 48000) ha ha' hwf0 hwf good accepted (by decide) (by simp [text]) names
    swapNames_renames (fun _ _ h => h) (fun _ _ h => h) (by decide) (by decide)
  have e : (log ++ [0]).take 14 = log := rfl
  obtain ⟨_, _, g3, _⟩ := h5 p p' .new .new log 1 1 (log ++ [0]) (log ++ [0]) 14 14 15 15 e e (by decide) (by decide) (by decide) (by decide) log_bytes
    (by decide) clear
  have : text.Only log = fun _ => True := funext fun n => propext ⟨fun _ => trivial, fun _ => only n⟩
  rw [this] at g3
  exact ⟨a, a', t, L, p, t', L', p', ha, ha', h1, h2, h3, h4, g3⟩

/-- The file with `count:\\d+`. -/
def countFile : List Nat :=
  [100, 101, 108, 105, 109, 105, 116, 101, 114, 115, 58, 32, 92, 110, 10,
    116, 105, 109, 101, 115, 116, 97, 109, 112, 58, 92, 100, 32, 92, 100, 10,
    99, 111, 117, 110, 116, 58, 92, 100, 43]

theorem countFile_written : WrittenFile 0 (lexemes countFile) (text.rename swapNames) := by
  have e : text.rename swapNames = { vars := [("timestamp", tsPat), ("count", .plus .digit)], delims := [[32, 10]] } := by
    simp [SchemaText.rename, text, swapNames]
  rw [e]
  have sp : ∀ {k}, Written .literal k [32] (.lit 32) := fun {k} => .char (.plain (by simp [Plain]))
  have h1 : WrittenLine 0 (.delimiters :: chars (58 :: ([32] ++ [92, 110]))) { delims := [[32] ++ [10]] } :=
    .delims (.snoc (.one sp) (.char .newline))
  have p2 : Written .seq 25 ([92, 100] ++ [32] ++ [92, 100]) tsPat :=
    .cat (.cat (.ofChoice (.ofSingle .digit)) (.ofSingle (.ofLiteral sp))) (.ofSingle .digit)
  have h2 : WrittenLine 15 _ _ := .var (i := 0) (n := [116, 105, 109, 101, 115, 116, 97, 109, 112]) ⟨by simp, by simp [AlphaNum]⟩ p2
  have p3 : Written .seq 37 ([92, 100] ++ [43]) (.plus .digit) := .ofChoice (.ofRepeated (.plus .digit))
  have h3 : WrittenLine 31 _ _ := .var (i := 0) (n := [99, 111, 117, 110, 116]) ⟨by simp, by simp [AlphaNum]⟩ p3
  exact .line (.line (.first h1) (.inl rfl) h2) (.inl rfl) h3

/-- C74 applies to the two files. -/
example : ∃ n t p k t' p' k', (∀ fuel steps, n ≤ fuel → n ≤ steps →
      BufferParser.ofFile { exEnv with fuel := fuel, steps := steps } 0 (some file) id (fun _ => []) 48000 48000 = .ok (t, p, k) ∧
      BufferParser.ofFile { exEnv with fuel := fuel, steps := steps } 0 (some countFile) id (fun _ => []) 48000 48000 = .ok (t', p', k')) ∧
    List.Forall₂ (EventOut.Alike (fun _ => True) t.getSymbolId fun n => t'.getSymbolId (swapNames n)) (p.parseBuffer 15 1 (log ++ [0]) 14 true).events
      (p'.parseBuffer 15 1 (log ++ [0]) 14 true).events ∧
    ((p.parseBuffer 15 1 (log ++ [0]) 14 true).events.map fun o =>
      o.view.getLogtype (fun _ => log ++ [0]) fun i => (t.getIdSymbol i).map swapNames) =
    (p'.parseBuffer 15 1 (log ++ [0]) 14 true).events.map fun o => o.view.getLogtype (fun _ => log ++ [0]) t'.getIdSymbol := by
  have hb : AllBytes countFile := by
    have : ∀ c ∈ countFile, c < 256 := by decide
    exact this
  obtain ⟨n, t, p, k, t', p', k', h1, h2⟩ := C74_files_partial (kids := 0) (kids' := 0) (addr := id) (addr' := id) (mem := fun _ => []) (mem' := fun _ => [])
    (inStatic := 48000) (inStatic' := 48000) (outStatic := 48000) (outStatic' := 48000) exEnv_ok exEnv_orders (by decide) file_bytes (by decide) file_written
    exEnv_ok exEnv_orders (by decide) hb (by decide) countFile_written good accepted (by decide) (by simp [text]) names swapNames_renames
    (fun _ _ h => h) (fun _ _ h => h) (by decide) (by decide)
  have e : (log ++ [0]).take 14 = log := rfl
  obtain ⟨_, _, g3, g4⟩ := h2 p p' .new .new log 1 1 (log ++ [0]) (log ++ [0]) 14 14 15 15 e e (by decide) (by decide) (by decide) (by decide) log_bytes
    (by decide) clear
  have : text.Only log = fun _ => True := funext fun n => propext ⟨fun _ => trivial, fun _ => only n⟩
  rw [this] at g3
  exact ⟨n, t, p, k, t', p', k', h1, g3, g4 only _ _ rfl rfl⟩

/-- C74 applies to the two files for `ReaderParser`, with buffers of 40 and of 60 bytes. -/
example : ∃ n, ∀ fuel steps, n ≤ fuel → n ≤ steps → ∃ t P k t' P' k',
    ReaderParser.ofFile { exEnv with fuel := fuel, steps := steps } 0 (some file) id (fun _ => List.replicate 40 0) 40 48000 [] = .ok (t, P, k) ∧
    ReaderParser.ofFile { exEnv with fuel := fuel, steps := steps } 0 (some countFile) id (fun _ => List.replicate 60 0) 60 48000 [] = .ok (t', P', k') ∧
    (P.parseReader textReader 1 15 log).status = none ∧
    List.Forall₂ (Seen.Alike (fun _ => True) t.getSymbolId fun n => t'.getSymbolId (swapNames n)) (P.parseReader textReader 1 15 log).events
      (P'.parseReader textReader 1 15 log).events ∧
    ((P.parseReader textReader 1 15 log).events.map fun o => o.logtype fun i => (t.getIdSymbol i).map swapNames) =
      (P'.parseReader textReader 1 15 log).events.map fun o => o.logtype t'.getIdSymbol := by
  have hb : AllBytes countFile := by
    have : ∀ c ∈ countFile, c < 256 := by decide
    exact this
  obtain ⟨n, h⟩ := C74_reader_partial (kids := 0) (kids' := 0) (addr := id) (addr' := id) (mem := fun _ => List.replicate 40 0)
    (mem' := fun _ => List.replicate 60 0) (outStatic := 48000) (outStatic' := 48000) (h := 20) (h' := 30) exEnv_ok exEnv_orders (by decide) file_bytes
    (by decide) file_written good accepted (by decide) (by simp [text]) names lineTimestamps (fun _ _ h => h) (by decide) (by decide) (by simp) textReader_full
    exEnv_ok exEnv_orders (by decide) hb (by decide) countFile_written (fun _ _ h => h) (by decide) (by decide) (by simp) textReader_full
    swapNames_renames [] []
  refine ⟨n, fun fuel steps f1 f2 => ?_⟩
  obtain ⟨t, P, k, t', P', k', h1, h2, h3⟩ := h fuel steps f1 f2
  obtain ⟨ps, xs, _, _, h4, h5, h6⟩ := h3 log log log rfl rfl log_bytes (by decide) (by decide) (by decide) clear trivial
  obtain ⟨g1, _, g3, g4⟩ := h6 (h4 (by decide)) (h5 (by decide)) 1 1 15 15 (by decide) (by decide) (by decide) (by decide)
  have : text.Only log = fun _ => True := funext fun n => propext ⟨fun _ => trivial, fun _ => only n⟩
  rw [this] at g3
  exact ⟨t, P, k, t', P', k', h1, h2, g1, g3, g4 only⟩

end SchemaChangeExample

end LogSurgeon
