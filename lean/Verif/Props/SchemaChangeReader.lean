import Verif.Spec.SchemaChangeReader
import Verif.Props.SchemaChange
import Verif.Props.EndToEndReader
/-
C71–C73 for `ReaderParser`, from the texts of the schema files on.
-/
namespace LogSurgeon
open Grammar

section
variable {P : String → Prop} {id id' : String → Option Nat} {w : List Nat}

theorem PTok.Alike.shown {x x' : PTok} (h : x.Alike P id id' x') : ShownAlike id id' (some (x.text w), some x.ty) (some (x'.text w), some x'.ty) :=
  ⟨by rw [h.text], rfl, _, _, rfl, rfl, h.types⟩

theorem shown_all {xs xs' : List PTok} (h : List.Forall₂ (PTok.Alike P id id') xs xs') :
    List.Forall₂ (ShownAlike id id') (xs.map fun x => (some (x.text w), some x.ty)) (xs'.map fun x => (some (x.text w), some x.ty)) := by
  rw [List.forall₂_map_left_iff, List.forall₂_map_right_iff]
  exact h.imp fun _ _ h => h.shown

theorem seen_alike {e e' : PEvent} (h : e.Alike P id id' e') {o o' : Seen} (ho : o.Shows w e) (ho' : o'.Shows w e') : o.Alike P id id' o' := by
  refine ⟨⟨?_, ?_⟩, ?_, ?_, ?_, ?_, ?_⟩
  · rw [ho.text, ho'.text]; exact congrArg some (alike_text w h.toks)
  · rw [ho.text]; rfl
  · rw [ho.ts, ho'.ts, h.ts]
  · rw [Bool.eq_iff_iff, ho.multiline, ho'.multiline]; exact h.multiline
  · rw [ho.tokens, ho'.tokens]; exact shown_all h.toks
  · rw [ho.timestamp, ho'.timestamp, h.ts]
    cases e'.ts with
    | false => exact .none
    | true =>
      have := h.toks
      cases hx : e.toks <;> cases hx' : e'.toks <;> rw [hx, hx'] at this
      · exact .none
      · cases this
      · cases this
      · cases this with | cons b _ => exact .some b.shown
  · intro n i i' hn hi hi'
    rw [ho.vars, ho'.vars]
    exact shown_all (alike_filter hn hi hi' h.toks)

theorem seen_all {es es' : List PEvent} (h : List.Forall₂ (PEvent.Alike P id id') es es') :
    ∀ {os os' : List Seen}, List.Forall₂ (fun o e => Seen.Shows o w e) os es → List.Forall₂ (fun o e => Seen.Shows o w e) os' es' →
      List.Forall₂ (Seen.Alike P id id') os os' := by
  induction h with
  | nil => intro os os' h1 h2; cases h1; cases h2; exact .nil
  | cons h1 _ ih =>
    intro os os' h2 h3
    cases h2 with
    | cons a1 a2 => cases h3 with | cons b1 b2 => exact .cons (seen_alike h1 a1 b1) (ih a2 b2)

theorem alike_texts {es es' : List PEvent} (h : List.Forall₂ (PEvent.Alike P id id') es es') : es.map (PEvent.text w) = es'.map (PEvent.text w) := by
  induction h with
  | nil => rfl
  | cons h1 _ ih => rw [List.map_cons, List.map_cons, ih]; exact congrArg (· :: _) (alike_text w h1.toks)

theorem fit_of_texts {h : Nat} {es es' : List PEvent} (ht : es.map (PEvent.text w) = es'.map (PEvent.text w)) (hts : es.map PEvent.ts = es'.map PEvent.ts)
    (hf : EventsFit h w es) : EventsFit h w es' := by
  intro i e' he'
  have hlen : es.length = es'.length := by simpa using congrArg List.length ht
  have hi' : i < es'.length := (List.getElem?_eq_some_iff.mp he').1
  have hi : i < es.length := hlen ▸ hi'
  have he : es[i]? = some es[i] := List.getElem?_eq_getElem hi
  obtain ⟨f1, f2⟩ := hf i _ he
  have g1 : (es[i]).text w = e'.text w := by
    have := congrArg (·[i]?) ht
    simpa [he, he'] using this
  have g0 : (es[i]).ts = e'.ts := by
    have := congrArg (·[i]?) hts
    simpa [he, he'] using this
  have g2 : es[i + 1]?.map (PEvent.text w) = es'[i + 1]?.map (PEvent.text w) := by
    rw [← List.getElem?_map, ← List.getElem?_map, ht]
  have g3 : (es.take (i + 1)).flatMap (PEvent.text w) = (es'.take (i + 1)).flatMap (PEvent.text w) := by
    rw [List.flatMap_def, List.flatMap_def, List.map_take, List.map_take, ht]
  rw [g1, g2] at f1
  rw [g3, g0, hlen] at f2
  exact ⟨f1, f2⟩

theorem alike_flags {es es' : List PEvent} (h : List.Forall₂ (PEvent.Alike P id id') es es') : es.map PEvent.ts = es'.map PEvent.ts := by
  induction h with
  | nil => rfl
  | cons h1 _ ih => rw [List.map_cons, List.map_cons, ih, h1.ts]

theorem alike_fit {h : Nat} {es es' : List PEvent} (H : List.Forall₂ (PEvent.Alike P id id') es es') : EventsFit h w es ↔ EventsFit h w es' :=
  ⟨fit_of_texts (alike_texts H) (alike_flags H), fit_of_texts (alike_texts H).symm (alike_flags H).symm⟩

end

theorem PTok.Alike.logtype_rename {P : String → Prop} {id id' : String → Option Nat} {x x' : PTok} (h : x.Alike P id id' x') (hP : ∀ n, P n)
    (hid : SchemaText.Ids id) (hid' : SchemaText.Ids id') {names names' : Nat → Option String} {f : String → String}
    (hn : ∀ n i, id n = some i → names i = some (f n)) (hn' : ∀ n i, id' n = some i → names' i = some (f n)) (hx : ∃ n, id n = some x.kind) (s : List Nat) :
    x.logtype s names = x'.logtype s names' := by
  have k1 := h.kindIs (hP "$UncaughtString") hid.static hid'.static
  have k7 := h.kindIs (hP "newLine") hid.newLine hid'.newLine
  obtain ⟨n, hx⟩ := hx
  have hk : names x.kind = names' x'.kind := by rw [hn n _ hx, hn' n _ ((h.kind n (hP n)).mp hx)]
  unfold PTok.logtype
  simp only [k1, k7, hk, h.text s]

/-- Of two lists of events that are alike, with names `f n` for the names `n`, the logtypes are the same. -/
theorem seen_all_logtypes {P : String → Prop} (hP : ∀ n, P n) {t t' : ParserTables} {id id' : String → Option Nat} (hid : SchemaText.Ids id) (hid' : SchemaText.Ids id')
    {names names' : Nat → Option String} {f : String → String} {w : List Nat} (hid0 : ∀ n i, t.getIdSymbol i = some n → id n = some i)
    (hn : ∀ n i, id n = some i → names i = some (f n)) (hn' : ∀ n i, id' n = some i → names' i = some (f n))
    (hall : ∀ i n, t.getIdSymbol i = some n → ∃ n', names i = some n') (hall' : ∀ i n, t'.getIdSymbol i = some n → ∃ n', names' i = some n')
    {es es' : List PEvent} (h : List.Forall₂ (PEvent.Alike P id id') es es') :
    ∀ {os os' : List Seen}, List.Forall₂ (fun o e => Seen.LogtypeOf t o w e) os es → List.Forall₂ (fun o e => Seen.LogtypeOf t' o w e) os' es' →
      os.map (fun o => o.logtype names) = os'.map fun o => o.logtype names' := by
  have hlist : ∀ {xs xs' : List PTok}, List.Forall₂ (PTok.Alike P id id') xs xs' → (∀ x ∈ xs, ∃ n, id n = some x.kind) →
      xs.flatMap (PTok.logtype w names) = xs'.flatMap (PTok.logtype w names') := by
    intro xs xs' h
    induction h with
    | nil => exact fun _ => rfl
    | cons h1 _ ih =>
      intro hx
      rw [List.forall_mem_cons] at hx
      rw [List.flatMap_cons, List.flatMap_cons, ih hx.2, h1.logtype_rename hP hid hid' hn hn' hx.1]
  induction h with
  | nil => intro os os' h1 h2; cases h1; cases h2; rfl
  | @cons e e' _ _ h1 _ ih =>
    intro os os' h2 h3
    cases h2 with
    | cons a1 a2 =>
      cases h3 with
      | cons b1 b2 =>
        rw [List.map_cons, List.map_cons, ih a2 b2, a1.2 names hall, b1.2 names' hall', h1.ts]
        have gk : ∀ x ∈ e.toks, ∃ n, id n = some x.kind := fun x hx => (a1.1 x hx).imp fun n h => hid0 n _ h
        congr 2
        cases e'.ts with
        | false => exact hlist h1.toks gk
        | true =>
          have ht : ∀ {xs xs' : List PTok}, List.Forall₂ (PTok.Alike P id id') xs xs' → List.Forall₂ (PTok.Alike P id id') xs.tail xs'.tail := by
            intro xs xs' h
            cases h with
            | nil => exact .nil
            | cons _ h => exact h
          exact hlist (ht h1.toks) fun x hx => gk x (List.mem_of_mem_tail hx)

section
variable {E E' : SchemaEnv} {kids kids' : Nat} {schema schema' : List Nat} {s s' : SchemaText} {addr addr' : Nat → Nat} {mem mem' : Mem}
  {outStatic outStatic' h h' : Nat} {σ σ' : Type} {r : Reader σ} {r' : Reader σ'} {rest : σ → List Nat} {rest' : σ' → List Nat}

theorem SchemaText.Names.reserved (hn : s.Names) : s.NlReserved :=
  fun v hv => ⟨fun e => hn v hv (by simp [e]), fun e => hn v hv (by simp [e])⟩

/-- The constructor for a schema file that returns tables has built a lexer from the AST of the file. -/
theorem ofFile_built {σ : Type} {E : SchemaEnv} {kids : Nat} {fs : Option (List Nat)} {addr : Nat → Nat} {mem : Mem} {inStatic outStatic : Nat} {src : σ}
    {t : ParserTables} {P : ReaderParser σ} {k : Nat} {a : SchemaAST} {k' : Nat} (he : trySchemaFile E kids fs = .ok (a, k'))
    (h : ReaderParser.ofFile E kids fs addr mem inStatic outStatic src = .ok (t, P, k)) : ∃ L, buildLexer a addr = .ok (t, L) := by
  unfold ReaderParser.ofFile at h
  rw [he] at h
  simp only at h
  cases hL : buildLexer a addr with
  | error e => rw [hL] at h; cases h
  | ok tl =>
    obtain ⟨t', L⟩ := tl
    rw [hL] at h
    simp only at h
    cases hP : ReaderParser.new a addr mem inStatic outStatic src with
    | error e => rw [hP] at h; cases h
    | ok p => rw [hP] at h; cases h; exact ⟨L, rfl⟩

/-- C76 for `ReaderParser`, from the texts of the schema files on (partial: as `C76_agree_partial` and `C48_reader_partial`). -/
theorem C76_reader_partial (hE : E.Ok) (ho : E.orders.Ok (schemaGrammar (E.specials.map (·.2)))) (hl : schema.length < 24000) (hb : AllBytes schema)
    (hk : Fit kids (lexemes schema)) (hw : WrittenFile 0 (lexemes schema) s) (hg : s.Good) (hacc : s.Accepted)
    (hnl : 10 ∈ s.delimiters) (hv : s.vars ≠ []) (hn : s.Names) (hline : s.LineTimestamps)
    (hinj : ∀ x y, addr x = addr y → x = y) (hout : 3 ≤ outStatic) (hh : 2 ≤ h) (hm : (mem 0).length = 2 * h) (hr : r.Full rest)
    (hE' : E'.Ok) (ho' : E'.orders.Ok (schemaGrammar (E'.specials.map (·.2)))) (hl' : schema'.length < 24000) (hb' : AllBytes schema')
    (hk' : Fit kids' (lexemes schema')) (hw' : WrittenFile 0 (lexemes schema') s') (hg' : s'.Good) (hacc' : s'.Accepted)
    (hnl' : 10 ∈ s'.delimiters) (hv' : s'.vars ≠ []) (hn' : s'.Names) (hline' : s'.LineTimestamps)
    (hinj' : ∀ x y, addr' x = addr' y → x = y) (hout' : 3 ≤ outStatic') (hh' : 2 ≤ h') (hm' : (mem' 0).length = 2 * h') (hr' : r'.Full rest')
    {Ok : List Nat → Prop} (hag : ∀ text, Ok text → s.Agree s' text)
    (src0 : σ) (src0' : σ') :
    ∃ n, ∀ fuel steps, n ≤ fuel → n ≤ steps → ∃ t P k t' P' k',
      ReaderParser.ofFile { E with fuel := fuel, steps := steps } kids (some schema) addr mem (2 * h) outStatic src0 = .ok (t, P, k) ∧
      ReaderParser.ofFile { E' with fuel := fuel, steps := steps } kids' (some schema') addr' mem' (2 * h') outStatic' src0' = .ok (t', P', k') ∧
      SameSeen s t.getSymbolId t'.getSymbolId t.getIdSymbol t'.getIdSymbol h h' P P' r r' rest rest' Ok := by
  obtain ⟨a, ha⟩ := SchemaText.Builds.exists hg
  obtain ⟨a', ha'⟩ := SchemaText.Builds.exists hg'
  obtain ⟨n1, k1, c1⟩ := schema_complete hE ho hl hb (file_delivers hl) hk hw ha
  obtain ⟨n1', k1', c1'⟩ := schema_complete hE' ho' hl' hb' (file_delivers hl') hk' hw' ha'
  obtain ⟨n2, d⟩ := C48_reader_partial (mem := mem) hE ho hl hb hk hw hg hacc hnl hv hn.reserved hline hinj hout hh hm hr src0
  obtain ⟨n2', d'⟩ := C48_reader_partial (mem := mem') hE' ho' hl' hb' hk' hw' hg' hacc' hnl' hv' hn'.reserved hline' hinj' hout' hh' hm' hr' src0'
  refine ⟨max (max n1 n1') (max n2 n2'), fun fuel steps f1 f2 => ?_⟩
  obtain ⟨t, P, k, e1, e2⟩ := d fuel steps (by omega) (by omega)
  obtain ⟨t', P', k', e1', e2'⟩ := d' fuel steps (by omega) (by omega)
  have b1 : trySchemaFile { E with fuel := fuel, steps := steps } kids (some schema) = .ok (a, k1) := c1 fuel steps (by omega) (by omega)
  have b1' : trySchemaFile { E' with fuel := fuel, steps := steps } kids' (some schema') = .ok (a', k1') := c1' fuel steps (by omega) (by omega)
  obtain ⟨L, h1⟩ := ofFile_built b1 e1
  obtain ⟨L', h1'⟩ := ofFile_built b1' e1'
  refine ⟨t, P, k, t', P', k', e1, e1', ?_⟩
  intro src src' w hw1 hw2 hbw hfd hz hz' hcl hok
  have hA := hag w hok
  obtain ⟨ps, xs, g1, g2, g3, g4⟩ := e2 src (hw1 ▸ hbw) (hw1 ▸ hfd) (hw1 ▸ hz)
  obtain ⟨ps', xs', g1', g2', g3', g4'⟩ := e2' src' (hw2 ▸ hbw) (hw2 ▸ hfd) (hw2 ▸ hz')
  rw [hw1] at g1 g2 g3 g4
  rw [hw2] at g1' g2' g3' g4'
  obtain rfl := (hA.division g1).unique g1'
  have hI := SchemaText.ids_of_tables h1
  have hI' := SchemaText.ids_of_tables h1'
  have hnm : ∀ n start x e, x < e → e ≤ w.length → s.Instance w start x e n → ((∃ i, t.getSymbolId n = some i) ∧ ∃ i, t'.getSymbolId n = some i) :=
    fun n start x e b1 b2 hi => ⟨SchemaText.instance_name ha h1 hi, SchemaText.instance_name ha' h1' ((hA.inst _ _ _ _ b1 b2).mp hi)⟩
  have halike : ∀ {ps xs xs'}, (∀ q ∈ ps, SchemaText.Piece.Fine s w q) → List.Forall₂ (SchemaText.Piece.Is s t.getSymbolId w) ps xs →
      List.Forall₂ (SchemaText.Piece.Is s' t'.getSymbolId w) ps xs' →
      List.Forall₂ (PTok.Alike (s.Only w) t.getSymbolId t'.getSymbolId) xs xs' := by
    intro ps xs xs' hf hx hx'
    induction hx generalizing xs' with
    | nil => cases hx'; exact .nil
    | cons b1 b2 ih =>
      cases hx' with
      | cons c1 c2 =>
        rw [List.forall_mem_cons] at hf
        exact .cons (hA.alike hI hI' hnm (fun n hn => hn) hf.1 b1 c1) (ih hf.2 c2)
  have hxs := halike g1.fine g2 g2'
  have hL : Lines (s.Only w) t.getSymbolId t'.getSymbolId :=
    ⟨hI, hI', fun start x e m _ _ hi _ => (hn.none rfl hi).elim, hcl.1, hcl.2.1, hcl.2.2⟩
  have hev := (segment_alike hL w hxs).1
  refine ⟨ps, xs, g1, g2, g3, fun hlt => (alike_fit hev).mpr (g3' hlt), fun hf hf' j j' k k' hj hj' hk hk' => ?_⟩
  obtain ⟨i1, i2⟩ := g4 hf j k hj hk
  obtain ⟨i1', i2'⟩ := g4' ((alike_fit hev).mp hf') j' k' hj' hk'
  exact ⟨i1, i1', seen_all hev i2.1 i2'.1, fun hall => seen_all_logtypes hall hI hI' (f := fun n => n) (fun n i h => ((C16_bijection h1).1 _ _).mpr h)
    (fun n i h => ((C16_bijection h1).1 _ _).mp h) (fun n i h => ((C16_bijection h1').1 _ _).mp h) (fun i n h => ⟨n, h⟩) (fun i n h => ⟨n, h⟩) hev i2.2 i2'.2⟩

/-- C71 for `ReaderParser`, from the texts of the schema files on (partial: as `C71_order_partial` and `C48_reader_partial`). -/
theorem C71_reader_partial (hE : E.Ok) (ho : E.orders.Ok (schemaGrammar (E.specials.map (·.2)))) (hl : schema.length < 24000) (hb : AllBytes schema)
    (hk : Fit kids (lexemes schema)) (hw : WrittenFile 0 (lexemes schema) s)
    (hinj : ∀ x y, addr x = addr y → x = y) (hout : 3 ≤ outStatic) (hh : 2 ≤ h) (hm : (mem 0).length = 2 * h) (hr : r.Full rest)
    (hE' : E'.Ok) (ho' : E'.orders.Ok (schemaGrammar (E'.specials.map (·.2)))) (hl' : schema'.length < 24000) (hb' : AllBytes schema')
    (hk' : Fit kids' (lexemes schema')) (hw' : WrittenFile 0 (lexemes schema') s')
    (hinj' : ∀ x y, addr' x = addr' y → x = y) (hout' : 3 ≤ outStatic') (hh' : 2 ≤ h') (hm' : (mem' 0).length = 2 * h') (hr' : r'.Full rest')
    (hg : s.Good) (hacc : s.Accepted) (hnl : 10 ∈ s.delimiters) (hv : s.vars ≠ []) (hn : s.Names) (hline : s.LineTimestamps)
    (hvars : ∀ v, v ∈ s.vars ↔ v ∈ s'.vars) (hdel : ∀ d, d ∈ s.delimiters ↔ d ∈ s'.delimiters) (src0 : σ) (src0' : σ') :
    ∃ n, ∀ fuel steps, n ≤ fuel → n ≤ steps → ∃ t P k t' P' k',
      ReaderParser.ofFile { E with fuel := fuel, steps := steps } kids (some schema) addr mem (2 * h) outStatic src0 = .ok (t, P, k) ∧
      ReaderParser.ofFile { E' with fuel := fuel, steps := steps } kids' (some schema') addr' mem' (2 * h') outStatic' src0' = .ok (t', P', k') ∧
      SameSeen s t.getSymbolId t'.getSymbolId t.getIdSymbol t'.getIdSymbol h h' P P' r r' rest rest' fun _ => True := by
  refine C76_reader_partial hE ho hl hb hk hw hg hacc hnl hv hn hline hinj hout hh hm hr hE' ho' hl' hb' hk' hw' (fun v h => hg v ((hvars v).mpr h))
    ⟨?_, fun v h1 h2 d h3 => ?_⟩ ((hdel 10).mp hnl) ?_ (fun v h => hn v ((hvars v).mpr h)) (fun v h => hline v ((hvars v).mpr h)) hinj' hout' hh' hm' hr'
    (fun text _ => SchemaText.agree_of_same hvars hdel) src0 src0'
  · intro h
    have := (hdel 10).mp hnl
    unfold SchemaText.delimiters at this
    rw [h] at this
    cases this
  · exact hacc.2 v ((hvars v).mpr h1) h2 d (h3.imp_left (hdel d).mpr)
  · obtain ⟨v, h⟩ := List.exists_mem_of_ne_nil _ hv
    exact List.ne_nil_of_mem ((hvars v).mp h)

/-- C72 for `ReaderParser`, from the texts of the schema files on (partial: as `C72_unused_partial` and `C48_reader_partial`). -/
theorem C72_reader_partial (hE : E.Ok) (ho : E.orders.Ok (schemaGrammar (E.specials.map (·.2)))) (hl : schema.length < 24000) (hb : AllBytes schema)
    (hk : Fit kids (lexemes schema)) (hw : WrittenFile 0 (lexemes schema) s)
    (hinj : ∀ x y, addr x = addr y → x = y) (hout : 3 ≤ outStatic) (hh : 2 ≤ h) (hm : (mem 0).length = 2 * h) (hr : r.Full rest)
    (hE' : E'.Ok) (ho' : E'.orders.Ok (schemaGrammar (E'.specials.map (·.2)))) (hl' : schema'.length < 24000) (hb' : AllBytes schema')
    (hk' : Fit kids' (lexemes schema')) (hw' : WrittenFile 0 (lexemes schema') s')
    (hinj' : ∀ x y, addr' x = addr' y → x = y) (hout' : 3 ≤ outStatic') (hh' : 2 ≤ h') (hm' : (mem' 0).length = 2 * h') (hr' : r'.Full rest')
    {x : String × Pat} (hg : s'.Good) (hacc : s'.Accepted) (hnl : 10 ∈ s.delimiters) (hv : s.vars ≠ []) (hn : s'.Names) (hline : s'.LineTimestamps)
    (hvars : ∀ v, v ∈ s'.vars ↔ v = x ∨ v ∈ s.vars) (hdel : s'.delims = s.delims) (src0 : σ) (src0' : σ') :
    ∃ n, ∀ fuel steps, n ≤ fuel → n ≤ steps → ∃ t P k t' P' k',
      ReaderParser.ofFile { E with fuel := fuel, steps := steps } kids (some schema) addr mem (2 * h) outStatic src0 = .ok (t, P, k) ∧
      ReaderParser.ofFile { E' with fuel := fuel, steps := steps } kids' (some schema') addr' mem' (2 * h') outStatic' src0' = .ok (t', P', k') ∧
      SameSeen s t.getSymbolId t'.getSymbolId t.getIdSymbol t'.getIdSymbol h h' P P' r r' rest rest' (s.Unused x) := by
  have hd : s'.delimiters = s.delimiters := by unfold SchemaText.delimiters; rw [hdel]
  have hx : x.1 ≠ "newLine" := fun e => hn x ((hvars x).mpr (.inl rfl)) (by simp [e])
  refine C76_reader_partial hE ho hl hb hk hw (fun v h => hg v ((hvars v).mpr (.inr h))) ⟨hdel ▸ hacc.1, fun v h1 h2 d h3 => ?_⟩ hnl hv
    (fun v h => hn v ((hvars v).mpr (.inr h))) (fun v h => hline v ((hvars v).mpr (.inr h))) hinj hout hh hm hr hE' ho' hl' hb' hk' hw' hg hacc (hd ▸ hnl)
    (List.ne_nil_of_mem ((hvars x).mpr (.inl rfl))) hn hline hinj' hout' hh' hm' hr'
    (fun text h => SchemaText.agree_of_unused hvars hdel hx h) src0 src0'
  exact hacc.2 v ((hvars v).mpr (.inr h1)) h2 d (hd ▸ h3)

/-- C73, from the texts of the schema files on (partial: as `C73_equivalent_partial`, and the files are below 24000 bytes). -/
theorem C73_files_partial {inStatic inStatic' : Nat} (hE : E.Ok) (ho : E.orders.Ok (schemaGrammar (E.specials.map (·.2)))) (hl : schema.length < 24000)
    (hb : AllBytes schema) (hk : Fit kids (lexemes schema)) (hw : WrittenFile 0 (lexemes schema) s)
    (hE' : E'.Ok) (ho' : E'.orders.Ok (schemaGrammar (E'.specials.map (·.2)))) (hl' : schema'.length < 24000) (hb' : AllBytes schema')
    (hk' : Fit kids' (lexemes schema')) (hw' : WrittenFile 0 (lexemes schema') s')
    (hg : s.Good) (hacc : s.Accepted) (hg' : s'.Good) (hacc' : s'.Accepted) (hnl : 10 ∈ s.delimiters) (hv : s.vars ≠ []) (hv' : s'.vars ≠ []) (hn : s.Names)
    (hinj : ∀ x y, addr x = addr y → x = y) (hinj' : ∀ x y, addr' x = addr' y → x = y) (hout : 3 ≤ outStatic) (hout' : 3 ≤ outStatic')
    (heq : s.ReadsAlike s') :
    ∃ n t p k t' p' k', (∀ fuel steps, n ≤ fuel → n ≤ steps →
        BufferParser.ofFile { E with fuel := fuel, steps := steps } kids (some schema) addr mem inStatic outStatic = .ok (t, p, k) ∧
        BufferParser.ofFile { E' with fuel := fuel, steps := steps } kids' (some schema') addr' mem' inStatic' outStatic' = .ok (t', p', k')) ∧
      SameEvents s t t' p p' fun _ => True := by
  obtain ⟨a, ha⟩ := SchemaText.Builds.exists hg
  obtain ⟨a', ha'⟩ := SchemaText.Builds.exists hg'
  obtain ⟨t, L, p, t', L', p', h1, h2, h3, h4, h5⟩ := C73_equivalent_partial (mem := mem) (mem' := mem') (inStatic := inStatic) (inStatic' := inStatic') ha ha'
    (writtenFile_wf hw) (writtenFile_wf hw') hg hg' hacc hacc' hnl hv hv' hn hinj hinj' hout hout' heq
  obtain ⟨n, k, g⟩ := ofFile_of_builds hE ho hl hb hk hw ha h1 h2
  obtain ⟨n', k', g'⟩ := ofFile_of_builds hE' ho' hl' hb' hk' hw' ha' h3 h4
  exact ⟨max n n', t, p, k, t', p', k', fun fuel steps f1 f2 => ⟨g fuel steps (by omega) (by omega), g' fuel steps (by omega) (by omega)⟩, h5⟩

/-- C73 for `ReaderParser`, from the texts of the schema files on (partial: as `C73_equivalent_partial` and `C48_reader_partial`). -/
theorem C73_reader_partial (hE : E.Ok) (ho : E.orders.Ok (schemaGrammar (E.specials.map (·.2)))) (hl : schema.length < 24000) (hb : AllBytes schema)
    (hk : Fit kids (lexemes schema)) (hw : WrittenFile 0 (lexemes schema) s)
    (hinj : ∀ x y, addr x = addr y → x = y) (hout : 3 ≤ outStatic) (hh : 2 ≤ h) (hm : (mem 0).length = 2 * h) (hr : r.Full rest)
    (hE' : E'.Ok) (ho' : E'.orders.Ok (schemaGrammar (E'.specials.map (·.2)))) (hl' : schema'.length < 24000) (hb' : AllBytes schema')
    (hk' : Fit kids' (lexemes schema')) (hw' : WrittenFile 0 (lexemes schema') s')
    (hinj' : ∀ x y, addr' x = addr' y → x = y) (hout' : 3 ≤ outStatic') (hh' : 2 ≤ h') (hm' : (mem' 0).length = 2 * h') (hr' : r'.Full rest')
    (hg : s.Good) (hacc : s.Accepted) (hnl : 10 ∈ s.delimiters) (hv : s.vars ≠ []) (hn : s.Names) (hline : s.LineTimestamps)
    (hg' : s'.Good) (hacc' : s'.Accepted) (hv' : s'.vars ≠ []) (hn' : s'.Names) (hline' : s'.LineTimestamps)
    (heq : s.ReadsAlike s') (src0 : σ) (src0' : σ') :
    ∃ n, ∀ fuel steps, n ≤ fuel → n ≤ steps → ∃ t P k t' P' k',
      ReaderParser.ofFile { E with fuel := fuel, steps := steps } kids (some schema) addr mem (2 * h) outStatic src0 = .ok (t, P, k) ∧
      ReaderParser.ofFile { E' with fuel := fuel, steps := steps } kids' (some schema') addr' mem' (2 * h') outStatic' src0' = .ok (t', P', k') ∧
      SameSeen s t.getSymbolId t'.getSymbolId t.getIdSymbol t'.getIdSymbol h h' P P' r r' rest rest' fun _ => True :=
  C76_reader_partial hE ho hl hb hk hw hg hacc hnl hv hn hline hinj hout hh hm hr hE' ho' hl' hb' hk' hw' hg' hacc' ((heq.1 10).mp hnl) hv' hn' hline' hinj' hout' hh'
    hm' hr' (fun _ _ => SchemaText.agree_of_alike heq) src0 src0'

end

namespace SchemaChangeExample
open EndToEndExample

/-- C71 applies to the two files, with buffers of 40 and of 60 bytes. -/
example : ∃ n, ∀ fuel steps, n ≤ fuel → n ≤ steps → ∃ t P k t' P' k',
    ReaderParser.ofFile { exEnv with fuel := fuel, steps := steps } 0 (some file) id (fun _ => List.replicate 40 0) 40 48000 [] = .ok (t, P, k) ∧
    ReaderParser.ofFile { exEnv with fuel := fuel, steps := steps } 0 (some swappedFile) id (fun _ => List.replicate 60 0) 60 48000 [] = .ok (t', P', k') ∧
    (P.parseReader textReader 1 15 log).status = none ∧
    List.Forall₂ (Seen.Alike (fun _ => True) t.getSymbolId t'.getSymbolId) (P.parseReader textReader 1 15 log).events
      (P'.parseReader textReader 1 15 log).events := by
  have hb : AllBytes swappedFile := by
    have : ∀ c ∈ swappedFile, c < 256 := by decide
    exact this
  obtain ⟨n, h⟩ := C71_reader_partial (kids := 0) (kids' := 0) (addr := id) (addr' := id) (mem := fun _ => List.replicate 40 0)
    (mem' := fun _ => List.replicate 60 0) (outStatic := 48000) (outStatic' := 48000) (h := 20) (h' := 30) exEnv_ok exEnv_orders (by decide) file_bytes
    (by decide) file_written (fun _ _ h => h) (by decide) (by decide) (by simp) textReader_full
    exEnv_ok exEnv_orders (by decide) hb (by decide) swappedFile_written (fun _ _ h => h) (by decide) (by decide) (by simp) textReader_full
    good accepted (by decide) (by simp [text]) names lineTimestamps
    (fun v => by simp only [text, swappedText, List.mem_cons, List.not_mem_nil, or_false]; exact or_comm) (fun d => Iff.rfl) [] []
  refine ⟨n, fun fuel steps f1 f2 => ?_⟩
  obtain ⟨t, P, k, t', P', k', h1, h2, h3⟩ := h fuel steps f1 f2
  obtain ⟨ps, xs, _, _, h4, h5, h6⟩ := h3 log log log rfl rfl log_bytes (by decide) (by decide) (by decide) clear trivial
  obtain ⟨g1, _, g3, _⟩ := h6 (h4 (by decide)) (h5 (by decide)) 1 1 15 15 (by decide) (by decide) (by decide) (by decide)
  have : text.Only log = fun _ => True := funext fun n => propext ⟨fun _ => trivial, fun _ => only n⟩
  rw [this] at g3
  exact ⟨t, P, k, t', P', k', h1, h2, g1, g3⟩

def longerFile : List Nat :=
  [100, 101, 108, 105, 109, 105, 116, 101, 114, 115, 58, 32, 92, 110, 10,
    116, 105, 109, 101, 115, 116, 97, 109, 112, 58, 92, 100, 32, 92, 100, 10,
    119, 111, 114, 100, 58, 122, 43, 10,
    110, 117, 109, 58, 92, 100, 43]

theorem longerFile_written : WrittenFile 0 (lexemes longerFile) longer := by
  have sp : ∀ {k}, Written .literal k [32] (.lit 32) := fun {k} => .char (.plain (by simp [Plain]))
  have h1 : WrittenLine 0 (.delimiters :: chars (58 :: ([32] ++ [92, 110]))) { delims := [[32] ++ [10]] } :=
    .delims (.snoc (.one sp) (.char .newline))
  have p2 : Written .seq 25 ([92, 100] ++ [32] ++ [92, 100]) tsPat :=
    .cat (.cat (.ofChoice (.ofSingle .digit)) (.ofSingle (.ofLiteral sp))) (.ofSingle .digit)
  have h2 : WrittenLine 15 _ _ := .var (i := 0) (n := [116, 105, 109, 101, 115, 116, 97, 109, 112]) ⟨by simp, by simp [AlphaNum]⟩ p2
  have p3 : Written .seq 36 ([122] ++ [43]) (.plus (.lit 122)) :=
    .ofChoice (.ofRepeated (.plus (.ofLiteral (.char (.plain (by simp [Plain, AlphaNum]))))))
  have h3 : WrittenLine 31 _ _ := .var (i := 0) (n := [119, 111, 114, 100]) ⟨by simp, by simp [AlphaNum]⟩ p3
  have p4 : Written .seq 43 ([92, 100] ++ [43]) (.plus .digit) := .ofChoice (.ofRepeated (.plus .digit))
  have h4 : WrittenLine 39 _ _ := .var (i := 0) (n := [110, 117, 109]) ⟨by simp, by simp [AlphaNum]⟩ p4
  exact .line (.line (.line (.first h1) (.inl rfl) h2) (.inl rfl) h3) (.inl rfl) h4

/-- C72 applies: the second file has a further variable. -/
example : ∃ n, ∀ fuel steps, n ≤ fuel → n ≤ steps → ∃ t P k t' P' k',
    ReaderParser.ofFile { exEnv with fuel := fuel, steps := steps } 0 (some file) id (fun _ => List.replicate 40 0) 40 48000 [] = .ok (t, P, k) ∧
    ReaderParser.ofFile { exEnv with fuel := fuel, steps := steps } 0 (some longerFile) id (fun _ => List.replicate 60 0) 60 48000 [] = .ok (t', P', k') ∧
    (P.parseReader textReader 1 15 log).status = none ∧
    List.Forall₂ (Seen.Alike (fun _ => True) t.getSymbolId t'.getSymbolId) (P.parseReader textReader 1 15 log).events
      (P'.parseReader textReader 1 15 log).events := by
  have hb : AllBytes longerFile := by
    have : ∀ c ∈ longerFile, c < 256 := by decide
    exact this
  have hvars : ∀ v, v ∈ longer.vars ↔ v = extra ∨ v ∈ text.vars := by
    intro v
    simp only [text, longer, List.mem_cons, List.not_mem_nil, or_false]
    exact or_left_comm
  have hnames : longer.Names := by
    intro v hv
    rcases (hvars v).mp hv with rfl | hv
    · decide
    · exact names v hv
  have hline : longer.LineTimestamps := by
    intro v hv hn
    rcases (hvars v).mp hv with rfl | hv
    · exact absurd hn (by decide)
    · exact lineTimestamps v hv hn
  obtain ⟨n, h⟩ := C72_reader_partial (kids := 0) (kids' := 0) (addr := id) (addr' := id) (mem := fun _ => List.replicate 40 0)
    (mem' := fun _ => List.replicate 60 0) (outStatic := 48000) (outStatic' := 48000) (h := 20) (h' := 30) exEnv_ok exEnv_orders (by decide) file_bytes
    (by decide) file_written (fun _ _ h => h) (by decide) (by decide) (by simp) textReader_full
    exEnv_ok exEnv_orders (by decide) hb (by decide) longerFile_written (fun _ _ h => h) (by decide) (by decide) (by simp) textReader_full
    longer_good longer_accepted (by decide) (by simp [text]) hnames hline hvars rfl [] []
  refine ⟨n, fun fuel steps f1 f2 => ?_⟩
  obtain ⟨t, P, k, t', P', k', h1, h2, h3⟩ := h fuel steps f1 f2
  obtain ⟨ps, xs, _, _, h4, h5, h6⟩ := h3 log log log rfl rfl log_bytes (by decide) (by decide) (by decide) clear unused
  obtain ⟨g1, _, g3, _⟩ := h6 (h4 (by decide)) (h5 (by decide)) 1 1 15 15 (by decide) (by decide) (by decide) (by decide)
  have : text.Only log = fun _ => True := funext fun n => propext ⟨fun _ => trivial, fun _ => only n⟩
  rw [this] at g3
  exact ⟨t, P, k, t', P', k', h1, h2, g1, g3⟩

/-- The file with `num:[0-9]+`. -/
def rewrittenFile : List Nat :=
  [100, 101, 108, 105, 109, 105, 116, 101, 114, 115, 58, 32, 92, 110, 10,
    116, 105, 109, 101, 115, 116, 97, 109, 112, 58, 92, 100, 32, 92, 100, 10,
    110, 117, 109, 58, 91, 48, 45, 57, 93, 43]

theorem rewrittenFile_written : WrittenFile 0 (lexemes rewrittenFile) rewritten := by
  have sp : ∀ {k}, Written .literal k [32] (.lit 32) := fun {k} => .char (.plain (by simp [Plain]))
  have dg : ∀ {k c}, 48 ≤ c → c ≤ 57 → Written .literal k [c] (.lit c) := fun {k c} h1 h2 => .char (.plain (.inl (by unfold AlphaNum; omega)))
  have h1 : WrittenLine 0 (.delimiters :: chars (58 :: ([32] ++ [92, 110]))) { delims := [[32] ++ [10]] } :=
    .delims (.snoc (.one sp) (.char .newline))
  have p2 : Written .seq 25 ([92, 100] ++ [32] ++ [92, 100]) tsPat :=
    .cat (.cat (.ofChoice (.ofSingle .digit)) (.ofSingle (.ofLiteral sp))) (.ofSingle .digit)
  have h2 : WrittenLine 15 _ _ := .var (i := 0) (n := [116, 105, 109, 101, 115, 116, 97, 109, 112]) ⟨by simp, by simp [AlphaNum]⟩ p2
  have p4 : Written .seq 35 ([91, 48, 45, 57, 93] ++ [43]) (.plus (.cls false [.range 48 57])) :=
    .ofChoice (.ofRepeated (.plus (.closed (.opened (.itemRange (a := 48) (b := 57) (u := [48]) (v := [57]) (dg (by decide) (by decide)) (dg (by decide) (by decide)))))))
  have h4 : WrittenLine 31 _ _ := .var (i := 0) (n := [110, 117, 109]) ⟨by simp, by simp [AlphaNum]⟩ p4
  exact .line (.line (.first h1) (.inl rfl) h2) (.inl rfl) h4

/-- C73 applies: the second file has `[0-9]` instead of `\\d`. -/
example : ∃ n, ∀ fuel steps, n ≤ fuel → n ≤ steps → ∃ t P k t' P' k',
    ReaderParser.ofFile { exEnv with fuel := fuel, steps := steps } 0 (some file) id (fun _ => List.replicate 40 0) 40 48000 [] = .ok (t, P, k) ∧
    ReaderParser.ofFile { exEnv with fuel := fuel, steps := steps } 0 (some rewrittenFile) id (fun _ => List.replicate 60 0) 60 48000 [] = .ok (t', P', k') ∧
    (P.parseReader textReader 1 15 log).status = none ∧
    List.Forall₂ (Seen.Alike (fun _ => True) t.getSymbolId t'.getSymbolId) (P.parseReader textReader 1 15 log).events
      (P'.parseReader textReader 1 15 log).events := by
  have hb : AllBytes rewrittenFile := by
    have : ∀ c ∈ rewrittenFile, c < 256 := by decide
    exact this
  have hvars : ∀ v ∈ rewritten.vars, v = ("timestamp", tsPat) ∨ v = ("num", .plus (.cls false [.range 48 57])) := by
    intro v hv
    simpa only [rewritten, List.mem_cons, List.not_mem_nil, or_false] using hv
  have hg : rewritten.Good := by
    intro v hv
    rcases hvars v hv with rfl | rfl
    · exact good _ (.head _)
    · refine ⟨fun h => absurd h (by decide), fun i hi => by rw [List.mem_singleton] at hi; subst hi; decide⟩
  have hacc : rewritten.Accepted := by
    refine ⟨by simp [rewritten], fun v hv hn d hd => ?_⟩
    rcases hvars v hv with rfl | rfl
    · exact absurd rfl hn
    · intro hm
      refine accepted.2 ("num", .plus .digit) (.tail _ (.head _)) (by decide) d hd ?_
      obtain ⟨i, hi, h⟩ := hm
      rw [List.mem_singleton] at hi
      subst hi
      exact h
  have hnames : rewritten.Names := by
    intro v hv
    rcases hvars v hv with rfl | rfl <;> decide
  have hline : rewritten.LineTimestamps := by
    intro v hv hn
    rcases hvars v hv with rfl | rfl
    · exact lineTimestamps _ (.head _) hn
    · exact absurd hn (by decide)
  obtain ⟨n, h⟩ := C73_reader_partial (kids := 0) (kids' := 0) (addr := id) (addr' := id) (mem := fun _ => List.replicate 40 0)
    (mem' := fun _ => List.replicate 60 0) (outStatic := 48000) (outStatic' := 48000) (h := 20) (h' := 30) exEnv_ok exEnv_orders (by decide) file_bytes
    (by decide) file_written (fun _ _ h => h) (by decide) (by decide) (by simp) textReader_full
    exEnv_ok exEnv_orders (by decide) hb (by decide) rewrittenFile_written (fun _ _ h => h) (by decide) (by decide) (by simp) textReader_full
    good accepted (by decide) (by simp [text]) names lineTimestamps hg hacc (by simp [rewritten]) hnames hline rewritten_alike [] []
  refine ⟨n, fun fuel steps f1 f2 => ?_⟩
  obtain ⟨t, P, k, t', P', k', h1, h2, h3⟩ := h fuel steps f1 f2
  obtain ⟨ps, xs, _, _, h4, h5, h6⟩ := h3 log log log rfl rfl log_bytes (by decide) (by decide) (by decide) clear trivial
  obtain ⟨g1, _, g3, _⟩ := h6 (h4 (by decide)) (h5 (by decide)) 1 1 15 15 (by decide) (by decide) (by decide) (by decide)
  have : text.Only log = fun _ => True := funext fun n => propext ⟨fun _ => trivial, fun _ => only n⟩
  rw [this] at g3
  exact ⟨t, P, k, t', P', k', h1, h2, g1, g3⟩

end SchemaChangeExample

end LogSurgeon
