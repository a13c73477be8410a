import Verif.Props.SchemaChange
import Verif.Props.SchemaChangeReader
/-
C75: a further delimiter that does not occur in a text.

The reader needs: Spec/EndToEnd.lean (`Instance`, `Division`) and Spec/SchemaChange.lean (`SameEvents`).
-/
namespace LogSurgeon
open Grammar

/-! ### Replacing a character that only `.` reads -/

section
variable {g : Nat → Nat}

/-- What the first reads, the second reads with the characters replaced. -/
def Reading.Sub (g : Nat → Nat) (r r' : Reading) : Prop := (∀ u, r.once u → r'.once (u.map g)) ∧ ∀ u, r.again u → r'.again (u.map g)

theorem repeat_map {P P' : List Nat → Prop} (h : ∀ u, P u → P' (u.map g)) {k : Nat} {u : List Nat} (H : Repeat P k u) : Repeat P' k (u.map g) := by
  induction H with
  | zero => exact .zero
  | succ h1 _ ih => rw [List.map_append]; exact .succ (h _ h1) ih

theorem Reading.Sub.whole {r r' : Reading} (h : r.Sub g r') {u : List Nat} (H : r.whole u) : r'.whole (u.map g) := by
  obtain ⟨x, y, k, rfl, h1, h2⟩ := H
  exact ⟨_, _, k, List.map_append, h.1 _ h1, repeat_map h.2 h2⟩

theorem Reading.Sub.one {P P' : Nat → Prop} (h : ∀ c, P c → P' (g c)) : (Reading.one P).Sub g (Reading.one P') :=
  ⟨fun _ ⟨c, e, hc⟩ => ⟨g c, by rw [e]; rfl, h c hc⟩, fun _ h => h.elim⟩

theorem Reading.Sub.closed {r r' : Reading} (h : r.Sub g r') : r.closed.Sub g r'.closed := ⟨fun _ => h.whole, fun _ h => h.elim⟩

theorem Reading.Sub.andThen {l l' r r' : Reading} (h1 : l.Sub g l') (h2 : r.Sub g r') : (l.andThen r).Sub g (l'.andThen r') :=
  ⟨fun _ ⟨u, v, e, a, b⟩ => ⟨_, _, by rw [e, List.map_append], h1.whole a, h2.1 _ b⟩, h2.2⟩

theorem Reading.Sub.either {l l' r r' : Reading} (h1 : l.Sub g l') (h2 : r.Sub g r') : (l.either r).Sub g (l'.either r') :=
  ⟨fun _ h => h.imp (h1.1 _) (h2.1 _), fun _ h => h.imp (h1.2 _) (h2.2 _)⟩

theorem Reading.Sub.repeated {r r' : Reading} (h : r.Sub g r') (lo hi : Nat) : (r.repeated lo hi).Sub g (r'.repeated lo hi) := by
  refine ⟨?_, fun _ H => H.imp (h.2 _) (And.imp_right (h.1 _))⟩
  rintro s (⟨h1, rfl⟩ | ⟨k, u, v, h1, h2, rfl, h3, h4⟩)
  · exact .inl ⟨h1, rfl⟩
  · exact .inr ⟨k, _, _, h1, h2, List.map_append, repeat_map (fun _ => h.whole) h3, h.1 _ h4⟩

theorem reading_sub {dot dot' : Nat → Prop} {d : Nat} (hd : d ≤ cUnicodeMax) (hg : ∀ c, c ≠ d → g c = c) (hdot : ∀ c, dot c → dot' (g c)) :
    ∀ p : Pat, (∀ c, g c ≠ c → ¬ p.Mentions false d) → (p.reading dot).Sub g (p.reading dot') := by
  have keep : ∀ {P : Nat → Prop}, (∀ c, g c ≠ c → ¬ P d) → ∀ c, P c → P (g c) := by
    intro P h c hc
    by_cases hgc : g c = c
    · rwa [hgc]
    · have : c = d := by
        by_contra hne
        exact hgc (hg c hne)
      subst this
      exact absurd hc (h c hgc)
  intro p
  induction p with
  | lit a => exact fun h => .one (keep fun c hc => h c hc)
  | cls ng items =>
    intro h
    cases ng with
    | false => exact .one (keep fun c hc hi => h c hc (by simpa [Pat.Mentions] using hi))
    | true => exact .one (keep fun c hc hi => h c hc (by simpa [Pat.Mentions] using ⟨hd, hi.2⟩))
  | digit => exact fun h => .one (keep fun c hc => h c hc)
  | wild => exact fun _ => .one hdot
  | space => exact fun h => .one (keep fun c hc => h c hc)
  | cat l r ihl ihr => exact fun h => (ihl fun c hc hm => h c hc (.inl hm)).andThen (ihr fun c hc hm => h c hc (.inr hm))
  | or l r ihl ihr =>
    intro h
    have hl := ihl fun c hc hm => h c hc (.inl hm)
    have hr := ihr fun c hc hm => h c hc (.inr hm)
    unfold Pat.reading
    refine .either ?_ ?_
    · split
      · exact hl.closed
      · exact hl
    · split
      · exact hr.closed
      · exact hr
  | star p ih => exact fun h => (ih h).repeated _ _
  | plus p ih => exact fun h => (ih h).repeated _ _
  | exact p n ih => exact fun h => (ih h).repeated _ _
  | range p n m ih => exact fun h => (ih h).repeated _ _
  | capture p n ih => exact fun h => (ih h).closed

end

namespace SchemaText
variable {s s' : SchemaText} {d : Nat}

/-- A text without `d` is read alike. -/
theorem MoreDelims.reads (h : s.MoreDelims s' d) {p : Pat} {u : List Nat} (hu : d ∉ u) : p.ReadAs s.delimiters u ↔ p.ReadAs s'.delimiters u := by
  have hu' : ∀ c ∈ u, c ∈ s.delimiters ↔ c ∈ s'.delimiters := fun c hc => by
    rw [h.delims]
    exact ⟨.inr, fun H => H.resolve_left fun e => hu (e ▸ hc)⟩
  exact ⟨LogSurgeon.readAs_congr p hu', LogSurgeon.readAs_congr p fun c hc => (hu' c hc).symm⟩

/-- With fewer delimiters `.` reads more. -/
theorem MoreDelims.less (h : s.MoreDelims s' d) {p : Pat} {u : List Nat} (H : p.ReadAs s'.delimiters u) : p.ReadAs s.delimiters u := by
  have := (reading_sub (g := id) (d := d) (dot := fun c => c ∉ s'.delimiters) (dot' := fun c => c ∉ s.delimiters)
    (Nat.le_trans (Nat.le_of_lt h.byte) (by decide)) (fun _ _ => rfl) (fun c hc hm => hc ((h.delims c).mpr (.inr hm))) p fun c hc => absurd rfl hc).whole H
  rwa [List.map_id] at this

/-- What is read with `d` can be read with another character instead. -/
theorem MoreDelims.replace (h : s.MoreDelims s' d) {c : Nat} (hc : c ∉ s'.delimiters) {p : Pat} (hp : ¬ p.Mentions false d) {u : List Nat}
    (H : p.ReadAs s.delimiters u) : p.ReadAs s'.delimiters (u.map fun x => if x = d then c else x) := by
  refine (reading_sub (d := d) (dot := fun c => c ∉ s.delimiters) (dot' := fun c => c ∉ s'.delimiters)
    (Nat.le_trans (Nat.le_of_lt h.byte) (by decide)) (fun x hx => if_neg hx) (fun x hx => ?_) p fun _ _ => hp).whole H
  by_cases e : x = d
  · rw [if_pos e]; exact hc
  · rw [if_neg e, h.delims]; exact fun hm => hm.elim e hx

theorem mem_of_slice {w : List Nat} {a e c : Nat} (h : c ∈ slice w a e) : c ∈ w := List.mem_of_mem_drop (List.mem_of_mem_take h)

theorem mem_of_slice_eq {w : List Nat} {a e x : Nat} {u : List Nat} (h : slice w a e = x :: u) : x ∈ w ∧ ∀ c ∈ u, c ∈ w :=
  ⟨mem_of_slice (h ▸ List.mem_cons_self ..), fun _ hc => mem_of_slice (h ▸ List.mem_cons_of_mem _ hc)⟩

theorem MoreDelims.instance (h : s.MoreDelims s' d) {w : List Nat} (hw : d ∉ w) {start : Bool} {a e : Nat} {n : String} :
    s.Instance w start a e n ↔ s'.Instance w start a e n := by
  constructor
  · intro hi
    cases hi with
    | newLine h1 => exact .newLine h1
    | newLineTimestamp h1 h2 h3 => exact .newLineTimestamp ((h.vars _).mpr h1) h2 h3
    | var h1 h2 h3 h4 h5 =>
      exact .var ((h.vars _).mpr h1) h2 h3 ((h.delims _).mpr (.inr h4)) ((h.reads fun hm => hw ((mem_of_slice_eq h3).2 _ hm)).mp h5)
    | firstTimestamp h1 h2 => exact .firstTimestamp ((h.vars _).mpr h1) h2
    | firstVar h1 h2 h3 => exact .firstVar ((h.vars _).mpr h1) h2 ((h.reads fun hm => hw (mem_of_slice hm)).mp h3)
  · intro hi
    cases hi with
    | newLine h1 => exact .newLine h1
    | newLineTimestamp h1 h2 h3 => exact .newLineTimestamp ((h.vars _).mp h1) h2 h3
    | var h1 h2 h3 h4 h5 =>
      exact .var ((h.vars _).mp h1) h2 h3 (((h.delims _).mp h4).resolve_left fun e => hw (e ▸ (mem_of_slice_eq h3).1))
        ((h.reads fun hm => hw ((mem_of_slice_eq h3).2 _ hm)).mpr h5)
    | firstTimestamp h1 h2 => exact .firstTimestamp ((h.vars _).mp h1) h2
    | firstVar h1 h2 h3 => exact .firstVar ((h.vars _).mp h1) h2 ((h.reads fun hm => hw (mem_of_slice hm)).mpr h3)

theorem slice_all (w : List Nat) : slice w 0 w.length = w := by simp [slice]

theorem agree_of_delims (h : s.MoreDelims s' d) (hacc : s'.Accepted) {text : List Nat} (ht : d ∉ text) : s.Agree s' text := by
  refine ⟨fun c hc => ?_, fun _ _ _ _ _ _ => h.instance ht, ?_, ?_⟩
  · rw [h.delims]
    exact ⟨.inr, fun H => H.resolve_left fun e => ht (e ▸ hc)⟩
  · rintro j ⟨v, n, h1, h2⟩
    generalize hl : (text.take j ++ v).length = l at h2
    generalize hz : (0 : Nat) = z at h2
    generalize hb : true = b at h2
    cases h2 with
    | newLine => cases hb
    | newLineTimestamp => cases hb
    | var => cases hb
    | firstTimestamp g1 g2 =>
      refine ⟨v, "firstTimestamp", h1, .firstTimestamp ((h.vars _).mpr g1) ?_⟩
      rw [hl]; exact g2
    | firstVar g1 g2 g3 =>
      obtain ⟨c, c1, c2, c3⟩ := h.other
      rw [← hl, slice_all] at g3
      have := h.replace c3 (hacc.2 _ ((h.vars _).mpr g1) g2 d (.inl ((h.delims d).mpr (.inl rfl)))) g3
      have hmap : (text.take j).map (fun x => if x = d then c else x) = text.take j := by
        conv => rhs; rw [← List.map_id (text.take j)]
        exact List.map_congr_left fun x hx => if_neg fun (e : x = d) => ht (e ▸ List.mem_of_mem_take hx)
      rw [List.map_append, hmap] at this
      refine ⟨v.map fun x => if x = d then c else x, n, fun x hx => ?_, .firstVar ((h.vars _).mpr g1) g2 ?_⟩
      · obtain ⟨y, hy, rfl⟩ := List.mem_map.mp hx
        split
        · exact ⟨c1, c2⟩
        · exact h1 y hy
      · rw [slice_all]; exact this
  · rintro j _ ⟨v, n, h1, h2⟩
    refine ⟨v, n, h1, ?_⟩
    generalize (text.take j ++ v).length = l at h2 ⊢
    generalize text.take j ++ v = w at h2 ⊢
    generalize hz : (0 : Nat) = z at h2
    generalize hb : true = b at h2
    cases h2 with
    | newLine => cases hb
    | newLineTimestamp => cases hb
    | var => cases hb
    | firstTimestamp g1 g2 => exact .firstTimestamp ((h.vars _).mp g1) g2
    | firstVar g1 g2 g3 => exact .firstVar ((h.vars _).mp g1) g2 (h.less g3)

end SchemaText

section
variable {s s' : SchemaText} {d : Nat}

/-- C75: a further delimiter that does not occur in the text does not change how the text is divided, -/
theorem C75_division (h : s.MoreDelims s' d) (hacc : s'.Accepted) {text : List Nat} (ht : d ∉ text) {ps : List SchemaText.Piece}
    (H : s.Division text ps) : s'.Division text ps := (SchemaText.agree_of_delims h hacc ht).division H

theorem accepted_of_more (h : s.MoreDelims s' d) (hnl : 10 ∈ s.delimiters) (hacc : s'.Accepted) : s.Accepted := by
  refine ⟨fun e => ?_, fun v h1 h2 c h3 => hacc.2 v ((h.vars v).mpr h1) h2 c (h3.imp_left fun hc => (h.delims c).mpr (.inr hc))⟩
  unfold SchemaText.delimiters at hnl
  rw [e] at hnl
  cases hnl

theorem vars_of_more (h : s.MoreDelims s' d) (hv : s.vars ≠ []) : s'.vars ≠ [] := by
  obtain ⟨v, hm⟩ := List.exists_mem_of_ne_nil _ hv
  exact List.ne_nil_of_mem ((h.vars v).mpr hm)

/-- C75 (partial: as C71): nor the events. -/
theorem C75_delimiter_partial {a a' : SchemaAST} {addr addr' : Nat → Nat} {mem mem' : Mem} {inStatic outStatic inStatic' outStatic' : Nat}
    (ha : s.Builds a) (ha' : s'.Builds a') (hwf : s.Wf) (hwf' : s'.Wf) (hg : s.Good) (hacc : s'.Accepted)
    (hnl : 10 ∈ s.delimiters) (hv : s.vars ≠ []) (hn : s.Names)
    (hinj : ∀ x y, addr x = addr y → x = y) (hinj' : ∀ x y, addr' x = addr' y → x = y) (hout : 3 ≤ outStatic) (hout' : 3 ≤ outStatic')
    (h : s.MoreDelims s' d) :
    ∃ t L p t' L' p', buildLexer a addr = .ok (t, L) ∧ BufferParser.new a addr mem inStatic outStatic = .ok p ∧
      buildLexer a' addr' = .ok (t', L') ∧ BufferParser.new a' addr' mem' inStatic' outStatic' = .ok p' ∧ SameEvents s t t' p p' fun w => d ∉ w :=
  C76_agree_partial ha ha' hwf hwf' hg (fun v hm => hg v ((h.vars v).mp hm)) (accepted_of_more h hnl hacc) hacc hnl ((h.delims 10).mpr (.inr hnl)) hv
    (vars_of_more h hv) hn hinj hinj' hout hout' fun _ ht => SchemaText.agree_of_delims h hacc ht

end

section
variable {E E' : SchemaEnv} {kids kids' : Nat} {schema schema' : List Nat} {s s' : SchemaText} {addr addr' : Nat → Nat} {mem mem' : Mem} {d : Nat}
  {outStatic outStatic' h h' : Nat} {σ σ' : Type} {r : Reader σ} {r' : Reader σ'} {rest : σ → List Nat} {rest' : σ' → List Nat}

/-- C75, from the texts of the schema files on (partial: as `C75_delimiter_partial`, and the files are below 24000 bytes). -/
theorem C75_files_partial {inStatic inStatic' : Nat}
    (hE : E.Ok) (ho : E.orders.Ok (schemaGrammar (E.specials.map (·.2)))) (hl : schema.length < 24000) (hb : AllBytes schema)
    (hk : Fit kids (lexemes schema)) (hw : WrittenFile 0 (lexemes schema) s)
    (hE' : E'.Ok) (ho' : E'.orders.Ok (schemaGrammar (E'.specials.map (·.2)))) (hl' : schema'.length < 24000) (hb' : AllBytes schema')
    (hk' : Fit kids' (lexemes schema')) (hw' : WrittenFile 0 (lexemes schema') s')
    (hg : s.Good) (hacc : s'.Accepted) (hnl : 10 ∈ s.delimiters) (hv : s.vars ≠ []) (hn : s.Names)
    (hinj : ∀ x y, addr x = addr y → x = y) (hinj' : ∀ x y, addr' x = addr' y → x = y) (hout : 3 ≤ outStatic) (hout' : 3 ≤ outStatic')
    (hd : s.MoreDelims s' d) :
    ∃ n t p k t' p' k', (∀ fuel steps, n ≤ fuel → n ≤ steps →
        BufferParser.ofFile { E with fuel := fuel, steps := steps } kids (some schema) addr mem inStatic outStatic = .ok (t, p, k) ∧
        BufferParser.ofFile { E' with fuel := fuel, steps := steps } kids' (some schema') addr' mem' inStatic' outStatic' = .ok (t', p', k')) ∧
      SameEvents s t t' p p' fun w => d ∉ w :=
  C76_files_partial hE ho hl hb hk hw hE' ho' hl' hb' hk' hw' hg (fun v hm => hg v ((hd.vars v).mp hm)) (accepted_of_more hd hnl hacc) hacc hnl
    ((hd.delims 10).mpr (.inr hnl)) hv (vars_of_more hd hv) hn hinj hinj' hout hout' fun _ ht => SchemaText.agree_of_delims hd hacc ht

/-- C75 for `ReaderParser`, from the texts of the schema files on (partial: as `C75_delimiter_partial` and `C48_reader_partial`). -/
theorem C75_reader_partial (hE : E.Ok) (ho : E.orders.Ok (schemaGrammar (E.specials.map (·.2)))) (hl : schema.length < 24000) (hb : AllBytes schema)
    (hk : Fit kids (lexemes schema)) (hw : WrittenFile 0 (lexemes schema) s)
    (hinj : ∀ x y, addr x = addr y → x = y) (hout : 3 ≤ outStatic) (hh : 2 ≤ h) (hm : (mem 0).length = 2 * h) (hr : r.Full rest)
    (hE' : E'.Ok) (ho' : E'.orders.Ok (schemaGrammar (E'.specials.map (·.2)))) (hl' : schema'.length < 24000) (hb' : AllBytes schema')
    (hk' : Fit kids' (lexemes schema')) (hw' : WrittenFile 0 (lexemes schema') s')
    (hinj' : ∀ x y, addr' x = addr' y → x = y) (hout' : 3 ≤ outStatic') (hh' : 2 ≤ h') (hm' : (mem' 0).length = 2 * h') (hr' : r'.Full rest')
    (hg : s.Good) (hacc : s'.Accepted) (hnl : 10 ∈ s.delimiters) (hv : s.vars ≠ []) (hn : s.Names) (hline : s.LineTimestamps)
    (hd : s.MoreDelims s' d) (src0 : σ) (src0' : σ') :
    ∃ n, ∀ fuel steps, n ≤ fuel → n ≤ steps → ∃ t P k t' P' k',
      ReaderParser.ofFile { E with fuel := fuel, steps := steps } kids (some schema) addr mem (2 * h) outStatic src0 = .ok (t, P, k) ∧
      ReaderParser.ofFile { E' with fuel := fuel, steps := steps } kids' (some schema') addr' mem' (2 * h') outStatic' src0' = .ok (t', P', k') ∧
      SameSeen s t.getSymbolId t'.getSymbolId t.getIdSymbol t'.getIdSymbol h h' P P' r r' rest rest' fun w => d ∉ w :=
  C76_reader_partial hE ho hl hb hk hw hg (accepted_of_more hd hnl hacc) hnl hv hn hline hinj hout hh hm hr hE' ho' hl' hb' hk' hw' (fun v hm => hg v ((hd.vars v).mp hm))
    hacc ((hd.delims 10).mpr (.inr hnl)) (vars_of_more hd hv) (fun v hm => hn v ((hd.vars v).mp hm)) (fun v hm => hline v ((hd.vars v).mp hm)) hinj' hout' hh'
    hm' hr' (fun _ ht => SchemaText.agree_of_delims hd hacc ht) src0 src0'

end

namespace SchemaChangeExample
open EndToEndExample

/-- The schema with the further delimiter `:`. -/
def colon : SchemaText := { vars := [("timestamp", tsPat), ("num", .plus .digit)], delims := [[32, 10, 58]] }

theorem colon_more : text.MoreDelims colon 58 := by
  refine ⟨fun _ => Iff.rfl, fun c => ?_, by decide, 65, by decide⟩
  simp [SchemaText.delimiters, colon, text]
  omega

theorem colon_accepted : colon.Accepted := by
  refine ⟨by simp [colon], fun v hv hn d hd hm => ?_⟩
  have hv' : v = ("num", .plus .digit) := by
    simp only [colon, List.mem_cons, List.not_mem_nil, or_false] at hv
    rcases hv with rfl | rfl
    · exact absurd rfl hn
    · rfl
  subst hv'
  have hm : 48 ≤ d ∧ d ≤ 57 := hm
  simp [SchemaText.delimiters, colon] at hd
  omega

/-- The file: `delimiters: \\n:`, `timestamp:\\d \\d`, `num:\\d+`. -/
def colonFile : List Nat :=
  [100, 101, 108, 105, 109, 105, 116, 101, 114, 115, 58, 32, 92, 110, 58, 10,
    116, 105, 109, 101, 115, 116, 97, 109, 112, 58, 92, 100, 32, 92, 100, 10,
    110, 117, 109, 58, 92, 100, 43]

theorem colonFile_written : WrittenFile 0 (lexemes colonFile) colon := by
  have sp : ∀ {k}, Written .literal k [32] (.lit 32) := fun {k} => .char (.plain (by simp [Plain]))
  have cl : ∀ {k}, Written .literal k [58] (.lit 58) := fun {k} => .char (.plain (by simp [Plain]))
  have h1 : WrittenLine 0 (.delimiters :: chars (58 :: ([32] ++ [92, 110] ++ [58]))) { delims := [[32] ++ [10] ++ [58]] } :=
    .delims (.snoc (.snoc (.one sp) (.char .newline)) cl)
  have p2 : Written .seq 26 ([92, 100] ++ [32] ++ [92, 100]) tsPat :=
    .cat (.cat (.ofChoice (.ofSingle .digit)) (.ofSingle (.ofLiteral sp))) (.ofSingle .digit)
  have h2 : WrittenLine 16 _ _ := .var (i := 0) (n := [116, 105, 109, 101, 115, 116, 97, 109, 112]) ⟨by simp, by simp [AlphaNum]⟩ p2
  have p3 : Written .seq 36 ([92, 100] ++ [43]) (.plus .digit) := .ofChoice (.ofRepeated (.plus .digit))
  have h3 : WrittenLine 32 _ _ := .var (i := 0) (n := [110, 117, 109]) ⟨by simp, by simp [AlphaNum]⟩ p3
  exact .line (.line (.first h1) (.inl rfl) h2) (.inl rfl) h3

/-- C75 applies to the two schemas. -/
example : ∃ a a' t L p t' L' p', text.Builds a ∧ colon.Builds a' ∧ buildLexer a id = .ok (t, L) ∧ BufferParser.new a id (fun _ => []) 48000 48000 = .ok p ∧
    buildLexer a' id = .ok (t', L') ∧ BufferParser.new a' id (fun _ => []) 48000 48000 = .ok p' ∧
    List.Forall₂ (EventOut.Alike (fun _ => True) t.getSymbolId t'.getSymbolId) (p.parseBuffer 15 1 (log ++ [0]) 14 true).events
      (p'.parseBuffer 15 1 (log ++ [0]) 14 true).events := by
  obtain ⟨a, ha⟩ := SchemaText.Builds.exists good
  obtain ⟨a', ha'⟩ := SchemaText.Builds.exists (s := colon) fun v hm => good v ((colon_more.vars v).mp hm)
  obtain ⟨t, L, p, t', L', p', h1, h2, h3, h4, h5⟩ := C75_delimiter_partial (addr := id) (addr' := id) (mem := fun _ => []) (mem' := fun _ => [])
    (inStatic := 48000) (inStatic' := 48000) (outStatic := 48000) (outStatic' := 48000) ha ha' (writtenFile_wf file_written) (writtenFile_wf colonFile_written)
    good colon_accepted (by decide) (by simp [text]) names (fun _ _ h => h) (fun _ _ h => h) (by decide) (by decide) colon_more
  have e : (log ++ [0]).take 14 = log := rfl
  obtain ⟨_, _, g3, _⟩ := h5 p p' .new .new log 1 1 (log ++ [0]) (log ++ [0]) 14 14 15 15 e e (by decide) (by decide) (by decide) (by decide) log_bytes
    (by decide) clear (by decide)
  have : text.Only log = fun _ => True := funext fun n => propext ⟨fun _ => trivial, fun _ => only n⟩
  rw [this] at g3
  exact ⟨a, a', t, L, p, t', L', p', ha, ha', h1, h2, h3, h4, g3⟩

/-- C75 applies to the two files, logtypes included, -/
example : ∃ n t p k t' p' k', (∀ fuel steps, n ≤ fuel → n ≤ steps →
      BufferParser.ofFile { exEnv with fuel := fuel, steps := steps } 0 (some file) id (fun _ => []) 48000 48000 = .ok (t, p, k) ∧
      BufferParser.ofFile { exEnv with fuel := fuel, steps := steps } 0 (some colonFile) id (fun _ => []) 48000 48000 = .ok (t', p', k')) ∧
    List.Forall₂ (EventOut.Alike (fun _ => True) t.getSymbolId t'.getSymbolId) (p.parseBuffer 15 1 (log ++ [0]) 14 true).events
      (p'.parseBuffer 15 1 (log ++ [0]) 14 true).events ∧
    ((p.parseBuffer 15 1 (log ++ [0]) 14 true).events.map fun o => o.view.getLogtype (fun _ => log ++ [0]) t.getIdSymbol) =
    (p'.parseBuffer 15 1 (log ++ [0]) 14 true).events.map fun o => o.view.getLogtype (fun _ => log ++ [0]) t'.getIdSymbol := by
  have hb : AllBytes colonFile := by
    have : ∀ c ∈ colonFile, c < 256 := by decide
    exact this
  obtain ⟨n, t, p, k, t', p', k', h1, h2⟩ := C75_files_partial (kids := 0) (kids' := 0) (addr := id) (addr' := id) (mem := fun _ => []) (mem' := fun _ => [])
    (inStatic := 48000) (inStatic' := 48000) (outStatic := 48000) (outStatic' := 48000) exEnv_ok exEnv_orders (by decide) file_bytes (by decide) file_written
    exEnv_ok exEnv_orders (by decide) hb (by decide) colonFile_written good colon_accepted (by decide) (by simp [text]) names
    (fun _ _ h => h) (fun _ _ h => h) (by decide) (by decide) colon_more
  have e : (log ++ [0]).take 14 = log := rfl
  obtain ⟨_, _, g3, g4⟩ := h2 p p' .new .new log 1 1 (log ++ [0]) (log ++ [0]) 14 14 15 15 e e (by decide) (by decide) (by decide) (by decide) log_bytes
    (by decide) clear (by decide)
  have : text.Only log = fun _ => True := funext fun n => propext ⟨fun _ => trivial, fun _ => only n⟩
  rw [this] at g3
  exact ⟨n, t, p, k, t', p', k', h1, g3, g4 only _ _ rfl rfl⟩

/-- and for `ReaderParser`. -/
example : ∃ n, ∀ fuel steps, n ≤ fuel → n ≤ steps → ∃ t P k t' P' k',
    ReaderParser.ofFile { exEnv with fuel := fuel, steps := steps } 0 (some file) id (fun _ => List.replicate 40 0) 40 48000 [] = .ok (t, P, k) ∧
    ReaderParser.ofFile { exEnv with fuel := fuel, steps := steps } 0 (some colonFile) id (fun _ => List.replicate 60 0) 60 48000 [] = .ok (t', P', k') ∧
    (P.parseReader textReader 1 15 log).status = none ∧
    List.Forall₂ (Seen.Alike (fun _ => True) t.getSymbolId t'.getSymbolId) (P.parseReader textReader 1 15 log).events
      (P'.parseReader textReader 1 15 log).events := by
  have hb : AllBytes colonFile := by
    have : ∀ c ∈ colonFile, c < 256 := by decide
    exact this
  obtain ⟨n, h⟩ := C75_reader_partial (kids := 0) (kids' := 0) (addr := id) (addr' := id) (mem := fun _ => List.replicate 40 0)
    (mem' := fun _ => List.replicate 60 0) (outStatic := 48000) (outStatic' := 48000) (h := 20) (h' := 30) exEnv_ok exEnv_orders (by decide) file_bytes
    (by decide) file_written (fun _ _ h => h) (by decide) (by decide) (by simp) textReader_full
    exEnv_ok exEnv_orders (by decide) hb (by decide) colonFile_written (fun _ _ h => h) (by decide) (by decide) (by simp) textReader_full
    good colon_accepted (by decide) (by simp [text]) names lineTimestamps colon_more [] []
  refine ⟨n, fun fuel steps f1 f2 => ?_⟩
  obtain ⟨t, P, k, t', P', k', h1, h2, h3⟩ := h fuel steps f1 f2
  obtain ⟨ps, xs, _, _, h4, h5, h6⟩ := h3 log log log rfl rfl log_bytes (by decide) (by decide) (by decide) clear (by decide)
  obtain ⟨g1, _, g3, _⟩ := h6 (h4 (by decide)) (h5 (by decide)) 1 1 15 15 (by decide) (by decide) (by decide) (by decide)
  have : text.Only log = fun _ => True := funext fun n => propext ⟨fun _ => trivial, fun _ => only n⟩
  rw [this] at g3
  exact ⟨t, P, k, t', P', k', h1, h2, g1, g3⟩

end SchemaChangeExample

end LogSurgeon
