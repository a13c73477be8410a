import Verif.Proofs.SchemaChange
import Verif.Props.Schema
import Verif.Props.LogEvent
/-
C71–C73, C76: changes of a schema that do not matter.

The reader needs: Spec/EndToEnd.lean (`Instance`, `Division`) and Spec/SchemaChange.lean (`EventOut.Alike`, `Only`, `Unused`).
-/
namespace LogSurgeon
open Grammar

namespace SchemaText
variable {s s' : SchemaText} {text : List Nat}

theorem readAs_congr {ds ds' : List Nat} (h : ∀ d, d ∈ ds ↔ d ∈ ds') (p : Pat) (u : List Nat) : p.ReadAs ds u ↔ p.ReadAs ds' u := by
  unfold Pat.ReadAs
  have : (fun c => c ∉ ds) = fun c => c ∉ ds' := funext fun c => propext (not_congr (h c))
  rw [this]

theorem instance_mono (hv : ∀ v, v ∈ s.vars → v ∈ s'.vars) (hd : ∀ d, d ∈ s.delimiters ↔ d ∈ s'.delimiters) {w : List Nat} {start : Bool} {a e : Nat}
    {n : String} (h : s.Instance w start a e n) : s'.Instance w start a e n := by
  cases h with
  | newLine h1 => exact .newLine h1
  | newLineTimestamp h1 h2 h3 => exact .newLineTimestamp (hv _ h1) h2 h3
  | var h1 h2 h3 h4 h5 => exact .var (hv _ h1) h2 h3 ((hd _).mp h4) ((readAs_congr hd _ _).mp h5)
  | firstTimestamp h1 h2 => exact .firstTimestamp (hv _ h1) h2
  | firstVar h1 h2 h3 => exact .firstVar (hv _ h1) h2 ((readAs_congr hd _ _).mp h3)

theorem opens_mono (hv : ∀ v, v ∈ s.vars → v ∈ s'.vars) (hd : ∀ d, d ∈ s.delimiters ↔ d ∈ s'.delimiters) {j : Nat} (h : s.Opens text j) : s'.Opens text j := by
  obtain ⟨v, n, h1, h2⟩ := h
  exact ⟨v, n, h1, instance_mono hv hd h2⟩

theorem agree_of_same (hv : ∀ v, v ∈ s.vars ↔ v ∈ s'.vars) (hd : ∀ d, d ∈ s.delimiters ↔ d ∈ s'.delimiters) : s.Agree s' text :=
  ⟨fun d _ => hd d, fun _ _ _ _ _ _ => ⟨instance_mono (fun v => (hv v).mp) hd, instance_mono (fun v => (hv v).mpr) fun d => (hd d).symm⟩,
    fun _ => opens_mono (fun v => (hv v).mp) hd, fun _ _ => opens_mono (fun v => (hv v).mpr) fun d => (hd d).symm⟩

theorem ReadsAlike.symm (h : s.ReadsAlike s') : s'.ReadsAlike s := ⟨fun d => (h.1 d).symm, fun n u => (h.2 n u).symm⟩

theorem ReadsAlike.inst (h : s.ReadsAlike s') {w : List Nat} {start : Bool} {a e : Nat} {n : String} (hi : s.Instance w start a e n) :
    s'.Instance w start a e n := by
  have ts : ∀ {p u}, ("timestamp", p) ∈ s.vars → p.ReadAs [] u → ∃ p', ("timestamp", p') ∈ s'.vars ∧ p'.ReadAs [] u := fun {p u} h1 h2 => by
    have := (h.2 "timestamp" u).mp ⟨p, h1, by rwa [if_pos rfl]⟩
    simpa only [if_pos] using this
  have var : ∀ {n p u}, (n, p) ∈ s.vars → n ≠ "timestamp" → p.ReadAs s.delimiters u → ∃ p', (n, p') ∈ s'.vars ∧ p'.ReadAs s'.delimiters u := fun {n p u} h1 h2 h3 => by
    have := (h.2 n u).mp ⟨p, h1, by rwa [if_neg h2]⟩
    simpa only [if_neg h2] using this
  cases hi with
  | newLine h1 => exact .newLine h1
  | newLineTimestamp h1 h2 h3 => obtain ⟨p', g1, g2⟩ := ts h1 h3; exact .newLineTimestamp g1 h2 g2
  | var h1 h2 h3 h4 h5 => obtain ⟨p', g1, g2⟩ := var h1 h2 h5; exact .var g1 h2 h3 ((h.1 _).mp h4) g2
  | firstTimestamp h1 h2 => obtain ⟨p', g1, g2⟩ := ts h1 h2; exact .firstTimestamp g1 g2
  | firstVar h1 h2 h3 => obtain ⟨p', g1, g2⟩ := var h1 h2 h3; exact .firstVar g1 h2 g2

theorem agree_of_alike (h : s.ReadsAlike s') : s.Agree s' text :=
  ⟨fun d _ => h.1 d, fun _ _ _ _ _ _ => ⟨h.inst, h.symm.inst⟩, fun _ ⟨v, n, h1, h2⟩ => ⟨v, n, h1, h.inst h2⟩, fun _ _ ⟨v, n, h1, h2⟩ => ⟨v, n, h1, h.symm.inst h2⟩⟩

/-- An instance by a schema with one more variable. -/
theorem instance_add {x : String × Pat} (hv : ∀ v, v ∈ s'.vars ↔ v = x ∨ v ∈ s.vars) (hd : s'.delims = s.delims) {w : List Nat} {start : Bool} {a e : Nat}
    {n : String} (hn : x.1 ≠ "newLine") (h : s'.Instance w start a e n) :
    s.Instance w start a e n ∨ (n ≠ "newLine" ∧ ({ s with vars := [x] } : SchemaText).Instance w start a e n) := by
  have hdel : s'.delimiters = s.delimiters := by unfold delimiters; rw [hd]
  have hdel1 : ({ s with vars := [x] } : SchemaText).delimiters = s.delimiters := rfl
  cases h with
  | newLine h1 => exact .inl (.newLine h1)
  | newLineTimestamp h1 h2 h3 =>
    rcases (hv _).mp h1 with rfl | h1
    · exact .inr ⟨by decide, .newLineTimestamp (List.mem_singleton_self _) h2 h3⟩
    · exact .inl (.newLineTimestamp h1 h2 h3)
  | var h1 h2 h3 h4 h5 =>
    rw [hdel] at h4 h5
    rcases (hv _).mp h1 with rfl | h1
    · exact .inr ⟨hn, .var (List.mem_singleton_self _) h2 h3 h4 h5⟩
    · exact .inl (.var h1 h2 h3 h4 h5)
  | firstTimestamp h1 h2 =>
    rcases (hv _).mp h1 with rfl | h1
    · exact .inr ⟨by decide, .firstTimestamp (List.mem_singleton_self _) h2⟩
    · exact .inl (.firstTimestamp h1 h2)
  | firstVar h1 h2 h3 =>
    rw [hdel] at h3
    rcases (hv _).mp h1 with rfl | h1
    · exact .inr ⟨hn, .firstVar (List.mem_singleton_self _) h2 h3⟩
    · exact .inl (.firstVar h1 h2 h3)

theorem agree_of_unused {x : String × Pat} (hv : ∀ v, v ∈ s'.vars ↔ v = x ∨ v ∈ s.vars) (hd : s'.delims = s.delims) (hn : x.1 ≠ "newLine")
    (hx : s.Unused x text) : s.Agree s' text := by
  have hdel : ∀ d, d ∈ s.delimiters ↔ d ∈ s'.delimiters := fun d => by unfold delimiters; rw [hd]
  have hm : ∀ v, v ∈ s.vars → v ∈ s'.vars := fun v h => (hv v).mpr (.inr h)
  refine ⟨fun d _ => hdel d, fun start a e n h1 h2 => ⟨instance_mono hm hdel, fun h => ?_⟩, fun _ => opens_mono hm hdel, fun j hj h => ?_⟩
  · rcases instance_add hv hd hn h with h | ⟨h3, h4⟩
    · exact h
    · exact absurd h4 (hx.1 start a e n h1 h2 h3)
  · obtain ⟨v, n, h1, h2⟩ := h
    rcases instance_add hv hd hn h2 with h2 | ⟨_, h2⟩
    · exact ⟨v, n, h1, h2⟩
    · exact absurd ⟨v, n, h1, h2⟩ (hx.2 j hj)

theorem ids_of_tables {a : SchemaAST} {addr : Nat → Nat} {t : ParserTables} {L : Lexer} (h : buildLexer a addr = .ok (t, L)) : Ids t.getSymbolId := by
  obtain ⟨h1, _, h3, _⟩ := C16_bijection h
  refine ⟨fun n m i hn hm => ?_, h3 ("$end", 0) (by simp), h3 ("$UncaughtString", 1) (by simp), h3 ("firstTimestamp", 5) (by simp),
    h3 ("newLineTimestamp", 6) (by simp), h3 ("newLine", 7) (by simp)⟩
  have := ((h1 n i).mp hn).symm.trans ((h1 m i).mp hm)
  exact Option.some.inj this

theorem instance_name {a : SchemaAST} {addr : Nat → Nat} {t : ParserTables} {L : Lexer} (ha : s.Builds a) (h : buildLexer a addr = .ok (t, L))
    {start : Bool} {x e : Nat} {n : String} (hi : s.Instance text start x e n) : ∃ i, t.getSymbolId n = some i := by
  obtain ⟨_, _, _, h4⟩ := C16_bijection h
  rw [h4]
  have hvar : ∀ {p : Pat}, (n, p) ∈ s.vars → n ≠ "timestamp" → ∃ v ∈ a.vars, v.name = n ∧ n ≠ "timestamp" := fun h1 h2 => by
    obtain ⟨v, hv1, hv2, _⟩ := ha.var h1
    exact ⟨v, hv1, hv2, h2⟩
  cases hi with
  | newLine h1 => exact .inl (by simp)
  | newLineTimestamp h1 h2 h3 => exact .inl (by simp)
  | var h1 h2 h3 h4 h5 => exact .inr (hvar h1 h2)
  | firstTimestamp h1 h2 => exact .inl (by simp)
  | firstVar h1 h2 h3 => exact .inr (hvar h1 h2)

/-- There is no instance of a name that begins with `$`. -/
theorem Names.none (h : s.Names) {start : Bool} {x e : Nat} {n : String} (hn : n = "$end") (hi : s.Instance text start x e n) : False := by
  subst hn
  generalize hm : "$end" = m at hi
  cases hi with
  | newLine h1 => exact absurd hm (by decide)
  | newLineTimestamp h1 h2 h3 => exact absurd hm (by decide)
  | var h1 h2 h3 h4 h5 => exact h _ h1 (by simp [← hm])
  | firstTimestamp h1 h2 => exact absurd hm (by decide)
  | firstVar h1 h2 h3 => exact h _ h1 (by simp [← hm])

end SchemaText

section
variable {s s' : SchemaText} {a a' : SchemaAST} {addr addr' : Nat → Nat} {mem mem' : Mem} {inStatic outStatic inStatic' outStatic' : Nat}

/-- C76: if two schemas find the same in a text, they divide it into the same pieces, -/
theorem C76_division {text : List Nat} (h : s.Agree s' text) {ps : List SchemaText.Piece} (H : s.Division text ps) : s'.Division text ps := h.division H

/-- C76 (partial: as C71): and the events of the parsers made from them are alike. -/
theorem C76_agree_partial (ha : s.Builds a) (ha' : s'.Builds a') (hwf : s.Wf) (hwf' : s'.Wf) (hg : s.Good) (hg' : s'.Good) (hacc : s.Accepted)
    (hacc' : s'.Accepted) (hnl : 10 ∈ s.delimiters) (hnl' : 10 ∈ s'.delimiters) (hv : s.vars ≠ []) (hv' : s'.vars ≠ []) (hn : s.Names)
    (hinj : ∀ x y, addr x = addr y → x = y) (hinj' : ∀ x y, addr' x = addr' y → x = y) (hout : 3 ≤ outStatic) (hout' : 3 ≤ outStatic')
    {Ok : List Nat → Prop} (hag : ∀ text, Ok text → s.Agree s' text) :
    ∃ t L p t' L' p', buildLexer a addr = .ok (t, L) ∧ BufferParser.new a addr mem inStatic outStatic = .ok p ∧
      buildLexer a' addr' = .ok (t', L') ∧ BufferParser.new a' addr' mem' inStatic' outStatic' = .ok p' ∧ SameEvents s t t' p p' Ok := by
  obtain ⟨t, L, p, h1, h2, h3⟩ := C48_ast_events_partial (mem := mem) (inStatic := inStatic) ha hwf hg hacc hnl hv hinj hout
  obtain ⟨t', L', p', h1', h2', h3'⟩ := C48_ast_events_partial (mem := mem') (inStatic := inStatic') ha' hwf' hg' hacc' hnl' hv' hinj' hout'
  refine ⟨t, L, p, t', L', p', h1, h2, h1', h2', ?_⟩
  intro q q' hq hq' text ptr ptr' content content' size size' k k' htx htx' hs hs' hk hk' hb hfd hcl hok
  have hA := hag text hok
  obtain ⟨g1, _, ps, xs, g3, g4, g5⟩ := h3 q hq ptr content size k hs hk (htx ▸ hb) (htx ▸ hfd)
  obtain ⟨g1', _, ps', xs', g3', g4', g5'⟩ := h3' q' hq' ptr' content' size' k' hs' hk' (htx' ▸ hb) (htx' ▸ hfd)
  rw [htx] at g3 g4 g5
  rw [htx'] at g3' g4' g5'
  obtain rfl := (hA.division g3).unique g3'
  have hI := SchemaText.ids_of_tables h1
  have hI' := SchemaText.ids_of_tables h1'
  have hnm : ∀ n start x e, x < e → e ≤ text.length → s.Instance text start x e n → ((∃ i, t.getSymbolId n = some i) ∧ ∃ i, t'.getSymbolId n = some i) :=
    fun n start x e b1 b2 hi => ⟨SchemaText.instance_name ha h1 hi, SchemaText.instance_name ha' h1' ((hA.inst _ _ _ _ b1 b2).mp hi)⟩
  have halike : ∀ {ps xs xs'}, (∀ q ∈ ps, SchemaText.Piece.Fine s text q) → List.Forall₂ (SchemaText.Piece.Is s t.getSymbolId text) ps xs →
      List.Forall₂ (SchemaText.Piece.Is s' t'.getSymbolId text) ps xs' →
      List.Forall₂ (PTok.Alike (s.Only text) t.getSymbolId t'.getSymbolId) xs xs' := by
    intro ps xs xs' hf hx hx'
    induction hx generalizing xs' with
    | nil => cases hx'; exact .nil
    | cons b1 b2 ih =>
      cases hx' with
      | cons c1 c2 =>
        rw [List.forall_mem_cons] at hf
        exact .cons (hA.alike hI hI' hnm (fun n hn => hn) hf.1 b1 c1) (ih hf.2 c2)
  have hxs := halike g3.fine g4 g4'
  have hL : Lines (s.Only text) t.getSymbolId t'.getSymbolId :=
    ⟨hI, hI', fun start x e m _ _ hi _ => (hn.none rfl hi).elim, hcl.1, hcl.2.1, hcl.2.2⟩
  have hev := (segment_alike hL text hxs).1
  refine ⟨g1, g1', alike_all_shows hev g5 g5', fun hall m m' hm hm' => ?_⟩
  have hC : a.Compiled addr t L := ⟨ha.sensible hwf fun v hv => (hg v hv).1, hinj, h1⟩
  have hC' : a'.Compiled addr' t' L' := ⟨ha'.sensible hwf' fun v hv => (hg' v hv).1, hinj', h1'⟩
  have hva : a.vars ≠ [] := fun e => hv (by have := ha.2; rw [e] at this; cases hvs : s.vars with | nil => rfl | cons v vs => rw [hvs] at this; cases this)
  have hva' : a'.vars ≠ [] := fun e => hv' (by have := ha'.2; rw [e] at this; cases hvs : s'.vars with | nil => rfl | cons v vs => rw [hvs] at this; cases this)
  have hid := idle_used hC hva (idle_new h1 h2 hout) hq
  have hid' := idle_used hC' hva' (idle_new h1' h2' hout') hq'
  refine alike_all_logtypes hall hI hI' (C16_bijection h1).1 (C16_bijection h1').1 hev g5 g5' (fun o ho => ?_) fun o ho => ?_
  · obtain ⟨e, b1, b2⟩ := C24_logtype hC hva hid true ptr (Nat.le_of_lt hs) (fun _ => hs) hk ho hm
    rw [htx] at b1 b2
    exact ⟨e, b1, b2⟩
  · obtain ⟨e, b1, b2⟩ := C24_logtype hC' hva' hid' true ptr' (Nat.le_of_lt hs') (fun _ => hs') hk' ho hm'
    rw [htx'] at b1 b2
    exact ⟨e, b1, b2⟩

/-- C71: which variables a schema declares matters, in which order does not: the text is divided into the same pieces. -/
theorem C71_division (hvars : ∀ v, v ∈ s.vars ↔ v ∈ s'.vars) (hdel : ∀ d, d ∈ s.delimiters ↔ d ∈ s'.delimiters) {text : List Nat} {ps : List SchemaText.Piece} :
    s.Division text ps ↔ s'.Division text ps :=
  ⟨(SchemaText.agree_of_same hvars hdel).division, (SchemaText.agree_of_same (fun v => (hvars v).symm) fun d => (hdel d).symm).division⟩

/-- C71 (partial: newlines and timestamps must be nothing else in the text, a byte behind the input, no byte 0xFD in it): two schemas that declare the same
variables and delimiters in different orders (or more than once) give parsers for which the events of every text are alike. -/
theorem C71_order_partial (ha : s.Builds a) (ha' : s'.Builds a') (hwf : s.Wf) (hwf' : s'.Wf) (hg : s.Good) (hacc : s.Accepted)
    (hnl : 10 ∈ s.delimiters) (hv : s.vars ≠ []) (hn : s.Names)
    (hinj : ∀ x y, addr x = addr y → x = y) (hinj' : ∀ x y, addr' x = addr' y → x = y) (hout : 3 ≤ outStatic) (hout' : 3 ≤ outStatic')
    (hvars : ∀ v, v ∈ s.vars ↔ v ∈ s'.vars) (hdel : ∀ d, d ∈ s.delimiters ↔ d ∈ s'.delimiters) :
    ∃ t L p t' L' p', buildLexer a addr = .ok (t, L) ∧ BufferParser.new a addr mem inStatic outStatic = .ok p ∧
      buildLexer a' addr' = .ok (t', L') ∧ BufferParser.new a' addr' mem' inStatic' outStatic' = .ok p' ∧ SameEvents s t t' p p' fun _ => True := by
  refine C76_agree_partial ha ha' hwf hwf' hg (fun v h => hg v ((hvars v).mpr h)) hacc ⟨?_, fun v h1 h2 d h3 => ?_⟩ hnl ((hdel 10).mp hnl) hv ?_ hn hinj hinj' hout hout'
    fun text _ => SchemaText.agree_of_same hvars hdel
  · intro h
    have := (hdel 10).mp hnl
    unfold SchemaText.delimiters at this
    rw [h] at this
    cases this
  · exact hacc.2 v ((hvars v).mpr h1) h2 d (h3.imp_left (hdel d).mpr)
  · obtain ⟨v, h⟩ := List.exists_mem_of_ne_nil _ hv
    exact List.ne_nil_of_mem ((hvars v).mp h)

/-- C72: a further variable of which nothing occurs in the text does not change how the text is divided. -/
theorem C72_division {x : String × Pat} (hvars : ∀ v, v ∈ s'.vars ↔ v = x ∨ v ∈ s.vars) (hdel : s'.delims = s.delims) (hx : x.1 ≠ "newLine") {text : List Nat}
    (hun : s.Unused x text) {ps : List SchemaText.Piece} (h : s.Division text ps) : s'.Division text ps :=
  (SchemaText.agree_of_unused hvars hdel hx hun).division h

/-- C72 (partial: as C71): a schema with a further variable (wherever it is declared) gives a parser for which the events of every text in which the variable
does not occur are alike. -/
theorem C72_unused_partial {x : String × Pat} (ha : s.Builds a) (ha' : s'.Builds a') (hwf : s.Wf) (hwf' : s'.Wf) (hg : s'.Good) (hacc : s'.Accepted)
    (hnl : 10 ∈ s.delimiters) (hv : s.vars ≠ []) (hn : s'.Names)
    (hinj : ∀ x y, addr x = addr y → x = y) (hinj' : ∀ x y, addr' x = addr' y → x = y) (hout : 3 ≤ outStatic) (hout' : 3 ≤ outStatic')
    (hvars : ∀ v, v ∈ s'.vars ↔ v = x ∨ v ∈ s.vars) (hdel : s'.delims = s.delims) :
    ∃ t L p t' L' p', buildLexer a addr = .ok (t, L) ∧ BufferParser.new a addr mem inStatic outStatic = .ok p ∧
      buildLexer a' addr' = .ok (t', L') ∧ BufferParser.new a' addr' mem' inStatic' outStatic' = .ok p' ∧ SameEvents s t t' p p' (s.Unused x) := by
  have hd : s'.delimiters = s.delimiters := by unfold SchemaText.delimiters; rw [hdel]
  have hx : x.1 ≠ "newLine" := fun e => hn x ((hvars x).mpr (.inl rfl)) (by simp [e])
  refine C76_agree_partial ha ha' hwf hwf' (fun v h => hg v ((hvars v).mpr (.inr h))) hg ⟨hdel ▸ hacc.1, fun v h1 h2 d h3 => ?_⟩ hacc hnl (hd ▸ hnl) hv
    (List.ne_nil_of_mem ((hvars x).mpr (.inl rfl))) (fun v h => hn v ((hvars v).mpr (.inr h))) hinj hinj' hout hout'
    fun text h => SchemaText.agree_of_unused hvars hdel hx h
  exact hacc.2 v ((hvars v).mpr (.inr h1)) h2 d (hd ▸ h3)

/-- C73: patterns that read the same strings are interchangeable: the text is divided into the same pieces. -/
theorem C73_division (h : s.ReadsAlike s') {text : List Nat} {ps : List SchemaText.Piece} : s.Division text ps ↔ s'.Division text ps :=
  ⟨(SchemaText.agree_of_alike h).division, (SchemaText.agree_of_alike h.symm).division⟩

/-- C73 (partial: as C71): two schemas with the same delimiters that read the same strings as instances of each name give parsers for which the events of every
text are alike.  (Both have to be accepted: a pattern that only mentions a delimiter is rejected, C15.) -/
theorem C73_equivalent_partial (ha : s.Builds a) (ha' : s'.Builds a') (hwf : s.Wf) (hwf' : s'.Wf) (hg : s.Good) (hg' : s'.Good) (hacc : s.Accepted)
    (hacc' : s'.Accepted) (hnl : 10 ∈ s.delimiters) (hv : s.vars ≠ []) (hv' : s'.vars ≠ []) (hn : s.Names)
    (hinj : ∀ x y, addr x = addr y → x = y) (hinj' : ∀ x y, addr' x = addr' y → x = y) (hout : 3 ≤ outStatic) (hout' : 3 ≤ outStatic')
    (h : s.ReadsAlike s') :
    ∃ t L p t' L' p', buildLexer a addr = .ok (t, L) ∧ BufferParser.new a addr mem inStatic outStatic = .ok p ∧
      buildLexer a' addr' = .ok (t', L') ∧ BufferParser.new a' addr' mem' inStatic' outStatic' = .ok p' ∧ SameEvents s t t' p p' fun _ => True :=
  C76_agree_partial ha ha' hwf hwf' hg hg' hacc hacc' hnl ((h.1 10).mp hnl) hv hv' hn hinj hinj' hout hout' fun _ _ => SchemaText.agree_of_alike h

end

/-! ### From the texts of the schema files -/

section
variable {E E' : SchemaEnv} {kids kids' : Nat} {schema schema' : List Nat} {s s' : SchemaText} {addr addr' : Nat → Nat} {mem mem' : Mem}
  {inStatic outStatic inStatic' outStatic' : Nat}

/-- The constructor for a schema file reads the file and makes the parser of its AST. -/
theorem ofFile_of_builds (hE : E.Ok) (ho : E.orders.Ok (schemaGrammar (E.specials.map (·.2)))) (hl : schema.length < 24000) (hb : AllBytes schema)
    (hk : Fit kids (lexemes schema)) (hw : WrittenFile 0 (lexemes schema) s) {a : SchemaAST} (ha : s.Builds a) {t : ParserTables} {L : Lexer} {p : BufferParser}
    (h1 : buildLexer a addr = .ok (t, L)) (h2 : BufferParser.new a addr mem inStatic outStatic = .ok p) :
    ∃ n k, ∀ fuel steps, n ≤ fuel → n ≤ steps →
      BufferParser.ofFile { E with fuel := fuel, steps := steps } kids (some schema) addr mem inStatic outStatic = .ok (t, p, k) := by
  obtain ⟨n, k, h⟩ := schema_complete hE ho hl hb (file_delivers hl) hk hw ha
  refine ⟨n, k, fun fuel steps g1 g2 => ?_⟩
  have he : trySchemaFile { E with fuel := fuel, steps := steps } kids (some schema) = .ok (a, k) := h fuel steps g1 g2
  exact (ofFile_eq he).mpr ⟨t, L, h1, h2, rfl⟩

/-- C76, from the texts of the schema files on (partial: as `C76_agree_partial`, and the files are below 24000 bytes). -/
theorem C76_files_partial (hE : E.Ok) (ho : E.orders.Ok (schemaGrammar (E.specials.map (·.2)))) (hl : schema.length < 24000) (hb : AllBytes schema)
    (hk : Fit kids (lexemes schema)) (hw : WrittenFile 0 (lexemes schema) s)
    (hE' : E'.Ok) (ho' : E'.orders.Ok (schemaGrammar (E'.specials.map (·.2)))) (hl' : schema'.length < 24000) (hb' : AllBytes schema')
    (hk' : Fit kids' (lexemes schema')) (hw' : WrittenFile 0 (lexemes schema') s')
    (hg : s.Good) (hg' : s'.Good) (hacc : s.Accepted) (hacc' : s'.Accepted) (hnl : 10 ∈ s.delimiters) (hnl' : 10 ∈ s'.delimiters) (hv : s.vars ≠ [])
    (hv' : s'.vars ≠ []) (hn : s.Names)
    (hinj : ∀ x y, addr x = addr y → x = y) (hinj' : ∀ x y, addr' x = addr' y → x = y) (hout : 3 ≤ outStatic) (hout' : 3 ≤ outStatic')
    {Ok : List Nat → Prop} (hag : ∀ text, Ok text → s.Agree s' text) :
    ∃ n t p k t' p' k', (∀ fuel steps, n ≤ fuel → n ≤ steps →
        BufferParser.ofFile { E with fuel := fuel, steps := steps } kids (some schema) addr mem inStatic outStatic = .ok (t, p, k) ∧
        BufferParser.ofFile { E' with fuel := fuel, steps := steps } kids' (some schema') addr' mem' inStatic' outStatic' = .ok (t', p', k')) ∧
      SameEvents s t t' p p' Ok := by
  obtain ⟨a, ha⟩ := SchemaText.Builds.exists hg
  obtain ⟨a', ha'⟩ := SchemaText.Builds.exists hg'
  obtain ⟨t, L, p, t', L', p', h1, h2, h3, h4, h5⟩ := C76_agree_partial (mem := mem) (mem' := mem') (inStatic := inStatic) (inStatic' := inStatic') ha ha'
    (writtenFile_wf hw) (writtenFile_wf hw') hg hg' hacc hacc' hnl hnl' hv hv' hn hinj hinj' hout hout' hag
  obtain ⟨n, k, g⟩ := ofFile_of_builds hE ho hl hb hk hw ha h1 h2
  obtain ⟨n', k', g'⟩ := ofFile_of_builds hE' ho' hl' hb' hk' hw' ha' h3 h4
  exact ⟨max n n', t, p, k, t', p', k', fun fuel steps f1 f2 => ⟨g fuel steps (by omega) (by omega), g' fuel steps (by omega) (by omega)⟩, h5⟩

/-- C71, from the texts of the schema files on (partial: as `C71_order_partial`, and the files are below 24000 bytes): two schema files that declare the same variables
and delimiters give parsers for which the events of every text are alike. -/
theorem C71_files_partial (hE : E.Ok) (ho : E.orders.Ok (schemaGrammar (E.specials.map (·.2)))) (hl : schema.length < 24000) (hb : AllBytes schema)
    (hk : Fit kids (lexemes schema)) (hw : WrittenFile 0 (lexemes schema) s)
    (hE' : E'.Ok) (ho' : E'.orders.Ok (schemaGrammar (E'.specials.map (·.2)))) (hl' : schema'.length < 24000) (hb' : AllBytes schema')
    (hk' : Fit kids' (lexemes schema')) (hw' : WrittenFile 0 (lexemes schema') s')
    (hg : s.Good) (hacc : s.Accepted) (hnl : 10 ∈ s.delimiters) (hv : s.vars ≠ []) (hn : s.Names)
    (hinj : ∀ x y, addr x = addr y → x = y) (hinj' : ∀ x y, addr' x = addr' y → x = y) (hout : 3 ≤ outStatic) (hout' : 3 ≤ outStatic')
    (hvars : ∀ v, v ∈ s.vars ↔ v ∈ s'.vars) (hdel : ∀ d, d ∈ s.delimiters ↔ d ∈ s'.delimiters) :
    ∃ n t p k t' p' k', (∀ fuel steps, n ≤ fuel → n ≤ steps →
        BufferParser.ofFile { E with fuel := fuel, steps := steps } kids (some schema) addr mem inStatic outStatic = .ok (t, p, k) ∧
        BufferParser.ofFile { E' with fuel := fuel, steps := steps } kids' (some schema') addr' mem' inStatic' outStatic' = .ok (t', p', k')) ∧
      SameEvents s t t' p p' fun _ => True := by
  obtain ⟨a, ha⟩ := SchemaText.Builds.exists hg
  obtain ⟨a', ha'⟩ := SchemaText.Builds.exists (s := s') fun v h => hg v ((hvars v).mpr h)
  obtain ⟨t, L, p, t', L', p', h1, h2, h3, h4, h5⟩ := C71_order_partial (mem := mem) (mem' := mem') (inStatic := inStatic) (inStatic' := inStatic') ha ha'
    (writtenFile_wf hw) (writtenFile_wf hw') hg hacc hnl hv hn hinj hinj' hout hout' hvars hdel
  obtain ⟨n, k, g⟩ := ofFile_of_builds hE ho hl hb hk hw ha h1 h2
  obtain ⟨n', k', g'⟩ := ofFile_of_builds hE' ho' hl' hb' hk' hw' ha' h3 h4
  exact ⟨max n n', t, p, k, t', p', k', fun fuel steps f1 f2 => ⟨g fuel steps (by omega) (by omega), g' fuel steps (by omega) (by omega)⟩, h5⟩

/-- C72, from the texts of the schema files on (partial: as `C72_unused_partial`, and the files are below 24000 bytes). -/
theorem C72_files_partial (hE : E.Ok) (ho : E.orders.Ok (schemaGrammar (E.specials.map (·.2)))) (hl : schema.length < 24000) (hb : AllBytes schema)
    (hk : Fit kids (lexemes schema)) (hw : WrittenFile 0 (lexemes schema) s)
    (hE' : E'.Ok) (ho' : E'.orders.Ok (schemaGrammar (E'.specials.map (·.2)))) (hl' : schema'.length < 24000) (hb' : AllBytes schema')
    (hk' : Fit kids' (lexemes schema')) (hw' : WrittenFile 0 (lexemes schema') s') {x : String × Pat}
    (hg : s'.Good) (hacc : s'.Accepted) (hnl : 10 ∈ s.delimiters) (hv : s.vars ≠ []) (hn : s'.Names)
    (hinj : ∀ x y, addr x = addr y → x = y) (hinj' : ∀ x y, addr' x = addr' y → x = y) (hout : 3 ≤ outStatic) (hout' : 3 ≤ outStatic')
    (hvars : ∀ v, v ∈ s'.vars ↔ v = x ∨ v ∈ s.vars) (hdel : s'.delims = s.delims) :
    ∃ n t p k t' p' k', (∀ fuel steps, n ≤ fuel → n ≤ steps →
        BufferParser.ofFile { E with fuel := fuel, steps := steps } kids (some schema) addr mem inStatic outStatic = .ok (t, p, k) ∧
        BufferParser.ofFile { E' with fuel := fuel, steps := steps } kids' (some schema') addr' mem' inStatic' outStatic' = .ok (t', p', k')) ∧
      SameEvents s t t' p p' (s.Unused x) := by
  obtain ⟨a, ha⟩ := SchemaText.Builds.exists (s := s) fun v h => hg v ((hvars v).mpr (.inr h))
  obtain ⟨a', ha'⟩ := SchemaText.Builds.exists hg
  obtain ⟨t, L, p, t', L', p', h1, h2, h3, h4, h5⟩ := C72_unused_partial (mem := mem) (mem' := mem') (inStatic := inStatic) (inStatic' := inStatic') ha ha'
    (writtenFile_wf hw) (writtenFile_wf hw') hg hacc hnl hv hn hinj hinj' hout hout' hvars hdel
  obtain ⟨n, k, g⟩ := ofFile_of_builds hE ho hl hb hk hw ha h1 h2
  obtain ⟨n', k', g'⟩ := ofFile_of_builds hE' ho' hl' hb' hk' hw' ha' h3 h4
  exact ⟨max n n', t, p, k, t', p', k', fun fuel steps f1 f2 => ⟨g fuel steps (by omega) (by omega), g' fuel steps (by omega) (by omega)⟩, h5⟩

end

/-! ### Examples: the schema and the log of `EndToEndExample` -/

namespace SchemaChangeExample
open EndToEndExample

/-- The same with the two variables in the other order and the delimiters too, in two lines. -/
def swapped : SchemaText := { vars := [("num", .plus .digit), ("timestamp", tsPat)], delims := [[32], [10, 32]] }

/-- `z+` -/
def extra : String × Pat := ("word", .plus (.lit 122))

/-- The schema with a further variable in the middle. -/
def longer : SchemaText := { vars := [("timestamp", tsPat), extra, ("num", .plus .digit)], delims := [[32, 10]] }

theorem ts_matches {u : List Nat} (h : tsPat.atLeastOne.Matches u) : ∃ c d, u = [c, 32, d] ∧ 48 ≤ c ∧ c ≤ 57 := by
  obtain ⟨x, y, rfl, ⟨x1, x2, rfl, ⟨c, rfl, h1, h2⟩, rfl⟩, d, rfl, _⟩ := h
  exact ⟨c, d, rfl, h1, h2⟩

theorem all_of_plus {Q : Nat → Prop} {P : List Nat → Prop} (hP : ∀ w, P w → ∃ c, w = [c] ∧ Q c) {u : List Nat} (h : ∃ k, 1 ≤ k ∧ Repeat P k u) : u ≠ [] ∧ ∀ c ∈ u, Q c := by
  obtain ⟨k, hk, hr⟩ := h
  have all : ∀ k w, Repeat P k w → ∀ c ∈ w, Q c := by
    intro k w hr
    induction hr with
    | zero => simp
    | succ h _ ih =>
      obtain ⟨c, rfl, h1⟩ := hP _ h
      intro d hd
      rcases List.mem_append.mp hd with hd | hd
      · rw [List.mem_singleton] at hd; exact hd ▸ h1
      · exact ih d hd
  refine ⟨?_, all k u hr⟩
  cases hr with
  | zero => omega
  | succ h _ =>
    obtain ⟨c, rfl, _⟩ := hP _ h
    simp

theorem num_matches {ds : List Nat} {u : List Nat} (h : ((Pat.plus .digit).dotAs ds).atLeastOne.Matches u) : u ≠ [] ∧ ∀ c ∈ u, 48 ≤ c :=
  all_of_plus (Q := fun c => 48 ≤ c) (fun w hw => by obtain ⟨c, rfl, h1, _⟩ := hw; exact ⟨c, rfl, h1⟩) h

/-- In the log everything is an instance of at most one thing. -/
theorem only (n : String) : text.Only log n := by
  have var_num : ∀ {m : String} {p : Pat}, (m, p) ∈ text.vars → m ≠ "timestamp" → m = "num" ∧ p = .plus .digit := by
    intro m p h1 h2
    simp only [text, List.mem_cons, Prod.mk.injEq, List.not_mem_nil, or_false] at h1
    rcases h1 with ⟨rfl, _⟩ | h1
    · exact absurd rfl h2
    · exact h1
  have ts_pat : ∀ {p : Pat}, ("timestamp", p) ∈ text.vars → p = tsPat := by
    intro p h1
    simp only [text, List.mem_cons, Prod.mk.injEq, List.not_mem_nil, or_false] at h1
    rcases h1 with ⟨_, rfl⟩ | ⟨h, _⟩
    · rfl
    · exact absurd h (by decide)
  -- what the bytes of an instance look like
  have look : ∀ {start a e m}, text.Instance log start a e m →
      (start = false ∧ m = "newLine" ∧ slice log a e = [10]) ∨ (start = false ∧ m = "newLineTimestamp" ∧ ∃ c d, slice log a e = [10, c, 32, d]) ∨
      (start = false ∧ m = "num" ∧ ∃ d u, slice log a e = d :: u ∧ u ≠ [] ∧ ∀ c ∈ u, 48 ≤ c) ∨
      (start = true ∧ m = "firstTimestamp" ∧ ∃ c d, slice log a e = [c, 32, d]) ∨ (start = true ∧ m = "num" ∧ ∀ c ∈ slice log a e, 48 ≤ c) := by
    intro start a e m h
    rw [instance_iff log_bytes] at h
    cases h with
    | newLine h1 => exact .inl ⟨rfl, rfl, h1⟩
    | newLineTimestamp h1 h2 h3 =>
      obtain rfl := ts_pat h1
      obtain ⟨c, d, rfl, _⟩ := ts_matches h3
      exact .inr (.inl ⟨rfl, rfl, c, d, h2⟩)
    | var h1 h2 h3 h4 h5 =>
      obtain ⟨rfl, rfl⟩ := var_num h1 h2
      exact .inr (.inr (.inl ⟨rfl, rfl, _, _, h3, num_matches h5⟩))
    | firstTimestamp h1 h2 =>
      obtain rfl := ts_pat h1
      obtain ⟨c, d, h3, _⟩ := ts_matches h2
      exact .inr (.inr (.inr (.inl ⟨rfl, rfl, c, d, h3⟩)))
    | firstVar h1 h2 h3 =>
      obtain ⟨rfl, rfl⟩ := var_num h1 h2
      exact .inr (.inr (.inr (.inr ⟨rfl, rfl, (num_matches h3).2⟩)))
  intro start a e m _ _ h h'
  rcases look h with ⟨i1, rfl, i2⟩ | ⟨i1, rfl, c, d, i2⟩ | ⟨i1, rfl, d, u, i2, i3, i4⟩ | ⟨i1, rfl, c, d, i2⟩ | ⟨i1, rfl, i2⟩ <;>
    rcases look h' with ⟨j1, rfl, j2⟩ | ⟨j1, rfl, c', d', j2⟩ | ⟨j1, rfl, d', u', j2, j3, j4⟩ | ⟨j1, rfl, c', d', j2⟩ | ⟨j1, rfl, j2⟩ <;>
    first
      | rfl
      | exact absurd (i1.symm.trans j1) (by decide)
      | (exfalso; have h9 := i2.symm.trans j2; simp at h9; done)
      | (exfalso
         rw [i2] at j2
         simp only [List.cons.injEq] at j2
         obtain ⟨_, rfl⟩ := j2
         first
           | exact j3 rfl
           | exact absurd (j4 32 (by simp)) (by omega))
      | (exfalso
         rw [j2] at i2
         simp only [List.cons.injEq] at i2
         obtain ⟨_, rfl⟩ := i2
         first
           | exact i3 rfl
           | exact absurd (i4 32 (by simp)) (by omega))
      | (exfalso; rw [i2] at j2; exact absurd (j2 32 (by simp)) (by omega))
      | (exfalso; rw [j2] at i2; exact absurd (i2 32 (by simp)) (by omega))

theorem clear : text.ClearLines log := ⟨only _, only _, only _⟩

theorem names : text.Names := by
  intro v hv
  simp only [text, List.mem_cons, List.not_mem_nil, or_false] at hv
  rcases hv with rfl | rfl <;> decide

theorem wf {s : SchemaText} (hd : ∀ ds ∈ s.delims, ds ≠ [] ∧ ∀ c ∈ ds, c < 128)
    (hv : ∀ v ∈ s.vars, v ∈ text.vars ∨ v = extra) : s.Wf := by
  have hw := writtenFile_wf file_written
  refine ⟨hd, fun v h => ?_, fun v h => ?_⟩
  · rcases hv v h with h | rfl
    · exact hw.names v h
    · exact ⟨[119, 111, 114, 100], ⟨by simp, by simp [AlphaNum]⟩, rfl⟩
  · rcases hv v h with h | rfl
    · exact hw.pats v h
    · show 122 < 128
      omega

theorem swapped_wf : swapped.Wf := by
  refine wf (fun ds hds => ?_) fun v hv => .inl ?_
  · simp only [swapped, List.mem_cons, List.not_mem_nil, or_false] at hds
    rcases hds with rfl | rfl <;> decide
  · simp only [swapped, text, List.mem_cons, List.not_mem_nil, or_false] at hv ⊢
    exact hv.symm

/-- C71 applies: the two parsers give alike events for the log, and the same logtypes. -/
example : ∃ a a' t L p t' L' p', text.Builds a ∧ swapped.Builds a' ∧ buildLexer a id = .ok (t, L) ∧ BufferParser.new a id (fun _ => []) 48000 48000 = .ok p ∧
    buildLexer a' id = .ok (t', L') ∧ BufferParser.new a' id (fun _ => []) 48000 48000 = .ok p' ∧
    List.Forall₂ (EventOut.Alike (fun _ => True) t.getSymbolId t'.getSymbolId) (p.parseBuffer 15 1 (log ++ [0]) 14 true).events
      (p'.parseBuffer 15 1 (log ++ [0]) 14 true).events ∧
    (p.parseBuffer 15 1 (log ++ [0]) 14 true).events.map (fun o => o.view.getLogtype (fun _ => log ++ [0]) t.getIdSymbol) =
      (p'.parseBuffer 15 1 (log ++ [0]) 14 true).events.map (fun o => o.view.getLogtype (fun _ => log ++ [0]) t'.getIdSymbol) := by
  have hvars : ∀ v, v ∈ text.vars ↔ v ∈ swapped.vars := by
    intro v
    simp only [text, swapped, List.mem_cons, List.not_mem_nil, or_false]
    exact or_comm
  have hdel : ∀ d, d ∈ text.delimiters ↔ d ∈ swapped.delimiters := by
    intro d
    have e1 : text.delimiters = [32, 10] := rfl
    have e2 : swapped.delimiters = [10, 32] := rfl
    rw [e1, e2]
    simp only [List.mem_cons, List.not_mem_nil, or_false]
    exact or_comm
  obtain ⟨a, ha⟩ := SchemaText.Builds.exists good
  obtain ⟨a', ha'⟩ := SchemaText.Builds.exists (s := swapped) fun v h => good v ((hvars v).mpr h)
  obtain ⟨t, L, p, t', L', p', h1, h2, h3, h4, h5⟩ := C71_order_partial (addr := id) (addr' := id) (mem := fun _ => []) (mem' := fun _ => [])
    (inStatic := 48000) (inStatic' := 48000) (outStatic := 48000) (outStatic' := 48000) ha ha' (writtenFile_wf file_written) swapped_wf good accepted (by decide)
    (by simp [text]) names (fun _ _ h => h) (fun _ _ h => h) (by decide) (by decide) hvars hdel
  have e : (log ++ [0]).take 14 = log := rfl
  obtain ⟨_, _, g3, g4⟩ := h5 p p' .new .new log 1 1 (log ++ [0]) (log ++ [0]) 14 14 15 15 e e (by decide) (by decide) (by decide) (by decide) log_bytes
    (by decide) clear trivial
  have : text.Only log = fun _ => True := funext fun n => propext ⟨fun _ => trivial, fun _ => only n⟩
  rw [this] at g3
  exact ⟨a, a', t, L, p, t', L', p', ha, ha', h1, h2, h3, h4, g3, g4 only (fun _ => log ++ [0]) (fun _ => log ++ [0]) rfl rfl⟩

/-- What the further variable reads. -/
theorem extra_reads {ds u : List Nat} (h : (Pat.plus (.lit 122)).ReadAs ds u) : u ≠ [] ∧ ∀ c ∈ u, c = 122 := by
  have one : ∀ w, Repeat (fun _ => False) 0 w → w = [] := by intro w h; cases h; rfl
  have no : ∀ {k w}, Repeat (fun _ : List Nat => False) k w → w = [] := by
    intro k w h
    cases h with
    | zero => rfl
    | succ h _ => exact h.elim
  have whole : ∀ w, (Reading.one fun c => c = 122).whole w → w = [122] := by
    rintro w ⟨x, y, k, rfl, ⟨c, rfl, rfl⟩, hy⟩
    rw [no hy]; rfl
  have rep : ∀ {P : List Nat → Prop} {k w}, (∀ w, P w → ∀ c ∈ w, c = 122) → Repeat P k w → ∀ c ∈ w, c = 122 := by
    intro P k w hP h
    induction h with
    | zero => simp
    | succ h _ ih =>
      intro c hc
      rcases List.mem_append.mp hc with hc | hc
      · exact hP _ h c hc
      · exact ih c hc
  obtain ⟨x, y, k, rfl, hx, hy⟩ := h
  rcases hx with ⟨h, _⟩ | ⟨k', x1, x2, _, _, rfl, hx1, ⟨c, rfl, rfl⟩⟩
  · exact absurd h (by decide)
  · refine ⟨by simp, fun c hc => ?_⟩
    rcases List.mem_append.mp hc with hc | hc
    · rcases List.mem_append.mp hc with hc | hc
      · exact rep (fun w hw c hc => by rw [whole w hw] at hc; exact List.mem_singleton.mp hc) hx1 c hc
      · exact List.mem_singleton.mp hc
    · refine rep (fun w hw c hc => ?_) hy c hc
      rcases hw with h | ⟨_, d, rfl, rfl⟩
      · exact h.elim
      · exact List.mem_singleton.mp hc

/-- The further variable does not occur in the log. -/
theorem unused : text.Unused extra log := by
  have mem_log : ∀ {x e : Nat} {c : Nat}, c ∈ slice log x e → c ∈ log := fun h => List.mem_of_mem_drop (List.mem_of_mem_take h)
  have no : ∀ {u : List Nat} {x e : Nat}, u ≠ [] → (∀ c ∈ u, c = 122) → (∀ c ∈ u, c ∈ slice log x e) → False := by
    intro u x e h1 h2 h3
    obtain ⟨c, hc⟩ := List.exists_mem_of_ne_nil _ h1
    have h4 := mem_log (h3 c hc)
    rw [h2 c hc] at h4
    exact absurd h4 (by decide)
  have pat : ∀ {n : String} {p : Pat}, (n, p) ∈ [extra] → n ≠ "timestamp" ∧ p = .plus (.lit 122) := by
    intro n p h
    simp only [extra, List.mem_singleton, Prod.mk.injEq] at h
    obtain ⟨rfl, rfl⟩ := h
    exact ⟨by decide, rfl⟩
  refine ⟨fun start x e n _ _ hn h => ?_, fun j hj h => ?_⟩
  · cases h with
    | newLine h1 => exact hn rfl
    | newLineTimestamp h1 h2 h3 => exact (pat h1).1 rfl
    | var h1 h2 h3 h4 h5 =>
      obtain rfl := (pat h1).2
      obtain ⟨g1, g2⟩ := extra_reads h5
      exact no g1 g2 fun c hc => h3 ▸ List.mem_cons_of_mem _ hc
    | firstTimestamp h1 h2 => exact (pat h1).1 rfl
    | firstVar h1 h2 h3 =>
      obtain rfl := (pat h1).2
      obtain ⟨g1, g2⟩ := extra_reads h3
      exact no g1 g2 fun c hc => hc
  · obtain ⟨v, n, _, hi⟩ := h
    have e : ∀ w : List Nat, slice w 0 w.length = w := by intro w; simp [slice]
    have hmem : 49 ∈ log.take j ++ v := by
      obtain ⟨i, rfl⟩ : ∃ i, j = i + 1 := ⟨j - 1, by omega⟩
      exact List.mem_append_left _ (List.mem_cons_self ..)
    generalize log.take j ++ v = w at hi hmem
    generalize hb : true = start at hi
    generalize hl : w.length = len at hi
    generalize hz : 0 = z at hi
    cases hi with
    | newLine => cases hb
    | newLineTimestamp => cases hb
    | var => cases hb
    | firstTimestamp h1 h2 => exact (pat h1).1 rfl
    | firstVar h1 h2 h3 =>
      obtain rfl := (pat h1).2
      rw [← hl, e] at h3
      exact absurd ((extra_reads h3).2 49 hmem) (by decide)

theorem longer_good : longer.Good := by
  intro v hv
  simp only [longer, List.mem_cons, List.not_mem_nil, or_false] at hv
  rcases hv with rfl | rfl | rfl
  · exact good _ (.head _)
  · exact ⟨trivial, trivial⟩
  · exact good _ (.tail _ (.head _))

theorem longer_accepted : longer.Accepted := by
  refine ⟨by simp [longer], fun v hv hn d hd => ?_⟩
  simp only [longer, List.mem_cons, List.not_mem_nil, or_false] at hv
  rcases hv with rfl | rfl | rfl
  · exact absurd rfl hn
  · have hd : d = 32 ∨ d = 10 ∨ d = 0xFD := by
      have e : longer.delimiters = [32, 10] := rfl
      rw [e] at hd
      simpa [or_assoc] using hd
    show ¬ d = 122
    omega
  · exact accepted.2 _ (.tail _ (.head _)) hn d hd

/-- `num:[0-9]+` instead of `num:\\d+`. -/
def rewritten : SchemaText := { vars := [("timestamp", tsPat), ("num", .plus (.cls false [.range 48 57]))], delims := [[32, 10]] }

theorem rewritten_alike : text.ReadsAlike rewritten := by
  refine ⟨fun _ => Iff.rfl, fun n u => ?_⟩
  have hp : ∀ ds, (Pat.plus .digit).ReadAs ds u ↔ (Pat.plus (.cls false [.range 48 57])).ReadAs ds u := by
    intro ds
    unfold Pat.ReadAs
    have : (Pat.cls false [.range 48 57]).reading (fun c => c ∉ ds) = Pat.digit.reading (fun c => c ∉ ds) := by
      simp [Pat.reading, ClassItem.Has]
    simp only [Pat.reading] at this ⊢
    rw [this]
  have e : rewritten.delimiters = text.delimiters := rfl
  rw [e]
  simp only [text, rewritten, List.mem_cons, Prod.mk.injEq, List.not_mem_nil, or_false]
  constructor
  · rintro ⟨p, ⟨h1, h2⟩ | ⟨h1, h2⟩, h3⟩
    · exact ⟨p, .inl ⟨h1, h2⟩, h3⟩
    · subst h2; exact ⟨_, .inr ⟨h1, rfl⟩, (hp _).mp h3⟩
  · rintro ⟨p, ⟨h1, h2⟩ | ⟨h1, h2⟩, h3⟩
    · exact ⟨p, .inl ⟨h1, h2⟩, h3⟩
    · subst h2; exact ⟨_, .inr ⟨h1, rfl⟩, (hp _).mpr h3⟩

/-- C73 applies. -/
example : ∃ a a' t L p t' L' p', text.Builds a ∧ rewritten.Builds a' ∧ buildLexer a id = .ok (t, L) ∧ BufferParser.new a id (fun _ => []) 48000 48000 = .ok p ∧
    buildLexer a' id = .ok (t', L') ∧ BufferParser.new a' id (fun _ => []) 48000 48000 = .ok p' ∧
    List.Forall₂ (EventOut.Alike (fun _ => True) t.getSymbolId t'.getSymbolId) (p.parseBuffer 15 1 (log ++ [0]) 14 true).events
      (p'.parseBuffer 15 1 (log ++ [0]) 14 true).events := by
  have hvars : ∀ v ∈ rewritten.vars, v = ("timestamp", tsPat) ∨ v = ("num", .plus (.cls false [.range 48 57])) := by
    intro v hv
    simpa only [rewritten, List.mem_cons, List.not_mem_nil, or_false] using hv
  have hwf0 := writtenFile_wf file_written
  have hwf : rewritten.Wf := by
    refine ⟨hwf0.delims, fun v hv => ?_, fun v hv => ?_⟩
    · rcases hvars v hv with rfl | rfl
      · exact hwf0.names _ (.head _)
      · exact hwf0.names ("num", .plus .digit) (.tail _ (.head _))
    · rcases hvars v hv with rfl | rfl
      · exact hwf0.pats _ (.head _)
      · simp [Pat.Ascii, ClassItem.Ascii]
  have hg : rewritten.Good := by
    intro v hv
    rcases hvars v hv with rfl | rfl
    · exact good _ (.head _)
    · refine ⟨fun h => absurd h (by decide), fun i hi => by rw [List.mem_singleton] at hi; subst hi; decide⟩
  have hacc : rewritten.Accepted := by
    refine ⟨by simp [rewritten], fun v hv hn d hd => ?_⟩
    rcases hvars v hv with rfl | rfl
    · exact absurd rfl hn
    · intro hm
      refine accepted.2 ("num", .plus .digit) (.tail _ (.head _)) (by decide) d hd ?_
      obtain ⟨i, hi, h⟩ := hm
      rw [List.mem_singleton] at hi
      subst hi
      exact h
  obtain ⟨a, ha⟩ := SchemaText.Builds.exists good
  obtain ⟨a', ha'⟩ := SchemaText.Builds.exists hg
  obtain ⟨t, L, p, t', L', p', h1, h2, h3, h4, h5⟩ := C73_equivalent_partial (addr := id) (addr' := id) (mem := fun _ => []) (mem' := fun _ => [])
    (inStatic := 48000) (inStatic' := 48000) (outStatic := 48000) (outStatic' := 48000) ha ha' hwf0 hwf good hg accepted hacc (by decide)
    (by simp [text]) (by simp [rewritten]) names (fun _ _ h => h) (fun _ _ h => h) (by decide) (by decide) rewritten_alike
  have e : (log ++ [0]).take 14 = log := rfl
  obtain ⟨_, _, g3, _⟩ := h5 p p' .new .new log 1 1 (log ++ [0]) (log ++ [0]) 14 14 15 15 e e (by decide) (by decide) (by decide) (by decide) log_bytes
    (by decide) clear trivial
  have : text.Only log = fun _ => True := funext fun n => propext ⟨fun _ => trivial, fun _ => only n⟩
  rw [this] at g3
  exact ⟨a, a', t, L, p, t', L', p', ha, ha', h1, h2, h3, h4, g3⟩

/-- The hypothesis of C76 is met, by two schemas with different variables. -/
example : text.Agree longer log ∧ ¬ (∀ v, v ∈ text.vars ↔ v ∈ longer.vars) ∧ ∀ ps, text.Division log ps → longer.Division log ps := by
  have hvars : ∀ v, v ∈ longer.vars ↔ v = extra ∨ v ∈ text.vars := by
    intro v
    simp only [text, longer, List.mem_cons, List.not_mem_nil, or_false]
    exact or_left_comm
  have h : text.Agree longer log := SchemaText.agree_of_unused hvars rfl (by decide) unused
  refine ⟨h, fun H => ?_, fun _ => C76_division h⟩
  have := (H extra).mpr ((hvars extra).mpr (.inl rfl))
  simp [text, extra, Prod.ext_iff] at this

/-- C72 applies: the further variable changes nothing for the log. -/
example : ∃ a a' t L p t' L' p', text.Builds a ∧ longer.Builds a' ∧ buildLexer a id = .ok (t, L) ∧ BufferParser.new a id (fun _ => []) 48000 48000 = .ok p ∧
    buildLexer a' id = .ok (t', L') ∧ BufferParser.new a' id (fun _ => []) 48000 48000 = .ok p' ∧
    List.Forall₂ (EventOut.Alike (fun _ => True) t.getSymbolId t'.getSymbolId) (p.parseBuffer 15 1 (log ++ [0]) 14 true).events
      (p'.parseBuffer 15 1 (log ++ [0]) 14 true).events := by
  have hvars : ∀ v, v ∈ longer.vars ↔ v = extra ∨ v ∈ text.vars := by
    intro v
    simp only [text, longer, List.mem_cons, List.not_mem_nil, or_false]
    exact or_left_comm
  have hnames : longer.Names := by
    intro v hv
    rcases (hvars v).mp hv with rfl | hv
    · decide
    · exact names v hv
  have hwf : longer.Wf := by
    refine wf (fun ds hds => ?_) fun v hv => ((hvars v).mp hv).symm
    simp only [longer, List.mem_cons, List.not_mem_nil, or_false] at hds
    subst hds
    decide
  obtain ⟨a, ha⟩ := SchemaText.Builds.exists good
  obtain ⟨a', ha'⟩ := SchemaText.Builds.exists longer_good
  obtain ⟨t, L, p, t', L', p', h1, h2, h3, h4, h5⟩ := C72_unused_partial (addr := id) (addr' := id) (mem := fun _ => []) (mem' := fun _ => [])
    (inStatic := 48000) (inStatic' := 48000) (outStatic := 48000) (outStatic' := 48000) ha ha' (writtenFile_wf file_written) hwf longer_good longer_accepted
    (by decide) (by simp [text]) hnames (fun _ _ h => h) (fun _ _ h => h) (by decide) (by decide) hvars rfl
  have e : (log ++ [0]).take 14 = log := rfl
  obtain ⟨_, _, g3, _⟩ := h5 p p' .new .new log 1 1 (log ++ [0]) (log ++ [0]) 14 14 15 15 e e (by decide) (by decide) (by decide) (by decide) log_bytes
    (by decide) clear unused
  have : text.Only log = fun _ => True := funext fun n => propext ⟨fun _ => trivial, fun _ => only n⟩
  rw [this] at g3
  exact ⟨a, a', t, L, p, t', L', p', ha, ha', h1, h2, h3, h4, g3⟩

/-- `delimiters: \\n`, `num:\\d+`, `timestamp:\\d \\d` -/
def swappedFile : List Nat :=
  [100, 101, 108, 105, 109, 105, 116, 101, 114, 115, 58, 32, 92, 110, 10,
    110, 117, 109, 58, 92, 100, 43, 10,
    116, 105, 109, 101, 115, 116, 97, 109, 112, 58, 92, 100, 32, 92, 100]

/-- What it says. -/
def swappedText : SchemaText := { vars := [("num", .plus .digit), ("timestamp", tsPat)], delims := [[32, 10]] }

theorem swappedFile_written : WrittenFile 0 (lexemes swappedFile) swappedText := by
  have sp : ∀ {k}, Written .literal k [32] (.lit 32) := fun {k} => .char (.plain (by simp [Plain]))
  have h1 : WrittenLine 0 (.delimiters :: chars (58 :: ([32] ++ [92, 110]))) { delims := [[32] ++ [10]] } :=
    .delims (.snoc (.one sp) (.char .newline))
  have p2 : Written .seq 19 ([92, 100] ++ [43]) (.plus .digit) := .ofChoice (.ofRepeated (.plus .digit))
  have h2 : WrittenLine 15 _ _ := .var (i := 0) (n := [110, 117, 109]) ⟨by simp, by simp [AlphaNum]⟩ p2
  have p3 : Written .seq 33 ([92, 100] ++ [32] ++ [92, 100]) tsPat :=
    .cat (.cat (.ofChoice (.ofSingle .digit)) (.ofSingle (.ofLiteral sp))) (.ofSingle .digit)
  have h3 : WrittenLine 23 _ _ := .var (i := 0) (n := [116, 105, 109, 101, 115, 116, 97, 109, 112]) ⟨by simp, by simp [AlphaNum]⟩ p3
  exact .line (.line (.first h1) (.inl rfl) h2) (.inl rfl) h3

/-- C71 applies to the two files. -/
example : ∃ n t p k t' p' k', (∀ fuel steps, n ≤ fuel → n ≤ steps →
      BufferParser.ofFile { exEnv with fuel := fuel, steps := steps } 0 (some file) id (fun _ => []) 48000 48000 = .ok (t, p, k) ∧
      BufferParser.ofFile { exEnv with fuel := fuel, steps := steps } 0 (some swappedFile) id (fun _ => []) 48000 48000 = .ok (t', p', k')) ∧
    List.Forall₂ (EventOut.Alike (fun _ => True) t.getSymbolId t'.getSymbolId) (p.parseBuffer 15 1 (log ++ [0]) 14 true).events
      (p'.parseBuffer 15 1 (log ++ [0]) 14 true).events := by
  have hb : AllBytes swappedFile := by
    have : ∀ c ∈ swappedFile, c < 256 := by decide
    exact this
  obtain ⟨n, t, p, k, t', p', k', h1, h2⟩ := C71_files_partial (kids := 0) (kids' := 0) (addr := id) (addr' := id) (mem := fun _ => []) (mem' := fun _ => [])
    (inStatic := 48000) (inStatic' := 48000) (outStatic := 48000) (outStatic' := 48000) exEnv_ok exEnv_orders (by decide) file_bytes (by decide) file_written
    exEnv_ok exEnv_orders (by decide) hb (by decide) swappedFile_written good accepted (by decide) (by simp [text]) names (fun _ _ h => h) (fun _ _ h => h)
    (by decide) (by decide) (fun v => by simp only [text, swappedText, List.mem_cons, List.not_mem_nil, or_false]; exact or_comm) (fun d => Iff.rfl)
  have e : (log ++ [0]).take 14 = log := rfl
  obtain ⟨_, _, g3, _⟩ := h2 p p' .new .new log 1 1 (log ++ [0]) (log ++ [0]) 14 14 15 15 e e (by decide) (by decide) (by decide) (by decide) log_bytes
    (by decide) clear trivial
  have : text.Only log = fun _ => True := funext fun n => propext ⟨fun _ => trivial, fun _ => only n⟩
  rw [this] at g3
  exact ⟨n, t, p, k, t', p', k', h1, g3⟩

end SchemaChangeExample

/-! ### Where the order matters -/

/-- `delimiters: \n`, `timestamp:T`, `x:T` -/
def orderText : SchemaText := { vars := [("timestamp", .lit 84), ("x", .lit 84)], delims := [[32, 10]] }

/-- The same with the variables in the other order. -/
def orderText' : SchemaText := { vars := [("x", .lit 84), ("timestamp", .lit 84)], delims := [[32, 10]] }

def orderAst : SchemaAST := { delims := [[32, 10]], vars := [⟨"timestamp", .literal [] 84⟩, ⟨"x", .literal [] 84⟩] }

def orderAst' : SchemaAST := { delims := [[32, 10]], vars := [⟨"x", .literal [] 84⟩, ⟨"timestamp", .literal [] 84⟩] }

theorem order_parser {a : SchemaAST} {l : List (Option (List Nat))}
    (h : (newParser a).map (fun p => (p.parseBuffer 8 1 [84, 10, 98, 0] 3 true).events.map (·.text)) = some l) :
    ∃ p, BufferParser.new a id (fun _ => []) 100 10 = .ok p ∧ (p.parseBuffer 8 1 [84, 10, 98, 0] 3 true).events.map (·.text) = l := by
  unfold newParser at h
  cases hp : BufferParser.new a id (fun _ => []) 100 10 with
  | error e => rw [hp] at h; cases h
  | ok p => rw [hp] at h; exact ⟨p, rfl, Option.some.inj h⟩

set_option maxRecDepth 100000 in
set_option synthInstance.maxSize 2000 in
/-- C71 fails without the condition on timestamps: if what is a timestamp is also an instance of a variable, the order in the schema decides how the log is
divided into events: `T⏎b` is one event if `timestamp` is declared first, and two if it is declared last. -/
theorem C71_order_refuted : ∃ (s s' : SchemaText) (a a' : SchemaAST) (p p' : BufferParser), s.Builds a ∧ s'.Builds a' ∧
    (∀ v, v ∈ s.vars ↔ v ∈ s'.vars) ∧ s.delims = s'.delims ∧ s.Names ∧
    BufferParser.new a id (fun _ => []) 100 10 = .ok p ∧ BufferParser.new a' id (fun _ => []) 100 10 = .ok p' ∧
    (p.parseBuffer 8 1 [84, 10, 98, 0] 3 true).events.map (·.text) = [some [84, 10, 98]] ∧
    (p'.parseBuffer 8 1 [84, 10, 98, 0] 3 true).events.map (·.text) = [some [84, 10], some [98]] := by
  obtain ⟨p, h1, h2⟩ := order_parser (a := orderAst) (l := [some [84, 10, 98]]) (by decide +kernel)
  obtain ⟨p', h1', h2'⟩ := order_parser (a := orderAst') (l := [some [84, 10], some [98]]) (by decide +kernel)
  refine ⟨orderText, orderText', orderAst, orderAst', p, p', ⟨rfl, .cons ⟨rfl, rfl⟩ (.cons ⟨rfl, rfl⟩ .nil)⟩, ⟨rfl, .cons ⟨rfl, rfl⟩ (.cons ⟨rfl, rfl⟩ .nil)⟩,
    fun v => ?_, rfl, ?_, h1, h1', h2, h2'⟩
  · simp only [orderText, orderText', List.mem_cons, List.not_mem_nil, or_false]
    exact or_comm
  · intro v hv
    simp only [orderText, List.mem_cons, List.not_mem_nil, or_false] at hv
    rcases hv with rfl | rfl <;> decide

/-! ### Where a variable that does not occur matters -/

/-- `a 1b` -/
def openPat : Pat := .cat (.cat (.cat (.lit 97) (.lit 32)) (.lit 49)) (.lit 98)

/-- `delimiters: \n`, `x:1` -/
def openText : SchemaText := { vars := [("x", .lit 49)], delims := [[32, 10]] }

/-- The same with `timestamp:a 1b`. -/
def openText' : SchemaText := { vars := [("timestamp", openPat), ("x", .lit 49)], delims := [[32, 10]] }

def openAst : SchemaAST := { delims := [[32, 10]], vars := [⟨"x", .literal [] 49⟩] }

def openAst' : SchemaAST :=
  { delims := [[32, 10]],
    vars := [⟨"timestamp", .cat [] (.cat [] (.cat [] (.literal [] 97) (.literal [] 32)) (.literal [] 49)) (.literal [] 98)⟩, ⟨"x", .literal [] 49⟩] }

theorem open_parser {a : SchemaAST} {l : List (List (Option (List Nat)))}
    (h : (newParser a).map (fun p => (p.parseBuffer 8 1 [97, 32, 49, 0] 3 true).events.map fun o => o.view.tokens.map fun t => t.types) = some l) :
    ∃ p, BufferParser.new a id (fun _ => []) 100 10 = .ok p ∧
      ((p.parseBuffer 8 1 [97, 32, 49, 0] 3 true).events.map fun o => o.view.tokens.map fun t => t.types) = l := by
  unfold newParser at h
  cases hp : BufferParser.new a id (fun _ => []) 100 10 with
  | error e => rw [hp] at h; cases h
  | ok p => rw [hp] at h; exact ⟨p, rfl, Option.some.inj h⟩

theorem openPat_reads {ds u : List Nat} (h : openPat.ReadAs ds u) : 98 ∈ u := by
  obtain ⟨x, y, k, rfl, ⟨v, w, rfl, _, c, rfl, rfl⟩, _⟩ := h
  simp

set_option maxRecDepth 100000 in
set_option synthInstance.maxSize 2000 in
/-- C72 fails without the condition on the beginning of the text: with `timestamp:a 1b`, of which there is no instance in `a 1`, the variable `x:1` is
not found there, as the text could be the beginning of a timestamp; the whole text is reported as static. -/
theorem C72_beginning_refuted : ∃ (s s' : SchemaText) (x : String × Pat) (a a' : SchemaAST) (p p' : BufferParser) (i : Nat), s.Builds a ∧ s'.Builds a' ∧
    (∀ v, v ∈ s'.vars ↔ v = x ∨ v ∈ s.vars) ∧ s.delims = s'.delims ∧ s'.Names ∧
    (∀ start b e n, n ≠ "newLine" → ¬ ({ s with vars := [x] } : SchemaText).Instance [97, 32, 49] start b e n) ∧
    BufferParser.new a id (fun _ => []) 100 10 = .ok p ∧ BufferParser.new a' id (fun _ => []) 100 10 = .ok p' ∧
    ((p.parseBuffer 8 1 [97, 32, 49, 0] 3 true).events.map fun o => o.view.tokens.map fun t => t.types) = [[some [tokenUncaught], some [i]]] ∧
    ((p'.parseBuffer 8 1 [97, 32, 49, 0] 3 true).events.map fun o => o.view.tokens.map fun t => t.types) = [[some [tokenUncaught]]] := by
  obtain ⟨p, h1, h2⟩ := open_parser (a := openAst) (l := [[some [tokenUncaught], some [8]]]) (by decide +kernel)
  obtain ⟨p', h1', h2'⟩ := open_parser (a := openAst') (l := [[some [tokenUncaught]]]) (by decide +kernel)
  refine ⟨openText, openText', ("timestamp", openPat), openAst, openAst', p, p', 8, ⟨rfl, .cons ⟨rfl, rfl⟩ .nil⟩, ⟨rfl, .cons ⟨rfl, rfl⟩ (.cons ⟨rfl, rfl⟩ .nil)⟩,
    fun v => ?_, rfl, ?_, fun start b e n hn hi => ?_, h1, h1', h2, h2'⟩
  · simp only [openText, openText', List.mem_cons, List.not_mem_nil, or_false]
  · intro v hv
    simp only [openText', List.mem_cons, List.not_mem_nil, or_false] at hv
    rcases hv with rfl | rfl <;> decide
  · have sub : ∀ {c : Nat}, c ∈ slice [97, 32, 49] b e → c ∈ [97, 32, 49] := fun h => List.mem_of_mem_drop (List.mem_of_mem_take h)
    have sub0 : ∀ {c : Nat}, c ∈ slice [97, 32, 49] 0 e → c ∈ [97, 32, 49] := fun h => List.mem_of_mem_drop (List.mem_of_mem_take h)
    cases hi with
    | newLine => exact hn rfl
    | newLineTimestamp g1 g2 g3 =>
      simp only [List.mem_singleton, Prod.mk.injEq, true_and] at g1
      subst g1
      have := sub (g2 ▸ List.mem_cons_of_mem _ (openPat_reads g3))
      revert this; decide
    | var g1 g2 =>
      simp only [List.mem_singleton, Prod.mk.injEq] at g1
      exact g2 g1.1
    | firstTimestamp g1 g2 =>
      simp only [List.mem_singleton, Prod.mk.injEq, true_and] at g1
      subst g1
      have := sub0 (openPat_reads g2)
      revert this; decide
    | firstVar g1 g2 =>
      simp only [List.mem_singleton, Prod.mk.injEq] at g1
      exact g2 g1.1

end LogSurgeon
