import Verif.Props.Buffer
import Verif.Proofs.Stale
/-
C22: exactly what offset the caller is told, with `BufferOutOfBounds` and with `Success`.

The reader needs what Props/Buffer.lean needs, and `BufferParser.slot` (Proofs/Stale.lean): the start position of the token in
the first slot of the output buffer, which only events with a timestamp (and the end of the input) write.
-/
namespace LogSurgeon

variable {s : SchemaAST} {addr : Nat → Nat} {t : ParserTables} {L : Lexer}

/-- The first slot of a new parser. -/
theorem slot_new {mem : Mem} {inStatic outStatic : Nat} {p : BufferParser}
    (h : BufferParser.new s addr mem inStatic outStatic = .ok p) : p.slot = 0 := by
  unfold BufferParser.new LogParser.new at h
  cases hb : buildLexer s addr with
  | error e => rw [hb] at h; cases h
  | ok r => rw [hb] at h; cases h; rfl

/-- C22: the offset when the bytes run out, for every text and every parser used before.  If no event or one with a timestamp is
in progress, it is the total length of the events returned; if an event without timestamp is in progress, it is whatever
position the first slot of the output buffer holds (0 for a new parser), however many events have been returned. -/
theorem C22_offset_exact (hC : s.Compiled addr t L) (hv : s.vars ≠ []) {p : BufferParser} (hI : p.Idle t L)
    (ptr : Nat) {content : List Nat} {size : Nat} (hsize : size ≤ content.length) {k : Nat} (hk : size < k) (st : LexState) (b : InBuf)
    {xs : List PTok} (hxs : (L.lexAll k st b ptr content size false).1.map Token.range = xs.map some) :
    (p.parseBuffer k ptr content size false).status = some .oob ∧
    ∃ texts : List (List Nat), (p.parseBuffer k ptr content size false).events.map (·.text) = texts.map some ∧
      texts.flatten <+: content.take size ∧
      (p.parseBuffer k ptr content size false).offset =
        if ∃ e, segmentRest (content.take size) none xs = some e ∧ e.ts = false then p.slot else texts.flatten.length := by
  obtain ⟨h1, ys, h2, _, _, h3, h5, _⟩ := buffer_facts hC hv hI false ptr hsize (fun h => by cases h) hk hk st b
  have : ys = xs := (List.map_injective_iff.mpr (Option.some_injective _)) (h2.symm.trans hxs)
  subst this
  obtain ⟨hend, _, _, n, h4, h6, h7⟩ := h3 rfl
  refine ⟨by simpa using h1, _, shows_texts h5, ?_, ?_⟩
  · rw [← List.flatMap_def, h6]
    exact List.take_prefix_take_left h4
  · by_cases hr : ∃ e, segmentRest (content.take size) none ys = some e ∧ e.ts = false
    · rw [if_pos hr]
      obtain ⟨e, he, hte⟩ := hr
      have h := buildLexer_ok hC.ok
      obtain ⟨q, hq, hqa⟩ := (h.sof hC.sensible hC.inj).2 hv
      have hX := ctx_ok hC false ptr hsize (fun h => by cases h)
      have hL := h.nlOk hC.sensible hC.inj
      have hT := h.typesProper hC.sensible
      have hl : (content.take size).length = size := by simp [hsize]
      have hc : CfgOk L (content.take size) (.sof q) := ⟨hq, hqa⟩
      have hcov : (Cfg.sof q).cov = 0 := rfl
      obtain ⟨_, g2⟩ := lexAll_pure hL hT hq hqa st b ptr hsize false k
      have htoks : L.toks (content.take size) false (.sof q) = L.pureAll (content.take size) false k (.sof q) :=
        pureAll_fuel hL hT _ _ _ hc (by simp [Cfg.cov]) (by omega) (by rw [hcov]; omega)
      have hys : (L.toks (content.take size) false (.sof q)).1 = ys := by
        have := ranges_of_rel g2
        rw [← htoks] at this
        exact (List.map_injective_iff.mpr (Option.some_injective _)) (this.symm.trans h2)
      have hoob : (L.toks (content.take size) false (.sof q)).2 = some .oob :=
        (pureAll_unfin hL hT _ (.sof q) hc (by simp [Cfg.cov]) (by simp only [Cfg.cov]; omega) (fun a e ty h => by cases h)).1
      have := Ctx.parseAll_stale hX k p.reset 0 (.sof q) none (brel_reset hC hI hq hqa false ptr content size)
        (by show size - _ < k; omega) hoob
        (by
          show ∀ e ∈ segment (content.take size) none (L.toks (content.take size) false (.sof q)).1, e.ts = false
          rw [hys]
          exact segment_no_ts _ _ _ (fun x hx => (hend x hx).1) e he hte) e
        (by
          show segmentRest (content.take size) none (L.toks (content.take size) false (.sof q)).1 = some e
          rw [hys]; exact he) hte
      exact this
    · rw [if_neg hr]
      have hoff : (p.parseBuffer k ptr content size false).offset = n := by
        cases hs : segmentRest (content.take size) none ys with
        | none => rw [hs] at h7; exact h7
        | some e =>
          rw [hs] at h7
          refine h7 ?_
          cases ht : e.ts with
          | true => rfl
          | false => exact absurd ⟨e, hs, ht⟩ hr
      rw [← List.flatMap_def, h6, hoff, List.length_take]
      omega

/-- C22: a new parser that runs out of bytes in an event without timestamp always says offset 0. -/
theorem C22_new_parser_zero (hC : s.Compiled addr t L) (hv : s.vars ≠ []) {mem : Mem} {inStatic outStatic : Nat} (ho : 3 ≤ outStatic)
    {p : BufferParser} (hp : BufferParser.new s addr mem inStatic outStatic = .ok p)
    (ptr : Nat) {content : List Nat} {size : Nat} (hsize : size ≤ content.length) {k : Nat} (hk : size < k) (st : LexState) (b : InBuf)
    {xs : List PTok} (hxs : (L.lexAll k st b ptr content size false).1.map Token.range = xs.map some) {e : PEvent}
    (he : segmentRest (content.take size) none xs = some e) (hts : e.ts = false) :
    (p.parseBuffer k ptr content size false).offset = 0 := by
  obtain ⟨_, _, _, _, h⟩ := C22_offset_exact hC hv (idle_new hC.ok hp ho) ptr hsize hk st b hxs
  rw [h, if_pos ⟨e, he, hts⟩, slot_new hp]

/-- C22: the offset after a successful call that is not the last one lies behind all events returned so far; it is the start of
the next event, or the first token of the next event lies entirely before it (then going on from there would lose this
token: `C22_success_refuted`). -/
theorem C22_success_offset (hC : s.Compiled addr t L) (hv : s.vars ≠ []) {p : BufferParser} (hI : p.Idle t L) (fin : Bool)
    (ptr : Nat) {content : List Nat} {size : Nat} (hsize : size ≤ content.length) (hslack : fin = true → size < content.length)
    {k : Nat} (hk : size < k) (st : LexState) (b : InBuf)
    {xs : List PTok} (hxs : (L.lexAll k st b ptr content size fin).1.map Token.range = xs.map some)
    {i : Nat} {o : EventOut} (hi : (p.parseBuffer k ptr content size fin).events[i]? = some o)
    (hlast : i + 1 < (p.parseBuffer k ptr content size fin).events.length ∨ fin = false) :
    o.offset ≤ size ∧
    ∃ n, ((segment (content.take size) none xs).take (i + 1)).flatMap (PEvent.text (content.take size)) = (content.take size).take n ∧
      (o.offset = n ∨ (n ≤ o.offset ∧ ∀ e', (segment (content.take size) none xs)[i + 1]? = some e' →
        ∃ y, e'.toks.head? = some y ∧ y.e ≤ o.offset)) := by
  have h := buildLexer_ok hC.ok
  obtain ⟨q, hq, hqa⟩ := (h.sof hC.sensible hC.inj).2 hv
  have hX := ctx_ok hC fin ptr hsize hslack
  have hL := h.nlOk hC.sensible hC.inj
  have hT := h.typesProper hC.sensible
  have hl : (content.take size).length = size := by simp [hsize]
  have hc : CfgOk L (content.take size) (.sof q) := ⟨hq, hqa⟩
  have hcov : (Cfg.sof q).cov = 0 := rfl
  obtain ⟨_, g2⟩ := lexAll_pure hL hT hq hqa st b ptr hsize fin k
  have htoks : L.toks (content.take size) fin (.sof q) = L.pureAll (content.take size) fin k (.sof q) :=
    pureAll_fuel hL hT _ _ _ hc (by simp [Cfg.cov]) (by omega) (by rw [hcov]; omega)
  have hys : (L.toks (content.take size) fin (.sof q)).1 = xs := by
    have := ranges_of_rel g2
    rw [← htoks] at this
    exact (List.map_injective_iff.mpr (Option.some_injective _)) (this.symm.trans hxs)
  obtain ⟨a1, n, a2, _, a3⟩ := Ctx.parseAll_offsets hX k p.reset 0 (.sof q) none
    (brel_reset hC hI hq hqa fin ptr content size) (by show size - _ < k; omega) i o hi (by
      rcases hlast with hl' | hf
      · exact .inl hl'
      · subst hf
        refine .inr ?_
        show (L.toks (content.take size) false (.sof q)).2 = some .oob
        exact (pureAll_unfin hL hT _ (.sof q) hc (by simp [Cfg.cov]) (by simp only [Cfg.cov]; omega)
          (fun a e ty h => by cases h)).1)
  refine ⟨a1, n, ?_, ?_⟩
  · have a2' : (((segment (content.take size) none (L.toks (content.take size) fin (.sof q)).1).take (i + 1)).flatMap
      (PEvent.text (content.take size))) = slice (content.take size) 0 n := a2
    rw [hys] at a2'
    rw [a2']
    simp [slice]
  · have a3' : o.offset = n ∨ (n ≤ o.offset ∧ ∀ e', (segment (content.take size) none (L.toks (content.take size) fin (.sof q)).1)[i + 1]? =
      some e' → ∃ y, e'.toks.head? = some y ∧ y.e ≤ o.offset) := a3
    rwa [hys] at a3'

set_option maxRecDepth 100000 in
/-- C22_offset_exact is not about 0 only: after the finished text `a\nT` the first slot holds position 2 (of `T`), and a
following parse of `b a` says so. -/
theorem C22_stale_example : ∃ (s : SchemaAST) (t : ParserTables) (L : Lexer) (p : BufferParser), s.Compiled id t L ∧ s.vars ≠ [] ∧
    p.Idle t L ∧ p.slot = 2 ∧ (p.parseBuffer 10 1 [98, 32, 97] 3 false).status = some .oob ∧
    (p.parseBuffer 10 1 [98, 32, 97] 3 false).events.length = 0 ∧ (p.parseBuffer 10 1 [98, 32, 97] 3 false).offset = 2 := by
  obtain ⟨t, L, p, h1, h2, h3⟩ := newParser_spec evSchema_sensible (by decide +kernel)
  refine ⟨evSchema, t, L, (p.parseBuffer 10 1 [97, 10, 84, 32] 3 true).parser, h1, by simp [evSchema],
    idle_parseBuffer h1 (by simp [evSchema]) h3 true 1 (by decide) (by decide) (by decide), ?_⟩
  have : (newParser evSchema).map (fun p => decide ((p.parseBuffer 10 1 [97, 10, 84, 32] 3 true).parser.slot = 2 ∧
    ((p.parseBuffer 10 1 [97, 10, 84, 32] 3 true).parser.parseBuffer 10 1 [98, 32, 97] 3 false).status = some .oob ∧
    ((p.parseBuffer 10 1 [97, 10, 84, 32] 3 true).parser.parseBuffer 10 1 [98, 32, 97] 3 false).events.length = 0 ∧
    ((p.parseBuffer 10 1 [97, 10, 84, 32] 3 true).parser.parseBuffer 10 1 [98, 32, 97] 3 false).offset = 2)) = some true := by
      decide +kernel
  rw [h2] at this
  simpa only [Option.map_some, Option.some.injEq, decide_eq_true_eq] using this

end LogSurgeon
