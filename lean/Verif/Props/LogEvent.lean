import Verif.Props.Buffer
import Verif.Proofs.LogEvent
/-
C23, C24: deep copy and logtype of log events; C25: token accessors; C26: the output buffer.

The reader needs `Spec/LogEvent.lean` (`Token.Stands`, `Token.Valid`, `Token.seen`, `PTok.logtype`), `Spec/Events.lean` and the
models `Model/Token.lean`, `Model/LogEvent.lean`, `Model/LogParser.lean` (output buffer).
-/
namespace LogSurgeon

/-! ### C25 -/

/-- C25: `to_string` and `to_string_view` give the text the token stands for, whether it wraps around the end of the buffer or
not, and again when they are called a second time; `get_length` is the length of this text; `get_delimiter` is its first
character; and `get_char(i)` is its `i`-th character.  (Partial: `get_char` only for `i < 256`, see `C25_getChar_refuted`.) -/
theorem C25_accessors_partial {m : Mem} {t : Token} (hv : t.Valid m) : ∃ text t', t.Stands m text ∧
    t.toString m = some (text, t') ∧ t.toStringView m = some (text, t') ∧
    t'.Valid m ∧ (t'.toString m).map (·.1) = some text ∧ (t'.toStringView m).map (·.1) = some text ∧
    t.getLength = text.length ∧ (text ≠ [] → t.getDelimiter m = some (text.take 1)) ∧
    ∀ i, i < text.length → i < 256 → t.getChar m i = text[i]? := by
  obtain ⟨x, t', h1, h2, h3, h4, h5, _⟩ := Token.read_ok hv
  obtain ⟨y, t'', g1, g2, g3, _⟩ := Token.read_ok h4
  have hxy := g3.unique h5
  subst hxy
  exact ⟨y, t', h3, h1, h2, h4, by rw [g1]; rfl, by rw [g2]; rfl, (Token.length_ok hv h3).symm, Token.getDelimiter_ok hv h3,
    fun i hi h256 => Token.getChar_ok hv h3 hi h256⟩

/-- A token that wraps around the end of a buffer of 4 bytes is valid. -/
example : Token.Valid (fun _ => [1, 2, 3, 4]) { startPos := 3, endPos := 2, bufSize := 4 } ∧
    Token.toStringView (fun _ => [1, 2, 3, 4]) { startPos := 3, endPos := 2, bufSize := 4 } =
      some ([4, 1, 2], { startPos := 3, endPos := 2, bufSize := 4, wrap := [4, 1, 2] }) :=
  ⟨⟨by decide, fun _ => by decide, fun _ => .inl rfl⟩, rfl⟩

set_option maxRecDepth 100000 in
/-- C25 fails for `get_char(i)` with `i ≥ 256`: the argument is an 8 bit number.  In a token of 300 bytes, the first of which
is a 7 and the others 0, character 256 is reported to be 7. -/
theorem C25_getChar_refuted : ∃ (m : Mem) (t : Token) (text : List Nat), t.Valid m ∧ t.Stands m text ∧ 256 < text.length ∧
    t.getChar m 256 ≠ text[256]? := by
  refine ⟨fun _ => 7 :: List.replicate 299 0, { startPos := 0, endPos := 300, bufSize := 300 }, 7 :: List.replicate 299 0,
    ⟨by simp, fun h => by simp at h, fun h => by simp at h⟩, ?_, by simp, ?_⟩
  · simp [Token.Stands, slice]
  · simp [Token.getChar]

/-- C25: what `get_char` returns for every index whose low byte lies inside the text: the character at that low byte. -/
theorem C25_getChar {m : Mem} {t : Token} (hv : t.Valid m) {text : List Nat} (h : t.Stands m text) (i : Nat) (hi : i % 256 < text.length) :
    t.getChar m i = text[i % 256]? := by
  have := Token.getChar_ok hv h hi (Nat.mod_lt _ (by omega))
  rw [← this]
  simp only [Token.getChar, Nat.mod_mod]

/-- The index 300 of a wrapped text of 300 bytes. -/
example : Token.getChar (fun _ => (List.range 400).map (· % 256)) { startPos := 200, endPos := 100, bufSize := 400 } 300 = some 244 := by decide +kernel

/-! ### C26 -/

/-- Append a token: `set_curr_token`, `advance_to_next_token`. -/
def OutBuf.push (o : OutBuf) (t : Token) : Option OutBuf := (o.setCurr t).map OutBuf.advance

def OutBuf.pushAll (o : OutBuf) : List Token → Option OutBuf
  | [] => some o
  | t :: ts => (o.push t).bind fun o => o.pushAll ts

/-- C26: any number of tokens can be appended; each is found at its position, the earlier tokens are where they were, and the
flags and the static size do not change. -/
theorem C26_append {o : OutBuf} (h : o.pos < o.size) (ts : List Token) : ∃ o', o.pushAll ts = some o' ∧
    o'.pos = o.pos + ts.length ∧ o'.pos < o'.size ∧ (∀ j, j < o.pos → o'.get j = o.get j) ∧
    (∀ (i : Nat) (t : Token), ts[i]? = some t → o'.get (o.pos + i) = t) ∧
    o'.hasTimestamp = o.hasTimestamp ∧ o'.hasDelims = o.hasDelims ∧ o'.staticSize = o.staticSize := by
  induction ts generalizing o with
  | nil => exact ⟨o, rfl, rfl, h, fun _ _ => rfl, fun i t hi => by simp at hi, rfl, rfl, rfl⟩
  | cons t ts ih =>
    obtain ⟨o1, e1, e2, e3, e4, e5, e6, e7⟩ := OutBuf.setToken_some (o := o) (i := o.pos) t h
    obtain ⟨a1, a2, a3, a4, a5, a6, a7⟩ := OutBuf.advance_spec (o := o1) (by rw [e5, e6]; exact h)
    obtain ⟨o', g1, g2, g3, g4, g5, g6, g7, g8⟩ := ih a3
    refine ⟨o', ?_, ?_, g3, ?_, ?_, g6.trans (a4.trans e3), g7.trans (a5.trans e4), g8.trans (a6.trans e7)⟩
    · rw [OutBuf.pushAll, OutBuf.push, OutBuf.setCurr, e1]; exact g1
    · rw [g2, a2, e5, List.length_cons]; omega
    · intro j hj
      rw [g4 j (by rw [a2, e5]; omega), a1 j (by rw [e6]; omega), e2, if_neg (by omega)]
    · intro i t' hi
      cases i with
      | zero =>
        simp only [List.getElem?_cons_zero, Option.some.injEq] at hi
        subst hi
        rw [g4 _ (by rw [a2, e5]; omega), a1 _ (by rw [e6]; omega), e2, if_pos (Nat.add_zero _)]
      | succ i =>
        simp only [List.getElem?_cons_succ] at hi
        have := g5 i t' hi
        rw [a2, e5] at this
        rw [← this]; congr 1; omega

/-- C26: `reset` empties the buffer and restores the static storage, whatever was appended before, so that appending works
again from position 0. -/
theorem C26_reset {o : OutBuf} (h : 0 < o.staticSize) : o.reset.pos = 0 ∧ o.reset.size = o.staticSize ∧
    o.reset.dynItems = none ∧ o.reset.hasTimestamp = false ∧ o.reset.hasDelims = false ∧ o.reset.pos < o.reset.size :=
  ⟨rfl, rfl, rfl, rfl, rfl, h⟩

/-- Five tokens in a buffer with static storage for two; then it has grown to 8. -/
example : ((OutBuf.init 2).pushAll [{ startPos := 1 }, { startPos := 2 }, { startPos := 3 }, { startPos := 4 }, { startPos := 5 }]).map
    (fun o => (o.size, (List.range 5).map fun i => (o.get i).startPos)) = some (8, [1, 2, 3, 4, 5]) := by decide

/-! ### C23 -/

/-- C23: the copy of any event with a timestamp, made of valid tokens: the same text, flag, timestamp, tokens (types and texts),
and tokens of each type.  The copy does not depend on the old buffer: `m'` is any memory with the new buffer in it.
(Partial: not for events without timestamp, see `C23_refuted`, or without any text, see `C23_empty_refuted`.) -/
theorem C23_copy_partial {m : Mem} {v : EventView} {newPtr outStatic : Nat} (hv : ∀ t ∈ v.tokens, t.Valid m)
    (hty : ∀ t ∈ v.tokens, ∃ ty tys, t.types = some (ty :: tys) ∧ ty < v.numVars) (ho : 0 < outStatic)
    (hocc : ∀ id, v.occ id = (List.range v.out.pos).filter fun i => ((v.out.get i).types.bind List.head?) == some id)
    (hts : v.getTimestamp.isSome = true) (hpos : 0 < v.out.pos) (hne : v.toString m ≠ some []) :
    ∃ c buf, v.deepCopy m newPtr outStatic = .ok (c, buf) ∧ ∀ m' : Mem, m' newPtr = buf →
      c.toString m' = v.toString m ∧ c.multiline = v.multiline ∧
      c.getTimestamp.map (Token.seen m') = v.getTimestamp.map (Token.seen m) ∧
      c.tokens.map (Token.seen m') = v.tokens.map (Token.seen m) ∧
      ∀ id, (c.occ id).map (fun i => (c.out.get i).seen m') = (v.occ id).map (fun i => (v.out.get i).seen m) := by
  obtain ⟨c, buf, h1, h2, h3, h4, h5, h6, h7⟩ := EventView.deepCopy_spec (newPtr := newPtr) hv hty ho hne
  have hts' : v.out.hasTimestamp = true := by
    unfold EventView.getTimestamp at hts
    cases h : v.out.hasTimestamp with
    | true => rfl
    | false => rw [h] at hts; cases hts
  have hvt : v.tokens = (List.range v.out.pos).map v.out.get := by
    simp [EventView.tokens, EventView.first, hts', List.range_eq_range']
  have hlen : v.tokens.length = v.out.pos := by rw [hvt]; simp
  have hct : c.tokens = (List.range v.out.pos).map c.out.get := by
    simp [EventView.tokens, EventView.first, h2, hts', h4, hlen, List.range_eq_range']
  refine ⟨c, buf, h1, fun m' hm => ?_⟩
  have hseen : ∀ i, i < v.out.pos → (c.out.get i).seen m' = (v.out.get i).seen m := by
    intro i hi
    apply h6 m' hm
    rw [hvt, List.getElem?_map, List.getElem?_range hi]; rfl
  have htoks : c.tokens.map (Token.seen m') = v.tokens.map (Token.seen m) := by
    rw [hct, hvt, List.map_map, List.map_map]
    apply List.map_congr_left
    intro i hi
    exact hseen i (List.mem_range.mp hi)
  refine ⟨?_, h3, ?_, htoks, ?_⟩
  · have key : ∀ (m1 m2 : Mem) (l1 l2 : List Token), l1.map (Token.seen m1) = l2.map (Token.seen m2) →
        EventView.texts m1 l1 = EventView.texts m2 l2 := by
      intro m1 m2 l1
      induction l1 with
      | nil => intro l2 h; cases l2 with | nil => rfl | cons => cases h
      | cons a l1 ih =>
        intro l2 h
        cases l2 with
        | nil => cases h
        | cons b l2 =>
          simp only [List.map_cons, List.cons.injEq] at h
          have h1 := h.1
          simp only [Token.seen, Prod.mk.injEq] at h1
          have h2 := ih l2 h.2
          simp only [EventView.texts, h2]
          cases ha : a.toStringView m1 <;> cases hb : b.toStringView m2 <;> rw [ha, hb] at h1 <;> simp at h1 ⊢
          rw [h1.2]
    exact key _ _ _ _ htoks
  · simp only [EventView.getTimestamp, h2, hts', if_true, Option.map_some]
    rw [hseen 0 hpos]
  · intro id
    rw [h7, hocc, hlen]
    have : ((List.range v.out.pos).filter fun i => (v.tokens[i]?.bind fun t => t.types.bind List.head?) == some id) =
        (List.range v.out.pos).filter fun i => ((v.out.get i).types.bind List.head?) == some id := by
      apply List.filter_congr
      intro i hi
      rw [hvt, List.getElem?_map, List.getElem?_range (List.mem_range.mp hi)]; rfl
    rw [this]
    apply List.map_congr_left
    intro i hi
    exact hseen i (List.mem_range.mp (List.mem_filter.mp hi).1)

variable {s : SchemaAST} {addr : Nat → Nat} {t : ParserTables} {L : Lexer}

/-- The tokens of the events of a buffer. -/
theorem buffer_outs (hC : s.Compiled addr t L) (hv : s.vars ≠ []) {p : BufferParser} (hI : p.Idle t L) (fin : Bool)
    (ptr : Nat) {content : List Nat} {size : Nat} (hsize : size ≤ content.length) (hslack : fin = true → size < content.length)
    {k : Nat} (hk : size < k) {o : EventOut} (ho : o ∈ (p.parseBuffer k ptr content size fin).events) :
    ∃ q, L.dfa.next 0 cCharStartOfFile = some q ∧ L.dfa.isAccepting q = false ∧
    ∃ e ∈ segment (content.take size) none (L.toks (content.take size) fin (.sof q)).1,
      Ctx.EvOut ⟨L, fin, ptr, content, size, t.idSymbol.length⟩ o e := by
  obtain ⟨q, hq, hqa, h⟩ := parseBuffer_spec hC hv
  exact ⟨q, hq, hqa, forall₂_left (h hI fin ptr hsize hslack hk).events o ho⟩

theorem evIs_valid {X : Ctx} (hX : X.Ok) {v : EventView} {e : PEvent} (h : X.EvIs v e) {m : Mem} (hm : m X.ptr = X.content) :
    (∀ t ∈ v.tokens, t.Valid m) ∧ (∀ t ∈ v.tokens, ∃ ty tys, t.types = some (ty :: tys) ∧ ty < v.numVars) := by
  have : ∀ t ∈ v.tokens, ∃ x ∈ e.toks, X.TokIs t x := forall₂_left h.out.tokens
  constructor
  · intro t ht
    obtain ⟨x, hx, hi⟩ := this t ht
    have hg := h.out.good x hx
    have hsz := hX.size_le
    refine ⟨⟨?_, ?_⟩, fun hw => ?_, fun hw => ?_⟩
    · rw [hi.stop, hi.size]; have := hg.stop; omega
    · rw [hi.stop, hi.buf, hm]; have := hg.stop; omega
    · rw [hi.stop, hi.start] at hw; have := hg.le; omega
    · rw [hi.stop, hi.start] at hw; have := hg.le; omega
  · intro t ht
    obtain ⟨x, hx, hi⟩ := this t ht
    have hg := h.out.good x hx
    have h1 := hg.types
    have h2 := hg.kind
    rw [hi.types, h.numVars]
    unfold PTok.kind at h2
    cases hty : x.ty with
    | nil => exact absurd hty h1
    | cons a l => rw [hty] at h2; exact ⟨a, l, rfl, h2⟩

theorem evOut_valid {X : Ctx} (hX : X.Ok) {o : EventOut} {e : PEvent} (h : X.EvOut o e) {m : Mem} (hm : m X.ptr = X.content) :
    (∀ t ∈ o.view.tokens, t.Valid m) ∧ (∀ t ∈ o.view.tokens, ∃ ty tys, t.types = some (ty :: tys) ∧ ty < o.view.numVars) :=
  evIs_valid hX h.ev hm

/-- C23: the deep copy of an event that was parsed from a buffer, if it has a timestamp and is not empty, taken while the
buffer is unchanged (`m ptr = content`).  (Partial: see `C23_refuted`, `C23_empty_refuted`.) -/
theorem C23_parsed_partial (hC : s.Compiled addr t L) (hv : s.vars ≠ []) {p : BufferParser} (hI : p.Idle t L) (fin : Bool)
    (ptr : Nat) {content : List Nat} {size : Nat} (hsize : size ≤ content.length) (hslack : fin = true → size < content.length)
    {k : Nat} (hk : size < k) {o : EventOut} (ho : o ∈ (p.parseBuffer k ptr content size fin).events)
    (hts : o.view.getTimestamp.isSome = true) (hne : o.text ≠ some []) {m : Mem} (hm : m ptr = content)
    (newPtr : Nat) {outStatic : Nat} (hout : 0 < outStatic) :
    ∃ c buf, o.view.deepCopy m newPtr outStatic = .ok (c, buf) ∧ ∀ m' : Mem, m' newPtr = buf →
      c.toString m' = o.text ∧ c.multiline = o.view.multiline ∧
      c.getTimestamp.map (Token.seen m') = o.view.getTimestamp.map (Token.seen m) ∧
      c.tokens.map (Token.seen m') = o.view.tokens.map (Token.seen m) ∧
      ∀ id, (c.occ id).map (fun i => (c.out.get i).seen m') = (o.view.occ id).map (fun i => (o.view.out.get i).seen m) := by
  obtain ⟨q, _, _, e, he, hO⟩ := buffer_outs hC hv hI fin ptr hsize hslack hk ho
  have hX := ctx_ok hC fin ptr hsize hslack
  obtain ⟨h1, h2⟩ := evOut_valid hX hO (m := m) hm
  have htxt : o.view.toString m = o.text := (Ctx.EvIs.outOf hX hO.ev hm o.offset).text.trans hO.text.symm
  have hts' : e.ts = true := by
    unfold EventView.getTimestamp at hts
    rw [hO.ev.out.ts] at hts
    cases h : e.ts with
    | true => rfl
    | false => rw [h] at hts; cases hts
  have hoff : Ctx.off e = 0 := by simp [Ctx.off, hts']
  have hpos := hO.ev.out.pos
  rw [hoff, Nat.zero_add] at hpos
  have hpos0 : 0 < o.view.out.pos := by
    rw [hpos]
    cases hl : e.toks with
    | nil => exact absurd (by rw [hO.text, PEvent.text, hl]; rfl) hne
    | cons => simp
  have := C23_copy_partial (newPtr := newPtr) h1 h2 hout ?_ hts hpos0 (by rw [htxt]; exact hne)
  · rw [htxt] at this; exact this
  · intro id
    rw [hO.ev.occ id, hoff, hpos, List.range_eq_range']
    apply List.filter_congr
    intro i hi
    rw [← List.range_eq_range', List.mem_range] at hi
    have hx := List.getElem?_eq_getElem hi
    have ht := hO.ev.out.toks i _ hx
    rw [hoff, Nat.zero_add] at ht
    have hg := (hO.ev.out.good _ (List.getElem_mem hi)).types
    rw [ht.types, Nat.sub_zero, hx]
    simp only [Option.map_some, PTok.kind, Option.bind_some]
    cases hl : e.toks[i].ty with
    | nil => exact absurd hl hg
    | cons a l => rfl

/-- The example: `T b\nT\na`; both events can be copied. -/
example : ∃ t L p, evSchema.Compiled id t L ∧ BufferParser.Idle p t L ∧
    (p.parseBuffer 10 1 [84, 32, 98, 10, 84, 10, 97, 0] 7 true).events.map (fun o => (o.view.getTimestamp.isSome, o.text)) =
      [(true, some [84, 32, 98, 10]), (true, some [84, 10, 97])] := by
  obtain ⟨t, L, p, h1, h2, h3⟩ := newParser_spec evSchema_sensible (by decide +kernel)
  refine ⟨t, L, p, h1, h3, ?_⟩
  have : (newParser evSchema).map (fun p => (p.parseBuffer 10 1 [84, 32, 98, 10, 84, 10, 97, 0] 7 true).events.map
    (fun o => (o.view.getTimestamp.isSome, o.text))) = some [(true, some [84, 32, 98, 10]), (true, some [84, 10, 97])] := by decide +kernel
  rw [h2] at this
  simpa using this

/-- The copy of an event, its text and number of tokens, for evaluation. -/
def copyText (m : Mem) (v : EventView) : Option (Option (List Nat) × Nat) :=
  match v.deepCopy m 2 10 with
  | .ok (c, buf) => some (c.toString (fun i => if i = 2 then buf else m i), c.tokens.length)
  | .error _ => none

set_option synthInstance.maxSize 1000 in
set_option maxRecDepth 100000 in
/-- C23 fails for an event without timestamp: the copy of the event `a b` (two tokens) has the text ` b` and one token. -/
theorem C23_refuted : ∃ (s : SchemaAST) (t : ParserTables) (L : Lexer) (p : BufferParser), s.Compiled id t L ∧ s.vars ≠ [] ∧
    p.Idle t L ∧ (p.parseBuffer 10 1 [97, 32, 98, 0] 3 true).events.map
      (fun o => (o.text, o.view.tokens.length, copyText (fun _ => [97, 32, 98, 0]) o.view)) =
      [(some [97, 32, 98], 2, some (some [32, 98], 1))] := by
  obtain ⟨t, L, p, h1, h2, h3⟩ := newParser_spec evSchema_sensible (by decide +kernel)
  refine ⟨evSchema, t, L, p, h1, by simp [evSchema], h3, ?_⟩
  have : (newParser evSchema).map (fun p => (p.parseBuffer 10 1 [97, 32, 98, 0] 3 true).events.map
      (fun o => (o.text, o.view.tokens.length, copyText (fun _ => [97, 32, 98, 0]) o.view))) =
      some [(some [97, 32, 98], 2, some (some [32, 98], 1))] := by decide +kernel
  rw [h2] at this
  simpa using this

set_option maxRecDepth 100000 in
/-- C23 fails for the event of an empty input: `deep_copy` throws. -/
theorem C23_empty_refuted : ∃ (s : SchemaAST) (t : ParserTables) (L : Lexer) (p : BufferParser), s.Compiled id t L ∧ s.vars ≠ [] ∧
    p.Idle t L ∧ (p.parseBuffer 10 1 [0] 0 true).events.map
      (fun o => (o.text, (o.view.deepCopy (fun _ => [0]) 2 10).toOption.isSome)) = [(some [], false)] := by
  obtain ⟨t, L, p, h1, h2, h3⟩ := newParser_spec evSchema_sensible (by decide +kernel)
  refine ⟨evSchema, t, L, p, h1, by simp [evSchema], h3, ?_⟩
  have : (newParser evSchema).map (fun p => (p.parseBuffer 10 1 [0] 0 true).events.map
      (fun o => (o.text, (o.view.deepCopy (fun _ => [0]) 2 10).toOption.isSome))) = some [(some [], false)] := by decide +kernel
  rw [h2] at this
  simpa using this

/-! ### C24 -/

/-- The tokens of a buffer: the first one may be matched after the virtual start-of-file character, the others are not. -/
theorem toks_later (hC : s.Compiled addr t L) {q : Nat} (hq : L.dfa.next 0 cCharStartOfFile = some q)
    (hqa : L.dfa.isAccepting q = false) (fin : Bool) (text : List Nat) :
    (∀ x ∈ (L.toks text fin (.sof q)).1, x.ty = [tokenUncaught] ∨ x.ty = [tokenEnd] ∨ L.Recognised text x) ∧
    ∀ x ∈ (L.toks text fin (.sof q)).1.tail, x.ty = [tokenUncaught] ∨ x.ty = [tokenEnd] ∨
      (L.Cand text false x.a x.e ∧ x.ty = L.typesOn text false x.a x.e) := by
  have h := buildLexer_ok hC.ok
  have hL := h.nlOk hC.sensible hC.inj
  have hT := h.typesProper hC.sensible
  have hc : CfgOk L text (.sof q) := ⟨hq, hqa⟩
  have hcov : (Cfg.sof q).cov = 0 := rfl
  have htoks : L.toks text fin (.sof q) = L.pureAll text fin (text.length + 1) (.sof q) :=
    pureAll_fuel hL hT _ _ _ hc (by simp [Cfg.cov]) (by omega) (by rw [hcov]; omega)
  have hsound := pureAll_sound hL (fin := fin) (text.length + 1) _ hc
  rw [← htoks] at hsound
  have h1 : ∀ x ∈ (L.toks text fin (.sof q)).1, x.ty = [tokenUncaught] ∨ x.ty = [tokenEnd] ∨ L.Recognised text x := by
    intro x hx
    rcases hsound x hx with h | h | h
    · exact .inl h
    · exact .inr (.inl (by rw [h]))
    · exact .inr (.inr h)
  refine ⟨h1, fun x hx => ?_⟩
  rcases h1 x (List.mem_of_mem_tail hx) with h | h | ⟨sof, h2, h3, h4⟩
  · exact .inl h
  · exact .inr (.inl h)
  · cases sof with
    | false => exact .inr (.inr ⟨h3, h4⟩)
    | true =>
      exfalso
      have hpos : ∀ {p n : Nat} {xs : List PTok}, TilesTo p n xs ∨ Tiles p n xs → ∀ x ∈ xs.tail, p < x.a ∨ x.a = x.e := by
        intro p n xs
        have key : ∀ {p n : Nat} {xs : List PTok}, TilesTo p n xs ∨ Tiles p n xs → ∀ x ∈ xs, p ≤ x.a := by
          intro p n xs
          induction xs generalizing p with
          | nil => intro _ x hx; cases hx
          | cons y ys ih =>
            intro h x hx
            rcases h with ⟨a1, a2, a3, a4⟩ | h
            · rcases List.mem_cons.mp hx with rfl | hx
              · omega
              · have := ih (.inl a4) x hx; omega
            · cases ys with
              | nil =>
                obtain ⟨a1, a2⟩ := h
                rcases List.mem_cons.mp hx with rfl | hx
                · rw [a2]; exact Nat.le_of_eq a1
                · cases hx
              | cons z zs =>
                obtain ⟨a1, a2, a3, a4⟩ := h
                rcases List.mem_cons.mp hx with rfl | hx
                · omega
                · have := ih (.inr a4) x hx; omega
        intro h x hx
        cases xs with
        | nil => cases hx
        | cons y ys =>
          simp only [List.tail_cons] at hx
          rcases h with ⟨a1, a2, a3, a4⟩ | h
          · have := key (.inl a4) x hx; omega
          · cases ys with
            | nil => cases hx
            | cons z zs =>
              obtain ⟨a1, a2, a3, a4⟩ := h
              have := key (.inr a4) x hx; omega
      have ht : ∃ n, TilesTo 0 n (L.toks text fin (.sof q)).1 ∨ Tiles 0 n (L.toks text fin (.sof q)).1 := by
        rw [htoks]
        cases fin with
        | true =>
          exact ⟨_, .inr (pureAll_tiles hL hT _ (.sof q) hc (by simp [Cfg.cov]) (by rw [hcov]; omega)).2⟩
        | false =>
          obtain ⟨_, p, _, hp⟩ := pureAll_unfin hL hT (text.length + 1) (.sof q) hc (by simp [Cfg.cov]) (by rw [hcov]; omega)
            (fun a e ty h => by cases h)
          exact ⟨p, .inl hp⟩
      obtain ⟨n, hn⟩ := ht
      have h5 := hpos hn x hx
      have := h2 rfl
      have := h3.1
      omega

/-- The variable tokens of an event have a text, apart from the timestamp. -/
theorem logtype_nonempty (hC : s.Compiled addr t L) {q : Nat} (hq : L.dfa.next 0 cCharStartOfFile = some q)
    (hqa : L.dfa.isAccepting q = false) (fin : Bool) (text : List Nat) :
    ∀ e ∈ segment text none (L.toks text fin (.sof q)).1, ∀ x ∈ (if e.ts then e.toks.tail else e.toks),
      x.kind = tokenUncaught ∨ x.a < x.e := by
  obtain ⟨h1, h2⟩ := toks_later hC hq hqa fin text
  have hL := buildLexer_ok hC.ok
  have hX := hL.nlOnly hC.sensible hC.inj
  have hP : ∀ x ∈ (L.toks text fin (.sof q)).1, x.kind ≠ tokenEnd → x.kind = tokenUncaught ∨ x.a < x.e := by
    intro x hx hend
    rcases h1 x hx with h | h | ⟨_, _, h, _⟩
    · exact .inl (by rw [PTok.kind, h]; rfl)
    · exact absurd (by rw [PTok.kind, h]; rfl) hend
    · exact .inr h.1
  have hnlk : ∀ x : PTok, x.nl.kind = tokenUncaught := fun x => rfl
  have := (segment_ind (s := text)
    (Q := fun e =>
      ∀ (i : Nat) (y : PTok), e.toks[i]? = some y → (0 < i ∨ e.ts = false) → y.kind = tokenUncaught ∨ y.a < y.e)
    (fun i y hy => by simp at hy) (L.toks text fin (.sof q)).1 ?_ ?_ ?_ ?_).1
  · intro e he x hx
    have h4 := this e he
    cases hts : e.ts with
    | false =>
      rw [hts] at hx
      simp only [Bool.false_eq_true, if_false] at hx
      obtain ⟨i, hi⟩ := List.mem_iff_getElem?.mp hx
      exact h4 i x hi (.inr hts)
    | true =>
      rw [hts] at hx
      simp only [if_true] at hx
      obtain ⟨i, hi⟩ := List.mem_iff_getElem?.mp hx
      rw [List.getElem?_tail] at hi
      exact h4 (i + 1) x hi (.inl (by omega))
  · intro x hx hk
    refine ⟨fun i y hy _ => ?_, fun i y hy hor => ?_⟩
    · have hy' : y ∈ [x.nl] := List.mem_of_getElem? hy
      simp only [List.mem_singleton] at hy'
      subst hy'; exact .inl rfl
    · have hts : (PEvent.start x.rest).ts = true := by
        simp only [PEvent.start, PTok.isTs]
        rw [show x.rest.kind = x.kind from rfl, hk]; rfl
      rw [hts] at hor
      simp only [PEvent.start] at hy
      rcases hor with hi | hf
      · rw [List.getElem?_eq_none (by simp; omega)] at hy; cases hy
      · cases hf
  · intro x hx hend hk
    intro i y hy _
    have hy' : y ∈ [x] := List.mem_of_getElem? hy
    simp only [List.mem_singleton] at hy'
    subst hy'; exact hP y hx hend
  · intro x hx hend hk hnl
    intro i y hy _
    have hy' : y ∈ [x.rest] := List.mem_of_getElem? hy
    simp only [List.mem_singleton] at hy'
    subst hy'
    rcases h2 x hx with h | h | ⟨hcand, hty⟩
    · exact .inl (by rw [PTok.kind, PTok.rest, h]; rfl)
    · exact absurd (by rw [PTok.kind, h]; rfl) hend
    · refine .inr ?_
      show x.a + 1 < x.e
      have := hcand.1
      rcases Nat.lt_or_ge (x.a + 1) x.e with h | h
      · exact h
      · exfalso
        have he : x.e = x.a + 1 := by omega
        have hnt : x.nl.text text = [newline] := nl_text hnl
        have hsl : slice text x.a x.e = [newline] := by rw [he]; exact hnt
        apply hk
        have hmem : x.kind ∈ L.typesOn text false x.a x.e := by
          unfold PTok.kind
          rw [← hty]
          cases hl : x.ty with
          | nil => rw [hl] at hty; exact absurd hty.symm hcand.2.2.1
          | cons i l => simp
        unfold Lexer.typesOn at hmem
        rw [hsl] at hmem
        exact hX _ (by simpa using hmem)
  · intro e he x hx hend
    have hget : ∀ z : PTok, (z.kind = tokenUncaught ∨ z.a < z.e) → ∀ (i : Nat) (y : PTok), (e.add z).toks[i]? = some y →
        (0 < i ∨ (e.add z).ts = false) → y.kind = tokenUncaught ∨ y.a < y.e := by
      intro z hz i y hy hor
      rcases get_add hy with h | ⟨_, rfl⟩
      · exact he i y h hor
      · exact hz
    exact ⟨hget x (hP x hx hend), hget x.nl (.inl rfl)⟩

/-- The contribution of a token to the logtype. -/
theorem logtypeToken_spec {X : Ctx} (hX : X.Ok) {m : Mem} (hm : m X.ptr = X.content) {names : Nat → Option String} {tk : Token} {x : PTok}
    (h : X.TokIs tk x) (hg : X.GoodTok x) (hne : x.kind = tokenUncaught ∨ x.a < x.e) (hn : ∃ n, names x.kind = some n) :
    EventView.logtypeToken m names tk = .ok (x.logtype X.s names) := by
  have hsz := hX.size_le
  have hle := hg.le
  have hstop := hg.stop
  have htxt : tk.toStringView m = some (x.text X.s, tk) := by
    rw [Token.toStringView, h.start, h.stop, if_pos hle, h.buf, hm, readRange_ok (by omega) (by omega), Nat.add_sub_cancel' hle]
    simp only [Option.map_some, Option.some.injEq, Prod.mk.injEq, and_true]
    exact (slice_take hstop).symm
  have hty : tk.type0 = .ok x.kind := by
    unfold Token.type0 PTok.kind
    rw [h.types]
    cases hl : x.ty with
    | nil => exact absurd hl hg.types
    | cons a l => rfl
  unfold EventView.logtypeToken PTok.logtype
  rw [hty]
  simp only
  by_cases hu : x.kind = tokenUncaught
  · rw [if_pos hu, if_pos hu, htxt]
  · rw [if_neg hu, if_neg hu]
    obtain ⟨n, hn⟩ := hn
    have hlt : x.a < x.e := hne.resolve_left hu
    have hd : tk.getDelimiter m = some ((x.text X.s).take 1) := by
      rw [Token.getDelimiter, h.start, h.buf, hm, readRange_ok (by omega) (by omega)]
      unfold PTok.text Ctx.s
      rw [slice_take hstop]
      unfold slice
      rw [List.take_take, Nat.min_eq_left (by omega), Nat.add_sub_cancel_left]
    by_cases hk : x.kind = tokenNewline
    · rw [if_neg (by simp [hk]), if_pos hk, hn]
      simp [EventView.nameBytes]
    · rw [if_pos (Ne.symm hk), if_neg hk, hd, hn]
      simp [EventView.nameBytes]

/-- C24: the logtype of an event is made of the contributions of its tokens without the timestamp: static text stays as it is,
a newline becomes `<newLine>`, a variable becomes its first character (its delimiter) and its name in angle brackets. -/
theorem C24_logtype (hC : s.Compiled addr t L) (hv : s.vars ≠ []) {p : BufferParser} (hI : p.Idle t L) (fin : Bool)
    (ptr : Nat) {content : List Nat} {size : Nat} (hsize : size ≤ content.length) (hslack : fin = true → size < content.length)
    {k : Nat} (hk : size < k) {o : EventOut} (ho : o ∈ (p.parseBuffer k ptr content size fin).events) {m : Mem} (hm : m ptr = content) :
    ∃ e, o.Shows (content.take size) e ∧ o.view.getLogtype m t.getIdSymbol =
      .ok ((if e.ts then e.toks.tail else e.toks).flatMap (PTok.logtype (content.take size) t.getIdSymbol)) := by
  obtain ⟨q, hq, hqa, e, he, hO⟩ := buffer_outs hC hv hI fin ptr hsize hslack hk ho
  have hX := ctx_ok hC fin ptr hsize hslack
  have hne := logtype_nonempty hC hq hqa fin (content.take size) e he
  refine ⟨e, hO.shows (segment_nonempty _ none (fun e h => by cases h) e he), ?_⟩
  have hnames : ∀ x ∈ e.toks, ∃ n, t.getIdSymbol x.kind = some n := by
    intro x hx
    have hlt : x.kind < t.idSymbol.length := (hO.ev.out.good x hx).kind
    obtain ⟨ds, _, _, _, _, _, hsym, _⟩ := addRules_ok (buildLexer_ok hC.ok).tables
    apply lookup_isSome_iff.mpr
    rw [hsym.swap] at hlt ⊢
    rw [List.map_map]
    have h2 := (hsym.ids x.kind).mp (by rw [List.length_map] at hlt; exact hlt)
    exact h2
  unfold EventView.getLogtype
  have key : ∀ (ts : List Token) (xs : List PTok), List.Forall₂ (Ctx.TokIs ⟨L, fin, ptr, content, size, t.idSymbol.length⟩) ts xs →
      (∀ x ∈ xs, x ∈ e.toks ∧ (x.kind = tokenUncaught ∨ x.a < x.e)) →
      EventView.logtypeLoop m t.getIdSymbol ts = .ok (xs.flatMap (PTok.logtype (content.take size) t.getIdSymbol)) := by
    intro ts xs h
    induction h with
    | nil => intro _; rfl
    | cons h _ ih =>
      intro hx
      rename_i tk x ts xs _
      obtain ⟨h1, h2⟩ := hx x (by simp)
      rw [EventView.logtypeLoop, logtypeToken_spec hX hm h (hO.ev.out.good x h1) h2 (hnames x h1), ih (fun y hy => hx y (by simp [hy]))]
      rfl
  apply key
  · have htok := hO.ev.out.tokens
    unfold EventView.tokens EventView.first at htok
    rw [hO.ev.out.ts] at htok
    cases hts : e.ts with
    | false => rw [hts] at htok; simpa using htok
    | true =>
      rw [hts] at htok
      simp only [if_true] at htok ⊢
      cases hp : o.view.out.pos with
      | zero =>
        rw [hp] at htok
        generalize e.toks = xs at htok
        cases htok; exact .nil
      | succ n =>
        rw [hp, Nat.sub_zero, List.range'_succ, List.map_cons] at htok
        generalize e.toks = xs at htok
        cases htok with
        | cons _ h => exact h
  · intro x hx
    refine ⟨?_, hne x hx⟩
    split at hx
    · exact List.mem_of_mem_tail hx
    · exact hx

/-- C24: in every token of an event but the first, a variable (not a newline or timestamp) is a delimiter followed by at least one
character, none of which is a delimiter: the logtype shows nothing of the variable but its delimiter and its name.  (Partial:
not for the first token of an event without timestamp, see `C24_leak_refuted`.) -/
theorem C24_delimiter_partial (hC : s.Compiled addr t L) (hv : s.vars ≠ []) {p : BufferParser} (hI : p.Idle t L) (fin : Bool)
    (ptr : Nat) {content : List Nat} {size : Nat} (hsize : size ≤ content.length) (hslack : fin = true → size < content.length)
    {k : Nat} (hk : size < k) {o : EventOut} (ho : o ∈ (p.parseBuffer k ptr content size fin).events) :
    ∃ e, o.Shows (content.take size) e ∧ ∀ (i : Nat) (x : PTok) (n : String), 0 < i → e.toks[i]? = some x →
      t.getIdSymbol x.kind = some n → n ∉ ["$UncaughtString", "newLine", "firstTimestamp", "newLineTimestamp"] →
      ∃ d v, x.text (content.take size) = d :: v ∧ v ≠ [] ∧ s.IsDelim d ∧ ∀ c ∈ v, ¬ s.IsDelim c := by
  obtain ⟨q, hq, hqa, e, he, hO⟩ := buffer_outs hC hv hI fin ptr hsize hslack hk ho
  obtain ⟨_, h2⟩ := toks_later hC hq hqa fin (content.take size)
  refine ⟨e, hO.shows (segment_nonempty _ none (fun e h => by cases h) e he), ?_⟩
  intro i x n hi hx hn hnot
  have hlater := segment_later_none (s := content.take size)
    (P := fun x => x.kind = tokenUncaught ∨ x.kind = tokenEnd ∨
      (L.Cand (content.take size) false x.a x.e ∧ x.ty = L.typesOn (content.take size) false x.a x.e))
    (L.toks (content.take size) fin (.sof q)).1 (fun x hx => ⟨?_, .inl rfl⟩) e he i x hi hx
  · have hend : x.kind ≠ tokenEnd := by
      have := (segment_ind (s := content.take size) (Q := fun e => ∀ y ∈ e.toks, y.kind ≠ tokenEnd)
        (fun y hy => by cases hy) (L.toks (content.take size) fin (.sof q)).1 ?_ ?_ ?_ ?_).1 e he x (List.mem_of_getElem? hx)
      · exact this
      · intro y _ hk
        refine ⟨fun z hz => ?_, fun z hz => ?_⟩
        · simp only [List.mem_singleton] at hz; subst hz
          show tokenUncaught ≠ tokenEnd
          decide
        · simp only [PEvent.start, List.mem_singleton] at hz; subst hz
          show y.kind ≠ _
          rw [hk]; decide
      · intro y _ h _ z hz
        simp only [PEvent.start, List.mem_singleton] at hz; subst hz; exact h
      · intro y _ h _ _ z hz
        simp only [PEvent.start, List.mem_singleton] at hz; subst hz; exact h
      · intro e' he' y _ h
        refine ⟨fun z hz => ?_, fun z hz => ?_⟩ <;> simp only [PEvent.add, List.mem_append, List.mem_singleton] at hz <;>
          rcases hz with hz | rfl
        · exact he' z hz
        · exact h
        · exact he' z hz
        · show tokenUncaught ≠ tokenEnd; decide
    simp only [List.mem_cons, List.not_mem_nil, or_false, not_or] at hnot
    obtain ⟨n1, n2, n3, n4⟩ := hnot
    have hL := buildLexer_ok hC.ok
    obtain ⟨hinv, _, hres, _⟩ := C16_bijection hC.ok
    have hid := (hinv _ _).mpr hn
    have hu : x.kind ≠ tokenUncaught := by
      intro h
      rw [h] at hn
      have := (hinv _ _).mp (hres ("$UncaughtString", 1) (by simp))
      rw [show tokenUncaught = 1 from rfl, this] at hn
      cases hn; exact n1 rfl
    rcases hlater with h | h | ⟨hcand, hty⟩
    · exact absurd h hu
    · exact absurd h hend
    · have hmem : x.kind ∈ L.dfa.idsOn (x.text (content.take size)) := by
        have : x.kind ∈ L.typesOn (content.take size) false x.a x.e := by
          unfold PTok.kind
          rw [← hty]
          cases hl : x.ty with
          | nil => rw [hl] at hty; exact absurd hty.symm hcand.2.2.1
          | cons i l => simp
        simpa [Lexer.typesOn, PTok.text] using this
      have hb : AllBytes (x.text (content.take size)) := by
        apply run_allBytes (dfa_shape hL.gen).1 _ 0
        unfold Dfa.idsOn at hmem
        cases hr : L.dfa.run 0 (x.text (content.take size)) with
        | none => rw [hr] at hmem; simp at hmem
        | some q => rfl
      exact C15_no_delimiter hC.sensible hC.inj hC.ok hid ⟨n2, n3, n4⟩ hb hmem
  · rcases h2 x hx with h | h | h
    · exact .inl (by rw [PTok.kind, h]; rfl)
    · exact .inr (.inl (by rw [PTok.kind, h]; rfl))
    · exact .inr (.inr h)

/-- C24: two events (of any two inputs) that begin both with a timestamp or both without, whose other tokens agree pairwise in
their type, in their text if static, and in their first character, have the same logtype. -/
theorem C24_no_leak (hC : s.Compiled addr t L) (hv : s.vars ≠ []) {p p' : BufferParser} (hI : p.Idle t L) (hI' : p'.Idle t L)
    (fin fin' : Bool) (ptr ptr' : Nat) {content content' : List Nat} {size size' : Nat} (hsize : size ≤ content.length)
    (hsize' : size' ≤ content'.length) (hslack : fin = true → size < content.length) (hslack' : fin' = true → size' < content'.length)
    {k k' : Nat} (hk : size < k) (hk' : size' < k') {o o' : EventOut}
    (ho : o ∈ (p.parseBuffer k ptr content size fin).events) (ho' : o' ∈ (p'.parseBuffer k' ptr' content' size' fin').events)
    {m m' : Mem} (hm : m ptr = content) (hm' : m' ptr' = content')
    {e e' : PEvent} (he : o.Shows (content.take size) e) (he' : o'.Shows (content'.take size') e')
    (hsame : List.Forall₂ (fun x x' => x.kind = x'.kind ∧
        (x.kind = tokenUncaught → x.text (content.take size) = x'.text (content'.take size')) ∧
        (x.text (content.take size)).take 1 = (x'.text (content'.take size')).take 1)
        (if e.ts then e.toks.tail else e.toks) (if e'.ts then e'.toks.tail else e'.toks)) :
    o.view.getLogtype m t.getIdSymbol = o'.view.getLogtype m' t.getIdSymbol := by
  have huniq : ∀ {o : EventOut} {txt : List Nat} {a b : PEvent}, o.Shows txt a → o.Shows txt b → a = b := by
    intro o txt a b ha hb
    have h1 := ha.ts.symm.trans hb.ts
    have h2 := (List.map_injective_iff.mpr (Option.some_injective _)) (ha.tokens.symm.trans hb.tokens)
    cases a; cases b; simp only at h1 h2; rw [h1, h2]
  obtain ⟨e1, h1, h2⟩ := C24_logtype hC hv hI fin ptr hsize hslack hk ho hm
  obtain ⟨e2, g1, g2⟩ := C24_logtype hC hv hI' fin' ptr' hsize' hslack' hk' ho' hm'
  cases huniq he h1
  cases huniq he' g1
  rw [h2, g2]
  congr 1
  generalize (if e.ts then e.toks.tail else e.toks) = xs at hsame
  generalize (if e'.ts then e'.toks.tail else e'.toks) = xs' at hsame
  induction hsame with
  | nil => rfl
  | cons h _ ih =>
    rw [List.flatMap_cons, List.flatMap_cons, ih]
    congr 1
    obtain ⟨a1, a2, a3⟩ := h
    unfold PTok.logtype
    rw [← a1, a3]
    split
    · rename_i hu; exact a2 hu
    · rfl

/-- The logtype as a string, for evaluation. -/
def logtypeText (m : Mem) (names : Nat → Option String) (v : EventView) : Option String :=
  match v.getLogtype m names with
  | .ok l => some (String.ofList (l.map Char.ofNat))
  | .error _ => none

/-- A new parser with its names. -/
def namesOf (s : SchemaAST) (i : Nat) : Option String :=
  match buildLexer s id with | .ok (t, _) => t.getIdSymbol i | .error _ => none

set_option maxRecDepth 100000 in
/-- The logtype of `T b\n`: the timestamp is omitted. -/
example : (newParser evSchema).map (fun p => (p.parseBuffer 10 1 [84, 32, 98, 10, 0] 4 true).events.map
    fun o => logtypeText (fun _ => [84, 32, 98, 10, 0]) (namesOf evSchema) o.view) = some [some " <x><newLine>"] := by decide +kernel

set_option maxRecDepth 100000 in
/-- C24 fails for a variable at the beginning of an event without timestamp: there is no delimiter, and the first character of the
variable is left in the logtype.  The logtypes of `b` and of the second event of `a\nb` are `b<x>`. -/
theorem C24_leak_refuted : ∃ (s : SchemaAST) (t : ParserTables) (L : Lexer) (p : BufferParser), s.Compiled id t L ∧ s.vars ≠ [] ∧
    p.Idle t L ∧
    (p.parseBuffer 10 1 [98, 0] 1 true).events.map (fun o => logtypeText (fun _ => [98, 0]) t.getIdSymbol o.view) = [some "b<x>"] ∧
    (p.parseBuffer 10 1 [97, 10, 98, 0] 3 true).events.map (fun o => logtypeText (fun _ => [97, 10, 98, 0]) t.getIdSymbol o.view) =
      [some "a\n", some "b<x>"] := by
  obtain ⟨t, L, p, h1, h2, h3⟩ := newParser_spec evSchema_sensible (by decide +kernel)
  refine ⟨evSchema, t, L, p, h1, by simp [evSchema], h3, ?_⟩
  have hn : t.getIdSymbol = namesOf evSchema := by
    funext i
    unfold namesOf
    rw [h1.ok]
  rw [hn]
  have : (newParser evSchema).map (fun p => ((p.parseBuffer 10 1 [98, 0] 1 true).events.map
      (fun o => logtypeText (fun _ => [98, 0]) (namesOf evSchema) o.view),
      (p.parseBuffer 10 1 [97, 10, 98, 0] 3 true).events.map (fun o => logtypeText (fun _ => [97, 10, 98, 0]) (namesOf evSchema) o.view))) =
      some ([some "b<x>"], [some "a\n", some "b<x>"]) := by decide +kernel
  rw [h2] at this
  simpa using this

end LogSurgeon
