import Verif.Proofs.Toks
/-
`LogParser::parse` over a fixed text: it divides the token sequence as `segment` says.
-/
namespace LogSurgeon

theorem slice_split {s : List Nat} {a m e : Nat} (h1 : a ≤ m) (h2 : m ≤ e) : slice s a m ++ slice s m e = slice s a e := by
  unfold slice
  have h := List.take_append_drop (m - a) ((s.drop a).take (e - a))
  rw [List.take_take, List.drop_take, List.drop_drop, Nat.min_eq_left (by omega), show a + (m - a) = m by omega,
    show e - a - (m - a) = e - m by omega] at h
  exact h

theorem slice_nil {s : List Nat} {a e : Nat} (h : a ≤ e) (he : e ≤ s.length) (hs : slice s a e = []) : a = e := by
  have := congrArg List.length hs
  simp [slice] at this
  omega

theorem text_add (s : List Nat) (e : PEvent) (x : PTok) : (e.add x).text s = e.text s ++ x.text s := by
  simp [PEvent.add, PEvent.text]

theorem text_start (s : List Nat) (x : PTok) : (PEvent.start x).text s = x.text s := by
  simp [PEvent.start, PEvent.text]

/-- The text of the event in progress. -/
def curText (s : List Nat) : Option PEvent → List Nat
  | none => []
  | some e => e.text s

/-- A lexer reading the first `size` bytes of the allocation `ptr`. -/
structure Ctx where
  L : Lexer
  fin : Bool
  ptr : Nat
  content : List Nat
  size : Nat
  numVars : Nat

namespace Ctx

def s (X : Ctx) : List Nat := X.content.take X.size

structure Ok (X : Ctx) : Prop where
  nl : NlOk X.L
  types : TypesProper X.L
  size_le : X.size ≤ X.content.length
  slack : X.fin = true → X.size < X.content.length
  vars : ∀ q, ∀ i ∈ X.L.dfa.ids q, i < X.numVars
  vars1 : tokenUncaught < X.numVars
  nlOnly : ∀ i ∈ X.L.dfa.idsOn [newline], i = tokenNewline
  nondelim : ∃ d, X.L.isDelim d = false

theorem Ok.len {X : Ctx} (h : X.Ok) : X.s.length = X.size := by simp [s, h.size_le]

/-- The token object stands for the range. -/
structure TokIs (X : Ctx) (t : Token) (x : PTok) : Prop where
  start : t.startPos = x.a
  stop : t.endPos = x.e
  buf : t.buf = X.ptr
  size : t.bufSize = X.size * 2
  types : t.types = some x.ty
  wrap : t.wrap = []

structure GoodTok (X : Ctx) (x : PTok) : Prop where
  le : x.a ≤ x.e
  stop : x.e ≤ X.size
  read : x.a < X.content.length
  types : x.ty ≠ []
  kind : x.kind < X.numVars

/-- The input buffer shows the text. -/
structure InRel (X : Ctx) (b : InBuf) : Prop where
  view : View b X.s X.fin
  pos : PosOk X.s b
  active : b.active = X.ptr
  size : b.size = X.size * 2
  mem : b.mem X.ptr = X.content

/-- The lexer part of the parser is in configuration `c`. -/
structure LRel (X : Ctx) (p : LogParser) (c : Cfg) : Prop where
  lexer : p.lexer = X.L
  input : X.InRel p.input
  ok : CfgOk X.L X.s c
  cov : c.cov ≤ X.s.length
  good : CfgGood X.L X.s X.fin c
  rel : CfgRel X.L X.s p.lex p.input c

/-- Index of the first token. -/
def off (e : PEvent) : Nat := if e.ts then 0 else 1

/-- The output buffer holds the event. -/
structure OutRel (X : Ctx) (o : OutBuf) (e : PEvent) : Prop where
  ts : o.hasTimestamp = e.ts
  pos : o.pos = off e + e.toks.length
  room : o.pos < o.size
  toks : ∀ i x, e.toks[i]? = some x → X.TokIs (o.get (off e + i)) x
  good : ∀ x ∈ e.toks, X.GoodTok x
  inner : ∀ i x, 0 < i → e.toks[i]? = some x → x.a < X.size

/-- The token kept for the next event. -/
def CarryRel (X : Ctx) (p : LogParser) : Option PTok → Prop
  | none => p.hasStart = false
  | some x => p.hasStart = true ∧ X.TokIs p.startTok x ∧ X.GoodTok x ∧ x.kind ≠ tokenEnd

/-- What `parse` leaves alone. -/
structure Fixed (p p' : LogParser) : Prop where
  occ : p'.view.occ = p.view.occ
  multiline : p'.view.multiline = p.view.multiline
  numVars : p'.view.numVars = p.view.numVars
  static : p'.view.out.staticSize = p.view.out.staticSize
  lexer : p'.lexer = p.lexer

theorem Fixed.refl (p : LogParser) : Fixed p p := ⟨rfl, rfl, rfl, rfl, rfl⟩
theorem Fixed.trans {p q r : LogParser} (h : Fixed p q) (k : Fixed q r) : Fixed p r :=
  ⟨k.1.trans h.1, k.2.trans h.2, k.3.trans h.3, k.4.trans h.4, k.5.trans h.5⟩

/-! ### One token -/

/-- What `scan` returns. -/
theorem next_spec {X : Ctx} (hX : X.Ok) {p : LogParser} {c : Cfg} (h : X.LRel p c) :
    (p.getNextSymbol.1 = { p with lex := p.getNextSymbol.1.lex, input := p.getNextSymbol.1.input }) ∧
    match X.L.nextTok X.s X.fin c with
    | none => p.getNextSymbol.2 = .error .oob
    | some (x, c') => ∃ t, p.getNextSymbol.2 = .ok t ∧ X.TokIs t x ∧ X.LRel p.getNextSymbol.1 c' ∧
        c.cov = x.a ∧ c'.cov = x.e ∧ x.e ≤ X.size ∧ x.ty ≠ [] ∧ x.kind < X.numVars ∧ x.a < X.content.length ∧
        ((x.ty = [tokenEnd] ∧ x.kind = tokenEnd ∧ X.fin = true) ∨
          (x.ty ≠ [tokenEnd] ∧ x.kind ≠ tokenEnd ∧ x.a < x.e ∧ (x.kind ≠ tokenNewline → x.a + 1 < X.content.length))) := by
  have hlen := hX.len
  obtain ⟨⟨p', c1, hb'⟩, hP', hh⟩ := scan_next hX.nl hX.types h.input.view h.input.pos h.ok h.rel
  have hg : p.getNextSymbol = ({ p with lex := (X.L.scan p.lex p.input).1, input := (X.L.scan p.lex p.input).2.1 },
      (X.L.scan p.lex p.input).2.2) := by
    unfold LogParser.getNextSymbol; rw [h.lexer]
  rw [hg]
  refine ⟨rfl, ?_⟩
  cases hn : X.L.nextTok X.s X.fin c with
  | none => rw [hn] at hh; exact hh
  | some y =>
    obtain ⟨x, c'⟩ := y
    rw [hn] at hh
    obtain ⟨t, ht, hrel, hR'⟩ := hh
    obtain ⟨hc', hxa, hcov, hxe, hx⟩ := nextTok_ok hX.nl h.ok hn
    have hgood : CfgGood X.L X.s X.fin c' ∧ (X.fin = false → x.ty ≠ [tokenEnd] ∧
        (x.e < X.s.length ∨ x.ty = X.L.dfa.idsOn [newline])) := by
      cases hf : X.fin with
      | true => exact ⟨(fun h => by cases h), (fun h => by cases h)⟩
      | false =>
        rw [hf] at hn
        have := nextTok_unfin hX.nl hX.types hX.nondelim h.ok h.cov (by have := h.good; rwa [hf] at this) hn
        exact ⟨this.1, fun _ => this.2⟩
    have hle : x.e ≤ X.size := by omega
    have hids : ∀ q, ∀ i ∈ X.L.dfa.ids q, i ≠ tokenEnd ∧ i < X.numVars :=
      fun q i hi => ⟨fun he => (hX.types q).2 (he ▸ hi), hX.vars q i hi⟩
    refine ⟨t, ht, ⟨hrel.start, hrel.stop, hrel.buf.trans h.input.active, hrel.size.trans h.input.size, hrel.types, hrel.wrap⟩,
      ⟨h.lexer, ⟨by rw [hb']; exact h.input.view.upd2 _ _, hP', by rw [hb']; exact h.input.active,
        by rw [hb']; exact h.input.size, by rw [hb']; exact h.input.mem⟩, hc', by omega, hgood.1, hR'⟩, hxa.symm, hcov, hle, ?_⟩
    rcases hx with ⟨h1, h2⟩ | ⟨rfl, h2⟩
    · have hkind : x.ty ≠ [] ∧ x.kind < X.numVars ∧ x.ty ≠ [tokenEnd] ∧ x.kind ≠ tokenEnd := by
        rcases h2 with ⟨sof, _, hcand, h3⟩ | ⟨h3, _⟩
        · have hne : x.ty ≠ [] := by rw [h3]; exact hcand.2.2.1
          have hne2 : x.ty ≠ [tokenEnd] := by rw [h3]; exact types_ne_end hX.types
          refine ⟨hne, ?_⟩
          have hm : ∀ i ∈ x.ty, i ≠ tokenEnd ∧ i < X.numVars := by
            intro i hi
            rw [h3] at hi
            unfold Lexer.typesOn Dfa.idsOn at hi
            cases hr : X.L.dfa.run 0 ((if sof = true then [cCharStartOfFile] else []) ++ slice X.s x.a x.e) with
            | none => rw [hr] at hi; simp at hi
            | some q => rw [hr] at hi; exact hids q i hi
          unfold PTok.kind
          cases hty : x.ty with
          | nil => exact absurd hty hne
          | cons i l =>
            have := hm i (by rw [hty]; simp)
            exact ⟨this.2, by rw [← hty]; exact hne2, this.1⟩
        · rw [PTok.kind, h3]
          exact ⟨by simp, hX.vars1, by simp [tokenEnd, tokenUncaught], by simp [tokenEnd, tokenUncaught]⟩
      have hr1 : x.a < X.content.length := by have := hX.size_le; omega
      refine ⟨hkind.1, hkind.2.1, hr1, .inr ⟨hkind.2.2.1, hkind.2.2.2, h1, fun hk => ?_⟩⟩
      cases hf : X.fin with
      | true => have := hX.slack hf; omega
      | false =>
        rcases (hgood.2 hf).2 with h4 | h4
        · have := hX.size_le; omega
        · exfalso
          apply hk
          unfold PTok.kind
          cases hty : x.ty with
          | nil => exact absurd hty hkind.1
          | cons i l => exact hX.nlOnly i (by rw [← h4, hty]; simp)
    · have hf : X.fin = true := by
        cases hf : X.fin with
        | true => rfl
        | false => exact absurd rfl (hgood.2 hf).1
      have := hX.slack hf
      have := hX.vars1
      refine ⟨by simp, ?_, ?_, .inl ⟨rfl, rfl, hf⟩⟩
      · show tokenEnd < _; simp only [tokenEnd, tokenUncaught] at *; omega
      · show X.s.length < _; omega

theorem TokIs.type0 {X : Ctx} {t : Token} {x : PTok} (h : X.TokIs t x) (hne : x.ty ≠ []) : t.type0 = .ok x.kind := by
  unfold Token.type0 PTok.kind
  rw [h.types]
  cases hx : x.ty with
  | nil => exact absurd hx hne
  | cons i l => rfl

theorem TokIs.getChar {X : Ctx} (hX : X.Ok) {t : Token} {x : PTok} (h : X.TokIs t x) {b : InBuf} (hb : X.InRel b)
    (ha : x.a ≤ X.size) (hr : x.a < X.content.length) : t.getChar b.mem 0 = some X.content[x.a] := by
  unfold Token.getChar
  simp only [Nat.zero_mod, Nat.add_zero, h.start, h.size, h.buf, hb.mem]
  by_cases h1 : x.a < X.size * 2
  · rw [if_pos h1, List.getElem?_eq_getElem hr]
  · have h2 : X.size = 0 := by omega
    have h3 : x.a = 0 := by omega
    rw [if_neg h1, if_pos (by omega), List.getElem?_eq_getElem (by omega)]
    simp [h3]

/-- Appending a token to the output buffer. -/
theorem OutRel.add {X : Ctx} {o o' : OutBuf} {e : PEvent} (h : X.OutRel o e) {t : Token} {x : PTok} (ht : X.TokIs t x)
    (hg : X.GoodTok x) (hlt' : x.a < X.size) (hget : ∀ j, o'.get j = if j = o.pos then t else o.get j)
    (hts : o'.hasTimestamp = o.hasTimestamp)
    (hpos : o'.pos = o.pos) (hsize : o'.size = o.size) : X.OutRel o'.advance (e.add x) := by
  have hlt : o'.pos < o'.size := by rw [hpos, hsize]; exact h.room
  obtain ⟨a1, a2, a3, a4, _, _, _⟩ := OutBuf.advance_spec hlt
  have hoff : off (e.add x) = off e := rfl
  refine ⟨by rw [a4, hts, h.ts]; rfl, ?_, a3, ?_, ?_, ?_⟩
  · rw [a2, hpos, h.pos, hoff]
    show _ = _ + (e.toks ++ [x]).length
    rw [List.length_append, List.length_singleton]; omega
  · intro i y hy
    rw [hoff]
    have hp := h.pos
    have hr := h.room
    simp only [PEvent.add] at hy
    rcases Nat.lt_trichotomy i e.toks.length with hi | hi | hi
    · rw [List.getElem?_append_left hi] at hy
      rw [a1 _ (by omega), hget, if_neg (by omega)]
      exact h.toks i y hy
    · subst hi
      simp at hy
      subst hy
      rw [a1 _ (by omega), hget, if_pos hp.symm]
      exact ht
    · rw [List.getElem?_eq_none (by simp; omega)] at hy; cases hy
  · intro y hy
    simp only [PEvent.add, List.mem_append, List.mem_singleton] at hy
    rcases hy with hy | rfl
    · exact h.good y hy
    · exact hg
  · intro i y hi hy
    simp only [PEvent.add] at hy
    rcases Nat.lt_or_ge i e.toks.length with hl | hl
    · rw [List.getElem?_append_left hl] at hy
      exact h.inner i y hi hy
    · rw [List.getElem?_append_right hl] at hy
      cases hj : i - e.toks.length with
      | zero => rw [hj] at hy; simp at hy; subst hy; exact hlt'
      | succ j => rw [hj] at hy; simp at hy

/-- Writing behind the event does not change it. -/
theorem OutRel.behind {X : Ctx} {o o' : OutBuf} {e : PEvent} (h : X.OutRel o e) {t : Token}
    (hget : ∀ j, o'.get j = if j = o.pos then t else o.get j) (hts : o'.hasTimestamp = o.hasTimestamp)
    (hpos : o'.pos = o.pos) (hsize : o'.size = o.size) : X.OutRel o' e := by
  refine ⟨by rw [hts, h.ts], by rw [hpos, h.pos], by rw [hpos, hsize]; exact h.room, fun i x hx => ?_, h.good, h.inner⟩
  have hi := (List.getElem?_eq_some_iff.mp hx).1
  rw [hget, if_neg (by rw [h.pos]; omega)]
  exact h.toks i x hx

theorem nlTok {X : Ctx} {t : Token} {x : PTok} (ht : X.TokIs t x) : X.TokIs (LogParser.newlineOnly t) x.nl := by
  refine ⟨ht.start, ?_, ht.buf, ht.size, rfl, ht.wrap⟩
  show t.startPos + 1 = x.a + 1
  rw [ht.start]

theorem restTok {X : Ctx} {t : Token} {x : PTok} (ht : X.TokIs t x) (h : x.a < x.e) (he : x.e ≤ X.size)
    (hs : 2 ≤ X.size * 2) (hw : X.size ≠ 1 ∨ x.a + 1 ≠ X.size * 2) : X.TokIs (LogParser.afterNewline t) x.rest := by
  unfold LogParser.afterNewline
  rw [if_neg]
  · refine ⟨?_, ht.stop, ht.buf, ht.size, ht.types, ht.wrap⟩
    show t.startPos + 1 = x.a + 1
    rw [ht.start]
  · simp only [beq_iff_eq]
    rw [ht.start, ht.size]; omega

theorem goodNl {X : Ctx} (hX : X.Ok) {x : PTok} (h : x.a < x.e) (he : x.e ≤ X.size) : X.GoodTok x.nl := by
  refine ⟨?_, ?_, ?_, by simp [PTok.nl], hX.vars1⟩
  · show x.a ≤ x.a + 1; omega
  · show x.a + 1 ≤ _; omega
  · show x.a < _; have := hX.size_le; omega

theorem goodRest {X : Ctx} {x : PTok} (h : x.a < x.e) (he : x.e ≤ X.size) (hr : x.a + 1 < X.content.length)
    (hne : x.ty ≠ []) (hk : x.kind < X.numVars) : X.GoodTok x.rest :=
  ⟨h, he, hr, hne, hk⟩

/-- Changing what does not concern the lexer. -/
theorem LRel.congr {X : Ctx} {p p' : LogParser} {c : Cfg} (h : X.LRel p c) (h1 : p'.lexer = p.lexer) (h2 : p'.lex = p.lex)
    {n : Nat} (h3 : p'.input = { p.input with consumedPos := n }) : X.LRel p' c := by
  refine ⟨h1.trans h.lexer, ?_, h.ok, h.cov, h.good, ?_⟩
  · rw [h3]
    exact ⟨h.input.view.upd p.input.pos n p.input.consumed, h.input.pos, h.input.active, h.input.size, h.input.mem⟩
  · rw [h2, h3]
    have := h.rel
    match c, this with
    | .sof q, ⟨a1, a2, a3, a4, a5, a6, a7, a8, a9⟩ => exact ⟨a1, a2, a3, a4, a5, a6, a7, a8, a9⟩
    | .at q, ⟨a1, a2, a3, a4, a5, a6⟩ => exact ⟨a1, a2, a3, a4, a5, a6⟩
    | .pend _ _ _, ⟨a1, a2, a3, a4, a5, a6, a7, a8⟩ => exact ⟨a1, a2, a3, a4, a5, a6, a7, a8⟩

theorem LRel.view {X : Ctx} {p : LogParser} {c : Cfg} (h : X.LRel p c) (v : EventView) : X.LRel { p with view := v } c :=
  h.congr rfl rfl (n := p.input.consumedPos) rfl

/-- What the output buffer holds when the text has run out. -/
def OobOut (X : Ctx) (o : OutBuf) (cur : Option PEvent) (cov : Nat) : Option PEvent → Prop
  | none => o.pos = 0 ∧ cur = none
  | some e' => X.OutRel o e' ∧
    e'.toks.head?.map (·.a) = match cur with | some e => e.toks.head?.map (·.a) | none => some cov

/-- Where the next event starts. -/
def startOf (c : Cfg) : Option PTok → Nat
  | none => c.cov
  | some x => x.a

/-- The kept token has just been read; without one nothing is pending. -/
def CarryAt (c : Cfg) : Option PTok → Prop
  | none => ∀ a e ty, c ≠ .pend a e ty
  | some x => x.e = c.cov

/-- The tokens of the text from configuration `c` on complete the event in progress `cur` to `e`, leaving the token kept for
the next event and a configuration. -/
inductive EvStep (L : Lexer) (s : List Nat) (fin : Bool) : Option PEvent → Cfg → PEvent → Option PTok → Cfg → Prop
  | firstNl {c c' x} (hn : L.nextTok s fin c = some (x, c')) (he : x.kind ≠ tokenEnd) (hk : x.kind = tokenNewlineTimestamp) :
    EvStep L s fin none c ⟨false, [x.nl]⟩ (some x.rest) c'
  | first {c c1 c' x e ca} (hn : L.nextTok s fin c = some (x, c1)) (he : x.kind ≠ tokenEnd) (hk : x.kind ≠ tokenNewlineTimestamp)
    (h : EvStep L s fin (some (.start x)) c1 e ca c') : EvStep L s fin none c e ca c'
  | newline {c c' x} {e : PEvent} (hn : L.nextTok s fin c = some (x, c')) (he : x.kind ≠ tokenEnd)
    (hA : e.ts = false ∧ x.kind = tokenNewline) : EvStep L s fin (some e) c (e.add x) none c'
  | cut {c c' x} {e : PEvent} (hn : L.nextTok s fin c = some (x, c')) (he : x.kind ≠ tokenEnd)
    (hA : ¬ (e.ts = false ∧ x.kind = tokenNewline))
    (hB : (e.ts = true ∧ x.kind = tokenNewlineTimestamp) ∨ (e.ts = false ∧ x.startsNl s = true)) :
    EvStep L s fin (some e) c (e.add x.nl) (some x.rest) c'
  | more {c c1 c' x} {e e' : PEvent} {ca} (hn : L.nextTok s fin c = some (x, c1)) (he : x.kind ≠ tokenEnd)
    (hA : ¬ (e.ts = false ∧ x.kind = tokenNewline))
    (hB : ¬ ((e.ts = true ∧ x.kind = tokenNewlineTimestamp) ∨ (e.ts = false ∧ x.startsNl s = true)))
    (h : EvStep L s fin (some (e.add x)) c1 e' ca c') : EvStep L s fin (some e) c e' ca c'

/-- What a call of `parse` does, for the event in progress `cur`. -/
def Outcome (X : Ctx) (p0 : LogParser) (cur : Option PEvent) (c : Cfg) (r : LogParser × Except Fail Action) : Prop :=
  Fixed p0 r.1 ∧
  (((r.2 = .error .oob ∧ r.1.hasStart = false) ∧ segment X.s cur (X.L.toks X.s X.fin c).1 = [] ∧ (X.L.toks X.s X.fin c).2 = some .oob ∧
      X.OobOut r.1.view.out cur c.cov (segmentRest X.s cur (X.L.toks X.s X.fin c).1))
  ∨ (r.2 = .ok .compress ∧ ∃ e carry c', X.OutRel r.1.view.out e ∧ X.LRel r.1 c' ∧
      (X.CarryRel r.1 carry ∧ CarryAt c' carry ∧ (∀ q, q ≤ c.cov → curText X.s cur = slice X.s q c.cov →
        e.text X.s = slice X.s q (startOf c' carry) ∧ q < startOf c' carry)) ∧ (c.cov < c'.cov ∧ EvStep X.L X.s X.fin cur c e carry c') ∧
      segment X.s cur (X.L.toks X.s X.fin c).1 =
        e :: segment X.s (carry.map PEvent.start) (X.L.toks X.s X.fin c').1 ∧
      (X.L.toks X.s X.fin c').2 = (X.L.toks X.s X.fin c).2 ∧
      segmentRest X.s (carry.map PEvent.start) (X.L.toks X.s X.fin c').1 = segmentRest X.s cur (X.L.toks X.s X.fin c).1)
  ∨ ((r.2 = .ok .compressAndFinish ∧ r.1.hasStart = false) ∧ ∃ e, X.OutRel r.1.view.out e ∧ X.InRel r.1.input ∧
      segment X.s cur (X.L.toks X.s X.fin c).1 = [e] ∧ (X.L.toks X.s X.fin c).2 = none))

theorem Fixed.out {p : LogParser} {o : OutBuf} (h : o.staticSize = p.view.out.staticSize) : Fixed p (p.withOut o) :=
  ⟨rfl, rfl, rfl, h, rfl⟩

theorem nextTok_at {L : Lexer} {s : List Nat} {fin : Bool} {c c' : Cfg} {x : PTok} (hT : TypesProper L)
    (hL : NlOk L) (hc : CfgOk L s c) (h : L.nextTok s fin c = some (x, c')) (hk : x.kind ≠ tokenUncaught) :
    ∀ a e ty, c' ≠ .pend a e ty := by
  obtain ⟨_, _, _, _, hx⟩ := nextTok_ok hL hc h
  intro a e ty hp
  subst hp
  match c with
  | .pend a e ty => simp [Lexer.nextTok] at h
  | .sof q =>
    simp only [Lexer.nextTok] at h
    split at h
    · split at h <;> simp only [Option.some.injEq, Prod.mk.injEq] at h
      · exact absurd h.2 (by simp)
      · rw [← h.1] at hk; exact hk rfl
    · split at h <;> simp only [Option.some.injEq, Prod.mk.injEq] at h
      · exact absurd h.2 (by simp)
      · rw [← h.1] at hk; exact hk rfl
    · cases h
  | .at q =>
    simp only [Lexer.nextTok] at h
    split at h
    · split at h <;> simp only [Option.some.injEq, Prod.mk.injEq] at h
      · exact absurd h.2 (by simp)
      · rw [← h.1] at hk; exact hk rfl
    · split at h <;> simp only [Option.some.injEq, Prod.mk.injEq] at h
      · exact absurd h.2 (by simp)
      · rw [← h.1] at hk; exact hk rfl
    · cases h

theorem parseLoop_spec {X : Ctx} (hX : X.Ok) : ∀ (k : Nat) (p : LogParser) (c : Cfg) (e : PEvent), X.LRel p c →
    p.hasStart = false → X.OutRel p.view.out e → e.toks ≠ [] → X.size - c.cov < k → X.Outcome p (some e) c (LogParser.parseLoop k p) := by
  intro k
  induction k with
  | zero => intro p c e _ _ _ _ h; omega
  | succ k ih =>
    intro p c e hR hs hO hne0 hk
    have hlen := hX.len
    obtain ⟨hp1, hn⟩ := next_spec hX hR
    have htoks := toks_eq (fin := X.fin) hX.nl hX.types hR.ok hR.cov
    unfold LogParser.parseLoop
    generalize hg : p.getNextSymbol = g at *
    obtain ⟨p1, r1⟩ := g
    simp only at hp1 hn
    have hv1 : p1.view = p.view := by rw [hp1]
    have hs1 : p1.hasStart = false := by rw [hp1]; exact hs
    have hF1 : Fixed p p1 := by rw [hp1]; exact ⟨rfl, rfl, rfl, rfl, rfl⟩
    cases hnt : X.L.nextTok X.s X.fin c with
    | none =>
      rw [hnt] at hn htoks
      simp only at hn htoks
      subst hn
      refine ⟨hF1, .inl ⟨⟨rfl, hs1⟩, by rw [htoks]; rfl, by rw [htoks], ?_⟩⟩
      rw [htoks]
      exact ⟨by simp only; rw [hv1]; exact hO, rfl⟩
    | some y =>
      obtain ⟨x, c'⟩ := y
      rw [hnt] at hn htoks
      obtain ⟨t, rfl, hti, hR', hxa, hcov, hxe, hne, hkind, hread, hcase⟩ := hn
      simp only at htoks ⊢
      unfold LogParser.parseToken LogParser.need
      have hO1 : X.OutRel p1.view.out e := by rw [hv1]; exact hO
      obtain ⟨o, ho, hget, g1, g2, g3, g4, g5⟩ := OutBuf.setToken_some t hO1.room
      rw [OutBuf.setCurr, ho]
      simp only
      rw [hti.type0 hne]
      simp only
      have hgpos : o.get o.pos = t := by rw [hget, if_pos g3]
      have hots : o.hasTimestamp = e.ts := by rw [g1]; exact hO1.ts
      have hch := hti.getChar hX hR'.input (by have := hR.cov; omega) hread
      rw [show (p1.withOut o).input = p1.input from rfl, hch, hots, hgpos]
      -- the condition for cutting
      have hcut : ∀ (a b : Bool), (if (e.ts && x.kind == tokenNewlineTimestamp) = true then some true
          else if (!e.ts) = true then Option.map (fun c => c == newline && x.kind != tokenNewline) (some X.content[x.a])
          else some false) = some ((e.ts && x.kind == tokenNewlineTimestamp) ||
            (!e.ts && (X.content[x.a] == newline && x.kind != tokenNewline))) := by
        intro _ _
        cases e.ts
        · simp
        · cases x.kind == tokenNewlineTimestamp <;> simp
      rw [hcut true true]
      simp only
      rcases hcase with ⟨h1, h2, h3⟩ | ⟨h1, h2, h3, h4⟩
      · -- the end
        rw [if_pos h1] at htoks
        rw [if_pos (by simp [h2])]
        refine ⟨hF1.trans (Fixed.out g5), .inr (.inr ⟨⟨rfl, hs1⟩, e, ?_, hR'.input, ?_, ?_⟩)⟩
        · exact hO1.behind hget g1 g3 g4
        · rw [htoks]; simp [segment, h2]
        · rw [htoks]
      · rw [if_neg h1] at htoks
        rw [if_neg (by simpa using h2)]
        have hGx : X.GoodTok x := ⟨by omega, hxe, hread, hne, hkind⟩
        have hxs : x.startsNl X.s = (X.content[x.a] == newline) := by
          unfold PTok.startsNl Ctx.s
          rw [List.getElem?_take_of_lt (by omega), List.getElem?_eq_getElem hread]
          rfl
        by_cases hA : e.ts = false ∧ x.kind = tokenNewline
        · -- a newline ends the event
          rw [if_pos (by simp [hA])]
          refine ⟨⟨hF1.occ, hF1.multiline, hF1.numVars, ?_, hF1.lexer⟩, .inr (.inl ⟨rfl, e.add x, none, c', ?_, ?_, ?_, ⟨by omega, .newline hnt h2 hA⟩, ?_, ?_⟩)⟩
          · show o.advance.staticSize = _
            rw [(OutBuf.advance_spec (by rw [g3, g4]; exact hO1.room)).2.2.2.2.2.1, g5]; exact hF1.static
          · exact hO1.add hti hGx (by omega) hget g1 g3 g4
          · exact hR'.congr rfl rfl (n := t.endPos) rfl
          · refine ⟨hs1, nextTok_at hX.types hX.nl hR.ok hnt (by rw [hA.2]; simp [tokenNewline, tokenUncaught]), fun q hq hcur => ?_⟩
            simp only [curText] at hcur
            simp only [startOf]
            rw [text_add, hcur, hcov, hxa, PTok.text, slice_split (by omega) (by omega)]
            exact ⟨rfl, by omega⟩
          · rw [htoks]; simp only [segment]; rw [if_neg h2, if_pos hA]; rfl
          · rw [htoks]; refine ⟨rfl, ?_⟩; simp only [segmentRest]; rw [if_neg h2, if_pos hA]; rfl
        · rw [if_neg (by simpa using hA)]
          by_cases hB : (e.ts = true ∧ x.kind = tokenNewlineTimestamp) ∨ (e.ts = false ∧ x.startsNl X.s = true)
          · -- the token is divided
            have hB' : ((e.ts && x.kind == tokenNewlineTimestamp) ||
              (!e.ts && (X.content[x.a] == newline && x.kind != tokenNewline))) = true := by
              rcases hB with ⟨b1, b2⟩ | ⟨b1, b2⟩
              · simp [b1, b2]
              · rw [hxs] at b2
                have : x.kind ≠ tokenNewline := fun h => hA ⟨b1, h⟩
                simp only [b1, b2, Bool.not_false, Bool.true_and, Bool.false_and, Bool.false_or]
                simpa using this
            rw [if_pos hB']
            have hk7 : x.kind ≠ tokenNewline := by
              rcases hB with ⟨b1, b2⟩ | ⟨b1, b2⟩
              · rw [b2]; simp [tokenNewline, tokenNewlineTimestamp]
              · exact fun h => hA ⟨b1, h⟩
            obtain ⟨o2, ho2, hget2, k1, k2, k3, k4, k5⟩ := OutBuf.setToken_some (o := o) (i := o.pos) (LogParser.newlineOnly t)
              (by rw [g3, g4]; exact hO1.room)
            rw [OutBuf.setCurr, ho2]
            simp only
            have hrest : X.TokIs (LogParser.afterNewline t) x.rest := restTok hti h3 hxe (by omega) (by omega)
            refine ⟨⟨hF1.occ, hF1.multiline, hF1.numVars, ?_, hF1.lexer⟩,
              .inr (.inl ⟨rfl, e.add x.nl, some x.rest, c', ?_, ?_, ?_, ⟨by omega, .cut hnt h2 hA hB⟩, ?_, ?_⟩)⟩
            · show o2.advance.staticSize = _
              rw [(OutBuf.advance_spec (by rw [k3, k4, g3, g4]; exact hO1.room)).2.2.2.2.2.1, k5, g5]; exact hF1.static
            · refine hO1.add (nlTok hti) (goodNl hX h3 hxe) (by show x.a < _; omega) (fun j => ?_) (k1.trans g1) (k3.trans g3) (k4.trans g4)
              rw [hget2, g3]
              split
              · rfl
              · rename_i hj; rw [hget, if_neg hj]
            · exact hR'.congr rfl rfl (n := if (LogParser.afterNewline t).startPos == 0 then p1.input.size - 1
                else (LogParser.afterNewline t).startPos - 1) rfl
            · refine ⟨⟨rfl, hrest, goodRest h3 hxe (h4 hk7) hne hkind, h2⟩, hcov.symm, fun q hq hcur => ?_⟩
              simp only [curText] at hcur
              rw [text_add, hcur, hxa]
              simp only [startOf, PTok.rest, PTok.text, PTok.nl]
              rw [slice_split (by omega) (by omega)]
              exact ⟨rfl, by omega⟩
            · rw [htoks]; simp only [segment]; rw [if_neg h2, if_neg hA, if_pos hB]; rfl
            · rw [htoks]; refine ⟨rfl, ?_⟩; simp only [segmentRest]; rw [if_neg h2, if_neg hA, if_pos hB]; rfl
          · -- the event goes on
            have hB' : ((e.ts && x.kind == tokenNewlineTimestamp) ||
              (!e.ts && (X.content[x.a] == newline && x.kind != tokenNewline))) ≠ true := by
              intro h
              apply hB
              rw [hxs]
              revert h
              cases e.ts
              · simp only [Bool.false_and, Bool.not_false, Bool.true_and, Bool.false_or, Bool.and_eq_true, beq_iff_eq]
                intro h; right; exact ⟨trivial, h.1⟩
              · simp only [Bool.true_and, Bool.not_true, Bool.false_and, Bool.or_false, beq_iff_eq]
                intro h; left; exact ⟨trivial, h⟩
            rw [if_neg hB']
            have hL2 : X.LRel ((p1.withOut o).withOut o.advance) c' := (hR'.view _).view _
            have hO2 := hO1.add hti hGx (by omega) hget g1 g3 g4
            obtain ⟨i1, i2⟩ := ih ((p1.withOut o).withOut o.advance) c' (e.add x) hL2 hs1 hO2 (by simp [PEvent.add]) (by omega)
            have hF2 : Fixed p ((p1.withOut o).withOut o.advance) := by
              refine ⟨hF1.occ, hF1.multiline, hF1.numVars, ?_, hF1.lexer⟩
              show o.advance.staticSize = _
              rw [(OutBuf.advance_spec (by rw [g3, g4]; exact hO1.room)).2.2.2.2.2.1, g5]; exact hF1.static
            refine ⟨hF2.trans i1, ?_⟩
            have hseg : segment X.s (some e) (X.L.toks X.s X.fin c).1 = segment X.s (some (e.add x)) (X.L.toks X.s X.fin c').1 := by
              rw [htoks]; simp only [segment]; rw [if_neg h2, if_neg hA, if_neg hB]
            have hst : (X.L.toks X.s X.fin c).2 = (X.L.toks X.s X.fin c').2 := by rw [htoks]
            have hrest : segmentRest X.s (some e) (X.L.toks X.s X.fin c).1 =
                segmentRest X.s (some (e.add x)) (X.L.toks X.s X.fin c').1 := by
              rw [htoks]; simp only [segmentRest]; rw [if_neg h2, if_neg hA, if_neg hB]
            rw [hseg, hst, hrest]
            rcases i2 with ⟨j1, j2, j3, j4⟩ | ⟨j1, e', carry, c2, j2, j3, j4, j5, j6, j7⟩ | ⟨j1, e', j2, j3, j4, j5⟩
            · refine .inl ⟨j1, j2, j3, ?_⟩
              generalize segmentRest X.s (some (e.add x)) (X.L.toks X.s X.fin c').1 = sr at j4
              cases sr with
              | none => exact absurd j4.2 (by simp)
              | some e2 =>
                refine ⟨j4.1, j4.2.trans ?_⟩
                simp only [PEvent.add]
                cases htl : e.toks with
                | nil => exact absurd htl (hne0)
                | cons y ys => rfl
            · obtain ⟨m1, m2, m3⟩ := j4
              refine .inr (.inl ⟨j1, e', carry, c2, j2, j3, ⟨m1, m2, fun q hq hcur => ?_⟩, ⟨by omega, .more hnt h2 hA hB j5.2⟩, j6, j7⟩)
              apply m3 q (by omega)
              simp only [curText] at hcur ⊢
              rw [text_add, hcur, hcov, hxa, PTok.text, slice_split (by omega) (by omega)]
            · exact .inr (.inr ⟨j1, e', j2, j3, j4, j5⟩)

/-- The output buffer holding only the first token. -/
theorem outRel_first {X : Ctx} {o o' : OutBuf} {t : Token} {x : PTok} (ht : X.TokIs t x) (hg : X.GoodTok x)
    (hget : ∀ j, o'.get j = if j = off (.start x) then t else o.get j) (hts : o'.hasTimestamp = x.isTs)
    (hpos : o'.pos = off (.start x) + 1) (hsize : off (.start x) + 1 < o'.size) : X.OutRel o' (.start x) := by
  refine ⟨hts, hpos, by rw [hpos]; exact hsize, fun i y hy => ?_, fun y hy => ?_, fun i y hi hy => by
    rw [PEvent.start, List.getElem?_eq_none (by simp; omega)] at hy; cases hy⟩
  · simp only [PEvent.start] at hy
    cases i with
    | zero =>
      simp at hy; subst hy
      rw [hget, if_pos (Nat.add_zero _)]; exact ht
    | succ i => simp at hy
  · simp only [PEvent.start, List.mem_singleton] at hy
    subst hy; exact hg

/-- `parse` after the first token. -/
theorem parseFirst_spec {X : Ctx} (hX : X.Ok) {p : LogParser} {t : Token} {x : PTok} {c : Cfg} (hR : X.LRel p c)
    (ht : X.TokIs t x) (hg : X.GoodTok x) (hk : x.kind ≠ tokenEnd) (hsize : 3 ≤ p.view.out.size) :
    X.Outcome p (some (.start x)) c (p.parseFirst t) := by
  have hfuel : X.size - c.cov < p.parseFuel := by unfold LogParser.parseFuel; rw [hR.input.size]; omega
  unfold LogParser.parseFirst LogParser.need
  rw [ht.type0 hg.types]
  simp only
  rw [if_neg (by simpa using hk)]
  by_cases hts : x.isTs = true
  · rw [if_pos (by simpa [PTok.isTs] using hts)]
    obtain ⟨o, ho, hget, g1, g2, g3, g4, g5⟩ := OutBuf.setToken_some
      (o := { p.view.out with hasTimestamp := true }) (i := 0) t (by show 0 < p.view.out.size; omega)
    rw [ho]
    simp only
    have hoff : off (PEvent.start x) = 0 := by simp [off, PEvent.start, hts]
    have hO : X.OutRel { o with pos := 1 } (.start x) := by
      refine outRel_first (o := { p.view.out with hasTimestamp := true }) ht hg ?_ ?_ ?_ ?_
      · rw [hoff]; exact hget
      · rw [hts]; exact g1
      · rw [hoff]
      · rw [hoff]; show _ < o.size; rw [g4]; show _ < p.view.out.size; omega
    have hL : X.LRel ((({ p with hasStart := false } : LogParser)).withOut { o with pos := 1 }) c :=
      hR.congr rfl rfl (n := p.input.consumedPos) rfl
    obtain ⟨i1, i2⟩ := parseLoop_spec hX p.parseFuel _ c (.start x) hL rfl hO (by simp [PEvent.start]) hfuel
    exact ⟨⟨i1.occ, i1.multiline, i1.numVars, i1.static.trans g5, i1.lexer⟩, i2⟩
  · rw [if_neg (by simpa [PTok.isTs] using hts)]
    obtain ⟨o, ho, hget, g1, g2, g3, g4, g5⟩ := OutBuf.setToken_some
      (o := { p.view.out with hasTimestamp := false }) (i := 1) t (by show 1 < p.view.out.size; omega)
    rw [ho]
    simp only
    have hts' : x.isTs = false := by simpa using hts
    have hoff : off (PEvent.start x) = 1 := by simp [off, PEvent.start, hts']
    have hO : X.OutRel { o with pos := 2 } (.start x) := by
      refine outRel_first (o := { p.view.out with hasTimestamp := false }) ht hg ?_ ?_ ?_ ?_
      · rw [hoff]; exact hget
      · rw [hts']; exact g1
      · rw [hoff]
      · rw [hoff]; show _ < o.size; rw [g4]; show _ < p.view.out.size; omega
    have hL : X.LRel ((({ p with hasStart := false } : LogParser)).withOut { o with pos := 2 }) c :=
      hR.congr rfl rfl (n := p.input.consumedPos) rfl
    obtain ⟨i1, i2⟩ := parseLoop_spec hX p.parseFuel _ c (.start x) hL rfl hO (by simp [PEvent.start]) hfuel
    exact ⟨⟨i1.occ, i1.multiline, i1.numVars, i1.static.trans g5, i1.lexer⟩, i2⟩

/-- A whole call of `parse`. -/
theorem parse_spec {X : Ctx} (hX : X.Ok) {p : LogParser} {c : Cfg} {carry : Option PTok} (hR : X.LRel p c)
    (hC : X.CarryRel p carry) (hpos : p.view.out.pos = 0) (hts : p.view.out.hasTimestamp = false)
    (hsize : 3 ≤ p.view.out.size) : X.Outcome p (carry.map PEvent.start) c p.parse := by
  have hlen := hX.len
  unfold LogParser.parse
  rw [if_pos (by simp [hpos])]
  simp only
  generalize hq : p.withOut { p.view.out with hasDelims := p.lexer.hasDelims } = p0
  have hR0 : X.LRel p0 c := by rw [← hq]; exact hR.view _
  have hC0 : X.CarryRel p0 carry := by rw [← hq]; cases carry <;> exact hC
  have hF0 : Fixed p p0 := by rw [← hq]; exact ⟨rfl, rfl, rfl, rfl, rfl⟩
  have hpos0 : p0.view.out.pos = 0 := by rw [← hq]; exact hpos
  have hts0 : p0.view.out.hasTimestamp = false := by rw [← hq]; exact hts
  have hsize0 : 3 ≤ p0.view.out.size := by rw [← hq]; exact hsize
  clear hq hR hC hpos hts hsize
  cases carry with
  | some x =>
    obtain ⟨h1, h2, h3, h4⟩ := hC0
    rw [if_pos h1]
    obtain ⟨i1, i2⟩ := parseFirst_spec hX hR0 h2 h3 h4 hsize0
    exact ⟨hF0.trans i1, i2⟩
  | none =>
    rw [if_neg (by rw [show p0.hasStart = false from hC0]; simp)]
    obtain ⟨hp1, hn⟩ := next_spec hX hR0
    have htoks := toks_eq (fin := X.fin) hX.nl hX.types hR0.ok hR0.cov
    generalize hg : p0.getNextSymbol = g at *
    obtain ⟨p1, r1⟩ := g
    simp only at hp1 hn
    have hv1 : p1.view = p0.view := by rw [hp1]
    have hs1 : p1.hasStart = false := by rw [hp1]; exact hC0
    have hF1 : Fixed p0 p1 := by rw [hp1]; exact ⟨rfl, rfl, rfl, rfl, rfl⟩
    cases hnt : X.L.nextTok X.s X.fin c with
    | none =>
      rw [hnt] at hn htoks
      simp only at hn htoks
      subst hn
      refine ⟨hF0.trans hF1, .inl ⟨⟨rfl, hs1⟩, by rw [htoks]; rfl, by rw [htoks], ?_⟩⟩
      rw [htoks]
      refine ⟨?_, rfl⟩
      show p1.view.out.pos = 0
      rw [hv1]; exact hpos0
    | some y =>
      obtain ⟨x, c'⟩ := y
      rw [hnt] at hn htoks
      obtain ⟨t, rfl, hti, hR', hxa, hcov, hxe, hne, hkind, hread, hcase⟩ := hn
      simp only at htoks ⊢
      rw [hti.type0 hne]
      simp only
      rw [hv1, hts0]
      rcases hcase with ⟨h1, h2, h3⟩ | ⟨h1, h2, h3, h4⟩
      · -- nothing left
        rw [if_neg (by rw [h2]; simp [tokenEnd, tokenNewlineTimestamp])]
        rw [if_pos h1] at htoks
        unfold LogParser.parseFirst LogParser.need
        rw [hti.type0 hne]
        simp only
        rw [if_pos (by simpa using h2), hv1]
        obtain ⟨o, ho, hget, g1, g2, g3, g4, g5⟩ := OutBuf.setToken_some (o := p0.view.out) (i := 0) t (by omega)
        rw [ho]
        refine ⟨hF0.trans ⟨hF1.occ, hF1.multiline, hF1.numVars, g5, hF1.lexer⟩, .inr (.inr ⟨⟨rfl, hs1⟩, ⟨false, []⟩, ?_, hR'.input, ?_, ?_⟩)⟩
        · refine ⟨g1.trans hts0, rfl, ?_, fun i x hx => by simp at hx, fun x hx => by simp at hx, fun i x _ hx => by simp at hx⟩
          show 1 < o.size; omega
        · rw [htoks]; simp [segment, h2]
        · rw [htoks]
      · rw [if_neg h1] at htoks
        have hGx : X.GoodTok x := ⟨by omega, hxe, hread, hne, hkind⟩
        by_cases hk : x.kind = tokenNewlineTimestamp
        · rw [if_pos (by simp [hk])]
          unfold LogParser.need
          obtain ⟨o, ho, hget, g1, g2, g3, g4, g5⟩ := OutBuf.setToken_some (o := p0.view.out) (i := 1)
            (LogParser.newlineOnly t) (by omega)
          rw [ho]
          simp only
          have hrest : X.TokIs (LogParser.afterNewline t) x.rest := restTok hti h3 hxe (by omega) (by omega)
          have hk7 : x.kind ≠ tokenNewline := by rw [hk]; simp [tokenNewline, tokenNewlineTimestamp]
          refine ⟨hF0.trans ⟨rfl, rfl, rfl, g5, hF1.lexer⟩,
            .inr (.inl ⟨rfl, ⟨false, [x.nl]⟩, some x.rest, c', ?_, ?_, ?_, ⟨by omega, .firstNl hnt h2 hk⟩, ?_, ?_⟩)⟩
          · refine ⟨g1.trans hts0, rfl, ?_, fun i y hy => ?_, fun y hy => ?_, fun i y hi hy => by
              rw [List.getElem?_eq_none (by simp; omega)] at hy; cases hy⟩
            · show 2 < o.size; omega
            · cases i with
              | zero =>
                simp at hy; subst hy
                show X.TokIs (o.get 1) _
                rw [hget, if_pos rfl]; exact nlTok hti
              | succ i => simp at hy
            · simp only [List.mem_singleton] at hy
              subst hy; exact goodNl hX h3 hxe
          · exact hR'.congr rfl rfl (n := t.startPos) rfl
          · refine ⟨⟨rfl, hrest, goodRest h3 hxe (h4 hk7) hne hkind, h2⟩, hcov.symm, fun q hq hcur => ?_⟩
            simp only [Option.map_none, curText] at hcur
            have hqc := slice_nil (by omega) hR0.cov hcur.symm
            simp only [startOf, PTok.rest, PTok.nl, PEvent.text, PTok.text, List.flatMap_cons, List.flatMap_nil, List.append_nil]
            rw [hqc, hxa]
            exact ⟨rfl, by omega⟩
          · rw [htoks]; simp only [segment, Option.map_none]; rw [if_neg h2, if_pos hk]; rfl
          · rw [htoks]; refine ⟨rfl, ?_⟩; simp only [segmentRest, Option.map_none]; rw [if_neg h2, if_pos hk]; rfl
        · rw [if_neg (by simpa using hk)]
          obtain ⟨i1, i2⟩ := parseFirst_spec hX hR' hti hGx h2 (by rw [hv1]; exact hsize0)
          refine ⟨hF0.trans (hF1.trans i1), ?_⟩
          have hseg : segment X.s (Option.map PEvent.start none) (X.L.toks X.s X.fin c).1 =
              segment X.s (some (.start x)) (X.L.toks X.s X.fin c').1 := by
            rw [htoks]; simp only [segment, Option.map_none]; rw [if_neg h2, if_neg hk]
          have hst : (X.L.toks X.s X.fin c).2 = (X.L.toks X.s X.fin c').2 := by rw [htoks]
          have hop : segmentRest X.s (Option.map PEvent.start none) (X.L.toks X.s X.fin c).1 =
              segmentRest X.s (some (.start x)) (X.L.toks X.s X.fin c').1 := by
            rw [htoks]; simp only [segmentRest, Option.map_none]; rw [if_neg h2, if_neg hk]
          rw [hseg, hst, hop]
          rcases i2 with ⟨j1, j2, j3, j4⟩ | ⟨j1, e', carry, c2, j2, j3, j4, j5, j6, j7⟩ | ⟨j1, e', j2, j3, j4, j5⟩
          · refine .inl ⟨j1, j2, j3, ?_⟩
            generalize segmentRest X.s (some (.start x)) (X.L.toks X.s X.fin c').1 = sr at j4
            cases sr with
            | none => exact absurd j4.2 (by simp)
            | some e2 =>
              refine ⟨j4.1, j4.2.trans ?_⟩
              simp [PEvent.start, hxa]
          · obtain ⟨m1, m2, m3⟩ := j4
            refine .inr (.inl ⟨j1, e', carry, c2, j2, j3, ⟨m1, m2, fun q hq hcur => ?_⟩, ⟨by omega, .first hnt h2 hk j5.2⟩, j6, j7⟩)
            simp only [Option.map_none, curText] at hcur
            have hqc := slice_nil (by omega) hR0.cov hcur.symm
            apply m3 q (by omega)
            simp only [curText]
            rw [text_start, hqc, hcov, hxa]; rfl
          · exact .inr (.inr ⟨j1, e', j2, j3, j4, j5⟩)

end Ctx
end LogSurgeon
