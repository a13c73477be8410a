import Verif.Proofs.Parse
/-
Metadata of an event, one call of `BufferParser::parse_next_event`, and the loop of a client.
-/
namespace LogSurgeon
namespace Ctx

/-! ### Metadata -/

theorem TokIs.getDelimiter {X : Ctx} {t : Token} {x : PTok} (h : X.TokIs t x) {m : Mem} (hm : m X.ptr = X.content)
    (hr : x.a < X.content.length) : t.getDelimiter m = some [X.content[x.a]] := by
  unfold Token.getDelimiter readRange
  rw [h.buf, hm, h.start, if_pos (by omega)]
  have : x.a + 1 - x.a = 1 := by omega
  rw [this, List.take_one, List.head?_drop, List.getElem?_eq_getElem hr]
  rfl

/-- The loop over the tokens of an event, from index `j` on. -/
theorem metaLoop_spec {X : Ctx} {e : PEvent} {m : Mem} (hm : m X.ptr = X.content) (B : Nat) :
    ∀ (n j : Nat) (v : EventView) (nl : Nat), X.OutRel v.out e → v.numVars = X.numVars → j + n = e.toks.length →
      (nl = 0 ∨ nl < off e + j) →
      ∃ occ nl', LogParser.metaLoop m (List.range' (off e + j) n) v nl = .ok ({ v with occ := occ }, nl') ∧
        (∀ id, occ id = v.occ id ++ (List.range' (off e + j) n).filter
          fun i => (e.toks[i - off e]?.map PTok.kind) == some id) ∧
        ((0 < nl' ∧ nl' + 1 < B) ↔ (0 < nl ∧ nl + 1 < B) ∨ (nl = 0 ∧ ∃ (i : Nat) (x : PTok), off e + j ≤ i ∧ 0 < i ∧ i + 1 < B ∧
          e.toks[i - off e]? = some x ∧ X.content[x.a]? = some newline)) := by
  intro n
  induction n with
  | zero =>
    intro j v nl _ _ hj hnl
    refine ⟨v.occ, nl, rfl, fun id => by simp, ?_⟩
    constructor
    · exact .inl
    · rintro (h | ⟨h, i, x, h1, h2, h3, h4, h5⟩)
      · exact h
      · rw [List.getElem?_eq_none (by omega)] at h4; cases h4
  | succ n ih =>
    intro j v nl hO hv hj hnl
    obtain ⟨x, hx⟩ : ∃ x, e.toks[j]? = some x := ⟨_, List.getElem?_eq_getElem (by omega)⟩
    have hxm : x ∈ e.toks := List.mem_of_getElem? hx
    have hg := hO.good x hxm
    have ht := hO.toks j x hx
    have hr := hg.read
    rw [List.range'_succ]
    unfold LogParser.metaLoop
    rw [ht.type0 hg.types]
    simp only
    rw [ht.getDelimiter hm hr]
    unfold EventView.addToken
    rw [if_pos (by rw [hv]; exact hg.kind)]
    simp only
    have hcN : X.content[x.a]? = some newline ↔ ([X.content[x.a]] == [newline]) = true := by
      rw [List.getElem?_eq_getElem hr]; simp
    obtain ⟨occ, nl', h1, h2, h3⟩ := ih (j + 1) ({ v with occ := fun i => if i = x.kind then v.occ i ++ [off e + j] else v.occ i })
      (if ([X.content[x.a]] == [newline] && nl == 0) = true then off e + j else nl) hO hv (by omega)
      (by split <;> omega)
    refine ⟨occ, nl', h1, fun id => ?_, ?_⟩
    · rw [h2]
      rw [show off e + (j + 1) = off e + j + 1 by omega]
      simp only [List.filter_cons, show off e + j - off e = j by omega, hx, Option.map_some, beq_iff_eq, Option.some.injEq]
      by_cases hk : id = x.kind
      · subst hk
        rw [if_pos rfl, if_pos rfl, List.append_assoc]; rfl
      · rw [if_neg hk, if_neg (fun h => hk h.symm)]
    · rw [h3]
      by_cases hN : X.content[x.a]? = some newline
      · by_cases h0 : nl = 0
        · rw [if_pos (by rw [hcN.mp hN]; simp [h0])]
          subst h0
          constructor
          · rintro (⟨a1, a2⟩ | ⟨a1, i, y, a2, a3, a4, a5, a6⟩)
            · exact .inr ⟨rfl, off e + j, x, Nat.le_refl _, a1, a2, by rw [show off e + j - off e = j by omega]; exact hx, hN⟩
            · exact .inr ⟨rfl, i, y, by omega, a3, a4, a5, a6⟩
          · rintro (⟨a1, a2⟩ | ⟨a1, i, y, a2, a3, a4, a5, a6⟩)
            · omega
            · by_cases hz : off e + j = 0
              · right
                refine ⟨hz, i, y, ?_, a3, a4, a5, a6⟩
                omega
              · left; omega
        · rw [if_neg (by simp [h0])]
          constructor
          · rintro (a | ⟨a, _⟩)
            · exact .inl a
            · exact absurd a h0
          · rintro (a | ⟨a, _⟩)
            · exact .inl a
            · exact absurd a h0
      · rw [if_neg (by
          intro h
          rw [Bool.and_eq_true] at h
          exact hN (hcN.mpr h.1))]
        apply or_congr Iff.rfl
        apply and_congr_right
        intro _
        constructor
        · rintro ⟨i, y, a2, a3, a4, a5, a6⟩
          exact ⟨i, y, by omega, a3, a4, a5, a6⟩
        · rintro ⟨i, y, a2, a3, a4, a5, a6⟩
          refine ⟨i, y, ?_, a3, a4, a5, a6⟩
          rcases Nat.eq_or_lt_of_le a2 with h | h
          · subst h
            rw [show off e + j - off e = j by omega, hx] at a5
            cases a5
            exact absurd a6 hN
          · omega

/-- The view shows the event. -/
structure EvIs (X : Ctx) (v : EventView) (e : PEvent) : Prop where
  out : X.OutRel v.out e
  multiline : v.multiline = true ↔ e.multiline X.s
  occ : ∀ id, v.occ id = (List.range' (off e) e.toks.length).filter fun i => (e.toks[i - off e]?.map PTok.kind) == some id
  numVars : v.numVars = X.numVars

theorem metadata_spec {X : Ctx} (hX : X.Ok) {p : LogParser} {e : PEvent} (hO : X.OutRel p.view.out e) (hm : p.input.mem X.ptr = X.content)
    (hv : p.view.numVars = X.numVars) (hocc : p.view.occ = fun _ => []) (hml : p.view.multiline = false) :
    ∃ v, p.generateMetadata = .ok { p with view := v } ∧ X.EvIs v e ∧ v.numVars = p.view.numVars ∧ v.out = p.view.out := by
  unfold LogParser.generateMetadata
  have hoff : (if p.view.out.hasTimestamp = true then 0 else 1) = off e + 0 := by rw [hO.ts]; rfl
  have hn : p.view.out.pos - (off e + 0) = e.toks.length := by rw [hO.pos]; omega
  obtain ⟨occ, nl', h1, h2, h3⟩ := metaLoop_spec hm p.view.out.pos e.toks.length 0 p.view 0 hO hv (by omega) (.inl rfl)
  rw [hoff]
  simp only [hn]
  rw [h1]
  refine ⟨_, rfl, ⟨?_, ?_, ?_, ?_⟩, ?_, ?_⟩
  · split <;> exact hO
  · have key : (p.view.out.hasTimestamp = true ∧ 0 < nl' ∧ nl' + 1 < p.view.out.pos) ↔ e.multiline X.s := by
      rw [h3, hO.ts]
      constructor
      · rintro ⟨a1, ⟨a2, _⟩ | ⟨_, i, x, a2, a3, a4, a5, a6⟩⟩
        · omega
        · have ho : off e = 0 := by simp [off, a1]
          rw [ho] at a5
          rw [Nat.sub_zero] at a5
          refine ⟨a1, i, x, a3, ?_, a5, ?_⟩
          · have := hO.pos; omega
          · have := hO.inner i x a3 a5
            unfold PTok.startsNl Ctx.s
            rw [List.getElem?_take_of_lt this, a6]; rfl
      · rintro ⟨a1, i, x, a3, a4, a5, a6⟩
        have ho : off e = 0 := by simp [off, a1]
        refine ⟨a1, .inr ⟨rfl, i, x, by omega, a3, ?_, by rw [ho]; exact a5, ?_⟩⟩
        · have := hO.pos; omega
        · have := hO.inner i x a3 a5
          unfold PTok.startsNl Ctx.s at a6
          rw [List.getElem?_take_of_lt this] at a6
          simpa using a6
    rw [← key]
    simp only [Bool.and_eq_true, decide_eq_true_eq]
    split
    · rename_i h; simpa [and_assoc] using h
    · rename_i h
      constructor
      · intro h'
        rw [hml] at h'; cases h'
      · intro h'; exact absurd (by simpa [and_assoc] using h') h
  · intro id
    have := h2 id
    rw [hocc] at this
    simp only [List.nil_append, Nat.add_zero] at this
    split <;> exact this
  · split <;> exact hv
  · split <;> rfl
  · split <;> rfl

/-! ### One call -/

/-- The log parser after the preparation in `parse_next_event`. -/
def setup (X : Ctx) (p : BufferParser) (offset : Nat) : LogParser :=
  { p.lp with view := p.lp.view.reset,
              input := ({ p.lp.input with mem := fun i => if i = X.ptr then X.content else p.lp.input.mem i }).setStorage
                X.ptr X.size offset X.fin }

/-- Between two calls. -/
structure BRel (X : Ctx) (p : BufferParser) (offset : Nat) (c : Cfg) (kept : Option PTok) : Prop where
  lexer : p.lp.lexer = X.L
  numVars : p.lp.view.numVars = X.numVars
  static : 3 ≤ p.lp.view.out.staticSize
  ok : CfgOk X.L X.s c
  cov : c.cov ≤ X.s.length
  good : CfgGood X.L X.s X.fin c
  rel : CfgRel X.L X.s p.lp.lex { p.lp.input with pos := offset } c
  carry : X.CarryRel p.lp kept
  notDone : p.done = false
  carryAt : CarryAt c kept

theorem cfgRel_pos {L : Lexer} {s : List Nat} {st : LexState} {b b' : InBuf} {c : Cfg} (h : CfgRel L s st b c)
    (hp : b'.pos = b.pos) : CfgRel L s st b' c := by
  match c, h with
  | .sof q, ⟨a1, a2, a3, a4, a5, a6, a7, a8, a9⟩ => exact ⟨a1, a2, a3, a4, a5, hp.trans a6, a7, a8, a9⟩
  | .at q, ⟨a1, a2, a3, a4, a5, a6⟩ => exact ⟨a1, a2, a3, hp.trans a4, a5, a6⟩
  | .pend _ _ _, ⟨a1, a2, a3, a4, a5, a6, a7, a8⟩ => exact ⟨a1, a2, a3, a4, a5, hp.trans a6, a7, a8⟩

theorem setup_in {X : Ctx} (hX : X.Ok) (p : BufferParser) (offset : Nat) : X.InRel (X.setup p offset).input := by
  have hl := hX.len
  refine ⟨View.of hl.symm ?_ rfl ?_ (.inr rfl) (fun _ => ⟨rfl, ?_⟩), (fun h => by cases h), rfl, rfl, ?_⟩
  · intro i hi
    show ((if X.ptr = X.ptr then X.content else p.lp.input.mem X.ptr) : List Nat)[i]? = _
    rw [if_pos rfl, Ctx.s, List.getElem?_take_of_lt (by omega)]
  · show _ ≤ X.size * 2 / 2; omega
  · show _ = X.size * 2 / 2; omega
  · show (if X.ptr = X.ptr then X.content else p.lp.input.mem X.ptr) = _
    rw [if_pos rfl]

theorem BRel.setup {X : Ctx} (hX : X.Ok) {p : BufferParser} {offset : Nat} {c : Cfg} {carry : Option PTok}
    (h : X.BRel p offset c carry) : X.LRel (X.setup p offset) c :=
  ⟨h.lexer, setup_in hX p offset, h.ok, h.cov, h.good, cfgRel_pos h.rel rfl⟩

/-- What does not change, and nothing is kept for a next event. -/
structure Keeps (p p' : BufferParser) : Prop where
  lexer : p'.lp.lexer = p.lp.lexer
  numVars : p'.lp.view.numVars = p.lp.view.numVars
  static : p'.lp.view.out.staticSize = p.lp.view.out.staticSize
  hasStart : p'.lp.hasStart = false

/-- The log parser made ready for a call. -/
structure Prepared (X : Ctx) (p : BufferParser) (offset : Nat) (lp : LogParser) : Prop where
  lexer : lp.lexer = p.lp.lexer
  lex : lp.lex = p.lp.lex
  view : lp.view = p.lp.view.reset
  hasStart : lp.hasStart = p.lp.hasStart
  startTok : lp.startTok = p.lp.startTok
  input : X.InRel lp.input
  pos : lp.input.pos = offset

/-- The rest of `parse_next_event`, once the parser is ready. -/
def callOn (lp : LogParser) (done : Bool) (offset : Nat) : BufferParser × Nat × Except Fail Unit :=
  match lp.parseAndGenerate with
  | (lp, .error e) => (({ lp := lp } : BufferParser).reset,
      (if lp.view.out.pos ≠ 0 then (lp.view.out.get 0).startPos else offset), .error e)
  | (lp, .ok a) => ({ lp := lp, done := done || a == .compressAndFinish }, lp.input.pos, .ok ())

/-- What a call of `parse_next_event` does, once the parser is ready. -/
theorem callOn_spec {X : Ctx} (hX : X.Ok) {p : BufferParser} {offset : Nat} {c : Cfg} {carry : Option PTok}
    (h : X.BRel p offset c carry) {lp : LogParser} (hp : X.Prepared p offset lp) :
    (((callOn lp p.done offset).2.2 = .error .oob ∧
      Keeps p (callOn lp p.done offset).1) ∧
      segment X.s (carry.map PEvent.start) (X.L.toks X.s X.fin c).1 = [] ∧ (X.L.toks X.s X.fin c).2 = some .oob ∧
      ∃ o, X.OobOut o (carry.map PEvent.start) c.cov (segmentRest X.s (carry.map PEvent.start) (X.L.toks X.s X.fin c).1) ∧
        (callOn lp p.done offset).2.1 =
          (if o.pos ≠ 0 then (o.get 0).startPos else offset) ∧
        (o = (lp).parse.1.view.out ∧ (lp).parse.2 = .error .oob))
    ∨ ((callOn lp p.done offset).2.2 = .ok () ∧
      ∃ e carry' c', X.EvIs (callOn lp p.done offset).1.lp.view e ∧
      (callOn lp p.done offset).1.lp.input.mem X.ptr = X.content ∧
      X.BRel (callOn lp p.done offset).1
        (callOn lp p.done offset).2.1 c' carry' ∧
      (e.text X.s = slice X.s (startOf c carry) (startOf c' carry') ∧ startOf c carry < startOf c' carry') ∧ c.cov < c'.cov ∧
      segment X.s (carry.map PEvent.start) (X.L.toks X.s X.fin c).1 =
        e :: segment X.s (carry'.map PEvent.start) (X.L.toks X.s X.fin c').1 ∧
      (X.L.toks X.s X.fin c').2 = (X.L.toks X.s X.fin c).2 ∧
      segmentRest X.s (carry'.map PEvent.start) (X.L.toks X.s X.fin c').1 =
        segmentRest X.s (carry.map PEvent.start) (X.L.toks X.s X.fin c).1)
    ∨ ((callOn lp p.done offset).2.2 = .ok () ∧
      ((callOn lp p.done offset).1.done = true ∧
        Keeps p (callOn lp p.done offset).1) ∧
      ∃ e, X.EvIs (callOn lp p.done offset).1.lp.view e ∧
      (callOn lp p.done offset).1.lp.input.mem X.ptr = X.content ∧
      segment X.s (carry.map PEvent.start) (X.L.toks X.s X.fin c).1 = [e] ∧ (X.L.toks X.s X.fin c).2 = none) := by
  have hR : X.LRel lp c := ⟨hp.lexer.trans h.lexer, hp.input, h.ok, h.cov, h.good, by
    rw [hp.lex]; exact cfgRel_pos h.rel hp.pos⟩
  have hC : X.CarryRel lp carry := by
    have := h.carry
    cases carry with
    | none => exact hp.hasStart.trans this
    | some x => exact ⟨hp.hasStart.trans this.1, by rw [hp.startTok]; exact this.2.1, this.2.2⟩
  have hview := hp.view
  obtain ⟨hF0, hO⟩ := parse_spec hX hR hC (by rw [hview]; rfl) (by rw [hview]; rfl) (by rw [hview]; exact h.static)
  have hF : Fixed { p.lp with view := p.lp.view.reset } lp.parse.1 :=
    ⟨hF0.occ.trans (by rw [hview]), hF0.multiline.trans (by rw [hview]), hF0.numVars.trans (by rw [hview]),
      hF0.static.trans (by rw [hview]), hF0.lexer.trans hp.lexer⟩
  clear hF0
  unfold callOn
  unfold LogParser.parseAndGenerate
  generalize lp.parse = r at hF hO ⊢
  obtain ⟨lp, r⟩ := r
  simp only at hF hO ⊢
  have hocc : lp.view.occ = fun _ => [] := hF.occ
  have hml : lp.view.multiline = false := hF.multiline
  have hnv : lp.view.numVars = X.numVars := hF.numVars.trans h.numVars
  rcases hO with ⟨⟨j1, js⟩, j2, j3, j4⟩ | ⟨j1, e', carry', c2, j2, j3, j4, j5, j6, j7⟩ | ⟨⟨j1, js⟩, e', j2, j3, j4, j5⟩
  · subst j1
    exact .inl ⟨⟨rfl, hF.lexer, hF.numVars, hF.static, js⟩, j2, j3, lp.view.out, j4, rfl, rfl, rfl⟩
  · subst j1
    obtain ⟨v, hv, hE, hvn, hvo⟩ := metadata_spec hX j2 j3.input.mem hnv hocc hml
    simp only [hv]
    obtain ⟨j4, jat, jtx⟩ := j4
    refine .inr (.inl ⟨trivial, e', carry', c2, hE, j3.input.mem, ?_, jtx (startOf c carry) ?_ ?_, j5.1, j6, j7⟩)
    rotate_left
    · cases carry with
      | none => exact Nat.le_refl _
      | some x =>
        have h1 := h.carryAt
        have h2 := h.carry.2.2.1.le
        simp only [CarryAt] at h1
        simp only [startOf]; omega
    · cases carry with
      | none => simp [startOf, curText, slice]
      | some x =>
        have h1 := h.carryAt
        simp only [CarryAt] at h1
        simp only [Option.map_some, startOf, curText, text_start, PTok.text, h1]
    refine ⟨j3.lexer, hvn.trans hnv, ?_, j3.ok, j3.cov, j3.good, cfgRel_pos j3.rel rfl, ?_, ?_, ?_⟩
    · show 3 ≤ v.out.staticSize
      rw [hvo, hF.static]; exact h.static
    · cases carry' <;> exact j4
    · simp [h.notDone]
    · exact jat
  · subst j1
    obtain ⟨v, hv, hE, hvn, hvo⟩ := metadata_spec hX j2 j3.mem hnv hocc hml
    simp only [hv]
    refine .inr (.inr ⟨trivial, ⟨by simp, hF.lexer, hvn.trans hF.numVars, ?_, js⟩, e', hE, j3.mem, j4, j5⟩)
    show v.out.staticSize = _
    rw [hvo]; exact hF.static

theorem setup_prepared {X : Ctx} (hX : X.Ok) (p : BufferParser) (offset : Nat) : X.Prepared p offset (X.setup p offset) :=
  ⟨rfl, rfl, rfl, rfl, rfl, setup_in hX p offset, rfl⟩

/-- What a call of `parse_next_event` does. -/
theorem parseNextEvent_spec {X : Ctx} (hX : X.Ok) {p : BufferParser} {offset : Nat} {c : Cfg} {carry : Option PTok}
    (h : X.BRel p offset c carry) :
    (((p.parseNextEvent X.ptr X.content X.size offset X.fin).2.2 = .error .oob ∧
      Keeps p (p.parseNextEvent X.ptr X.content X.size offset X.fin).1) ∧
      segment X.s (carry.map PEvent.start) (X.L.toks X.s X.fin c).1 = [] ∧ (X.L.toks X.s X.fin c).2 = some .oob ∧
      ∃ o, X.OobOut o (carry.map PEvent.start) c.cov (segmentRest X.s (carry.map PEvent.start) (X.L.toks X.s X.fin c).1) ∧
        (p.parseNextEvent X.ptr X.content X.size offset X.fin).2.1 =
          (if o.pos ≠ 0 then (o.get 0).startPos else offset) ∧
        (o = (X.setup p offset).parse.1.view.out ∧ (X.setup p offset).parse.2 = .error .oob))
    ∨ ((p.parseNextEvent X.ptr X.content X.size offset X.fin).2.2 = .ok () ∧
      ∃ e carry' c', X.EvIs (p.parseNextEvent X.ptr X.content X.size offset X.fin).1.lp.view e ∧
      (p.parseNextEvent X.ptr X.content X.size offset X.fin).1.lp.input.mem X.ptr = X.content ∧
      X.BRel (p.parseNextEvent X.ptr X.content X.size offset X.fin).1
        (p.parseNextEvent X.ptr X.content X.size offset X.fin).2.1 c' carry' ∧
      (e.text X.s = slice X.s (startOf c carry) (startOf c' carry') ∧ startOf c carry < startOf c' carry') ∧ c.cov < c'.cov ∧
      segment X.s (carry.map PEvent.start) (X.L.toks X.s X.fin c).1 =
        e :: segment X.s (carry'.map PEvent.start) (X.L.toks X.s X.fin c').1 ∧
      (X.L.toks X.s X.fin c').2 = (X.L.toks X.s X.fin c).2 ∧
      segmentRest X.s (carry'.map PEvent.start) (X.L.toks X.s X.fin c').1 =
        segmentRest X.s (carry.map PEvent.start) (X.L.toks X.s X.fin c).1)
    ∨ ((p.parseNextEvent X.ptr X.content X.size offset X.fin).2.2 = .ok () ∧
      ((p.parseNextEvent X.ptr X.content X.size offset X.fin).1.done = true ∧
        Keeps p (p.parseNextEvent X.ptr X.content X.size offset X.fin).1) ∧
      ∃ e, X.EvIs (p.parseNextEvent X.ptr X.content X.size offset X.fin).1.lp.view e ∧
      (p.parseNextEvent X.ptr X.content X.size offset X.fin).1.lp.input.mem X.ptr = X.content ∧
      segment X.s (carry.map PEvent.start) (X.L.toks X.s X.fin c).1 = [e] ∧ (X.L.toks X.s X.fin c).2 = none) :=
  callOn_spec hX h (setup_prepared hX p offset)

/-! ### All calls -/

/-- The tokens of the view. -/
theorem OutRel.tokens {X : Ctx} {v : EventView} {e : PEvent} (h : X.OutRel v.out e) :
    List.Forall₂ X.TokIs v.tokens e.toks := by
  have hf : v.first = off e := by unfold EventView.first off; rw [h.ts]
  unfold EventView.tokens
  rw [hf, h.pos, Nat.add_sub_cancel_left]
  rw [List.forall₂_iff_get]
  refine ⟨by simp, fun i h1 h2 => ?_⟩
  simp only [List.get_eq_getElem, List.getElem_map, List.getElem_range', Nat.one_mul]
  exact h.toks i _ (List.getElem?_eq_getElem h2)

theorem texts_spec {X : Ctx} (hX : X.Ok) {m : Mem} (hm : m X.ptr = X.content) {ts : List Token} {xs : List PTok}
    (h : List.Forall₂ X.TokIs ts xs) (hg : ∀ x ∈ xs, X.GoodTok x) :
    EventView.texts m ts = some (xs.flatMap (PTok.text X.s)) := by
  induction h with
  | nil => rfl
  | @cons t x ts xs ht _ ih =>
    have hx := hg x (by simp)
    have hle := hx.le
    have hst := hx.stop
    have := hX.size_le
    have hv : t.toStringView m = some (slice X.s x.a x.e, t) := by
      unfold Token.toStringView readRange
      rw [ht.start, ht.stop, ht.buf, hm, if_pos hle, show x.a + (x.e - x.a) = x.e by omega, if_pos (by omega)]
      simp only [Option.map_some, Ctx.s]
      rw [slice_take hst]
      rfl
    unfold EventView.texts
    rw [hv, ih (fun y hy => hg y (by simp [hy]))]
    rfl

/-- What the client sees shows the event. -/
structure EvOut (X : Ctx) (o : EventOut) (e : PEvent) : Prop where
  ev : X.EvIs o.view e
  text : o.text = some (e.text X.s)

theorem EvIs.outOf {X : Ctx} (hX : X.Ok) {v : EventView} {e : PEvent} (h : X.EvIs v e) {m : Mem} (hm : m X.ptr = X.content)
    (off : Nat) : X.EvOut ⟨v, v.toString m, off⟩ e :=
  ⟨h, texts_spec hX hm h.out.tokens h.out.good⟩

/-- Where the caller is told to go on after running out of text, when the event in progress has not exactly no timestamp. -/
def OffsetIs (off n : Nat) : Option PEvent → Prop
  | none => off = n
  | some e => e.ts = true → off = n

theorem oob_offset {X : Ctx} {p : BufferParser} {offset : Nat} {c : Cfg} {carry : Option PTok} (h : X.BRel p offset c carry)
    {o : OutBuf} {r : Option PEvent} (ho : X.OobOut o (carry.map PEvent.start) c.cov r) :
    OffsetIs (if o.pos ≠ 0 then (o.get 0).startPos else offset) (startOf c carry) r := by
  match r, ho with
  | none, ⟨h1, h2⟩ =>
    have hc : carry = none := by cases carry with | none => rfl | some x => cases h2
    subst hc
    rw [if_neg (by simp [h1])]
    have hat := h.carryAt
    have hrel := h.rel
    simp only [CarryAt] at hat
    show offset = c.cov
    match c, hrel with
    | .sof q, ⟨a1, a2, a3, a4, a5, a6, a7, a8, a9⟩ => exact a6
    | .at q, ⟨a1, a2, a3, a4, a5, a6⟩ => exact a4
    | .pend a e ty, _ => exact absurd rfl (hat a e ty)
  | some e, ⟨h1, h2⟩ =>
    intro hts
    have hoff : off e = 0 := by simp [off, hts]
    have hx : ∃ x, e.toks.head? = some x ∧ x.a = startOf c carry := by
      cases carry with
      | none =>
        cases ht : e.toks.head? with
        | none => rw [ht] at h2; simp at h2
        | some x => rw [ht] at h2; simp at h2; exact ⟨x, rfl, h2⟩
      | some y =>
        cases ht : e.toks.head? with
        | none => rw [ht] at h2; simp [PEvent.start] at h2
        | some x => rw [ht] at h2; simp [PEvent.start] at h2; exact ⟨x, rfl, h2⟩
    obtain ⟨x, hx1, hx2⟩ := hx
    have hx3 : e.toks[0]? = some x := by rw [← hx1]; exact List.head?_eq_getElem?.symm
    have hpos := h1.pos
    have hlen : 0 < e.toks.length := (List.getElem?_eq_some_iff.mp hx3).1
    rw [if_pos (by omega), ← hx2]
    have := (h1.toks 0 x hx3).start
    rwa [hoff] at this

/-- Where the lexer stands between two calls: at the start of the next event, or behind its first token. -/
theorem BRel.offset {X : Ctx} (hX : X.Ok) {p : BufferParser} {offset : Nat} {c : Cfg} {carry : Option PTok}
    (h : X.BRel p offset c carry) : startOf c carry ≤ offset ∧ offset ≤ X.size ∧
    (match carry with | none => offset = startOf c carry | some x => x.e ≤ offset) := by
  have hat := h.carryAt
  have hrel := h.rel
  have hcov := h.cov
  have hok := h.ok
  have hlen := hX.len
  have hpos : c.cov ≤ offset ∧ offset ≤ X.size ∧ ((∀ a e ty, c ≠ .pend a e ty) → offset = c.cov) := by
    match c, hrel with
    | .sof q, ⟨_, _, _, _, _, a6, _, _, _⟩ =>
      have a6 : offset = 0 := a6
      simp only [Cfg.cov] at hcov ⊢
      exact ⟨by omega, by omega, fun _ => a6⟩
    | .at q, ⟨_, _, _, a4, _, _⟩ =>
      have a4 : offset = q := a4
      simp only [Cfg.cov] at hcov ⊢
      exact ⟨by omega, by omega, fun _ => a4⟩
    | .pend a e ty, ⟨_, _, _, _, _, a6, _, _⟩ =>
      have a6 : offset = e := a6
      simp only [Cfg.cov, CfgOk] at hcov hok ⊢
      refine ⟨?_, ?_, fun h => absurd rfl (h a e ty)⟩
      · rcases hok with ⟨b1, _, _⟩ | ⟨b1, b2, _⟩ <;> omega
      · rcases hok with ⟨b1, b2, _⟩ | ⟨b1, b2, _⟩ <;> omega
  cases carry with
  | none => exact ⟨hpos.1, hpos.2.1, hpos.2.2 hat⟩
  | some x =>
    have h1 := h.carry.2.2.1.le
    simp only [CarryAt] at hat
    simp only [startOf]
    exact ⟨by omega, hpos.2.1, by omega⟩

/-- The loop of a client around a call. -/
def loopOn (call : BufferParser → Nat → BufferParser × Nat × Except Fail Unit) : Nat → BufferParser → Nat → RunOut
  | 0, p, offset => ⟨[], some .diverge, offset, p⟩
  | k + 1, p, offset =>
    match call p offset with
    | (p, off, .error e) => ⟨[], some e, off, p⟩
    | (p, off, .ok ()) =>
      let o : EventOut := ⟨p.lp.view, p.lp.view.toString p.lp.input.mem, off⟩
      if p.done then ⟨[o], none, off, p⟩
      else { loopOn call k p off with events := o :: (loopOn call k p off).events }

theorem loopOn_parseAll (ptr : Nat) (content : List Nat) (size : Nat) (fin : Bool) : ∀ (k : Nat) (p : BufferParser) (offset : Nat),
    p.parseAll k ptr content size offset fin = loopOn (fun p off => p.parseNextEvent ptr content size off fin) k p offset := by
  intro k
  induction k with
  | zero => intro p offset; rfl
  | succ k ih =>
    intro p offset
    unfold BufferParser.parseAll loopOn
    simp only
    generalize p.parseNextEvent ptr content size offset fin = r
    obtain ⟨p', off', r⟩ := r
    cases r with
    | error e => rfl
    | ok u => simp only [ih]

/-- The loop of a client gives the events of the token sequence. -/
theorem loopOn_spec {X : Ctx} (hX : X.Ok) {call : BufferParser → Nat → BufferParser × Nat × Except Fail Unit}
    (hcall : ∀ p offset, offset ≤ X.size → ∃ lp, X.Prepared p offset lp ∧ call p offset = callOn lp p.done offset) : ∀ (k : Nat) (p : BufferParser) (offset : Nat) (c : Cfg) (carry : Option PTok),
    X.BRel p offset c carry → X.size - c.cov < k →
    (loopOn call k p offset).status = (X.L.toks X.s X.fin c).2 ∧
    List.Forall₂ X.EvOut (loopOn call k p offset).events
      (segment X.s (carry.map PEvent.start) (X.L.toks X.s X.fin c).1) ∧
    ((X.L.toks X.s X.fin c).2 = some .oob → ∃ n, startOf c carry ≤ n ∧ n ≤ X.size ∧
      (segment X.s (carry.map PEvent.start) (X.L.toks X.s X.fin c).1).flatMap (PEvent.text X.s) = slice X.s (startOf c carry) n ∧
      OffsetIs (loopOn call k p offset).offset n
        (segmentRest X.s (carry.map PEvent.start) (X.L.toks X.s X.fin c).1)) ∧
    (loopOn call k p offset).parser.lp.lexer = X.L ∧
    (loopOn call k p offset).parser.lp.view.numVars = X.numVars ∧
    3 ≤ (loopOn call k p offset).parser.lp.view.out.staticSize ∧
    (loopOn call k p offset).parser.lp.hasStart = false := by
  intro k
  induction k with
  | zero => intro p offset c carry _ h; omega
  | succ k ih =>
    intro p offset c carry h hk
    have hlen := hX.len
    have hst : startOf c carry ≤ X.size := by
      have hc := h.cov
      cases carry with
      | none => show c.cov ≤ _; omega
      | some x =>
        have h1 := h.carry.2.2.1.le
        have h2 := h.carry.2.2.1.stop
        show x.a ≤ _; omega
    obtain ⟨lp, hlp, hc⟩ := hcall p offset (h.offset hX).2.1
    have hs := callOn_spec hX h hlp
    unfold loopOn
    rw [← hc] at hs
    generalize call p offset = r at hs ⊢
    obtain ⟨p', off', r⟩ := r
    simp only at hs ⊢
    rcases hs with ⟨⟨j1, jK⟩, j2, j3, o, j4, j5, _⟩ | ⟨j1, e, carry', c', j2, jm, j3, ⟨jt, jlt⟩, j4, j5, j6, j7⟩ | ⟨j1, ⟨jd, jK⟩, e, j2, jm, j3, j4⟩
    · subst j1
      rw [j2, j3]
      refine ⟨rfl, .nil, fun _ => ⟨startOf c carry, Nat.le_refl _, hst, by simp [slice], ?_⟩,
        jK.lexer.trans h.lexer, jK.numVars.trans h.numVars, jK.static ▸ h.static, jK.hasStart⟩
      simp only
      rw [j5]
      exact oob_offset h j4
    · subst j1
      simp only
      have hcov := j3.cov
      rw [if_neg (by simp [j3.notDone]), j5, ← j6, ← j7]
      obtain ⟨i1, i2, i3, i4⟩ := ih p' off' c' carry' j3 (by omega)
      refine ⟨i1, .cons (j2.outOf hX jm _) i2, fun ho => ?_, i4⟩
      obtain ⟨n, n1, n2, n3, n4⟩ := i3 ho
      refine ⟨n, by omega, n2, ?_, n4⟩
      rw [List.flatMap_cons, n3, jt, slice_split (by omega) n1]
    · subst j1
      simp only
      rw [if_pos jd, j3, j4]
      exact ⟨rfl, .cons (j2.outOf hX jm _) .nil, (fun h => by cases h),
        jK.lexer.trans h.lexer, jK.numVars.trans h.numVars, jK.static ▸ h.static, jK.hasStart⟩

/-- The loop of a client gives the events of the token sequence. -/
theorem parseAll_spec {X : Ctx} (hX : X.Ok) : ∀ (k : Nat) (p : BufferParser) (offset : Nat) (c : Cfg) (carry : Option PTok),
    X.BRel p offset c carry → X.size - c.cov < k →
    (p.parseAll k X.ptr X.content X.size offset X.fin).status = (X.L.toks X.s X.fin c).2 ∧
    List.Forall₂ X.EvOut (p.parseAll k X.ptr X.content X.size offset X.fin).events
      (segment X.s (carry.map PEvent.start) (X.L.toks X.s X.fin c).1) ∧
    ((X.L.toks X.s X.fin c).2 = some .oob → ∃ n, startOf c carry ≤ n ∧ n ≤ X.size ∧
      (segment X.s (carry.map PEvent.start) (X.L.toks X.s X.fin c).1).flatMap (PEvent.text X.s) = slice X.s (startOf c carry) n ∧
      OffsetIs (p.parseAll k X.ptr X.content X.size offset X.fin).offset n
        (segmentRest X.s (carry.map PEvent.start) (X.L.toks X.s X.fin c).1)) ∧
    (p.parseAll k X.ptr X.content X.size offset X.fin).parser.lp.lexer = X.L ∧
    (p.parseAll k X.ptr X.content X.size offset X.fin).parser.lp.view.numVars = X.numVars ∧
    3 ≤ (p.parseAll k X.ptr X.content X.size offset X.fin).parser.lp.view.out.staticSize ∧
    (p.parseAll k X.ptr X.content X.size offset X.fin).parser.lp.hasStart = false := by
  intro k p offset c carry h hk
  rw [loopOn_parseAll]
  exact loopOn_spec hX (fun p offset _ => ⟨_, setup_prepared hX p offset, rfl⟩) k p offset c carry h hk

end Ctx
end LogSurgeon
