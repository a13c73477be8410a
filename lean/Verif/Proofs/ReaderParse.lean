import Verif.Proofs.ReaderSim
import Verif.Proofs.Buffer
import Verif.Model.ReaderParser
/-
`LogParser::parse` on the circular buffer does what it does on a text lying linearly in a buffer, until it runs out.
-/
namespace LogSurgeon
open Ctx

/-! ### One token -/

/-- The parser `pc` works on a circular buffer in which the bytes `R` have been read, `pl` on a linear one. -/
structure LSim (X : Ctx) (pc pl : LogParser) (R : List Nat) (lo rHat k : Nat) : Prop where
  lexer : pc.lexer = X.L
  sim : Sim pc.input pl.input R X.s X.fin lo rHat k
  st : SimSt0 pc.lex pl.lex pc.input.size k lo R.length

theorem nlCount_prefix {R w : List Nat} (h : R <+: w) {p : Nat} (hp : p ≤ R.length) : nlCount w p = nlCount R p := by
  obtain ⟨t, rfl⟩ := h
  unfold nlCount
  rw [List.take_append_of_le_length hp]

theorem cov_le_pos {X : Ctx} {p : LogParser} {c : Cfg} (h : X.LRel p c) : c.cov ≤ p.input.pos := by
  have := h.rel
  have hok := h.ok
  match c, this, hok with
  | .sof q, ⟨_, _, _, _, _, a, _⟩, _ => exact Nat.zero_le _
  | .at q, ⟨_, _, _, a, _, _⟩, _ => simp only [Cfg.cov]; omega
  | .pend x e ty, ⟨_, _, _, _, _, a, _, _⟩, ho =>
    simp only [Cfg.cov]
    rcases ho with ⟨h1, _⟩ | ⟨h1, h2, _⟩ <;> omega

theorem lo_le_cov {X : Ctx} {pc pl : LogParser} {R : List Nat} {lo rHat k : Nat} {c : Cfg} (h : LSim X pc pl R lo rHat k)
    (hR : X.LRel pl c) : lo ≤ c.cov := by
  have := hR.rel
  have hlo := h.sim.inv.lo_le
  match c, this with
  | .sof q, ⟨_, _, _, _, _, a, _⟩ => simp only [Cfg.cov]; omega
  | .at q, ⟨_, _, _, a, _, _⟩ => simp only [Cfg.cov]; omega
  | .pend x e ty, ⟨_, a1, a2, _, _, _, _, _⟩ =>
    have := (h.st.start (.inl a1)).lo_le
    simp only [Cfg.cov]; omega

theorem cov_le_read {X : Ctx} {pc pl : LogParser} {R : List Nat} {lo rHat k : Nat} {c : Cfg} (h : LSim X pc pl R lo rHat k)
    (hR : X.LRel pl c) : c.cov ≤ R.length := by
  have := cov_le_pos hR
  have := h.sim.inv.a_le
  omega

/-- When the circular buffer runs out, the bytes read so far do not determine the next token. -/
theorem oob_next {X : Ctx} (hX : X.Ok) {pc pl : LogParser} {R : List Nat} {lo rHat k : Nat} {c : Cfg}
    (h : LSim X pc pl R lo rHat k) (hR : X.LRel pl c) (hf : pc.input.finished = false)
    (ho : (X.L.scan pc.lex pc.input).2.2 = .error .oob) : X.L.nextTok R false c = none := by
  have hlo := h.sim.inv.lo_le
  have hale := h.sim.inv.a_le
  -- the same lexer on the bytes read
  obtain ⟨bl, hbl⟩ : ∃ b : InBuf, b =
      { pl.input with mem := fun _ => R, size := 2 * R.length, finished := false, lastRead := R.length, lrfh := true } := ⟨_, rfl⟩
  have hcf : pl.input.consumed = false := by
    rw [← h.sim.cons]
    cases hb : pc.input.consumed
    · rfl
    · rw [h.sim.cfin hb] at hf; cases hf
  have hV : View bl R false := by
    rw [hbl]
    refine View.of rfl (fun i _ => rfl) rfl ?_ (.inr rfl) (fun _ => ⟨rfl, ?_⟩)
    · show R.length ≤ 2 * R.length / 2; omega
    · show R.length = 2 * R.length / 2; omega
  have hS : Sim pc.input bl R R false lo rHat k := by
    refine ⟨?_, hV, List.prefix_rfl, (fun h1 => by rw [hf] at h1; cases h1), ?_, h.sim.cfin⟩
    · rw [hbl]; exact h.sim.inv
    · rw [hbl]; exact h.sim.cons
  have hP : PosOk R bl := by
    intro h1; rw [hbl] at h1
    have h1 : pl.input.consumed = true := h1
    rw [hcf] at h1; cases h1
  have hrel := hR.rel
  have hnp : pl.lex.isMatch = true → pl.lex.asked = false := by
    match c, hrel with
    | .sof q, ⟨_, _, a, _⟩ => intro h1; rw [a] at h1; cases h1
    | .at q, ⟨_, a, _, _, _, _⟩ => intro h1; rw [a] at h1; cases h1
    | .pend x e ty, ⟨a, _, _, _, _, _, _, _⟩ => intro _; exact a
  have hsim := scan_sim X.L hS h.st hnp (by
    intro h1; rw [hbl] at h1
    have h1 : pl.input.consumed = true := h1
    rw [hcf] at h1; cases h1)
  have hoob : (X.L.scan pl.lex bl).2.2 = .error .oob ∨ (X.L.scan pl.lex bl).2.2 = .error .ub := by
    rcases hsim with ⟨_, _, h2⟩ | h2 | ⟨_, _, _, _, _, _, _, _, _, h2, _⟩
    · exact .inl (h2 rfl rfl)
    · exact .inr h2
    · rw [ho] at h2; cases h2
  have hpos : bl.pos = pl.input.pos := by rw [hbl]
  have fin : ∀ (_ : CfgOk X.L R c) (_ : CfgRel X.L R pl.lex bl c), X.L.nextTok R false c = none := by
    intro h1 h2
    obtain ⟨_, _, h3⟩ := scan_next hX.nl hX.types hV hP h1 h2
    cases hn : X.L.nextTok R false c with
    | none => rfl
    | some y =>
      rw [hn] at h3
      obtain ⟨t, h3, _⟩ := h3
      rw [h3] at hoob
      rcases hoob with h | h <;> cases h
  have hok := hR.ok
  have hcov := cov_le_read h hR
  match c, hrel, hok with
  | .sof q, ⟨a1, a2, a3, a4, a5, a6, a7, a8, a9⟩, ho => exact fin ho ⟨a1, a2, a3, a4, a5, hpos.trans a6, a7, a8, a9⟩
  | .at q, ⟨a1, a2, a3, a4, a5, a6⟩, ho =>
    simp only [Cfg.cov] at hcov
    refine fin hcov ⟨a1, a2, a3, hpos.trans a4, fun hd => ?_, fun hd => ?_⟩
    · rw [a5 hd]; exact nlCount_prefix h.sim.pre hcov
    · rw [a6 hd]; exact nlCount_prefix h.sim.pre hcov
  | .pend x e ty, ⟨a1, a2, a3, a4, a5, a6, a7, a8⟩, _ =>
    exfalso
    have h1 : pc.lex.asked = false := by rw [h.st.eq]; exact a1
    have h2 : pc.lex.isMatch = true := by rw [h.st.eq]; exact a2
    unfold Lexer.scan at ho
    rw [if_neg (by simp [h1]), if_pos h2] at ho
    cases ho

/-- `get_next_symbol` on both buffers. -/
theorem next_sim {X : Ctx} (hX : X.Ok) (hfin : X.fin = true) {pc pl : LogParser} {R : List Nat} {lo rHat k : Nat} {c : Cfg}
    (h : LSim X pc pl R lo rHat k) (hR : X.LRel pl c) :
    (pc.getNextSymbol.2 = .error .oob ∧ pc.input.finished = false ∧ X.L.nextTok R false c = none) ∨
    (∃ tc tl xc xl f, pc.getNextSymbol.1 = { pc with lex := pc.getNextSymbol.1.lex, input := { pc.input with pos := xc, consumed := f } } ∧
      pl.getNextSymbol.1 = { pl with lex := pl.getNextSymbol.1.lex, input := { pl.input with pos := xl, consumed := f } } ∧
      pc.getNextSymbol.2 = .ok tc ∧ pl.getNextSymbol.2 = .ok tl ∧
      LSim X pc.getNextSymbol.1 pl.getNextSymbol.1 R lo rHat k ∧ SimTok pc.input pl.input tc tl k lo R.length) := by
  have hgc : pc.getNextSymbol = ({ pc with lex := (X.L.scan pc.lex pc.input).1, input := (X.L.scan pc.lex pc.input).2.1 },
      (X.L.scan pc.lex pc.input).2.2) := by unfold LogParser.getNextSymbol; rw [h.lexer]
  have hgl : pl.getNextSymbol = ({ pl with lex := (X.L.scan pl.lex pl.input).1, input := (X.L.scan pl.lex pl.input).2.1 },
      (X.L.scan pl.lex pl.input).2.2) := by unfold LogParser.getNextSymbol; rw [hR.lexer]
  have hrel := hR.rel
  have hnp : pl.lex.isMatch = true → pl.lex.asked = false := by
    match c, hrel with
    | .sof q, ⟨_, _, a, _⟩ => intro h1; rw [a] at h1; cases h1
    | .at q, ⟨_, a, _, _, _, _⟩ => intro h1; rw [a] at h1; cases h1
    | .pend x e ty, ⟨a, _, _, _, _, _, _, _⟩ => intro _; exact a
  have hlen := h.sim.len
  have hale := h.sim.inv.a_le
  have hsim := scan_sim X.L h.sim h.st hnp (fun h1 => by
    have := (hR.input.pos h1).1
    omega)
  rcases hsim with ⟨h1, h2, _⟩ | h1 | ⟨xc, xl, f, tc, tl, h1, h2, h3, h4, h5, h6, h7⟩
  · exact .inl ⟨by rw [hgc]; exact h1, h2, oob_next hX h hR h2 h1⟩
  · exfalso
    have h2 := (next_spec hX hR).2
    rw [hgl] at h2
    cases hn : X.L.nextTok X.s X.fin c with
    | none => rw [hn] at h2; simp only at h2; rw [h1] at h2; cases h2
    | some y =>
      rw [hn] at h2
      obtain ⟨t, h2, _⟩ := h2
      simp only at h2
      rw [h1] at h2; cases h2
  · right
    rw [hgc, hgl]
    refine ⟨tc, tl, xc, xl, f, by simp only [h1], by simp only [h2], h5, h6, ⟨h.lexer, h3, ?_⟩, h7⟩
    have hsz : ((X.L.scan pc.lex pc.input).2.1).size = pc.input.size := by rw [h1]
    show SimSt0 _ _ ((X.L.scan pc.lex pc.input).2.1).size _ _ _
    rw [hsz]
    exact h4.weak

/-! ### Events of a text and of its beginnings -/

/-- The event in progress is the last one. -/
inductive EvLast (L : Lexer) (s : List Nat) (fin : Bool) : Option PEvent → Cfg → PEvent → Prop
  | none {c c' x} (hn : L.nextTok s fin c = some (x, c')) (hx : x.ty = [tokenEnd]) : EvLast L s fin none c ⟨false, []⟩
  | some {c c' x e} (hn : L.nextTok s fin c = some (x, c')) (hx : x.ty = [tokenEnd]) : EvLast L s fin (some e) c e
  | first {c c1 x e} (hn : L.nextTok s fin c = some (x, c1)) (he : x.kind ≠ tokenEnd) (hk : x.kind ≠ tokenNewlineTimestamp)
    (h : EvLast L s fin (some (.start x)) c1 e) : EvLast L s fin none c e
  | more {c c1 x} {e e' : PEvent} (hn : L.nextTok s fin c = some (x, c1)) (he : x.kind ≠ tokenEnd)
    (hA : ¬ (e.ts = false ∧ x.kind = tokenNewline))
    (hB : ¬ ((e.ts = true ∧ x.kind = tokenNewlineTimestamp) ∨ (e.ts = false ∧ x.startsNl s = true)))
    (h : EvLast L s fin (some (e.add x)) c1 e') : EvLast L s fin (some e) c e'

theorem ty_ne_end {x : PTok} (h : x.kind ≠ tokenEnd) : x.ty ≠ [tokenEnd] := by
  intro h1; apply h; unfold PTok.kind; rw [h1]; rfl

theorem kind_of_end {x : PTok} (h : x.ty = [tokenEnd]) : x.kind = tokenEnd := by
  unfold PTok.kind; rw [h]; rfl

theorem toks_step {L : Lexer} (hL : NlOk L) (hT : TypesProper L) {s : List Nat} {fin : Bool} {c c1 : Cfg} {x : PTok}
    (hc : CfgOk L s c) (hcl : c.cov ≤ s.length) (hn : L.nextTok s fin c = some (x, c1)) (he : x.kind ≠ tokenEnd) :
    (L.toks s fin c).1 = x :: (L.toks s fin c1).1 ∧ CfgOk L s c1 ∧ c1.cov ≤ s.length ∧ x.a < x.e ∧ x.e = c1.cov ∧ c.cov = x.a := by
  have := toks_eq (fin := fin) hL hT hc hcl
  rw [hn] at this
  simp only at this
  rw [if_neg (ty_ne_end he)] at this
  obtain ⟨h1, h2, h3, h4, h5⟩ := nextTok_ok hL hc hn
  refine ⟨by rw [this], h1, by omega, ?_, h3.symm, h2.symm⟩
  rcases h5 with ⟨h5, _⟩ | ⟨h5, _⟩
  · exact h5
  · rw [h5] at he; exact absurd rfl he

theorem toks_end {L : Lexer} (hL : NlOk L) (hT : TypesProper L) {s : List Nat} {fin : Bool} {c c1 : Cfg} {x : PTok}
    (hc : CfgOk L s c) (hcl : c.cov ≤ s.length) (hn : L.nextTok s fin c = some (x, c1)) (he : x.ty = [tokenEnd]) :
    (L.toks s fin c).1 = [x] := by
  have := toks_eq (fin := fin) hL hT hc hcl
  rw [hn] at this
  simp only at this
  rw [if_pos he] at this
  rw [this]

/-- The tokens of a beginning of the text. -/
theorem toks_restrict {L : Lexer} (hL : NlOk L) (hT : TypesProper L) {R w : List Nat} {fin : Bool} (hp : R <+: w) {c c1 : Cfg} {x : PTok}
    (hc : CfgOk L R c) (hcl : c.cov ≤ R.length) (hn : L.nextTok w fin c = some (x, c1)) (he : x.kind ≠ tokenEnd) :
    (L.toks R false c).1 = [] ∨ ((L.toks R false c).1 = x :: (L.toks R false c1).1 ∧ CfgOk L R c1 ∧ c1.cov ≤ R.length ∧
      x.startsNl R = x.startsNl w) := by
  cases hr : L.nextTok R false c with
  | none =>
    left
    rw [toks_eq (fin := false) hL hT hc hcl, hr]
  | some y =>
    right
    obtain ⟨t, rfl⟩ := hp
    have := nextTok_extend (t := t) (fin := fin) hcl hr
    rw [hn] at this
    cases this
    obtain ⟨h1, h2, h3, h4, h5, h6⟩ := toks_step hL hT hc hcl hr he
    refine ⟨h1, h2, h3, ?_⟩
    unfold PTok.startsNl
    rw [List.getElem?_append_left (by omega)]

theorem EvStep.segment {L : Lexer} (hL : NlOk L) (hT : TypesProper L) {s : List Nat} {fin : Bool} {cur : Option PEvent} {c c' : Cfg}
    {e : PEvent} {ca : Option PTok} (h : EvStep L s fin cur c e ca c') (hc : CfgOk L s c) (hcl : c.cov ≤ s.length) :
    LogSurgeon.segment s cur (L.toks s fin c).1 = e :: LogSurgeon.segment s (ca.map PEvent.start) (L.toks s fin c').1 := by
  induction h with
  | firstNl hn he hk =>
    rw [(toks_step hL hT hc hcl hn he).1]
    simp only [LogSurgeon.segment]; rw [if_neg he, if_pos hk]; rfl
  | first hn he hk _ ih =>
    obtain ⟨h1, h2, h3, _⟩ := toks_step hL hT hc hcl hn he
    rw [h1, ← ih h2 h3]
    simp only [LogSurgeon.segment]; rw [if_neg he, if_neg hk]
  | newline hn he hA =>
    rw [(toks_step hL hT hc hcl hn he).1]
    simp only [LogSurgeon.segment]; rw [if_neg he, if_pos hA]; rfl
  | cut hn he hA hB =>
    rw [(toks_step hL hT hc hcl hn he).1]
    simp only [LogSurgeon.segment]; rw [if_neg he, if_neg hA, if_pos hB]; rfl
  | more hn he hA hB _ ih =>
    obtain ⟨h1, h2, h3, _⟩ := toks_step hL hT hc hcl hn he
    rw [h1, ← ih h2 h3]
    simp only [LogSurgeon.segment]; rw [if_neg he, if_neg hA, if_neg hB]

theorem EvLast.segment {L : Lexer} (hL : NlOk L) (hT : TypesProper L) {s : List Nat} {fin : Bool} {cur : Option PEvent} {c : Cfg}
    {e : PEvent} (h : EvLast L s fin cur c e) (hc : CfgOk L s c) (hcl : c.cov ≤ s.length) :
    LogSurgeon.segment s cur (L.toks s fin c).1 = [e] := by
  induction h with
  | none hn hx =>
    rw [toks_end hL hT hc hcl hn hx]
    simp only [LogSurgeon.segment]; rw [if_pos (kind_of_end hx)]
  | some hn hx =>
    rw [toks_end hL hT hc hcl hn hx]
    simp only [LogSurgeon.segment]; rw [if_pos (kind_of_end hx)]
  | first hn he hk _ ih =>
    obtain ⟨h1, h2, h3, _⟩ := toks_step hL hT hc hcl hn he
    rw [h1, ← ih h2 h3]
    simp only [LogSurgeon.segment]; rw [if_neg he, if_neg hk]
  | more hn he hA hB _ ih =>
    obtain ⟨h1, h2, h3, _⟩ := toks_step hL hT hc hcl hn he
    rw [h1, ← ih h2 h3]
    simp only [LogSurgeon.segment]; rw [if_neg he, if_neg hA, if_neg hB]

/-- An event of the text is one of every beginning of the text, unless this is too short. -/
theorem EvStep.restrict {L : Lexer} (hL : NlOk L) (hT : TypesProper L) {R w : List Nat} {fin : Bool} (hp : R <+: w) {cur : Option PEvent}
    {c c' : Cfg} {e : PEvent} {ca : Option PTok} (h : EvStep L w fin cur c e ca c') (hc : CfgOk L R c) (hcl : c.cov ≤ R.length) :
    LogSurgeon.segment R cur (L.toks R false c).1 = [] ∨ (CfgOk L R c' ∧ c'.cov ≤ R.length ∧
      LogSurgeon.segment R cur (L.toks R false c).1 = e :: LogSurgeon.segment R (ca.map PEvent.start) (L.toks R false c').1) := by
  have nil : ∀ cur, LogSurgeon.segment R cur [] = [] := fun cur => by cases cur <;> rfl
  induction h with
  | firstNl hn he hk =>
    rcases toks_restrict hL hT hp hc hcl hn he with h1 | ⟨h1, h2, h3, h4⟩
    · left; rw [h1, nil]
    · right
      refine ⟨h2, h3, ?_⟩
      rw [h1]; simp only [LogSurgeon.segment]; rw [if_neg he, if_pos hk]; rfl
  | first hn he hk _ ih =>
    rcases toks_restrict hL hT hp hc hcl hn he with h1 | ⟨h1, h2, h3, h4⟩
    · left; rw [h1, nil]
    · rcases ih h2 h3 with i1 | ⟨i1, i2, i3⟩
      · left
        rw [h1, ← i1]; simp only [LogSurgeon.segment]; rw [if_neg he, if_neg hk]
      · right
        refine ⟨i1, i2, ?_⟩
        rw [h1, ← i3]; simp only [LogSurgeon.segment]; rw [if_neg he, if_neg hk]
  | newline hn he hA =>
    rcases toks_restrict hL hT hp hc hcl hn he with h1 | ⟨h1, h2, h3, h4⟩
    · left; rw [h1, nil]
    · right
      refine ⟨h2, h3, ?_⟩
      rw [h1]; simp only [LogSurgeon.segment]; rw [if_neg he, if_pos hA]; rfl
  | cut hn he hA hB =>
    rcases toks_restrict hL hT hp hc hcl hn he with h1 | ⟨h1, h2, h3, h4⟩
    · left; rw [h1, nil]
    · right
      refine ⟨h2, h3, ?_⟩
      rw [h1]; simp only [LogSurgeon.segment]; rw [if_neg he, if_neg hA, h4, if_pos hB]; rfl
  | more hn he hA hB _ ih =>
    rcases toks_restrict hL hT hp hc hcl hn he with h1 | ⟨h1, h2, h3, h4⟩
    · left; rw [h1, nil]
    · rcases ih h2 h3 with i1 | ⟨i1, i2, i3⟩
      · left
        rw [h1, ← i1]; simp only [LogSurgeon.segment]; rw [if_neg he, if_neg hA, h4, if_neg hB]
      · right
        refine ⟨i1, i2, ?_⟩
        rw [h1, ← i3]; simp only [LogSurgeon.segment]; rw [if_neg he, if_neg hA, h4, if_neg hB]

/-! ### Tokens in the circular buffer -/

/-- The token object stands for the range. -/
structure CTok (S act : Nat) (t : Token) (x : PTok) (k lo r : Nat) : Prop where
  start : InWin S k lo r t.startPos x.a
  stop : InWin S k lo r t.endPos x.e ∨ (t.endPos = S ∧ t.startPos + 1 = S ∧ x.e = x.a + 1 ∧ x.e ≤ r)
  le : x.a ≤ x.e
  buf : t.buf = act
  size : t.bufSize = S
  types : t.types = some x.ty
  wrap : t.wrap = []

theorem CTok.stop_le {S act k lo r : Nat} {t : Token} {x : PTok} (h : CTok S act t x k lo r) : x.e ≤ r := by
  rcases h.stop with h | h
  · exact h.le
  · exact h.2.2.2

/-- The text of a token. -/
theorem CTok.text {b : InBuf} {R : List Nat} {a lo rHat k : Nat} (hb : BufInv b R a lo rHat k) {t : Token} {x : PTok}
    (h : CTok b.size b.active t x k lo R.length) : (t.toStringView b.mem).map (·.1) = some (slice R x.a x.e) := by
  have hh := hb.half
  have hS : 0 < b.size := by omega
  have hw : R.length < lo + b.size := by have := hb.r_le; have := hb.window; omega
  have h1 := h.start.lo_le
  have h2 := h.le
  have h3 := h.stop_le
  have hst := hb.stor
  have hsi := h.start.eq
  have hsl : t.startPos < b.size := by rw [hsi]; exact Nat.mod_lt _ hS
  have hcont : ∀ (j : Nat), j < x.e - x.a → (b.mem b.active)[(x.a + j + k) % b.size]? = R[x.a + j]? :=
    fun j hj => hb.content (x.a + j) (by omega) (by omega)
  have hidx : ∀ (j : Nat), j < b.size → (x.a + j + k) % b.size = if t.startPos + j < b.size then t.startPos + j else t.startPos + j - b.size := by
    intro j hj
    rw [show x.a + j + k = (x.a + k) + j by omega]
    split
    · rename_i h4; exact mod_add_lt hsi.symm h4
    · rename_i h4
      rw [Nat.add_mod, ← hsi, Nat.mod_eq_of_lt (a := j) hj, Nat.mod_eq_sub_mod (by omega), Nat.mod_eq_of_lt (by omega)]
  have hslice : ∀ (j : Nat), (slice R x.a x.e)[j]? = if j < x.e - x.a then R[x.a + j]? else none := by
    intro j
    unfold slice
    rw [List.getElem?_take]
    split
    · rw [List.getElem?_drop]
    · rfl
  unfold Token.toStringView
  -- a text that lies in one piece
  have plain : t.startPos ≤ t.endPos → t.endPos = t.startPos + (x.e - x.a) → t.endPos ≤ b.size →
      ((if t.startPos ≤ t.endPos then (readRange (b.mem t.buf) t.startPos (t.startPos + (t.endPos - t.startPos))).map fun s => (s, t)
        else if t.wrap.isEmpty = true then (t.wrapText b.mem).map fun s => (s, { t with wrap := s })
        else some (t.wrap, t)).map (·.1)) = some (slice R x.a x.e) := by
    intro h4 h5 h6
    rw [if_pos h4]
    unfold readRange
    rw [h.buf, if_pos ⟨by omega, by omega⟩]
    simp only [Option.map_some, Option.some.injEq]
    apply List.ext_getElem?
    intro j
    rw [hslice, List.getElem?_take]
    by_cases hj : j < x.e - x.a
    · rw [if_pos (by omega), if_pos hj, List.getElem?_drop, ← hcont j hj, hidx j (by omega), if_pos (by omega)]
    · rw [if_neg (by omega), if_neg hj]
  rcases h.stop with h4 | ⟨h4, h5, h6, _⟩
  · have hei := h4.eq
    have hel : t.endPos < b.size := by rw [hei]; exact Nat.mod_lt _ hS
    have h5 := hidx (x.e - x.a) (by omega)
    rw [show x.a + (x.e - x.a) + k = x.e + k by omega, ← hei] at h5
    by_cases h6 : t.startPos + (x.e - x.a) < b.size
    · rw [if_pos h6] at h5
      exact plain (by omega) h5 (by omega)
    · rw [if_neg h6] at h5
      rw [if_neg (by omega), if_pos (by rw [h.wrap]; rfl)]
      unfold Token.wrapText readRange
      rw [h.buf, h.size, if_pos ⟨by omega, by omega⟩, if_pos ⟨by omega, by omega⟩]
      simp only [Option.bind_eq_bind, Option.bind_some, Option.pure_def, Option.map_some, Option.some.injEq, List.drop_zero]
      apply List.ext_getElem?
      intro j
      rw [hslice]
      by_cases hj : j < x.e - x.a
      · rw [if_pos hj, ← hcont j hj, hidx j (by omega)]
        by_cases hj2 : t.startPos + j < b.size
        · rw [if_pos hj2, List.getElem?_append_left (by simp; omega), List.getElem?_take, if_pos (by omega), List.getElem?_drop]
        · rw [if_neg hj2, List.getElem?_append_right (by simp; omega), List.getElem?_take]
          simp only [List.length_take, List.length_drop]
          rw [if_pos (by omega)]
          congr 1
          omega
      · rw [if_neg hj]
        apply List.getElem?_eq_none
        simp only [List.length_append, List.length_take, List.length_drop]
        omega
  · exact plain (by omega) (by omega) (by omega)

/-- The first character of a token. -/
theorem CTok.char {b : InBuf} {R : List Nat} {a lo rHat k : Nat} (hb : BufInv b R a lo rHat k) {t : Token} {x : PTok}
    (h : CTok b.size b.active t x k lo R.length) :
    ∃ v, t.getChar b.mem 0 = some v ∧ t.getDelimiter b.mem = some [v] ∧ (x.a < R.length → R[x.a]? = some v) := by
  have hh := hb.half
  have hS : 0 < b.size := by omega
  have hst := hb.stor
  have hsi := h.start.eq
  have hsl : t.startPos < b.size := by rw [hsi]; exact Nat.mod_lt _ hS
  have hl : t.startPos < (b.mem b.active).length := by omega
  refine ⟨(b.mem b.active)[t.startPos], ?_, ?_, fun hx => ?_⟩
  · unfold Token.getChar
    simp only [Nat.zero_mod, Nat.add_zero]
    rw [h.size, if_pos hsl, h.buf, List.getElem?_eq_getElem hl]
  · unfold Token.getDelimiter readRange
    rw [h.buf, if_pos ⟨by omega, by omega⟩]
    have : t.startPos + 1 - t.startPos = 1 := by omega
    rw [this, List.take_one, List.head?_drop, List.getElem?_eq_getElem hl]
    rfl
  · rw [← hb.content x.a h.start.lo_le hx, ← hsi, List.getElem?_eq_getElem hl]

/-- A token that can be recorded. -/
structure TyOk (X : Ctx) (x : PTok) : Prop where
  types : x.ty ≠ []
  kind : x.kind < X.numVars

/-- The output buffer holds the event. -/
structure COut (X : Ctx) (S act k lo r : Nat) (o : OutBuf) (e : PEvent) : Prop where
  ts : o.hasTimestamp = e.ts
  pos : o.pos = off e + e.toks.length
  room : o.pos < o.size
  toks : ∀ (i : Nat) (x : PTok), e.toks[i]? = some x → CTok S act (o.get (off e + i)) x k lo r
  good : ∀ x ∈ e.toks, TyOk X x
  inner : ∀ (i : Nat) (x : PTok), 0 < i → e.toks[i]? = some x → x.a < r

/-- The token kept for the next event. -/
def CCarry (X : Ctx) (S act k lo r : Nat) (p : LogParser) : Option PTok → Prop
  | none => p.hasStart = false
  | some x => p.hasStart = true ∧ CTok S act p.startTok x k lo r ∧ TyOk X x ∧ x.kind ≠ tokenEnd

/-- The same buffer, at another position. -/
def SameBuf (b b' : InBuf) : Prop := ∃ p c cp, b' = { b with pos := p, consumed := c, consumedPos := cp }

theorem SameBuf.trans {a b c : InBuf} (h : SameBuf a b) (h' : SameBuf b c) : SameBuf a c := by
  obtain ⟨p, q, r, rfl⟩ := h
  obtain ⟨p', q', r', rfl⟩ := h'
  exact ⟨p', q', r', rfl⟩

theorem CTok.type0 {S act k lo r : Nat} {t : Token} {x : PTok} (h : CTok S act t x k lo r) (hne : x.ty ≠ []) : t.type0 = .ok x.kind := by
  unfold Token.type0 PTok.kind
  rw [h.types]
  cases hx : x.ty with
  | nil => exact absurd hx hne
  | cons i l => rfl

theorem LSim.view {X : Ctx} {pc pl : LogParser} {R : List Nat} {lo rHat k : Nat} (h : LSim X pc pl R lo rHat k) {p : LogParser}
    (h1 : p.lexer = pc.lexer) (h2 : p.lex = pc.lex) (h3 : p.input = pc.input) : LSim X p pl R lo rHat k :=
  ⟨h1.trans h.lexer, h3 ▸ h.sim, by rw [h2, h3]; exact h.st⟩

/-- Marking bytes as consumed. -/
theorem LSim.raise {X : Ctx} {pc pl : LogParser} {R : List Nat} {lo rHat k : Nat} {c : Cfg} (h : LSim X pc pl R lo rHat k)
    (hR : X.LRel pl c) {n : Nat} (h1 : lo ≤ n) (h2 : n ≤ c.cov) {p : LogParser} (hp1 : p.lexer = pc.lexer) (hp2 : p.lex = pc.lex)
    (hp3 : p.input = { pc.input with consumedPos := (n + k) % pc.input.size }) : LSim X p pl R n rHat k := by
  have hcp := cov_le_pos hR
  have hcr := cov_le_read h hR
  have hrel := hR.rel
  refine ⟨hp1.trans h.lexer, ?_, ?_⟩
  · rw [hp3]
    exact ⟨h.sim.inv.consume h1 (by omega), h.sim.view, h.sim.pre, h.sim.ended, h.sim.cons, h.sim.cfin⟩
  · rw [hp2, hp3]
    refine ⟨h.st.eq, fun hm => ?_, fun hm => ?_, fun hm => ?_⟩
    · have h3 := h.st.last hm
      refine ⟨h3.eq, ?_, h3.le⟩
      match c, hrel with
      | .sof q, ⟨_, _, _, _, a, _⟩ => simp only [Cfg.cov] at h2; omega
      | .at q, ⟨_, _, a, _, _, _⟩ => simp only [Cfg.cov] at h2; omega
      | .pend x e ty, ⟨_, a, _, _, _, _, _, _⟩ => rw [a] at hm; cases hm
    · have h3 := h.st.start hm
      refine ⟨h3.eq, ?_, h3.le⟩
      match c, hrel with
      | .sof q, ⟨_, _, _, a, _, _⟩ => simp only [Cfg.cov] at h2; omega
      | .at q, ⟨a, a', _, _, _, _⟩ => rw [a, a'] at hm; rcases hm with hm | hm <;> cases hm
      | .pend x e ty, ⟨_, _, a, _, _, _, _, _⟩ => simp only [Cfg.cov] at h2; omega
    · have h3 := h.st.mtch hm
      refine ⟨h3.eq, ?_, h3.le⟩
      match c, hrel, hR.ok with
      | .sof q, ⟨_, _, a, _⟩, _ => rw [a] at hm; cases hm
      | .at q, ⟨_, a, _, _, _, _⟩, _ => rw [a] at hm; cases hm
      | .pend x e ty, ⟨_, _, _, a, _, _, _, _⟩, ho =>
        simp only [Cfg.cov] at h2
        rcases ho with ⟨h4, _⟩ | ⟨h4, h5, _⟩ <;> omega

theorem COut.add {X : Ctx} {S act k lo r : Nat} {o o' : OutBuf} {e : PEvent} (h : COut X S act k lo r o e) {t : Token} {x : PTok}
    (ht : CTok S act t x k lo r) (hg : TyOk X x) (hlt' : x.a < r) (hget : ∀ j, o'.get j = if j = o.pos then t else o.get j)
    (hts : o'.hasTimestamp = o.hasTimestamp) (hpos : o'.pos = o.pos) (hsize : o'.size = o.size) :
    COut X S act k lo r o'.advance (e.add x) := by
  have hlt : o'.pos < o'.size := by rw [hpos, hsize]; exact h.room
  obtain ⟨a1, a2, a3, a4, _, _, _⟩ := OutBuf.advance_spec hlt
  have hoff : off (e.add x) = off e := rfl
  refine ⟨by rw [a4, hts, h.ts]; rfl, ?_, a3, ?_, ?_, ?_⟩
  · rw [a2, hpos, h.pos, hoff]
    show _ = _ + (e.toks ++ [x]).length
    rw [List.length_append, List.length_singleton]; omega
  · intro i y hy
    rw [hoff]
    have hp := h.pos
    have hr := h.room
    simp only [PEvent.add] at hy
    rcases Nat.lt_trichotomy i e.toks.length with hi | hi | hi
    · rw [List.getElem?_append_left hi] at hy
      rw [a1 _ (by omega), hget, if_neg (by omega)]
      exact h.toks i y hy
    · subst hi
      simp at hy
      subst hy
      rw [a1 _ (by omega), hget, if_pos hp.symm]
      exact ht
    · rw [List.getElem?_eq_none (by simp; omega)] at hy; cases hy
  · intro y hy
    simp only [PEvent.add, List.mem_append, List.mem_singleton] at hy
    rcases hy with hy | rfl
    · exact h.good y hy
    · exact hg
  · intro i y hi hy
    simp only [PEvent.add] at hy
    rcases Nat.lt_or_ge i e.toks.length with hl | hl
    · rw [List.getElem?_append_left hl] at hy
      exact h.inner i y hi hy
    · rw [List.getElem?_append_right hl] at hy
      cases hj : i - e.toks.length with
      | zero => rw [hj] at hy; simp at hy; subst hy; exact hlt'
      | succ j => rw [hj] at hy; simp at hy

theorem COut.behind {X : Ctx} {S act k lo r : Nat} {o o' : OutBuf} {e : PEvent} (h : COut X S act k lo r o e) {t : Token}
    (hget : ∀ j, o'.get j = if j = o.pos then t else o.get j) (hts : o'.hasTimestamp = o.hasTimestamp)
    (hpos : o'.pos = o.pos) (hsize : o'.size = o.size) : COut X S act k lo r o' e := by
  refine ⟨by rw [hts, h.ts], by rw [hpos, h.pos], by rw [hpos, hsize]; exact h.room, fun i x hx => ?_, h.good, h.inner⟩
  have hi := (List.getElem?_eq_some_iff.mp hx).1
  rw [hget, if_neg (by rw [h.pos]; omega)]
  exact h.toks i x hx

theorem cNl {S act k lo r : Nat} (hS : 0 < S) {t : Token} {x : PTok} (h : CTok S act t x k lo r) (hlt : x.a < x.e) :
    CTok S act (LogParser.newlineOnly t) x.nl k lo r := by
  have h3 := h.stop_le
  have h1 := h.start.lo_le
  have hsi := h.start.eq
  have hsl : t.startPos < S := by rw [hsi]; exact Nat.mod_lt _ hS
  refine ⟨h.start, ?_, by show x.a ≤ x.a + 1; omega, h.buf, h.size, rfl, h.wrap⟩
  by_cases hw : t.startPos + 1 = S
  · exact .inr ⟨hw, hw, rfl, by show x.a + 1 ≤ r; omega⟩
  · refine .inl ⟨?_, by show lo ≤ x.a + 1; omega, by show x.a + 1 ≤ r; omega⟩
    show t.startPos + 1 = (x.a + 1 + k) % S
    rw [show x.a + 1 + k = (x.a + k) + 1 by omega, mod_succ hS, ← hsi, if_neg hw]

theorem cRest {S act k lo r : Nat} (hS : 0 < S) {t : Token} {x : PTok} (h : CTok S act t x k lo r) (hlt : x.a < x.e)
    (hstop : InWin S k lo r t.endPos x.e) {n : Nat} (hn : n ≤ x.a) (hlo : lo ≤ n) :
    CTok S act (LogParser.afterNewline t) x.rest k n r := by
  have h3 := h.stop_le
  have h1 := h.start.lo_le
  have hsi := h.start.eq
  have hsl : t.startPos < S := by rw [hsi]; exact Nat.mod_lt _ hS
  have hst : InWin S k n r (if t.startPos == t.bufSize - 1 then 0 else t.startPos + 1) (x.a + 1) := by
    refine ⟨?_, by omega, by omega⟩
    rw [show x.a + 1 + k = (x.a + k) + 1 by omega, mod_succ hS, ← hsi, h.size]
    by_cases hw : t.startPos + 1 = S
    · rw [if_pos (by simp; omega), if_pos hw]
    · rw [if_neg (by simp; omega), if_neg hw]
  have hsp : InWin S k n r t.endPos x.e := ⟨hstop.eq, by omega, hstop.le⟩
  unfold LogParser.afterNewline
  by_cases hw : (t.startPos == t.bufSize - 1) = true
  · rw [if_pos hw] at hst ⊢
    exact ⟨hst, .inl hsp, hlt, h.buf, h.size, h.types, h.wrap⟩
  · rw [if_neg hw] at hst ⊢
    exact ⟨hst, .inl hsp, hlt, h.buf, h.size, h.types, h.wrap⟩

/-- The position marked as consumed when a token is divided. -/
theorem cutPos {S act k lo r : Nat} (hS : 0 < S) {t : Token} {x : PTok} (h : CTok S act t x k lo r) :
    (if ((LogParser.afterNewline t).startPos == 0) = true then S - 1 else (LogParser.afterNewline t).startPos - 1) = t.startPos := by
  have hsl : t.startPos < S := by rw [h.start.eq]; exact Nat.mod_lt _ hS
  unfold LogParser.afterNewline
  by_cases hw : (t.startPos == t.bufSize - 1) = true
  · rw [if_pos hw]
    simp only [beq_iff_eq] at hw
    rw [h.size] at hw
    simp only [beq_self_eq_true, if_true]
    omega
  · rw [if_neg hw]
    simp

/-- What a call of `parse` does on the circular buffer. -/
def COutcome (X : Ctx) (R : List Nat) (lo rHat k : Nat) (p0 : LogParser) (cur : Option PEvent) (c : Cfg)
    (r : LogParser × Except Fail Action) : Prop :=
  (r.2 = .error .oob ∧ p0.input.finished = false ∧
    ∀ R', R' <+: R → CfgOk X.L R' c → c.cov ≤ R'.length → segment R' cur (X.L.toks R' false c).1 = []) ∨
  (Fixed p0 r.1 ∧ SameBuf p0.input r.1.input ∧
  ((r.2 = .ok .compress ∧ ∃ e carry c' pl' n, EvStep X.L X.s X.fin cur c e carry c' ∧
      COut X p0.input.size p0.input.active k lo R.length r.1.view.out e ∧ LSim X r.1 pl' R n rHat k ∧ X.LRel pl' c' ∧
      CCarry X p0.input.size p0.input.active k n R.length r.1 carry ∧ lo ≤ n ∧ startOf c' carry ≤ n + 1 ∧
      (n ≤ startOf c' carry ∧ (carry ≠ none → n < startOf c' carry)) ∧
      r.1.input.consumedPos = (n + k) % p0.input.size) ∨
   (r.2 = .ok .compressAndFinish ∧ r.1.hasStart = false ∧ ∃ e, EvLast X.L X.s X.fin cur c e ∧
      COut X p0.input.size p0.input.active k lo R.length r.1.view.out e)))

/-- The next token, as a range of the text. -/
theorem next_circ {X : Ctx} (hX : X.Ok) (hfin : X.fin = true) {pc pl : LogParser} {R : List Nat} {lo rHat k : Nat} {c : Cfg}
    (h : LSim X pc pl R lo rHat k) (hR : X.LRel pl c) :
    (pc.getNextSymbol.2 = .error .oob ∧ pc.input.finished = false ∧ X.L.nextTok R false c = none) ∨
    (∃ t x c' pl', pc.getNextSymbol.1 = { pc with lex := pc.getNextSymbol.1.lex, input := pc.getNextSymbol.1.input } ∧
      SameBuf pc.input pc.getNextSymbol.1.input ∧
      pc.getNextSymbol.2 = .ok t ∧ X.L.nextTok X.s X.fin c = some (x, c') ∧
      LSim X pc.getNextSymbol.1 pl' R lo rHat k ∧ X.LRel pl' c' ∧ CTok pc.input.size pc.input.active t x k lo R.length ∧
      InWin pc.input.size k lo R.length t.endPos x.e ∧
      TyOk X x ∧ c.cov = x.a ∧ c'.cov = x.e ∧
      ((x.ty = [tokenEnd] ∧ x.kind = tokenEnd) ∨ (x.kind ≠ tokenEnd ∧ x.a < x.e))) := by
  rcases next_sim hX hfin h hR with h1 | ⟨tc, tl, xc, xl, f, h1, h2, h3, h4, h5, h6⟩
  · exact .inl h1
  · right
    have hs := (next_spec hX hR).2
    cases hn : X.L.nextTok X.s X.fin c with
    | none => rw [hn] at hs; simp only at hs; rw [h4] at hs; cases hs
    | some y =>
      obtain ⟨x, c'⟩ := y
      rw [hn] at hs
      obtain ⟨t, a1, a2, a3, a4, a5, a6, a7, a8, a9, a10⟩ := hs
      rw [h4] at a1
      cases a1
      have hst : InWin pc.input.size k lo R.length tc.endPos x.e := by have := h6.stop; rw [a2.stop] at this; exact this
      have hle : x.a ≤ x.e := by
        rcases a10 with ⟨b1, _⟩ | ⟨_, _, b1, _⟩
        · obtain ⟨_, _, _, _, b2⟩ := nextTok_ok hX.nl hR.ok hn
          rcases b2 with ⟨b2, _⟩ | ⟨b2, _⟩
          · omega
          · rw [b2]
        · omega
      refine ⟨tc, x, c', pl.getNextSymbol.1, by rw [h1], by rw [h1]; exact ⟨_, _, _, rfl⟩, h3, rfl, h5, a3, ⟨?_, .inl hst, hle, h6.buf, h6.size, ?_, h6.wrap⟩,
        hst, ⟨a7, a8⟩, a4, a5, ?_⟩
      · have := h6.start; rw [a2.start] at this; exact this
      · rw [h6.types, a2.types]
      · rcases a10 with ⟨b1, b2, _⟩ | ⟨_, b2, b3, _⟩
        · exact .inl ⟨b1, b2⟩
        · exact .inr ⟨b2, b3⟩

/-- Without the next token there is no further event. -/
theorem oob_segment {X : Ctx} (hX : X.Ok) {R : List Nat} {c : Cfg} (h : X.L.nextTok R false c = none) (cur : Option PEvent) :
    ∀ R', R' <+: R → CfgOk X.L R' c → c.cov ≤ R'.length → segment R' cur (X.L.toks R' false c).1 = [] := by
  intro R' hp hc hcl
  have hn : X.L.nextTok R' false c = none := by
    cases hr : X.L.nextTok R' false c with
    | none => rfl
    | some y =>
      obtain ⟨t, rfl⟩ := hp
      rw [nextTok_extend (t := t) (fin := false) hcl hr] at h; cases h
  rw [toks_eq (fin := false) hX.nl hX.types hc hcl, hn]
  cases cur <;> rfl

theorem parseLoop_circ {X : Ctx} (hX : X.Ok) (hfin : X.fin = true) {R : List Nat} {lo rHat k : Nat} : ∀ (j : Nat) (p pl : LogParser)
    (c : Cfg) (e : PEvent), LSim X p pl R lo rHat k → X.LRel pl c → p.hasStart = false →
    COut X p.input.size p.input.active k lo R.length p.view.out e → R.length - c.cov < j →
    COutcome X R lo rHat k p (some e) c (LogParser.parseLoop j p) := by
  intro j
  induction j with
  | zero => intro p pl c e _ _ _ _ h; omega
  | succ j ih =>
    intro p pl c e hS hR hs hO hj
    have hsz : 0 < p.input.size := by have := hS.sim.inv.half; omega
    unfold LogParser.parseLoop
    rcases next_circ hX hfin hS hR with ⟨h1, h2, h3⟩ | ⟨t, x, c', pl', h1, hsb, h2, hnt, hS', hR', hct, hst, hty, hxa, hcov, hcase⟩
    · left
      generalize hg : p.getNextSymbol = g at *
      obtain ⟨p1, r1⟩ := g
      simp only at h1
      subst h1
      exact ⟨rfl, h2, oob_segment hX h3 _⟩
    · generalize hg : p.getNextSymbol = g at *
      obtain ⟨p1, r1⟩ := g
      simp only at h1 h2 hS' hsb
      subst h2
      simp only
      have hv1 : p1.view = p.view := by rw [h1]
      have hs1 : p1.hasStart = false := by rw [h1]; exact hs
      have hF1 : Fixed p p1 := by rw [h1]; exact ⟨rfl, rfl, rfl, rfl, rfl⟩
      have hsz1 : p1.input.size = p.input.size ∧ p1.input.active = p.input.active ∧ p1.input.mem = p.input.mem ∧
          p1.input.finished = p.input.finished := by
        obtain ⟨_, _, _, hb⟩ := hsb
        rw [hb]; exact ⟨rfl, rfl, rfl, rfl⟩
      have hcr := cov_le_read hS' hR'
      unfold LogParser.parseToken LogParser.need
      have hO1 : COut X p.input.size p.input.active k lo R.length p1.view.out e := by rw [hv1]; exact hO
      obtain ⟨o, ho, hget, g1, g2, g3, g4, g5⟩ := OutBuf.setToken_some t hO1.room
      rw [OutBuf.setCurr, ho]
      simp only
      rw [hct.type0 hty.types]
      simp only
      have hgpos : o.get o.pos = t := by rw [hget, if_pos g3]
      have hots : o.hasTimestamp = e.ts := by rw [g1]; exact hO1.ts
      obtain ⟨v, hch, _, hv⟩ := hct.char hS.sim.inv
      rw [← hsz1.2.2.1] at hch
      rw [show (p1.withOut o).input = p1.input from rfl, hch, hots, hgpos]
      have hcut : (if (e.ts && x.kind == tokenNewlineTimestamp) = true then some true
          else if (!e.ts) = true then Option.map (fun c => c == newline && x.kind != tokenNewline) (some v)
          else some false) = some ((e.ts && x.kind == tokenNewlineTimestamp) ||
            (!e.ts && (v == newline && x.kind != tokenNewline))) := by
        cases e.ts
        · simp
        · cases x.kind == tokenNewlineTimestamp <;> simp
      rw [hcut]
      simp only
      rcases hcase with ⟨h3, h4⟩ | ⟨h4, h3⟩
      · -- the end
        rw [if_pos (by simp [h4])]
        refine .inr ⟨hF1.trans (Fixed.out g5), hsb, .inr ⟨rfl, hs1, e, .some hnt h3, ?_⟩⟩
        exact hO1.behind hget g1 g3 g4
      · rw [if_neg (by simpa using h4)]
        have hxr : x.a < R.length := by omega
        have hxs : x.startsNl X.s = (v == newline) := by
          unfold PTok.startsNl
          obtain ⟨u, hu⟩ := hS.sim.pre
          rw [← hu, List.getElem?_append_left hxr, hv hxr]
          rfl
        by_cases hA : e.ts = false ∧ x.kind = tokenNewline
        · -- a newline ends the event
          rw [if_pos (by simp [hA])]
          refine .inr ⟨⟨hF1.occ, hF1.multiline, hF1.numVars, ?_, hF1.lexer⟩, ?_, .inl ⟨rfl, e.add x, none, c', pl', x.e,
            .newline hnt h4 hA, ?_, ?_, hR', hs1, ?_, ?_, ?_, ?_⟩⟩
          · show o.advance.staticSize = _
            rw [(OutBuf.advance_spec (by rw [g3, g4]; exact hO1.room)).2.2.2.2.2.1, g5]; exact hF1.static
          · exact hsb.trans ⟨_, _, _, rfl⟩
          · exact hO1.add hct hty hxr hget g1 g3 g4
          · refine hS'.raise hR' ?_ (by omega) rfl rfl ?_
            · exact hst.lo_le
            · show { p1.input with consumedPos := t.endPos } = _
              rw [hst.eq, hsz1.1]
          · exact hst.lo_le
          · show c'.cov ≤ _; omega
          · exact ⟨by show _ ≤ c'.cov; omega, fun h => absurd rfl h⟩
          · exact hst.eq
        · rw [if_neg (by simpa using hA)]
          by_cases hB : (e.ts = true ∧ x.kind = tokenNewlineTimestamp) ∨ (e.ts = false ∧ x.startsNl X.s = true)
          · -- the token is divided
            have hB' : ((e.ts && x.kind == tokenNewlineTimestamp) ||
              (!e.ts && (v == newline && x.kind != tokenNewline))) = true := by
              rcases hB with ⟨b1, b2⟩ | ⟨b1, b2⟩
              · simp [b1, b2]
              · rw [hxs] at b2
                have : x.kind ≠ tokenNewline := fun h => hA ⟨b1, h⟩
                simp only [b1, b2, Bool.not_false, Bool.true_and, Bool.false_and, Bool.false_or]
                simpa using this
            rw [if_pos hB']
            obtain ⟨o2, ho2, hget2, k1, k2, k3, k4, k5⟩ := OutBuf.setToken_some (o := o) (i := o.pos) (LogParser.newlineOnly t)
              (by rw [g3, g4]; exact hO1.room)
            rw [OutBuf.setCurr, ho2]
            simp only
            have hcp := (cutPos hsz hct).trans hct.start.eq
            rw [← hsz1.1] at hcp
            rw [hcp]
            refine .inr ⟨⟨hF1.occ, hF1.multiline, hF1.numVars, ?_, hF1.lexer⟩, ?_, .inl ⟨rfl, e.add x.nl, some x.rest, c', pl', x.a,
              .cut hnt h4 hA hB, ?_, ?_, hR', ?_, hct.start.lo_le, ?_, ?_, (by show (x.a + k) % p1.input.size = _; rw [hsz1.1])⟩⟩
            · show o2.advance.staticSize = _
              rw [(OutBuf.advance_spec (by rw [k3, k4, g3, g4]; exact hO1.room)).2.2.2.2.2.1, k5, g5]; exact hF1.static
            · exact hsb.trans ⟨_, _, _, rfl⟩
            · refine hO1.add (cNl hsz hct h3) ⟨by simp [PTok.nl], hX.vars1⟩ (by show x.a < _; omega) (fun j => ?_) (k1.trans g1) (k3.trans g3) (k4.trans g4)
              rw [hget2, g3]
              split
              · rfl
              · rename_i hj; rw [hget, if_neg hj]
            · exact hS'.raise hR' hct.start.lo_le (by omega) rfl rfl rfl
            · exact ⟨rfl, cRest hsz hct h3 hst (Nat.le_refl _) hct.start.lo_le, ⟨hty.types, hty.kind⟩, h4⟩
            · show x.a + 1 ≤ _; omega
            · exact ⟨by show _ ≤ x.a + 1; omega, fun _ => Nat.lt_succ_self x.a⟩
          · -- the event goes on
            have hB' : ((e.ts && x.kind == tokenNewlineTimestamp) ||
              (!e.ts && (v == newline && x.kind != tokenNewline))) ≠ true := by
              intro h
              apply hB
              rw [hxs]
              revert h
              cases e.ts
              · simp only [Bool.false_and, Bool.not_false, Bool.true_and, Bool.false_or, Bool.and_eq_true, beq_iff_eq]
                intro h; right; exact ⟨trivial, h.1⟩
              · simp only [Bool.true_and, Bool.not_true, Bool.false_and, Bool.or_false, beq_iff_eq]
                intro h; left; exact ⟨trivial, h⟩
            rw [if_neg hB']
            have hO2 := hO1.add hct hty hxr hget g1 g3 g4
            have hS2 : LSim X ((p1.withOut o).withOut o.advance) pl' R lo rHat k := hS'.view rfl rfl rfl
            have hi := ih ((p1.withOut o).withOut o.advance) pl' c' (e.add x) hS2 hR' hs1
              (by show COut X p1.input.size p1.input.active _ _ _ _ _; rw [hsz1.1, hsz1.2.1]; exact hO2) (by omega)
            have hF2 : Fixed p ((p1.withOut o).withOut o.advance) := by
              refine ⟨hF1.occ, hF1.multiline, hF1.numVars, ?_, hF1.lexer⟩
              show o.advance.staticSize = _
              rw [(OutBuf.advance_spec (by rw [g3, g4]; exact hO1.room)).2.2.2.2.2.1, g5]; exact hF1.static
            have hin : ((p1.withOut o).withOut o.advance).input = p1.input := rfl
            rcases hi with ⟨i1, i2, i3⟩ | ⟨i0, i1, i2⟩
            · left
              refine ⟨i1, by rw [← hsz1.2.2.2]; exact i2, fun R' hp hc hcl => ?_⟩
              rcases toks_restrict hX.nl hX.types (hp.trans hS.sim.pre) hc hcl hnt h4 with h5 | ⟨h5, h6, h7, h8⟩
              · rw [h5]; rfl
              · rw [h5, ← i3 R' hp h6 h7]
                simp only [segment]; rw [if_neg h4, if_neg hA, h8, if_neg hB]
            · right
              refine ⟨hF2.trans i0, hsb.trans i1, ?_⟩
              rw [hin, hsz1.1, hsz1.2.1] at i2
              rcases i2 with ⟨j1, e', ca, c2, pl2, n, j2, j3⟩ | ⟨j1, j2, e', j3, j4⟩
              · exact .inl ⟨j1, e', ca, c2, pl2, n, .more hnt h4 hA hB j2, j3⟩
              · exact .inr ⟨j1, j2, e', .more hnt h4 hA hB j3, j4⟩

theorem cOut_first {X : Ctx} {S act k lo r : Nat} {o o' : OutBuf} {t : Token} {x : PTok} (ht : CTok S act t x k lo r) (hg : TyOk X x)
    (hget : ∀ j, o'.get j = if j = off (.start x) then t else o.get j) (hts : o'.hasTimestamp = x.isTs)
    (hpos : o'.pos = off (.start x) + 1) (hsize : off (.start x) + 1 < o'.size) : COut X S act k lo r o' (.start x) := by
  refine ⟨hts, hpos, by rw [hpos]; exact hsize, fun i y hy => ?_, fun y hy => ?_, fun i y hi hy => by
    rw [PEvent.start, List.getElem?_eq_none (by simp; omega)] at hy; cases hy⟩
  · simp only [PEvent.start] at hy
    cases i with
    | zero =>
      simp at hy; subst hy
      rw [hget, if_pos (Nat.add_zero _)]; exact ht
    | succ i => simp at hy
  · simp only [PEvent.start, List.mem_singleton] at hy
    subst hy; exact hg

theorem parseFirst_circ {X : Ctx} (hX : X.Ok) (hfin : X.fin = true) {R : List Nat} {lo rHat k : Nat} {p pl : LogParser} {c : Cfg}
    (hS : LSim X p pl R lo rHat k) (hR : X.LRel pl c) {t : Token} {x : PTok} (ht : CTok p.input.size p.input.active t x k lo R.length)
    (hg : TyOk X x) (hk : x.kind ≠ tokenEnd) (hsize : 3 ≤ p.view.out.size) :
    COutcome X R lo rHat k p (some (.start x)) c (p.parseFirst t) := by
  have hfuel : R.length - c.cov < p.parseFuel := by
    have := hS.sim.win
    have := lo_le_cov hS hR
    unfold LogParser.parseFuel; omega
  unfold LogParser.parseFirst LogParser.need
  rw [ht.type0 hg.types]
  simp only
  rw [if_neg (by simpa using hk)]
  by_cases hts : x.isTs = true
  · rw [if_pos (by simpa [PTok.isTs] using hts)]
    obtain ⟨o, ho, hget, g1, g2, g3, g4, g5⟩ := OutBuf.setToken_some
      (o := { p.view.out with hasTimestamp := true }) (i := 0) t (by show 0 < p.view.out.size; omega)
    rw [ho]
    simp only
    have hoff : off (PEvent.start x) = 0 := by simp [off, PEvent.start, hts]
    have hO : COut X p.input.size p.input.active k lo R.length { o with pos := 1 } (.start x) := by
      refine cOut_first (o := { p.view.out with hasTimestamp := true }) ht hg ?_ ?_ ?_ ?_
      · rw [hoff]; exact hget
      · rw [hts]; exact g1
      · rw [hoff]
      · rw [hoff]; show _ < o.size; rw [g4]; show _ < p.view.out.size; omega
    have hL : LSim X ((({ p with hasStart := false } : LogParser)).withOut { o with pos := 1 }) pl R lo rHat k := hS.view rfl rfl rfl
    rcases parseLoop_circ hX hfin p.parseFuel _ pl c (.start x) hL hR rfl hO hfuel with i | ⟨i1, i2⟩
    · exact .inl i
    · exact .inr ⟨⟨i1.occ, i1.multiline, i1.numVars, i1.static.trans g5, i1.lexer⟩, i2⟩
  · rw [if_neg (by simpa [PTok.isTs] using hts)]
    obtain ⟨o, ho, hget, g1, g2, g3, g4, g5⟩ := OutBuf.setToken_some
      (o := { p.view.out with hasTimestamp := false }) (i := 1) t (by show 1 < p.view.out.size; omega)
    rw [ho]
    simp only
    have hts' : x.isTs = false := by simpa using hts
    have hoff : off (PEvent.start x) = 1 := by simp [off, PEvent.start, hts']
    have hO : COut X p.input.size p.input.active k lo R.length { o with pos := 2 } (.start x) := by
      refine cOut_first (o := { p.view.out with hasTimestamp := false }) ht hg ?_ ?_ ?_ ?_
      · rw [hoff]; exact hget
      · rw [hts']; exact g1
      · rw [hoff]
      · rw [hoff]; show _ < o.size; rw [g4]; show _ < p.view.out.size; omega
    have hL : LSim X ((({ p with hasStart := false } : LogParser)).withOut { o with pos := 2 }) pl R lo rHat k := hS.view rfl rfl rfl
    rcases parseLoop_circ hX hfin p.parseFuel _ pl c (.start x) hL hR rfl hO hfuel with i | ⟨i1, i2⟩
    · exact .inl i
    · exact .inr ⟨⟨i1.occ, i1.multiline, i1.numVars, i1.static.trans g5, i1.lexer⟩, i2⟩

/-- A whole call of `parse` on the circular buffer. -/
theorem parse_circ {X : Ctx} (hX : X.Ok) (hfin : X.fin = true) {R : List Nat} {lo rHat k : Nat} {p pl : LogParser} {c : Cfg}
    {carry : Option PTok} (hS : LSim X p pl R lo rHat k) (hR : X.LRel pl c)
    (hC : CCarry X p.input.size p.input.active k lo R.length p carry) (hpos : p.view.out.pos = 0)
    (hts : p.view.out.hasTimestamp = false) (hsize : 3 ≤ p.view.out.size) :
    COutcome X R lo rHat k p (carry.map PEvent.start) c p.parse := by
  unfold LogParser.parse
  rw [if_pos (by simp [hpos])]
  simp only
  generalize hq : p.withOut { p.view.out with hasDelims := p.lexer.hasDelims } = p0
  have hS0 : LSim X p0 pl R lo rHat k := by rw [← hq]; exact hS.view rfl rfl rfl
  have hin : p0.input = p.input := by rw [← hq]; rfl
  have hC0 : CCarry X p0.input.size p0.input.active k lo R.length p0 carry := by rw [← hq]; cases carry <;> exact hC
  have hF0 : Fixed p p0 := by rw [← hq]; exact ⟨rfl, rfl, rfl, rfl, rfl⟩
  have hpos0 : p0.view.out.pos = 0 := by rw [← hq]; exact hpos
  have hts0 : p0.view.out.hasTimestamp = false := by rw [← hq]; exact hts
  have hsize0 : 3 ≤ p0.view.out.size := by rw [← hq]; exact hsize
  -- it is enough to look at `p0`
  have from0 : ∀ {cur r}, COutcome X R lo rHat k p0 cur c r → COutcome X R lo rHat k p cur c r := by
    intro cur r h
    unfold COutcome at h ⊢
    rw [hin] at h
    rcases h with h | ⟨h1, h2⟩
    · exact .inl h
    · exact .inr ⟨hF0.trans h1, h2⟩
  clear hq hS hC hpos hts hsize
  apply from0
  have hsz : 0 < p0.input.size := by have := hS0.sim.inv.half; omega
  cases carry with
  | some x =>
    obtain ⟨h1, h2, h3, h4⟩ := hC0
    rw [if_pos h1]
    exact parseFirst_circ hX hfin hS0 hR h2 h3 h4 hsize0
  | none =>
    rw [if_neg (by rw [show p0.hasStart = false from hC0]; simp)]
    rcases next_circ hX hfin hS0 hR with ⟨h1, h2, h3⟩ | ⟨t, x, c', pl', h1, hsb, h2, hnt, hS', hR', hct, hst, hty, hxa, hcov, hcase⟩
    · left
      generalize hg : p0.getNextSymbol = g at *
      obtain ⟨p1, r1⟩ := g
      simp only at h1
      subst h1
      exact ⟨rfl, h2, oob_segment hX h3 _⟩
    · generalize hg : p0.getNextSymbol = g at *
      obtain ⟨p1, r1⟩ := g
      simp only at h1 h2 hS' hsb
      subst h2
      simp only
      have hv1 : p1.view = p0.view := by rw [h1]
      have hs1 : p1.hasStart = false := by rw [h1]; exact hC0
      have hF1 : Fixed p0 p1 := by rw [h1]; exact ⟨rfl, rfl, rfl, rfl, rfl⟩
      have hsz1 : p1.input.size = p0.input.size ∧ p1.input.active = p0.input.active ∧ p1.input.mem = p0.input.mem ∧
          p1.input.finished = p0.input.finished := by
        obtain ⟨_, _, _, hb⟩ := hsb
        rw [hb]; exact ⟨rfl, rfl, rfl, rfl⟩
      have hcr := cov_le_read hS' hR'
      rw [hct.type0 hty.types]
      simp only
      rw [hv1, hts0]
      rcases hcase with ⟨h3, h4⟩ | ⟨h4, h3⟩
      · rw [if_neg (by rw [h4]; simp [tokenEnd, tokenNewlineTimestamp])]
        unfold LogParser.parseFirst LogParser.need
        rw [hct.type0 hty.types]
        simp only
        rw [if_pos (by simpa using h4), hv1]
        obtain ⟨o, ho, hget, g1, g2, g3, g4, g5⟩ := OutBuf.setToken_some (o := p0.view.out) (i := 0) t (by omega)
        rw [ho]
        refine .inr ⟨⟨hF1.occ, hF1.multiline, hF1.numVars, g5, hF1.lexer⟩, hsb, .inr ⟨rfl, hs1, ⟨false, []⟩, .none hnt h3, ?_⟩⟩
        refine ⟨g1.trans hts0, rfl, ?_, fun i x hx => by simp at hx, fun x hx => by simp at hx, fun i x _ hx => by simp at hx⟩
        show 1 < o.size; omega
      · by_cases hk : x.kind = tokenNewlineTimestamp
        · rw [if_pos (by simp [hk])]
          unfold LogParser.need
          obtain ⟨o, ho, hget, g1, g2, g3, g4, g5⟩ := OutBuf.setToken_some (o := p0.view.out) (i := 1)
            (LogParser.newlineOnly t) (by omega)
          rw [ho]
          simp only
          refine .inr ⟨⟨rfl, rfl, rfl, g5, hF1.lexer⟩, ?_,
            .inl ⟨rfl, ⟨false, [x.nl]⟩, some x.rest, c', pl', x.a, .firstNl hnt h4 hk, ?_, ?_, hR', ?_, hct.start.lo_le, ?_, ?_, hct.start.eq⟩⟩
          · exact hsb.trans ⟨_, _, _, rfl⟩
          · refine ⟨g1.trans hts0, rfl, ?_, fun i y hy => ?_, fun y hy => ?_, fun i y hi hy => by
              rw [List.getElem?_eq_none (by simp; omega)] at hy; cases hy⟩
            · show 2 < o.size; omega
            · cases i with
              | zero =>
                simp at hy; subst hy
                show CTok _ _ (o.get 1) _ _ _ _
                rw [hget, if_pos rfl]; exact cNl hsz hct h3
              | succ i => simp at hy
            · simp only [List.mem_singleton] at hy
              subst hy; exact ⟨by simp [PTok.nl], hX.vars1⟩
          · refine hS'.raise hR' hct.start.lo_le (by omega) rfl rfl ?_
            show { p1.input with consumedPos := t.startPos } = _
            rw [hct.start.eq, hsz1.1]
          · exact ⟨rfl, cRest hsz hct h3 hst (Nat.le_refl _) hct.start.lo_le, ⟨hty.types, hty.kind⟩, h4⟩
          · show x.a + 1 ≤ _; omega
          · exact ⟨by show _ ≤ x.a + 1; omega, fun _ => Nat.lt_succ_self x.a⟩
        · rw [if_neg (by simpa using hk)]
          have hi := parseFirst_circ hX hfin hS' hR' (t := t) (x := x) (by rw [hsz1.1, hsz1.2.1]; exact hct) hty h4 (by rw [hv1]; exact hsize0)
          rcases hi with ⟨i1, i2, i3⟩ | ⟨i0, i1, i2⟩
          · left
            refine ⟨i1, by rw [← hsz1.2.2.2]; exact i2, fun R' hp hc hcl => ?_⟩
            rcases toks_restrict hX.nl hX.types (hp.trans hS0.sim.pre) hc hcl hnt h4 with h5 | ⟨h5, h6, h7, h8⟩
            · rw [h5]; rfl
            · rw [h5, ← i3 R' hp h6 h7]
              simp only [segment, Option.map_none]; rw [if_neg h4, if_neg hk]
          · right
            refine ⟨hF1.trans i0, hsb.trans i1, ?_⟩
            rw [hsz1.1, hsz1.2.1] at i2
            rcases i2 with ⟨j1, e', ca, c2, pl2, n, j2, j3⟩ | ⟨j1, j2, e', j3, j4⟩
            · exact .inl ⟨j1, e', ca, c2, pl2, n, .first hnt h4 hk j2, j3⟩
            · exact .inr ⟨j1, j2, e', .first hnt h4 hk j3, j4⟩

end LogSurgeon
