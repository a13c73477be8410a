import Verif.Proofs.TwinStack
import Verif.Proofs.SchemaDies
import Verif.Proofs.MachineCall
import Verif.Proofs.ReaderAll
/-
The machine that parses a schema on the circular buffer and the one that has the whole text in a buffer make the same steps.
-/
namespace LogSurgeon
open Grammar

/-! ### The buffer -/

/-- A reader that answers every request with as many bytes as it still has, up to the number asked for. -/
def Serves {σ : Type} (rd : σ → Nat → σ × InBuf.ReadRes) (rest : σ → List Nat) : Prop :=
  ∀ src n, 0 < n → rest (rd src n).1 = (rest src).drop n ∧ (rd src n).2 = if rest src = [] then .eof else .bytes ((rest src).take n)

/-- Consuming up to the byte before `t` (LALR1Parser.tpp:735-742). -/
theorem BufInv.note {b : InBuf} {R : List Nat} {a lo rHat h t : Nat} (hb : BufInv b R a lo rHat 0) (hS : b.size = 2 * h) (hh : 2 ≤ h)
    (h1 : lo ≤ t - 1) (h2 : t ≤ a) :
    BufInv { b with consumedPos := if t % (2 * h) = 0 then b.size - 1 else t % (2 * h) - 1 } R a (t - 1) rHat 0 ∧
      (b.finished = false → (t - 1 = 0 ∧ (if t % (2 * h) = 0 then b.size - 1 else t % (2 * h) - 1) = 2 * h - 1) ∨
        ((if t % (2 * h) = 0 then b.size - 1 else t % (2 * h) - 1) = (t - 1) % (2 * h) ∧ t - 1 < rHat)) := by
  rcases Nat.eq_zero_or_pos t with rfl | ht
  · have hlo : lo = 0 := by omega
    subst hlo
    rw [Nat.zero_mod, if_pos rfl]
    refine ⟨⟨hb.half, hb.even, hb.stor, hb.fresh, hb.pos, hb.lo_le, hb.a_le, hb.r_le, hb.window, hb.content, hb.edge, hb.unfin, hb.last, hb.last_le, hb.short, ?_⟩,
      fun _ => .inl ⟨rfl, by rw [hS]⟩⟩
    intro hs
    have he := hb.edge
    have hw := hb.window
    simp only [InBuf.readIsSafe] at hs
    split at hs
    · cases hs
    · cases hl : b.lrfh with
      | false =>
        rw [hl] at he
        simp only [Bool.false_eq_true, if_false, Nat.add_zero] at he
        rw [Nat.mod_eq_of_lt (by omega)] at he
        show rHat < 0 + b.size / 2
        omega
      | true =>
        rw [hl, hS] at hs
        simp only [Bool.not_true, Bool.false_and, Bool.true_and, Bool.false_or, Bool.and_eq_true, decide_eq_true_eq] at hs
        omega
  · have hm : (t - 1) % (2 * h) = if t % (2 * h) = 0 then b.size - 1 else t % (2 * h) - 1 := by
      rw [hS]
      obtain ⟨u, rfl⟩ : ∃ u, t = u + 1 := ⟨t - 1, by omega⟩
      have := mod_succ (n := 2 * h) (x := u) (by omega)
      rw [Nat.add_sub_cancel, this]
      split
      · rw [if_pos rfl]; omega
      · rw [if_neg (by omega), Nat.add_sub_cancel]
    have := hb.consume (c := t - 1) h1 (by omega)
    have e : (t - 1 + 0) % b.size = (t - 1) % (2 * h) := by rw [Nat.add_zero, hS]
    rw [e] at this
    rw [← hm]
    refine ⟨this, fun _ => .inr ⟨rfl, ?_⟩⟩
    have := hb.a_le
    have := hb.r_le
    omega

/-! ### Texts of tokens -/

/-- The token is a place of `n` bytes in a storage of `S` bytes. -/
structure Span (S : Nat) (t : Token) (n : Nat) : Prop where
  buf : t.buf = 0
  size : t.bufSize = S
  start : t.startPos < S
  stop : t.endPos ≤ S
  wrap : t.wrap = []
  len : n = if t.startPos ≤ t.endPos then t.endPos - t.startPos else S - t.startPos + t.endPos

theorem Span.length {S n : Nat} {t : Token} (h : Span S t n) {m : Mem} (hm : (m 0).length = S) : (tokenText m t).length = n := by
  have h1 := h.start
  have h2 := h.stop
  unfold tokenText Token.toString
  rw [h.len, h.wrap]
  split
  · unfold readRange
    rw [h.buf, if_pos ⟨by assumption, by omega⟩]
    simp; omega
  · rw [if_pos (by rfl)]
    unfold Token.wrapText readRange
    rw [h.buf, h.size, if_pos ⟨by omega, by omega⟩, if_pos ⟨by omega, by omega⟩]
    simp; omega

theorem toString_view (m : Mem) (t : Token) : (t.toString m).map (·.1) = (t.toStringView m).map (·.1) := by
  unfold Token.toString Token.toStringView
  split
  · rw [show t.startPos + (t.endPos - t.startPos) = t.endPos by omega]
  · rfl

theorem slice_prefix {R s : List Nat} (h : R <+: s) {a e : Nat} (he : e ≤ R.length) : slice R a e = slice s a e := by
  obtain ⟨r, rfl⟩ := h
  unfold slice
  rcases Nat.le_total a R.length with ha | ha
  · rw [List.drop_append, Nat.sub_eq_zero_of_le ha, List.drop_zero, List.take_append_of_le_length (by simp; omega)]
  · rw [show e - a = 0 by omega, List.take_zero, List.take_zero]

theorem CTok.tokenText {b : InBuf} {R s : List Nat} {a lo rHat k : Nat} (hb : BufInv b R a lo rHat k) (hR : R <+: s) {t : Token} {x : PTok}
    (h : CTok b.size b.active t x k lo R.length) : tokenText b.mem t = slice s x.a x.e := by
  unfold LogSurgeon.tokenText
  rw [toString_view, h.text hb, Option.getD_some, slice_prefix hR h.stop_le]

theorem CTok.span {S : Nat} {t : Token} {x : PTok} {lo r : Nat} (hS : 0 < S) (h : CTok S 0 t x 0 lo r) (n : Nat)
    (hn : n = if t.startPos ≤ t.endPos then t.endPos - t.startPos else S - t.startPos + t.endPos) : Span S t n := by
  have h1 : t.startPos < S := by rw [h.start.eq]; exact Nat.mod_lt _ hS
  refine ⟨h.buf, h.size, h1, ?_, h.wrap, hn⟩
  rcases h.stop with h2 | h2
  · have : t.endPos < S := by rw [h2.eq]; exact Nat.mod_lt _ hS
    omega
  · omega

/-! ### The stacks -/

/-- The token takes as many bytes as the text of the other one. -/
def SpanOf (S : Nat) (textl : Token → List Nat) (a b : Token) : Prop := Span S a (textl b).length

/-- The circular buffer does the job of the other one. -/
structure Ring {σ τ : Type} (L : Lexer) (h : Nat) (w : List Nat) (rest : σ → List Nat) (thc : MThread σ) (thl : MThread τ) (R : List Nat) (lo rHat : Nat) : Prop where
  sim : Sim thc.b thl.b R w true lo rHat 0
  size : thc.b.size = 2 * h
  active : thc.b.active = 0
  src : rest thc.src = w.drop R.length
  ready : Ready L w thl.st thl.b thl.b.pos
  st : SimSt0 thc.st thl.st (2 * h) 0 lo R.length
  cons : thc.b.finished = false → (lo = 0 ∧ thc.b.consumedPos = 2 * h - 1) ∨ (thc.b.consumedPos = lo % (2 * h) ∧ lo < rHat)
  empty : R = [] → thc.b.lastRead = 0
  low : lo ≤ thl.b.pos - 1
  states : thc.s.states = thl.s.states
  twins : List.Forall₂ (Twin (SpanOf (2 * h) (tokenText thl.b.mem))) thc.s.matched thl.s.matched
  top : ∀ a b, thc.s.matched.head? = some (.tok a) → thl.s.matched.head? = some (.tok b) →
    ∃ x : PTok, CTok (2 * h) 0 a x 0 lo R.length ∧ tokenText thl.b.mem b = slice w x.a x.e
  next : (thc.s.next = none ∧ thl.s.next = none) ∨ ∃ a b, ∃ x : PTok, thc.s.next = some a ∧ thl.s.next = some b ∧ CTok (2 * h) 0 a x 0 lo R.length ∧
    tokenText thl.b.mem b = slice w x.a x.e ∧ a.types = b.types ∧ b.startPos = x.a ∧ lo ≤ x.a - 1 ∧ x.a ≤ thl.b.pos

variable {σ τ : Type} {L : Lexer} {h : Nat} {w : List Nat} {rest : σ → List Nat}

/-- The stacks after the read at the beginning of a step. -/
theorem Ring.read (hh : 2 ≤ h) (hlen : w.length % (2 * h) = 0 → w = []) {rd : σ → Nat → σ × InBuf.ReadRes} (hrd : Serves rd rest)
    {thc : MThread σ} {thl : MThread τ} {R : List Nat} {lo rHat : Nat} (hR : Ring L h w rest thc thl R lo rHat) :
    ∃ src' b' R' rHat', thc.b.readIfSafe rd thc.src = (src', b', true) ∧ Ring L h w rest { thc with src := src', b := b' } thl R' lo rHat' ∧
      (b'.finished = false → lo + h ≤ R'.length) := by
  have hI := hR.sim.inv
  have hsz := hR.size
  have h2 : thc.b.size / 2 = h := by omega
  have hpre := hR.sim.pre
  have hsrc := hR.src
  by_cases hs : thc.b.readIsSafe = true
  · have hf : thc.b.finished = false := by
      unfold InBuf.readIsSafe at hs
      cases hb : thc.b.finished
      · rfl
      · simp [hb] at hs
    have hrl := hI.unfin hf
    have hcons : thc.b.consumed = true → False := fun hc => by have := hR.sim.cfin hc; rw [hf] at this; cases this
    have hlo := hI.lo_le
    have hal := hI.a_le
    obtain ⟨q1, q2⟩ := hrd thc.src (thc.b.size / 2) (by omega)
    rcases hd : rd thc.src (thc.b.size / 2) with ⟨src', res⟩
    rw [hd] at q1 q2
    simp only at q1 q2
    have hdef : thc.b.readIfSafe rd thc.src = (src', (thc.b.applyRead res).1, (thc.b.applyRead res).2) := by
      unfold InBuf.readIfSafe
      rw [if_pos hs, hd]
    rw [hdef]
    by_cases hre : rest thc.src = []
    · rw [if_pos hre] at q2
      subst q2
      have hRs : R = w := by
        obtain ⟨t, ht⟩ := hpre
        rw [← ht, List.drop_left] at hsrc
        rw [hre] at hsrc
        rw [← ht, ← hsrc, List.append_nil]
      refine ⟨src', _, R, rHat, rfl, ⟨⟨hI.read_eof hs, hR.sim.view, hpre, fun _ => ⟨hRs.symm, rfl, ?_⟩, hR.sim.cons, fun _ => rfl⟩, hsz, hR.active, ?_, hR.ready, hR.st,
        (fun h => by cases h), hR.empty, hR.low, hR.states, hR.twins, hR.top, hR.next⟩, (fun h => by cases h)⟩
      · show thc.b.lastRead < thc.b.size
        have h3 := hI.last
        have h4 := hI.last_le
        rw [Nat.add_zero] at h3
        refine Decidable.byContradiction fun hn => ?_
        have h5 : thc.b.lastRead = thc.b.size := by omega
        rw [h5, Nat.mod_self, hsz, hRs] at h3
        have := hR.empty (hRs.trans (hlen h3))
        omega
      · simp only; rw [q1, hre, hRs]; simp
    · rw [if_neg hre, h2] at q2
      subst q2
      rw [h2] at q1
      have hne : (rest thc.src).take h ≠ [] := by
        intro h0
        rw [List.take_eq_nil_iff] at h0
        rcases h0 with h0 | h0
        · omega
        · exact hre h0
      have hB := hI.read_bytes hs hne (by rw [h2]; simp)
      have hsR : w = R ++ rest thc.src := by
        obtain ⟨t, ht⟩ := hpre
        rw [← ht, List.drop_left] at hsrc
        rw [hsrc, ht]
      have hpre' : R ++ (rest thc.src).take h <+: w := by
        rw [hsR]
        exact List.prefix_append_right_inj R |>.mpr (List.take_prefix _ _)
      have hmono : R.length ≤ (R ++ (rest thc.src).take h).length := by simp
      have hrH := hB.r_le
      refine ⟨src', _, R ++ (rest thc.src).take h, rHat + thc.b.size / 2, rfl, ⟨⟨hB, hR.sim.view, hpre', fun hfi => ⟨?_, rfl, ?_⟩, hR.sim.cons, fun hc => (hcons hc).elim⟩,
        hsz, hR.active, ?_, hR.ready, hR.st.mono hmono, ?_, ?_, hR.low, hR.states, hR.twins, ?_, ?_⟩, ?_⟩
      · have hfi : (thc.b.finished || decide (((rest thc.src).take h).length < thc.b.size / 2)) = true := hfi
        rw [hf, h2] at hfi
        simp at hfi
        rw [hsR, List.take_of_length_le (by omega)]
      · have hfi : (thc.b.finished || decide (((rest thc.src).take h).length < thc.b.size / 2)) = true := hfi
        rw [hf, h2] at hfi
        simp at hfi
        exact hB.short (by rw [List.length_append, List.length_take]; omega)
      · simp only
        rw [q1]
        rw [hsR, List.length_append, List.drop_append, Nat.add_sub_cancel_left, List.length_take,
          List.drop_eq_nil_of_le (as := R) (Nat.le_add_right _ _), List.nil_append]
        rcases Nat.le_total h (rest thc.src).length with h5 | h5
        · rw [Nat.min_eq_left h5]
        · rw [Nat.min_eq_right h5, List.drop_eq_nil_of_le h5, List.drop_eq_nil_of_le (Nat.le_refl _)]
      · intro _
        rcases hR.cons hf with h3 | ⟨h3, h4⟩
        · exact .inl h3
        · exact .inr ⟨h3, by omega⟩
      · intro h0
        exact absurd (List.append_eq_nil_iff.mp h0).2 hne
      · intro a b ha hb
        obtain ⟨x, hx, ht⟩ := hR.top a b ha hb
        exact ⟨x, hx.mono hmono, ht⟩
      · rcases hR.next with h3 | ⟨a, b, x, h3, h4, h5, h6⟩
        · exact .inl h3
        · exact .inr ⟨a, b, x, h3, h4, h5.mono hmono, h6⟩
      · intro hf'
        have hu := hB.unfin hf'
        rw [hu]
        have := hI.r_le
        omega
  · have hdef : thc.b.readIfSafe rd thc.src = (thc.src, thc.b, true) := by
      unfold InBuf.readIfSafe
      rw [if_neg hs]
    refine ⟨thc.src, thc.b, R, rHat, hdef, hR, fun hf => ?_⟩
    rw [hI.unfin hf]
    rcases hR.cons hf with ⟨h1, h3⟩ | ⟨h1, h3⟩
    · have he := hI.edge
      have hw := hI.window
      rw [Nat.add_zero, Nat.mod_eq_of_lt (by omega)] at he
      unfold InBuf.readIsSafe at hs
      rw [if_neg (by simp [hf]), h3] at hs
      cases hl : thc.b.lrfh with
      | false => exfalso; apply hs; rw [hl, hsz]; simp; omega
      | true => rw [hl] at he; simp only [if_true] at he; omega
    · exact unsafe_ahead hI hsz (by omega) hf h1 h3 (by simpa using hs)

section
variable {sc : List (Nat × String)} (hsc : sc.Perm schemaSpecialChars) {addr : Nat → Nat} (hinj : ∀ a b, addr a = addr b → a = b)
  (hlex : schemaLexer sc addr = .ok L) (hb : AllBytes w)
include hsc hinj hlex hb

/-- The next token. -/
theorem Ring.token (hh : 2 ≤ h) {thc : MThread σ} {thl : MThread τ} {R : List Nat} {lo rHat : Nat} (hR : Ring L h w rest thc thl R lo rHat)
    (hgap : thl.s.next = none → thc.b.finished = false → thl.b.pos + 10 < R.length) :
    ∃ stc bc a stl bl b, ∃ x : PTok, getNextSymbol L thc.s.next thc.st thc.b = (stc, bc, .ok a) ∧ getNextSymbol L thl.s.next thl.st thl.b = (stl, bl, .ok b) ∧
      (∃ p c, bl = { thl.b with pos := p, consumed := c }) ∧
      Ring L h w rest ⟨{ thc.s with next := none }, thc.src, stc, bc⟩ ⟨{ thl.s with next := none }, thl.src, stl, bl⟩ R lo rHat ∧
      CTok (2 * h) 0 a x 0 lo R.length ∧ tokenText bl.mem b = slice w x.a x.e ∧ a.types = b.types ∧ b.startPos = x.a ∧ lo ≤ x.a - 1 ∧ x.a ≤ bl.pos := by
  rcases hR.next with ⟨h1, h2⟩ | ⟨a, b, x, h1, h2, h3, h4, h5, h6, h7, h8⟩
  · rw [h1, h2]
    simp only [getNextSymbol]
    obtain ⟨L', hlex', hL⟩ := schemaLexer_ok hsc hinj
    cases hlex.symm.trans hlex'
    have hready := hR.ready
    have hsz := hR.size
    have hple : thl.b.pos ≤ w.length := Nat.le_trans hR.sim.inv.a_le hR.sim.len
    obtain ⟨stl, bl, tl, hscan, hbl, e, hready', ty, line, hty, he1, he2⟩ : ∃ stl bl tl, L.scan thl.st thl.b = (stl, bl, .ok tl) ∧
        (∃ p c, bl = { thl.b with pos := p, consumed := c }) ∧ ∃ e, Ready L w stl bl e ∧ ∃ ty line, IsTok thl.b tl thl.b.pos e ty line ∧ thl.b.pos ≤ e ∧ e ≤ w.length := by
      rcases hscan : L.scan thl.st thl.b with ⟨stl, bl, r⟩
      obtain ⟨hbl, ⟨he, h1, t, l, h2, h3⟩ | ⟨l, t, h2, h3, h4, h5, h6, line, h7⟩⟩ := scan_unit hsc hL hb hready hple hscan
      · subst h2
        exact ⟨stl, bl, t, rfl, hbl, thl.b.pos, h1, _, _, h3, Nat.le_refl _, by omega⟩
      · subst h2
        exact ⟨stl, bl, t, rfl, hbl, _, h6, _, _, h7, Nat.le_add_right _ _, h3⟩
    have hcp : thl.b.consumed = true → thl.b.pos = R.length := by
      intro hc
      have hfi := hR.sim.cfin (hR.sim.cons.trans hc)
      rw [hready.pos hc, (hR.sim.ended hfi).1]
    have hst : SimSt0 thc.st thl.st thc.b.size 0 lo R.length := by rw [hsz]; exact hR.st
    have hask := hready.at'.asked
    have him := hready.at'.isMatch
    have hsim := scan_sim L hR.sim hst (fun h => by rw [him] at h; cases h) hcp
    rw [hscan] at hsim
    rcases hsim with ⟨h3, h4, _⟩ | h3 | ⟨xc, xl, f, tc, tl', h3, h4, h5, h6, h7, h8, h9⟩
    · refine absurd h3 (scan_ahead hsc hinj hlex hR.sim (fun c hc => hb c ((hR.sim.pre.sublist.subset) hc)) hst hask him ?_ h4 (hgap h2 h4))
      cases hc : thl.b.consumed
      · rfl
      · have := hR.sim.cfin (hR.sim.cons.trans hc); rw [h4] at this; cases this
    · cases h3
    · simp only [Except.ok.injEq] at h8
      subst h8
      rcases hsc' : L.scan thc.st thc.b with ⟨stc, bc, rc⟩
      rw [hsc'] at h3 h5 h6 h7
      simp only at h3 h4 h5 h6 h7
      subst h7
      have hpos : bl.pos = e := hready'.at'.pos
      have hmem : bl.mem = thl.b.mem := by rw [h4]
      have hst2 := hty.start
      have hen2 := hty.stop
      refine ⟨stc, bc, tc, stl, bl, tl, ⟨thl.b.pos, e, ty⟩, rfl, hscan, hbl, ⟨h5, ?_, ?_, hR.src, ?_, ?_, ?_, ?_, ?_, hR.states, ?_, ?_, .inl ⟨rfl, rfl⟩⟩, ?_, ?_, h9.types, hst2, hR.low, ?_⟩
      · show bc.size = 2 * h; rw [h3]; exact hsz
      · show bc.active = 0; rw [h3]; exact hR.active
      · show Ready L w stl bl bl.pos; rw [hpos]; exact hready'
      · show SimSt0 stc stl (2 * h) 0 lo R.length
        rw [← hsz]; exact h6.weak
      · show bc.finished = false → _; rw [h3]; exact hR.cons
      · show R = [] → bc.lastRead = 0; rw [h3]; exact hR.empty
      · show lo ≤ bl.pos - 1
        have := hR.low
        omega
      · show List.Forall₂ (Twin (SpanOf (2 * h) (tokenText bl.mem))) _ _
        rw [hmem]; exact hR.twins
      · show ∀ a b, _ → _ → ∃ x : PTok, CTok (2 * h) 0 a x 0 lo R.length ∧ tokenText bl.mem b = slice w x.a x.e
        rw [hmem]; exact hR.top
      · have ha := h9.start
        have hb' := h9.stop
        rw [hst2, hsz] at ha
        rw [hen2, hsz] at hb'
        exact ⟨ha, .inl hb', he1, by rw [h9.buf, hR.active], by rw [h9.size, hsz], by rw [h9.types, hty.types], h9.wrap⟩
      · rw [hmem]
        exact tokenText_slice hR.sim.view hty he1 he2
      · show thl.b.pos ≤ bl.pos
        omega
  · refine ⟨thc.st, thc.b, a, thl.st, thl.b, b, x, by rw [h1]; rfl, by rw [h2]; rfl, ⟨thl.b.pos, thl.b.consumed, rfl⟩, ?_, h3, h4, h5, h6, h7, h8⟩
    exact ⟨hR.sim, hR.size, hR.active, hR.src, hR.ready, hR.st, hR.cons, hR.empty, hR.low, hR.states, hR.twins, hR.top, .inl ⟨rfl, rfl⟩⟩

/-- What is consumed of a text lying linearly in a buffer. -/
def lowOf (b : InBuf) : Nat := if b.consumedPos = b.size - 1 then 0 else b.consumedPos

/-- Both machines have come to the same. -/
def RingPhase (L : Lexer) (h : Nat) (w : List Nat) (rest : σ → List Nat) : MPhase σ → MPhase τ → Prop
  | .running thc, .running thl => ∃ R rHat, Ring L h w rest thc thl R (lowOf thl.b) rHat
  | .done a, .done b => a = b
  | .rejected _ _, .rejected _ _ => True
  | .failed e, .failed e' => e = e'
  | _, _ => False

/-- After a reduction. -/
theorem Ring.note (hh : 2 ≤ h) {hasRule : Nat → Bool} {sc sl : MStack} {srcc : σ} {srcl : τ} {stc stl : LexState} {bc bl : InBuf} {R : List Nat} {rHat : Nat}
    (hR : Ring L h w rest ⟨sc, srcc, stc, bc⟩ ⟨sl, srcl, stl, bl⟩ R (lowOf bl) rHat) :
    ∃ lo, lo = lowOf (noteConsumedM hasRule sl bl) ∧
      Ring L h w rest ⟨sc, srcc, stc, noteConsumedM hasRule sc bc⟩ ⟨sl, srcl, stl, noteConsumedM hasRule sl bl⟩ R lo rHat := by
  rcases hR.next with ⟨h1, h2⟩ | ⟨a, b, x, h1, h2, h3, h4, h5, h6, h7, h8⟩
  · simp only at h1 h2
    refine ⟨_, rfl, ?_⟩
    have e1 : noteConsumedM hasRule sc bc = bc := by unfold noteConsumedM; rw [h1]
    have e2 : noteConsumedM hasRule sl bl = bl := by unfold noteConsumedM; rw [h2]
    rw [e1, e2]; exact hR
  · simp only at h1 h2 h6 h8
    have htw := hR.twins
    simp only at htw
    have key : (noteConsumedM hasRule sc bc = bc ∧ noteConsumedM hasRule sl bl = bl) ∨ (noteConsumedM hasRule sc bc = { bc with consumedPos := if a.startPos = 0 then bc.size - 1 else a.startPos - 1 } ∧
        noteConsumedM hasRule sl bl = { bl with consumedPos := if b.startPos = 0 then bl.size - 1 else b.startPos - 1 } ∧ (∃ i p v n ms, sc.matched = .nt i p v n :: ms)) := by
      unfold noteConsumedM
      rw [h1, h2]
      cases hc : sc.matched with
      | nil =>
        rw [hc] at htw
        cases hl : sl.matched with
        | nil => exact .inl ⟨rfl, rfl⟩
        | cons y ys => rw [hl] at htw; cases htw
      | cons y ys =>
        cases hl : sl.matched with
        | nil => rw [hc, hl] at htw; cases htw
        | cons z zs =>
          rw [hc, hl] at htw
          cases htw with
          | cons hyz _ =>
            cases hyz with
            | tok _ => exact .inl ⟨rfl, rfl⟩
            | @nt i j p v n =>
              by_cases hp : hasRule p = true
              · exact .inr ⟨(by simp only [if_pos hp]), (by simp only [if_pos hp]), _, _, _, _, _, rfl⟩
              · exact .inl ⟨(by simp only [if_neg hp]), (by simp only [if_neg hp])⟩
    rcases key with ⟨e1, e2⟩ | ⟨e1, e2, i, p, v, n, ms, e3⟩
    · refine ⟨_, rfl, ?_⟩
      rw [e1, e2]; exact hR
    · have hsz := hR.size
      simp only at hsz
      have hV := hR.sim.view
      have hal := hR.sim.inv.a_le
      have hle := hR.sim.len
      have hhalf := hV.half
      simp only at hal hhalf hV
      have hlow : lowOf { bl with consumedPos := if b.startPos = 0 then bl.size - 1 else b.startPos - 1 } = x.a - 1 := by
        unfold lowOf
        simp only [h6]
        by_cases h0 : x.a = 0
        · rw [if_pos h0, if_pos rfl, h0]
        · rw [if_neg h0, if_neg (by omega)]
      refine ⟨x.a - 1, by rw [e2, hlow], ?_⟩
      rw [e1, e2]
      have hst : a.startPos = x.a % (2 * h) := h3.start.eq
      obtain ⟨n1, n2⟩ := hR.sim.inv.note (t := x.a) hsz hh h7 h8
      rw [← hst] at n1 n2
      have hready := hR.ready
      have hq := hready.at'
      refine ⟨⟨n1, hV.upd bl.pos _ bl.consumed, hR.sim.pre, hR.sim.ended, hR.sim.cons, hR.sim.cfin⟩, hsz, hR.active, hR.src, hready.consumedPos _, ?_, n2, hR.empty, ?_, hR.states,
        hR.twins, ?_, ?_⟩
      · have h9 := hR.st
        have hl := h9.last hq.isMatch
        simp only at hl
        refine ⟨h9.eq, fun _ => ⟨hl.eq, ?_, hl.le⟩, fun h => ?_, fun h => ?_⟩
        · show x.a - 1 ≤ stl.lastMatchPos
          have := hq.last
          simp only at this
          omega
        · simp only at h; rcases h with h | h
          · have := hq.isMatch; simp only at this; rw [this] at h; cases h
          · have := hq.asked; simp only at this; rw [this] at h; cases h
        · have := hq.isMatch; simp only at this h; rw [this] at h; cases h
      · show x.a - 1 ≤ bl.pos - 1
        omega
      · intro y z hy
        simp only [e3, List.head?_cons, Option.some.injEq, reduceCtorEq] at hy
      · refine .inr ⟨a, b, x, h1, h2, ⟨⟨h3.start.eq, by omega, h3.start.le⟩, ?_, h3.le, h3.buf, h3.size, h3.types, h3.wrap⟩, h4, h5, h6, Nat.le_refl _, h8⟩
        rcases h3.stop with h9 | h9
        · exact .inl ⟨h9.eq, by have := h3.le; omega, h9.le⟩
        · exact .inr h9

/-- One step. -/
theorem Ring.step (hh : 2 ≤ h) (hlen : w.length % (2 * h) = 0 → w = []) {Pc : MParser σ} {Pl : MParser τ} (hrd : Serves Pc.rd rest) (hLc : Pc.L = L) (hLl : Pl.L = L)
    (hsp : Pc.specials = Pl.specials) (htb : Pc.tb = Pl.tb) (hperm : Pl.specials.Perm schemaSpecials) {thc : MThread σ} {thl : MThread τ} {R : List Nat} {rHat : Nat}
    (hR : Ring L h w rest thc thl R (lowOf thl.b) rHat) (hgap : thl.s.next = none → thl.b.pos + 10 < lowOf thl.b + h) {Gc Gl : Statics} (hk : Gc.kids = Gl.kids) :
    RingPhase L h w rest (Pc.step thc Gc).1 (Pl.step thl Gl).1 ∧ (Pc.step thc Gc).2.kids = (Pl.step thl Gl).2.kids := by
  obtain ⟨src', b', R', rHat', hread, hR1, hahead⟩ := hR.read hh hlen hrd
  obtain ⟨stc, bc, a, stl, bl, b, x, g1, g2, hbl, hR2, x1, x2, x3, x4, x5, x6⟩ := hR1.token hsc hinj hlex hb hh (by
    intro hn hf
    have := hgap hn
    have := hahead hf
    omega)
  simp only at g1 g2 hbl
  obtain ⟨pp, cc, hbl⟩ := hbl
  have hfin : thl.b.finished = true := hR.sim.view.finished
  have hlow : lowOf bl = lowOf thl.b := by rw [hbl]; rfl
  rw [← hlow] at hR2 x1 x5
  clear hR hR1 hgap hahead
  unfold MParser.step
  simp only [hread, readIfSafe_fin hfin, hLc, hLl, g1, g2, hsp, htb]
  rw [x3]
  cases hty : b.types with
  | none => exact ⟨rfl, hk⟩
  | some tys =>
    simp only
    have hQ : ∀ a b, SpanOf (2 * h) (tokenText bl.mem) a b → (tokenText bc.mem a).length = (tokenText bl.mem b).length := by
      intro a b h
      have := hR2.sim.inv.stor
      have ha := hR2.active
      have hs := hR2.size
      simp only at this ha hs
      rw [ha, hs] at this
      exact h.length this
    have hsz := hR2.size
    have hact := hR2.active
    simp only at hsz hact
    have htext : ∀ {a b : Token} {x : PTok}, CTok (2 * h) 0 a x 0 (lowOf bl) R'.length → tokenText bl.mem b = slice w x.a x.e → tokenText bc.mem a = tokenText bl.mem b := by
      intro a b x h1 h2
      have h1' : CTok bc.size bc.active a x 0 (lowOf bl) R'.length := by rw [hsz, hact]; exact h1
      rw [h1'.tokenText hR2.sim.inv hR2.sim.pre, h2]
    have hstk : TwinStack (SpanOf (2 * h) (tokenText bl.mem)) (tokenText bc.mem) (tokenText bl.mem) { thc.s with next := none } { thl.s with next := none } := by
      refine ⟨hR2.states, hR2.twins, fun a b h1 h2 => ?_⟩
      obtain ⟨y, y1, y2⟩ := hR2.top a b h1 h2
      exact htext y1 y2
    have hspan : SpanOf (2 * h) (tokenText bl.mem) a b := by
      have hs := x1.span (by omega) _ rfl
      have hl := hs.length (m := bc.mem) (by have := hR2.sim.inv.stor; simp only at this; rw [hact, hsz] at this; exact this)
      rw [htext x1 x2] at hl
      unfold SpanOf
      rw [hl]; exact hs
    have htwin := parseAdvanceM_twin (tb := Pl.tb) (g := schemaGrammar Pl.specials) (resets := schemaResets (schemaGrammar Pl.specials)) hQ
      (fun p r hr i hi => schema_reads hperm hr hi) hstk rfl rfl (htext x1 x2) hspan tys hk
    generalize parseAdvanceM (schemaGrammar Pl.specials) Pl.tb (schemaRuleOf Pl.specials) (schemaResets (schemaGrammar Pl.specials)) (tokenText bc.mem)
      { thc.s with next := none } a tys Gc = rc at htwin ⊢
    generalize parseAdvanceM (schemaGrammar Pl.specials) Pl.tb (schemaRuleOf Pl.specials) (schemaResets (schemaGrammar Pl.specials)) (tokenText bl.mem)
      { thl.s with next := none } b tys Gl = rl at htwin ⊢
    obtain ⟨rc, Gc'⟩ := rc
    obtain ⟨rl, Gl'⟩ := rl
    cases rc with
    | error e =>
      cases rl with
      | error e' => exact htwin
      | ok r => cases r <;> exact htwin.elim
    | ok rc =>
      cases rl with
      | error e' => cases rc <;> exact htwin.elim
      | ok rl =>
        cases rc with
        | no =>
          cases rl with
          | no => exact ⟨trivial, htwin⟩
          | accepted => exact htwin.elim
          | moved _ => exact htwin.elim
        | accepted =>
          cases rl with
          | no => exact htwin.elim
          | moved _ => exact htwin.elim
          | accepted =>
            simp only
            have htw := hR2.twins
            simp only at htw
            generalize thc.s.matched = mc at htw
            generalize thl.s.matched = ml at htw
            cases htw with
            | nil => exact ⟨rfl, htwin⟩
            | cons h1 h2 =>
              cases h1 with
              | tok _ => exact ⟨rfl, htwin⟩
              | @nt i j p v n =>
                cases h2 with
                | nil => cases v <;> exact ⟨rfl, htwin⟩
                | cons _ _ => cases v <;> exact ⟨rfl, htwin⟩
        | moved sc =>
          cases rl with
          | no => exact htwin.elim
          | accepted => exact htwin.elim
          | moved sl =>
            obtain ⟨t1, t2, t3⟩ := htwin
            refine ⟨?_, t2⟩
            have hR3 : Ring L h w rest ⟨sc, src', stc, bc⟩ ⟨sl, thl.src, stl, bl⟩ R' (lowOf bl) rHat' := by
              refine ⟨hR2.sim, hR2.size, hR2.active, hR2.src, hR2.ready, hR2.st, hR2.cons, hR2.empty, hR2.low, t1.states, t1.twins, ?_, ?_⟩
              · intro y z hy hz
                rcases t3 with ⟨_, _, ⟨ms, t4⟩, ⟨ms', t5⟩⟩ | ⟨_, _, _, _, _, _, ms, t4⟩
                · simp only [t4, t5, List.head?_cons, Option.some.injEq, Matched.tok.injEq] at hy hz
                  subst hy; subst hz
                  exact ⟨x, x1, x2⟩
                · simp only [t4, List.head?_cons, Option.some.injEq, reduceCtorEq] at hy
              · rcases t3 with ⟨t4, t5, _⟩ | ⟨t4, t5, _⟩
                · exact .inl ⟨t4, t5⟩
                · exact .inr ⟨a, b, x, t4, t5, x1, x2, x3, x4, x5, x6⟩
            obtain ⟨lo, hlo, hR4⟩ := hR3.note hsc hinj hlex hb (hasRule := schemaHasRule Pl.specials) hh
            subst hlo
            exact ⟨R', rHat', hR4⟩
end

end LogSurgeon
