import Verif.Proofs.ReaderAll
/-
A parse with any reader is a parse with a reader of the text that it gives.
-/
namespace LogSurgeon

/-- What reading characters leaves alone. -/
structure InBuf.Still (b b' : InBuf) : Prop where
  size : b'.size = b.size
  finished : b'.finished = b.finished

namespace InBuf.Still
theorem rfl' (b : InBuf) : b.Still b := ⟨rfl, rfl⟩
theorem trans {a b c : InBuf} (h : a.Still b) (g : b.Still c) : a.Still c := ⟨g.1.trans h.1, g.2.trans h.2⟩
end InBuf.Still

theorem getNext_still (b : InBuf) : b.Still b.getNext.1 := by
  unfold InBuf.getNext
  split
  · exact ⟨rfl, rfl⟩
  split
  · exact ⟨rfl, rfl⟩
  split <;> exact ⟨rfl, rfl⟩

theorem skip_still (L : Lexer) : ∀ (k : Nat) (b : InBuf) (c prev : Nat), b.Still (L.skip k b c prev).1
  | 0, b, _, _ => .rfl' b
  | k + 1, b, c, prev => by
    have hg := getNext_still b
    unfold Lexer.skip
    split
    · generalize b.getNext = x at hg ⊢
      obtain ⟨b', y⟩ := x
      cases y with
      | oob => exact hg
      | ub => exact hg
      | char c' => exact hg.trans (skip_still L k b' c' b.pos)
    · exact .rfl' b

theorem emitMatch_still (st : LexState) (b : InBuf) : b.Still (Lexer.emitMatch st b).2.1 := by
  unfold Lexer.emitMatch
  simp only
  split <;> exact ⟨rfl, rfl⟩

theorem emitEnd_still (st : LexState) (b : InBuf) : b.Still (Lexer.emitEnd st b).2.1 := by
  unfold Lexer.emitEnd
  split <;> exact ⟨rfl, rfl⟩

theorem scanLoop_still (L : Lexer) : ∀ (k : Nat) (state : Option Nat) (st : LexState) (b : InBuf), b.Still (L.scanLoop k state st b).2.1
  | 0, _, _, b => .rfl' b
  | k + 1, state, st, b => by
    have hg := getNext_still b
    unfold Lexer.scanLoop
    simp only
    generalize b.getNext = x at hg ⊢
    obtain ⟨b', y⟩ := x
    cases y with
    | oob => exact hg
    | ub => exact hg
    | char c =>
      cases state with
      | none => exact hg
      | some q =>
        simp only
        split
        · exact hg
        · rename_i st' next _
          split
          · split
            · exact hg.trans (emitMatch_still _ _)
            split
            · exact hg.trans (emitEnd_still _ _)
            · have hs := skip_still L (b'.size + 2) b' c b.pos
              generalize L.skip (b'.size + 2) b' c b.pos = z at hs ⊢
              obtain ⟨b'', e⟩ := z
              cases e with
              | error e => cases e <;> exact hg.trans hs
              | ok prev =>
                simp only
                have h2 : b''.Still { b'' with pos := prev } := ⟨rfl, rfl⟩
                exact (hg.trans hs).trans (h2.trans (scanLoop_still L k (some 0) _ _))
          · exact hg.trans (scanLoop_still L k next st' b')

theorem scan_still (L : Lexer) (st : LexState) (b : InBuf) : b.Still (L.scan st b).2.1 := by
  unfold Lexer.scan
  split
  · exact scanLoop_still ..
  split
  · exact .rfl' b
  · exact scanLoop_still ..

theorem getNextSymbol_still (p : LogParser) : p.input.Still p.getNextSymbol.1.input := scan_still p.lexer p.lex p.input

theorem need_still {α : Type} {b : InBuf} {p : LogParser} {o : Option α} {k : α → LogParser × Except Fail LogSurgeon.Action} (hp : b.Still p.input)
    (hk : ∀ a, b.Still (k a).1.input) : b.Still (LogParser.need p o k).1.input := by
  cases o with
  | none => exact hp
  | some a => exact hk a

theorem parseToken_still {b : InBuf} {p : LogParser} (t : Token) {cont : LogParser → LogParser × Except Fail LogSurgeon.Action} (hp : b.Still p.input)
    (hc : ∀ q : LogParser, b.Still q.input → b.Still (cont q).1.input) : b.Still (p.parseToken t cont).1.input := by
  unfold LogParser.parseToken
  refine need_still hp fun o => ?_
  simp only
  split
  · exact hp
  · refine need_still hp fun found => ?_
    split
    · exact hp
    split
    · exact ⟨hp.1, hp.2⟩
    split
    · exact need_still hp fun o => ⟨hp.1, hp.2⟩
    · exact hc _ hp

theorem parseLoop_still : ∀ (k : Nat) {b : InBuf} {p : LogParser}, b.Still p.input → b.Still (LogParser.parseLoop k p).1.input
  | 0, _, _, hp => hp
  | k + 1, b, p, hp => by
    unfold LogParser.parseLoop
    have hg := getNextSymbol_still p
    generalize p.getNextSymbol = x at hg ⊢
    obtain ⟨p', r⟩ := x
    cases r with
    | error e => exact hp.trans hg
    | ok t => exact parseToken_still t (hp.trans hg) fun q hq => parseLoop_still k hq

theorem parseFirst_still {b : InBuf} {p : LogParser} (t : Token) (hp : b.Still p.input) : b.Still (p.parseFirst t).1.input := by
  unfold LogParser.parseFirst
  split
  · exact hp
  split
  · exact need_still hp fun o => hp
  split
  · exact need_still hp fun o => parseLoop_still _ hp
  · exact need_still hp fun o => parseLoop_still _ hp

theorem parse_still (p : LogParser) : p.input.Still p.parse.1.input := by
  unfold LogParser.parse
  split
  · simp only
    split
    · exact parseFirst_still _ (.rfl' _)
    · have hg := getNextSymbol_still (p.withOut { p.view.out with hasDelims := p.lexer.hasDelims })
      generalize (p.withOut { p.view.out with hasDelims := p.lexer.hasDelims }).getNextSymbol = x at hg ⊢
      obtain ⟨p', r⟩ := x
      cases r with
      | error e => exact hg
      | ok t =>
        simp only
        split
        · exact hg
        split
        · exact need_still hg fun o => ⟨hg.1, hg.2⟩
        · exact parseFirst_still _ hg
  · exact parseLoop_still _ (.rfl' _)

theorem parseAndGenerate_still (p : LogParser) : p.input.Still p.parseAndGenerate.1.input := by
  have h := parse_still p
  unfold LogParser.parseAndGenerate
  generalize p.parse = x at h ⊢
  obtain ⟨p', r⟩ := x
  cases r with
  | error e => exact h
  | ok a =>
    simp only
    split
    · exact h
    · rename_i q hq
      have : q.input = p'.input := by
        unfold LogParser.generateMetadata at hq
        simp only at hq
        split at hq
        · cases hq
        · cases hq; rfl
      show p.input.Still q.input
      rw [this]
      exact h

/-! ### Two parsers in step -/

variable {σ : Type}

/-- The same parser, with a reader of the text that the other one's reader gives. -/
structure InStep (r : Reader σ) (h : Nat) (P : ReaderParser σ) (Q : ReaderParser (List Nat)) : Prop where
  lp : P.lp = Q.lp
  done : P.done = Q.done
  size : Q.lp.input.size = 2 * h
  gives : Q.lp.input.finished = true ∨ r.Gives h P.src Q.src

theorem read_inStep {r : Reader σ} {h : Nat} (hh : 0 < h) {lp : LogParser} (hs : lp.input.size = 2 * h) {src : σ} {w : List Nat}
    (hg : lp.input.finished = true ∨ r.Gives h src w) :
    (lp.readIntoInput r src).2 = (lp.readIntoInput textReader w).2 ∧ (lp.readIntoInput textReader w).2.1.input.size = 2 * h ∧
    (lp.readIntoInput textReader w).2.2 = true ∧
    ((lp.readIntoInput textReader w).2.1.input.finished = true ∨ r.Gives h (lp.readIntoInput r src).1 (lp.readIntoInput textReader w).1) := by
  unfold LogParser.readIntoInput InBuf.readIfSafe
  by_cases hsafe : lp.input.readIsSafe = true
  · rw [if_pos hsafe, if_pos hsafe]
    have hfin : lp.input.finished = false := by
      cases hf : lp.input.finished with
      | false => rfl
      | true => simp [InBuf.readIsSafe, hf] at hsafe
    have hg : r.Gives h src w := hg.resolve_left (by rw [hfin]; simp)
    have hh2 : lp.input.size / 2 = h := by omega
    rw [hh2]
    cases hg with
    | eof he =>
      have ht : textReader.read ([] : List Nat) h = ([], .eof) := rfl
      rw [ht]
      simp only [he, InBuf.applyRead, hs, true_and]
      exact .inl trivial
    | short he hne hlt =>
      have ht : textReader.read w h = ([], .bytes w) := by
        unfold textReader
        simp only [if_neg hne, List.drop_eq_nil_of_le (Nat.le_of_lt hlt), List.take_of_length_le (Nat.le_of_lt hlt)]
      rw [ht]
      simp only [he, InBuf.applyRead, hs, true_and]
      exact .inl (by simp; omega)
    | full he hlen hw =>
      rename_i bs w'
      have hne : bs ++ w' ≠ [] := by intro h0; simp at h0; simp [h0.1] at hlen; omega
      have ht : textReader.read (bs ++ w') h = (w', .bytes bs) := by
        unfold textReader
        simp only [if_neg hne, ← hlen, List.drop_left, List.take_left]
      rw [ht]
      simp only [he, InBuf.applyRead, hs, true_and]
      exact .inr hw
  · rw [if_neg hsafe, if_neg hsafe]
    exact ⟨rfl, hs, rfl, hg⟩

theorem next_inStep {r : Reader σ} {h : Nat} (hh : 0 < h) {P : ReaderParser σ} {Q : ReaderParser (List Nat)} (hS : InStep r h P Q)
    (hok : (Q.parseNextEvent textReader 1).2 = .ok ()) (j : Nat) :
    (P.parseNextEvent r (j + 1)).2 = .ok () ∧ InStep r h (P.parseNextEvent r (j + 1)).1 (Q.parseNextEvent textReader 1).1 := by
  unfold ReaderParser.parseNextEvent at hok ⊢
  obtain ⟨e1, e2, e3, e4⟩ := read_inStep (r := r) (lp := { Q.lp with view := Q.lp.view.reset }) hh hS.size hS.gives
  rw [hS.lp]
  generalize ({ Q.lp with view := Q.lp.view.reset } : LogParser).readIntoInput r P.src = x at e1 e4 ⊢
  generalize ({ Q.lp with view := Q.lp.view.reset } : LogParser).readIntoInput textReader Q.src = y at e1 e2 e3 e4 hok ⊢
  obtain ⟨src, lp, b⟩ := x
  obtain ⟨w, lp', b'⟩ := y
  simp only [Prod.mk.injEq] at e1
  obtain ⟨rfl, rfl⟩ := e1
  simp only at e2 e3 e4
  subst e3
  simp only at hok ⊢
  unfold ReaderParser.eventLoop at hok ⊢
  simp only at hok ⊢
  have hst := parseAndGenerate_still lp
  generalize lp.parseAndGenerate = z at hok hst ⊢
  obtain ⟨lp2, a⟩ := z
  cases a with
  | ok a =>
    refine ⟨rfl, rfl, by show (P.done || _) = (Q.done || _); rw [hS.done], hst.size.trans e2, ?_⟩
    rcases e4 with e4 | e4
    · exact .inl (hst.finished.trans e4)
    · exact .inr e4
  | error e =>
    exfalso
    cases e <;> simp only at hok
    all_goals first
      | (cases hok)
      | (split at hok
         · simp only [ReaderParser.eventLoop] at hok; cases hok
         · cases hok)

theorem all_inStep {r : Reader σ} {h : Nat} (hh : 0 < h) (j : Nat) : ∀ (k : Nat) {P : ReaderParser σ} {Q : ReaderParser (List Nat)}, InStep r h P Q →
    (Q.parseAll textReader 1 k).status = none →
    (P.parseAll r (j + 1) k).status = none ∧ (P.parseAll r (j + 1) k).events = (Q.parseAll textReader 1 k).events ∧
    (P.parseAll r (j + 1) k).parser.lp = (Q.parseAll textReader 1 k).parser.lp
  | 0, P, Q, _, hn => by simp [ReaderParser.parseAll] at hn
  | k + 1, P, Q, hS, hn => by
    unfold ReaderParser.parseAll at hn ⊢
    have key := next_inStep hh hS
    generalize Q.parseNextEvent textReader 1 = y at hn key ⊢
    obtain ⟨Q', e⟩ := y
    cases e with
    | error e => simp at hn
    | ok u =>
      obtain ⟨k1, k2⟩ := key rfl j
      generalize P.parseNextEvent r (j + 1) = x at k1 k2 ⊢
      obtain ⟨P', e'⟩ := x
      simp only at k1 k2
      subst k1
      simp only at hn ⊢
      rw [k2.lp, k2.done]
      by_cases hd : Q'.done = true
      · simp only [hd, if_true]
        exact ⟨trivial, trivial, k2.lp⟩
      · simp only [if_neg hd] at hn ⊢
        obtain ⟨h1, h2, h3⟩ := all_inStep hh j k k2 hn
        exact ⟨h1, by rw [h2], h3⟩

/-- A parse with any reader is that of the text it gives, if the latter goes through without growing the buffer (one round a call). -/
theorem anyReader {r : Reader σ} {h : Nat} (hh : 0 < h) {P : ReaderParser σ} (hsz : P.lp.input.staticSize = 2 * h) {src : σ} {w : List Nat}
    (hg : r.Gives h src w) {j k : Nat} (hj : 0 < j)
    (hn : (({ lp := P.lp, done := P.done, src := w } : ReaderParser (List Nat)).parseReader textReader 1 k w).status = none) :
    (P.parseReader r j k src).status = none ∧
    (P.parseReader r j k src).events = (({ lp := P.lp, done := P.done, src := w } : ReaderParser (List Nat)).parseReader textReader 1 k w).events ∧
    (P.parseReader r j k src).parser.lp = (({ lp := P.lp, done := P.done, src := w } : ReaderParser (List Nat)).parseReader textReader 1 k w).parser.lp := by
  obtain ⟨j, rfl⟩ : ∃ i, j = i + 1 := ⟨j - 1, by omega⟩
  exact all_inStep hh j k ⟨rfl, rfl, hsz, .inr hg⟩ hn

end LogSurgeon
