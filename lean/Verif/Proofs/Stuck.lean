import Verif.Spec.Reader
/-
States of `ReaderParser` from which `parse_next_event` never returns.
-/
namespace LogSurgeon

/-- The parser is at the end of what was read, the source is not known to be finished, and the consumed position is 0. -/
structure LogParser.Stuck (p : LogParser) : Prop where
  unfinished : p.input.finished = false
  consumed : p.input.consumedPos = 0
  atEnd : (p.input.lrfh = true ∧ p.input.pos = p.input.size / 2) ∨ (p.input.lrfh = false ∧ p.input.pos = 0)
  lex : p.lex.asked = true ∨ p.lex.isMatch = false
  out : p.view.out.pos ≠ 0 ∨ p.hasStart = false

instance (p : LogParser) : Decidable p.Stuck :=
  decidable_of_iff (p.input.finished = false ∧ p.input.consumedPos = 0 ∧
      ((p.input.lrfh = true ∧ p.input.pos = p.input.size / 2) ∨ (p.input.lrfh = false ∧ p.input.pos = 0)) ∧
      (p.lex.asked = true ∨ p.lex.isMatch = false) ∧ (p.view.out.pos ≠ 0 ∨ p.hasStart = false))
    ⟨fun ⟨a, b, c, d, e⟩ => ⟨a, b, c, d, e⟩, fun ⟨a, b, c, d, e⟩ => ⟨a, b, c, d, e⟩⟩

theorem getNext_stuck {b : InBuf} (hf : b.finished = false)
    (ha : (b.lrfh = true ∧ b.pos = b.size / 2) ∨ (b.lrfh = false ∧ b.pos = 0)) : b.getNext = (b, .oob) := by
  unfold InBuf.getNext
  rcases ha with ⟨h1, h2⟩ | ⟨h1, h2⟩ <;> simp [hf, h1, h2]

theorem scan_stuck (L : Lexer) {st : LexState} {b : InBuf} (hg : b.getNext = (b, .oob)) (hl : st.asked = true ∨ st.isMatch = false) :
    ∃ st', L.scan st b = (st', b, .error .oob) ∧ st'.asked = true := by
  unfold Lexer.scan
  have hk : ∃ n, Lexer.scanFuel b = n + 1 := ⟨2 * b.size + 3, rfl⟩
  obtain ⟨n, hn⟩ := hk
  rw [hn]
  rcases Bool.eq_false_or_eq_true st.asked with ha | ha
  · rw [if_pos ha]
    unfold Lexer.scanLoop
    simp only [hg]
    exact ⟨_, rfl, rfl⟩
  · have hm : st.isMatch = false := by rcases hl with h | h; · rw [ha] at h; cases h
                                       · exact h
    rw [if_neg (by simp [ha]), if_neg (by simp [hm])]
    unfold Lexer.scanLoop
    simp only [hg]
    exact ⟨_, rfl, rfl⟩

theorem parse_stuck {p : LogParser} (h : p.Stuck) : ∃ st' v', p.parseAndGenerate = ({ p with lex := st', view := v' }, .error .oob) ∧
    st'.asked = true ∧ v'.out.pos = p.view.out.pos := by
  have hg := getNext_stuck h.unfinished h.atEnd
  obtain ⟨st', h1, h2⟩ := scan_stuck p.lexer hg h.lex
  unfold LogParser.parseAndGenerate LogParser.parse
  by_cases hp : p.view.out.pos = 0
  · have hs : p.hasStart = false := by rcases h.out with h | h; · exact absurd hp h
                                       · exact h
    rw [if_pos (by simp [hp])]
    simp only [LogParser.withOut, hs, LogParser.getNextSymbol, h1, Bool.false_eq_true, if_false]
    exact ⟨st', _, rfl, h2, rfl⟩
  · rw [if_neg (by simp [hp])]
    obtain ⟨n, hn⟩ : ∃ n, p.parseFuel = n + 1 := ⟨2 * p.input.size + 3, rfl⟩
    rw [hn]
    unfold LogParser.parseLoop
    simp only [LogParser.getNextSymbol, h1]
    exact ⟨st', p.view, rfl, h2, rfl⟩

/-- Growing leaves the parser stuck, with a buffer of twice the size. -/
theorem grow_stuck {p : LogParser} (h : p.Stuck) (st' : LexState) (v' : EventView) (hs : st'.asked = true)
    (hv : v'.out.pos = p.view.out.pos) : ∃ q : LogParser, ({ p with lex := st', view := v' } : LogParser).increaseCapacity = q ∧ q.Stuck ∧
      q.input.size = 2 * p.input.size ∧ q.input.readIsSafe = false := by
  refine ⟨_, rfl, ?_, ?_, ?_⟩
  · have hq : ∀ (l : LexState) (b : InBuf), ((Lexer.increaseBufferCapacity l b).1.asked = l.asked) := by
      intro l b
      unfold Lexer.increaseBufferCapacity InBuf.increaseCapacity
      simp only
      split <;> (try split) <;> (try split) <;> simp [Lexer.flipStates]
    have hb : ∀ (l : LexState) (b : InBuf), (Lexer.increaseBufferCapacity l b).2 = b.increaseCapacity.1 := by
      intro l b
      unfold Lexer.increaseBufferCapacity
      simp only
      split <;> rfl
    refine ⟨?_, ?_, Or.inl ?_, Or.inl ?_, ?_⟩
    · simp only [LogParser.increaseCapacity, hb, InBuf.increaseCapacity]; exact h.unfinished
    · simp only [LogParser.increaseCapacity, hb, InBuf.increaseCapacity]; exact h.consumed
    · simp only [LogParser.increaseCapacity, hb, InBuf.increaseCapacity]; exact ⟨trivial, by omega⟩
    · simp only [LogParser.increaseCapacity, hq]; exact hs
    · simp only [LogParser.increaseCapacity, hv]; exact h.out
  · simp only [LogParser.increaseCapacity, Lexer.increaseBufferCapacity, InBuf.increaseCapacity]
    split <;> rfl
  · have hb : ∀ (l : LexState) (b : InBuf), (Lexer.increaseBufferCapacity l b).2 = b.increaseCapacity.1 := by
      intro l b
      unfold Lexer.increaseBufferCapacity
      simp only
      split <;> rfl
    simp [LogParser.increaseCapacity, hb, InBuf.increaseCapacity, InBuf.readIsSafe, h.unfinished, h.consumed]

/-- The loop of `parse_next_event` never ends, and doubles the buffer each time round. -/
theorem eventLoop_stuck {σ : Type} (r : Reader σ) : ∀ (j : Nat) (p : ReaderParser σ), p.lp.Stuck →
    (p.eventLoop r j).2 = .error .diverge ∧ (p.eventLoop r j).1.lp.input.size = 2 ^ j * p.lp.input.size ∧
    (p.eventLoop r j).1.src = p.src := by
  intro j
  induction j with
  | zero => intro p _; simp [ReaderParser.eventLoop]
  | succ j ih =>
    intro p h
    obtain ⟨st', v', h1, h2, h3⟩ := parse_stuck h
    obtain ⟨q, g1, g2, g3, g4⟩ := grow_stuck h st' v' h2 h3
    unfold ReaderParser.eventLoop
    rw [h1]
    simp only [g1, LogParser.readIntoInput, InBuf.readIfSafe, g4, Bool.false_eq_true, if_false]
    have := ih { p with lp := q } g2
    refine ⟨this.1, ?_, this.2.2⟩
    rw [this.2.1, g3, Nat.pow_succ, Nat.mul_assoc]

/-- More rounds do not change a call that returned. -/
theorem eventLoop_mono {σ : Type} (r : Reader σ) : ∀ (j i : Nat) (p p' : ReaderParser σ) (u : Unit),
    p.eventLoop r j = (p', .ok u) → p.eventLoop r (j + i) = (p', .ok u) := by
  intro j
  induction j with
  | zero => intro i p p' u h; simp [ReaderParser.eventLoop] at h
  | succ j ih =>
    intro i p p' u h
    rw [Nat.succ_add]
    unfold ReaderParser.eventLoop at h ⊢
    split at h
    · exact h
    · split at h
      · exact ih _ _ _ _ h
      · exact h
    · exact h

theorem parseNextEvent_mono {σ : Type} (r : Reader σ) {j j' : Nat} (hj : j ≤ j') {p p' : ReaderParser σ} {u : Unit}
    (h : p.parseNextEvent r j = (p', .ok u)) : p.parseNextEvent r j' = (p', .ok u) := by
  obtain ⟨i, rfl⟩ := Nat.exists_eq_add_of_le hj
  unfold ReaderParser.parseNextEvent at h ⊢
  split at h
  · exact eventLoop_mono r _ _ _ _ _ h
  · exact h

/-- The state after so many calls (with so many rounds each) that all return; `none` if one does not or the input is done. -/
def ReaderParser.after {σ : Type} (r : Reader σ) (j : Nat) : Nat → ReaderParser σ → Option (List Seen × ReaderParser σ)
  | 0, p => some ([], p)
  | n + 1, p =>
    match p.parseNextEvent r j with
    | (_, .error _) => none
    | (p, .ok ()) => if p.done then none else (after r j n p).map fun x => (p.lp.view.seen p.lp.input.mem :: x.1, x.2)

theorem parseAll_after {σ : Type} (r : Reader σ) : ∀ (n j j' k : Nat) (p q : ReaderParser σ) (es : List Seen), j ≤ j' →
    p.after r j n = some (es, q) → p.parseAll r j' (n + k) =
      ⟨es ++ (q.parseAll r j' k).events, (q.parseAll r j' k).status, (q.parseAll r j' k).parser⟩ := by
  intro n
  induction n with
  | zero =>
    intro j j' k p q es _ h
    simp only [ReaderParser.after, Option.some.injEq, Prod.mk.injEq] at h
    obtain ⟨rfl, rfl⟩ := h
    rw [Nat.zero_add]; rfl
  | succ n ih =>
    intro j j' k p q es hj h
    unfold ReaderParser.after at h
    split at h
    · cases h
    · rename_i p1 he
      split at h
      · cases h
      · rename_i hd
        rw [Option.map_eq_some_iff] at h
        obtain ⟨⟨es', q'⟩, h1, h2⟩ := h
        simp only [Prod.mk.injEq] at h2
        obtain ⟨rfl, rfl⟩ := h2
        rw [Nat.succ_add, ReaderParser.parseAll]
        rw [parseNextEvent_mono r hj he]
        simp only
        rw [if_neg hd, ih j j' k p1 _ es' hj h1]
        rfl

/-- The beginning of a call up to the second round of its loop, if it gets there. -/
def ReaderParser.round {σ : Type} (r : Reader σ) (p : ReaderParser σ) : Option (ReaderParser σ) :=
  match ({ p.lp with view := p.lp.view.reset } : LogParser).readIntoInput r p.src with
  | (_, _, false) => none
  | (src, lp, true) =>
    match lp.parseAndGenerate with
    | (lp, .error .oob) =>
      match lp.increaseCapacity.readIntoInput r src with
      | (src, lp, true) => some { p with lp := lp, src := src }
      | (_, _, false) => none
    | _ => none

/-- A call that is stuck after its first round never returns. -/
theorem parseNextEvent_stuck {σ : Type} (r : Reader σ) (j : Nat) {p q : ReaderParser σ} (hq : p.round r = some q) (h : q.lp.Stuck) :
    (p.parseNextEvent r (j + 1)).2 = .error .diverge ∧ (p.parseNextEvent r (j + 1)).1.lp.input.size = 2 ^ j * q.lp.input.size := by
  unfold ReaderParser.round at hq
  unfold ReaderParser.parseNextEvent
  split at hq
  · cases hq
  · rename_i src lp h1
    rw [h1]
    simp only
    split at hq
    · rename_i lp2 h2
      split at hq
      · rename_i src3 lp3 h3
        cases hq
        unfold ReaderParser.eventLoop
        simp only [h2, h3]
        have := eventLoop_stuck r j { p with lp := lp3, src := src3 } h
        exact ⟨this.1, this.2.1⟩
      · cases hq
    · cases hq

end LogSurgeon
