import Verif.Proofs.InBuf
import Verif.Proofs.Scan
/-
The lexer on the circular buffer does what the lexer does on a text lying linearly in a buffer, until it runs out.
-/
namespace LogSurgeon

/-- Index `pc` is where position `pl` is stored; the position is in the window. -/
structure InWin (S k lo r pc pl : Nat) : Prop where
  eq : pc = (pl + k) % S
  lo_le : lo ≤ pl
  le : pl ≤ r

theorem InWin.inj {S k lo r pc pl qc ql : Nat} (hw : r < lo + S) (h : InWin S k lo r pc pl) (h' : InWin S k lo r qc ql) :
    pc = qc ↔ pl = ql := by
  constructor
  · intro he
    rw [h.eq, h'.eq] at he
    have := h.lo_le; have := h.le; have := h'.lo_le; have := h'.le
    exact mod_inj' he (by omega) (by omega)
  · intro he
    rw [h.eq, h'.eq, he]

/-- `bc` is the circular buffer, in which the bytes `R` have been read; `bl` holds the text `s`, of which `R` is the beginning. -/
structure Sim (bc bl : InBuf) (R s : List Nat) (fin : Bool) (lo rHat k : Nat) : Prop where
  inv : BufInv bc R bl.pos lo rHat k
  view : View bl s fin
  pre : R <+: s
  ended : bc.finished = true → s = R ∧ fin = true ∧ bc.lastRead < bc.size
  cons : bc.consumed = bl.consumed
  cfin : bc.consumed = true → bc.finished = true

namespace Sim
variable {bc bl : InBuf} {R s : List Nat} {fin : Bool} {lo rHat k : Nat}

theorem len (h : Sim bc bl R s fin lo rHat k) : R.length ≤ s.length := h.pre.length_le

theorem win (h : Sim bc bl R s fin lo rHat k) : R.length < lo + bc.size := by
  have := h.inv.r_le; have := h.inv.window; omega

theorem posNear (h : Sim bc bl R s fin lo rHat k) : InWin bc.size k lo R.length bc.pos bl.pos :=
  ⟨h.inv.pos, h.inv.lo_le, h.inv.a_le⟩

theorem setPos (h : Sim bc bl R s fin lo rHat k) {pc pl : Nat} (hn : InWin bc.size k lo R.length pc pl) :
    Sim { bc with pos := pc } { bl with pos := pl } R s fin lo rHat k := by
  refine ⟨?_, h.view.upd2 pl bl.consumed, h.pre, h.ended, h.cons, h.cfin⟩
  have := h.inv.seek hn.lo_le hn.le
  rw [← hn.eq] at this
  exact this

theorem setBoth (h : Sim bc bl R s fin lo rHat k) {pc pl : Nat} (hn : InWin bc.size k lo R.length pc pl) (c : Bool)
    (hc : c = true → bc.finished = true) :
    Sim { bc with pos := pc, consumed := c } { bl with pos := pl, consumed := c } R s fin lo rHat k := by
  refine ⟨?_, h.view.upd2 pl c, h.pre, h.ended, rfl, hc⟩
  have := (h.inv.seek hn.lo_le hn.le).setConsumed c
  rw [← hn.eq] at this
  exact this

/-- The next character. -/
theorem next (h : Sim bc bl R s fin lo rHat k) :
    (∃ c, bl.pos < R.length ∧ bc.getNext = ({ bc with pos := (bl.pos + 1 + k) % bc.size }, .char c) ∧
      bl.getNext = ({ bl with pos := bl.pos + 1 }, .char c) ∧
      Sim { bc with pos := (bl.pos + 1 + k) % bc.size } { bl with pos := bl.pos + 1 } R s fin lo rHat k) ∨
    (bl.pos = R.length ∧ s = R ∧ bc.getNext = ({ bc with consumed := true }, .char cCharEOF) ∧
      bl.getNext = ({ bl with consumed := true }, .char cCharEOF) ∧
      Sim { bc with consumed := true } { bl with consumed := true } R s fin lo rHat k) ∨
    (bc.getNext = (bc, .oob) ∧ bc.finished = false ∧ (s = R → fin = false → bl.getNext = (bl, .oob))) := by
  by_cases hlt : bl.pos < R.length
  · left
    have hl := h.len
    have hc : s[bl.pos]'(by omega) = R[bl.pos] := (h.pre.getElem hlt).symm
    refine ⟨R[bl.pos], hlt, h.inv.getNext_lt hlt, by rw [getNext_lt h.view (by omega), hc], ?_⟩
    exact ⟨h.inv.adv hlt, h.view.upd2 _ _, h.pre, h.ended, h.cons, h.cfin⟩
  · have hp : bl.pos = R.length := by have := h.inv.a_le; omega
    rcases Bool.eq_false_or_eq_true bc.finished with hf | hf
    · obtain ⟨h1, h2, h3⟩ := h.ended hf
      subst h1; subst h2
      refine .inr (.inl ⟨hp, rfl, ?_, getNext_eof h.view hp, ?_⟩)
      · rcases h.inv.getNext_end hp hf with h4 | ⟨_, h4, _⟩
        · exact h4
        · omega
      · exact ⟨h.inv.setConsumed true, h.view.upd2 _ _, h.pre, h.ended, rfl, fun _ => hf⟩
    · refine .inr (.inr ⟨h.inv.getNext_oob hp hf, hf, fun h1 h2 => ?_⟩)
      subst h1; subst h2
      exact getNext_oob h.view hp

end Sim

/-- The skip loop. -/
theorem skip_sim (L : Lexer) {R s : List Nat} {fin : Bool} {lo rHat k : Nat} : ∀ (kc kl : Nat) (bc bl : InBuf) (c pc pl : Nat),
    Sim bc bl R s fin lo rHat k → InWin bc.size k lo R.length pc pl → R.length - bl.pos + 2 ≤ kc → s.length - bl.pos + 2 ≤ kl →
    (bl.consumed = true → pl = R.length) →
    ((L.skip kc bc c pc).2 = .error .oob ∧ bc.finished = false ∧ (s = R → fin = false → (L.skip kl bl c pl).2 = .error .oob)) ∨
    (∃ xc xl f pc' pl', L.skip kc bc c pc = ({ bc with pos := xc, consumed := f }, .ok pc') ∧
      L.skip kl bl c pl = ({ bl with pos := xl, consumed := f }, .ok pl') ∧
      Sim { bc with pos := xc, consumed := f } { bl with pos := xl, consumed := f } R s fin lo rHat k ∧
      InWin bc.size k lo R.length pc' pl' ∧ (f = true → pl' = R.length) ∧
      (((bl.consumed = true ∨ L.isHit c = true) ∧ pl' = pl ∧ f = bl.consumed) ∨ (bl.pos ≤ pl' ∧ (bl.consumed = false ∧ L.isHit c = false)))) := by
  intro kc
  induction kc with
  | zero => intros; omega
  | succ kc ih =>
    intro kl bc bl c pc pl h hn hkc hkl hpl
    obtain ⟨kl, rfl⟩ : ∃ k', kl = k' + 1 := ⟨kl - 1, by omega⟩
    unfold Lexer.skip
    rw [h.cons]
    by_cases hcond : (bl.consumed == false && (L.isFirst c == false || L.isDelim c == false)) = true
    · rw [if_pos hcond, if_pos hcond]
      have hcf : bl.consumed = false ∧ L.isHit c = false := by
        simp [Lexer.isHit] at hcond ⊢
        refine ⟨hcond.1, ?_⟩
        intro h1
        rcases hcond.2 with h2 | h2
        · rw [h1] at h2; cases h2
        · exact h2
      rcases h.next with ⟨c', hlt, e1, e2, hs⟩ | ⟨hp, hsR, e1, e2, hs⟩ | ⟨e1, e0, e2⟩
      · rw [e1, e2]
        simp only
        have hl := h.len
        have := ih kl _ _ c' bc.pos bl.pos hs h.posNear (by simp only; omega) (by simp only; omega)
          (fun h => by have h : bl.consumed = true := h; rw [hcf.1] at h; cases h)
        rcases this with ⟨a1, a0, a2⟩ | ⟨xc, xl, f, pc', pl', a1, a2, a3, a4, a6, a5⟩
        · exact .inl ⟨a1, a0, a2⟩
        · refine .inr ⟨xc, xl, f, pc', pl', a1, a2, a3, a4, a6, .inr ⟨?_, hcf⟩⟩
          rcases a5 with ⟨_, a5, _⟩ | ⟨a5, _⟩
          · omega
          · have : bl.pos + 1 ≤ pl' := a5
            omega
      · rw [e1, e2]
        simp only
        obtain ⟨kc, rfl⟩ : ∃ k', kc = k' + 1 := ⟨kc - 1, by omega⟩
        obtain ⟨kl, rfl⟩ : ∃ k', kl = k' + 1 := ⟨kl - 1, by omega⟩
        right
        refine ⟨bc.pos, bl.pos, true, bc.pos, bl.pos, ?_, ?_, hs, h.posNear, fun _ => hp, .inr ⟨Nat.le_refl _, hcf⟩⟩
        · unfold Lexer.skip; rfl
        · unfold Lexer.skip; rfl
      · left
        rw [e1]
        refine ⟨rfl, e0, fun h1 h2 => ?_⟩
        rw [e2 h1 h2]
    · rw [if_neg hcond, if_neg hcond]
      right
      refine ⟨bc.pos, bl.pos, bl.consumed, pc, pl, by rw [← h.cons], rfl, h.setBoth h.posNear _ (h.cons ▸ h.cfin), hn, hpl, .inl ⟨?_, rfl, rfl⟩⟩
      simp [Lexer.isHit] at hcond ⊢
      cases hb : bl.consumed
      · right; exact hcond hb
      · left; rfl

/-- The lexer's fields, up to the places of the positions. -/
structure SimSt (sc sl : LexState) (S k lo r : Nat) : Prop where
  eq : sc = { sl with matchPos := sc.matchPos, startPos := sc.startPos, lastMatchPos := sc.lastMatchPos }
  last : InWin S k lo r sc.lastMatchPos sl.lastMatchPos
  start : sl.isMatch = true ∨ sl.asked = true → InWin S k lo r sc.startPos sl.startPos
  mtch : sl.isMatch = true → InWin S k lo r sc.matchPos sl.matchPos

/-- The token objects, up to the places of the positions. -/
structure SimTok (bc bl : InBuf) (tc tl : Token) (k lo r : Nat) : Prop where
  start : InWin bc.size k lo r tc.startPos tl.startPos
  stop : InWin bc.size k lo r tc.endPos tl.endPos
  buf : tc.buf = bc.active
  size : tc.bufSize = bc.size
  buf' : tl.buf = bl.active
  size' : tl.bufSize = bl.size
  types : tc.types = tl.types
  line : tc.line = tl.line
  wrap : tc.wrap = []
  wrap' : tl.wrap = []

/-- The possible pairs of results of a call. -/
def SimRes (bc bl : InBuf) (R s : List Nat) (fin : Bool) (lo rHat k : Nat) (rc rl : LexState × InBuf × Except Fail Token) : Prop :=
  (rc.2.2 = .error .oob ∧ bc.finished = false ∧ (s = R → fin = false → rl.2.2 = .error .oob)) ∨ rl.2.2 = .error .ub ∨
  (∃ xc xl f tc tl, rc.2.1 = { bc with pos := xc, consumed := f } ∧ rl.2.1 = { bl with pos := xl, consumed := f } ∧
    Sim rc.2.1 rl.2.1 R s fin lo rHat k ∧ SimSt rc.1 rl.1 bc.size k lo R.length ∧ rc.2.2 = .ok tc ∧ rl.2.2 = .ok tl ∧
    SimTok bc bl tc tl k lo R.length)

theorem mkTok_sim {bc bl : InBuf} {k lo r ac al ec el l : Nat} {ty : Option (List Nat)} {p p' : Nat} {c c' : Bool}
    (ha : InWin bc.size k lo r ac al) (he : InWin bc.size k lo r ec el) :
    SimTok bc bl (Lexer.mkToken { bc with pos := p, consumed := c } ac ec l ty) (Lexer.mkToken { bl with pos := p', consumed := c' } al el l ty) k lo r :=
  ⟨ha, he, rfl, rfl, rfl, rfl, rfl, rfl, rfl, rfl⟩

theorem emitMatch_sim {R s : List Nat} {fin : Bool} {lo rHat k : Nat} {bc bl : InBuf} {sc sl : LexState}
    (h : Sim bc bl R s fin lo rHat k) (hst : SimSt sc sl bc.size k lo R.length) (hm : sl.isMatch = true) (ha : sl.asked = false) :
    SimRes bc bl R s fin lo rHat k (Lexer.emitMatch sc bc) (Lexer.emitMatch sl bl) := by
  have hmt := hst.mtch hm
  have hs := hst.start (.inl hm)
  have hml : sc.matchLine = sl.matchLine := by rw [hst.eq]
  have hll : sc.lastMatchLine = sl.lastMatchLine := by rw [hst.eq]
  have hty : sc.typeIds = sl.typeIds := by rw [hst.eq]
  have hne := InWin.inj h.win hst.last hs
  unfold Lexer.emitMatch
  simp only
  by_cases hc : sl.lastMatchPos = sl.startPos
  · rw [if_neg (by simpa using hne.mpr hc), if_neg (by simpa using hc)]
    refine .inr (.inr ⟨sc.matchPos, sl.matchPos, false, _, _, rfl, rfl, h.setBoth hmt _ (fun h => by cases h), ?_, rfl, rfl, ?_⟩)
    · refine ⟨?_, hmt, ?_, ?_⟩
      · rw [hst.eq]
      · simp [ha]
      · simp
    · simp only [hml, hty]
      exact mkTok_sim hs hmt
  · rw [if_pos (by simpa using fun h => hc (hne.mp h)), if_pos (by simpa using hc)]
    refine .inr (.inr ⟨sc.matchPos, sl.matchPos, false, _, _, rfl, rfl, h.setBoth hmt _ (fun h => by cases h), ?_, rfl, rfl, ?_⟩)
    · refine ⟨?_, hst.last, fun _ => hs, fun _ => hmt⟩
      rw [hst.eq]
    · simp only [hll]
      exact mkTok_sim hst.last hs

theorem emitEnd_sim {R s : List Nat} {fin : Bool} {lo rHat k : Nat} {bc bl : InBuf} {sc sl : LexState}
    (h : Sim bc bl R s fin lo rHat k) (hst : SimSt sc sl bc.size k lo R.length) (hs : InWin bc.size k lo R.length sc.startPos sl.startPos) :
    SimRes bc bl R s fin lo rHat k (Lexer.emitEnd sc bc) (Lexer.emitEnd sl bl) := by
  have hll : sc.lastMatchLine = sl.lastMatchLine := by rw [hst.eq]
  have hln : sc.line = sl.line := by rw [hst.eq]
  have hne := InWin.inj h.win hst.last hs
  have hb : Sim { bc with pos := bc.pos, consumed := bl.consumed } { bl with pos := bl.pos, consumed := bl.consumed } R s fin lo rHat k :=
    h.setBoth h.posNear _ (h.cons ▸ h.cfin)
  unfold Lexer.emitEnd
  by_cases hc : sl.lastMatchPos = sl.startPos
  · rw [if_neg (by simpa using hne.mpr hc), if_neg (by simpa using hc)]
    refine .inr (.inr ⟨bc.pos, bl.pos, bl.consumed, _, _, by rw [← h.cons], rfl, h, hst, rfl, rfl, ?_⟩)
    simp only [hln]
    exact mkTok_sim h.posNear h.posNear
  · rw [if_pos (by simpa using fun h => hc (hne.mp h)), if_pos (by simpa using hc)]
    refine .inr (.inr ⟨bc.pos, bl.pos, bl.consumed, _, _, by rw [← h.cons], rfl, h, ?_, rfl, rfl, ?_⟩)
    · refine ⟨?_, hst.last, fun _ => hs, fun _ => h.posNear⟩
      rw [hst.eq]
    · simp only [hll]
      exact mkTok_sim hst.last hs

theorem noteMatch_sim {L : Lexer} {S k lo r q pc pl c : Nat} {sc sl : LexState} {bc bl : InBuf} (hst : SimSt sc sl S k lo r)
    (hs : InWin S k lo r sc.startPos sl.startPos) (hp : InWin S k lo r pc pl) (hb : bc.consumed = bl.consumed) (ha : sl.asked = false) :
    SimSt (L.noteMatch q pc c sc bc) (L.noteMatch q pl c sl bl) S k lo r ∧
    InWin S k lo r (L.noteMatch q pc c sc bc).startPos (L.noteMatch q pl c sl bl).startPos ∧ (L.noteMatch q pl c sl bl).asked = false := by
  unfold Lexer.noteMatch
  rw [hb]
  split
  · refine ⟨⟨?_, hst.last, fun _ => hs, fun _ => hp⟩, hs, ha⟩
    rw [hst.eq]
  · exact ⟨hst, hs, ha⟩

theorem noteNewline_sim {L : Lexer} {S k lo r q pc pl c : Nat} {sc sl : LexState} {bc bl : InBuf} (hst : SimSt sc sl S k lo r)
    (hs : InWin S k lo r sc.startPos sl.startPos) (hp : InWin S k lo r pc pl) (hb : InWin S k lo r bc.pos bl.pos) (ha : sl.asked = false) :
    (L.noteNewline q pc c sc bc = none ∧ L.noteNewline q pl c sl bl = none) ∨
    ∃ sc' sl' nx, L.noteNewline q pc c sc bc = some (sc', nx) ∧ L.noteNewline q pl c sl bl = some (sl', nx) ∧
      SimSt sc' sl' S k lo r ∧ InWin S k lo r sc'.startPos sl'.startPos ∧ sl'.asked = false ∧
      (q = 0 → nx = L.dfa.next 0 c) := by
  have hm : sc.isMatch = sl.isMatch := by rw [hst.eq]
  have hl : sc.line = sl.line := by rw [hst.eq]
  unfold Lexer.noteNewline
  simp only
  by_cases hc : (c == newline) = true
  · rw [if_pos hc, if_pos hc, hm]
    by_cases hd : (L.hasDelims && !sl.isMatch) = true
    · rw [if_pos hd, if_pos hd]
      cases hq : L.dfa.next 0 c with
      | none => exact .inl ⟨rfl, rfl⟩
      | some q' =>
        right
        refine ⟨_, _, _, rfl, rfl, ⟨?_, hst.last, fun _ => hp, fun _ => hb⟩, hp, ha, fun _ => rfl⟩
        rw [hst.eq]
    · rw [if_neg hd, if_neg hd]
      right
      refine ⟨_, _, _, rfl, rfl, ⟨?_, hst.last, hst.start, hst.mtch⟩, hs, ha, fun h => by rw [h]⟩
      rw [hst.eq]
  · rw [if_neg hc, if_neg hc]
    exact .inr ⟨_, _, _, rfl, rfl, hst, hs, ha, fun h => by rw [h]⟩

/-- The same buffers at other positions. -/
structure Moved (bc bl bc' bl' : InBuf) : Prop where
  c : ∃ p f, bc' = { bc with pos := p, consumed := f }
  l : ∃ p f, bl' = { bl with pos := p, consumed := f }

theorem SimRes.base {bc bl bc' bl' : InBuf} {R s : List Nat} {fin : Bool} {lo rHat k : Nat} {rc rl : LexState × InBuf × Except Fail Token}
    (h : SimRes bc' bl' R s fin lo rHat k rc rl) (hm : Moved bc bl bc' bl') : SimRes bc bl R s fin lo rHat k rc rl := by
  obtain ⟨p, f, rfl⟩ := hm.c
  obtain ⟨p', f', rfl⟩ := hm.l
  rcases h with h | h | ⟨xc, xl, f, tc, tl, h1, h2, h3, h4, h5, h6, h7⟩
  · exact .inl h
  · exact .inr (.inl h)
  · exact .inr (.inr ⟨xc, xl, f, tc, tl, h1, h2, h3, h4, h5, h6, ⟨h7.1, h7.2, h7.3, h7.4, h7.5, h7.6, h7.7, h7.8, h7.9, h7.10⟩⟩)

/-- The loop of `scan`. -/
theorem scanLoop_sim (L : Lexer) {R s : List Nat} {fin : Bool} {lo rHat k : Nat} : ∀ (kc kl : Nat) (state : Option Nat) (sc sl : LexState) (bc bl : InBuf),
    Sim bc bl R s fin lo rHat k → SimSt sc sl bc.size k lo R.length → InWin bc.size k lo R.length sc.startPos sl.startPos → sl.asked = false →
    (2 * (R.length - bl.pos) + 3 ≤ kc ∨ ((state = some 0 ∧ sl.startPos = bl.pos) ∧ 2 * (R.length - bl.pos) + 2 ≤ kc)) →
    (2 * (s.length - bl.pos) + 3 ≤ kl ∨ ((state = some 0 ∧ sl.startPos = bl.pos) ∧ 2 * (s.length - bl.pos) + 2 ≤ kl)) →
    (bl.consumed = true → bl.pos = R.length) →
    SimRes bc bl R s fin lo rHat k (L.scanLoop kc state sc bc) (L.scanLoop kl state sl bl) := by
  intro kc
  induction kc with
  | zero => intros; omega
  | succ kc ih =>
    intro kl state sc sl bc bl h hst hs ha hkc hkl hcons
    obtain ⟨kl, rfl⟩ : ∃ k', kl = k' + 1 := ⟨kl - 1, by omega⟩
    have hlen := h.len
    have hprev := h.posNear
    unfold Lexer.scanLoop
    simp only
    rcases h.next with ⟨c, hlt, e1, e2, hS⟩ | ⟨hp, hsR, e1, e2, hS⟩ | ⟨e1, e0, e2⟩
    · obtain ⟨bc1, hbc1⟩ : ∃ b : InBuf, b = { bc with pos := (bl.pos + 1 + k) % bc.size } := ⟨_, rfl⟩
      obtain ⟨bl1, hbl1⟩ : ∃ b : InBuf, b = { bl with pos := bl.pos + 1 } := ⟨_, rfl⟩
      rw [← hbc1] at e1 hS
      rw [← hbl1] at e2 hS
      rw [e1, e2]
      simp only
      cases state with
      | none => exact .inr (.inl rfl)
      | some q =>
        simp only
        have hcf : bl.consumed = false := by
          cases hb : bl.consumed
          · rfl
          · have := hcons hb; omega
        have hM : Moved bc bl bc1 bl1 := ⟨⟨_, _, hbc1⟩, ⟨_, _, hbl1⟩⟩
        have hlf : bl1.consumed = false := by rw [hbl1]; exact hcf
        have hlp : bl1.pos = bl.pos + 1 := by rw [hbl1]
        have hcs : bc1.size = bc.size := by rw [hbc1]
        have hbf : bc1.consumed = false := by rw [hS.cons, hlf]
        rw [← hcs] at hst hs hprev
        obtain ⟨n1, n2, n3⟩ := noteMatch_sim (L := L) (q := q) (c := c) hst hs hprev hS.cons ha
        rcases noteNewline_sim (L := L) (q := q) (c := c) n1 n2 hprev hS.posNear n3 with ⟨m1, m2⟩ | ⟨sc', sl', nx, m1, m2, m3, m4, m5, m6⟩
        · rw [m2]
          exact .inr (.inl rfl)
        · rw [m1, m2]
          simp only
          have hm : sc'.isMatch = sl'.isMatch := by rw [m3.eq]
          by_cases hx : nx.isNone = true
          · rw [if_pos (show (bc1.consumed || nx.isNone) = true by rw [hx]; simp), if_pos (show (bl1.consumed || nx.isNone) = true by rw [hx]; simp)]
            by_cases hma : sl'.isMatch = true
            · rw [if_pos (hm.trans hma), if_pos hma]
              exact (emitMatch_sim hS m3 hma m5).base hM
            · rw [if_neg (by rw [hm]; exact hma), if_neg hma, if_neg (show ¬ (bc1.consumed && sc'.startPos == bc1.pos) = true by simp [hbf]),
                if_neg (show ¬ (bl1.consumed && sl'.startPos == bl1.pos) = true by simp [hlf])]
              have hsk := skip_sim L (bc1.size + 2) (bl1.size + 2) bc1 bl1 c bc.pos bl.pos hS hprev
                (by have := hS.win; have := hS.inv.lo_le; omega) (by have := hS.view.half; omega)
                (fun h => by rw [hlf] at h; cases h)
              rcases hsk with ⟨a1, a0, a2⟩ | ⟨xc, xl, f, pc', pl', a1, a2, a3, a4, a5, a6⟩
              · left
                rcases hk1 : L.skip (bc1.size + 2) bc1 c bc.pos with ⟨b1, r1⟩
                rcases hk2 : L.skip (bl1.size + 2) bl1 c bl.pos with ⟨b2, r2⟩
                rw [hk1] at a1
                rw [hk2] at a2
                simp only at a1 a2
                subst a1
                refine ⟨rfl, by rw [hbc1] at a0; exact a0, fun h1 h2 => ?_⟩
                rw [a2 h1 h2]
              · rw [a1, a2]
                simp only
                have hnh : q = 0 → L.isHit c = false := by
                  intro h0
                  have := m6 h0
                  rw [this] at hx
                  simp only [Option.isNone_iff_eq_none] at hx
                  simp [Lexer.isHit, Lexer.isFirst, hx]
                have key : (pl' = bl.pos ∧ some q ≠ some 0) ∨ bl.pos + 1 ≤ pl' := by
                  rcases a6 with ⟨h1 | h1, h2, _⟩ | ⟨h1, _⟩
                  · rw [hlf] at h1; cases h1
                  · refine .inl ⟨h2, fun h => ?_⟩
                    cases h
                    rw [hnh rfl] at h1; cases h1
                  · right; omega
                have hle := a4.le
                have hS2 := a3.setPos a4
                have hM2 : Moved bc1 bl1 { bc1 with pos := pc', consumed := f } { bl1 with pos := pl', consumed := f } := ⟨⟨_, _, rfl⟩, ⟨_, _, rfl⟩⟩
                refine ((ih kl (some 0) { sc' with startPos := pc' } { sl' with startPos := pl' } _ _ hS2 ⟨?_, m3.last, fun _ => a4, m3.mtch⟩ a4 m5 ?_ ?_ a5).base hM2).base hM
                · rw [m3.eq]
                · show 2 * (R.length - pl') + 3 ≤ kc ∨ ((some 0 = some 0 ∧ pl' = pl') ∧ 2 * (R.length - pl') + 2 ≤ kc)
                  rcases key with ⟨h1, h2⟩ | h1
                  · right
                    refine ⟨⟨rfl, rfl⟩, ?_⟩
                    rcases hkc with h3 | ⟨⟨h3, _⟩, _⟩
                    · omega
                    · exact absurd h3 h2
                  · left; omega
                · show 2 * (s.length - pl') + 3 ≤ kl ∨ ((some 0 = some 0 ∧ pl' = pl') ∧ 2 * (s.length - pl') + 2 ≤ kl)
                  rcases key with ⟨h1, h2⟩ | h1
                  · right
                    refine ⟨⟨rfl, rfl⟩, ?_⟩
                    rcases hkl with h3 | ⟨⟨h3, _⟩, _⟩
                    · omega
                    · exact absurd h3 h2
                  · left; omega
          · rw [if_neg (show ¬ (bc1.consumed || nx.isNone) = true by rw [hbf]; simpa using hx),
              if_neg (show ¬ (bl1.consumed || nx.isNone) = true by rw [hlf]; simpa using hx)]
            refine (ih kl nx sc' sl' _ _ hS m3 m4 m5 (.inl ?_) (.inl ?_) ?_).base hM
            · omega
            · omega
            · intro h
              rw [hlf] at h; cases h
    · obtain ⟨bc1, hbc1⟩ : ∃ b : InBuf, b = { bc with consumed := true } := ⟨_, rfl⟩
      obtain ⟨bl1, hbl1⟩ : ∃ b : InBuf, b = { bl with consumed := true } := ⟨_, rfl⟩
      rw [← hbc1] at e1 hS
      rw [← hbl1] at e2 hS
      rw [e1, e2]
      simp only
      cases state with
      | none => exact .inr (.inl rfl)
      | some q =>
        simp only
        have hM : Moved bc bl bc1 bl1 := ⟨⟨_, _, hbc1⟩, ⟨_, _, hbl1⟩⟩
        have hlf : bl1.consumed = true := by rw [hbl1]
        have hlp : bl1.pos = bl.pos := by rw [hbl1]
        have hcp : bc1.pos = bc.pos := by rw [hbc1]
        have hcs : bc1.size = bc.size := by rw [hbc1]
        have hbf : bc1.consumed = true := by rw [hS.cons, hlf]
        rw [← hcs] at hst hs hprev
        obtain ⟨n1, n2, n3⟩ := noteMatch_sim (L := L) (q := q) (c := cCharEOF) hst hs hprev hS.cons ha
        have hsp : (L.noteMatch q bl.pos cCharEOF sl bl1).startPos = sl.startPos := by
          unfold Lexer.noteMatch; split <;> rfl
        have hnn : ∀ (p : Nat) (st : LexState) (b : InBuf), L.noteNewline q p cCharEOF st b = some (st, L.dfa.next q cCharEOF) := by
          intro p st b
          unfold Lexer.noteNewline
          simp only
          rw [if_neg (by decide)]
        rw [hnn, hnn]
        simp only
        rw [if_pos (show (bc1.consumed || (L.dfa.next q cCharEOF).isNone) = true by rw [hbf]; rfl),
          if_pos (show (bl1.consumed || (L.dfa.next q cCharEOF).isNone) = true by rw [hlf]; rfl)]
        generalize L.noteMatch q bc.pos cCharEOF sc bc1 = sc' at *
        generalize L.noteMatch q bl.pos cCharEOF sl bl1 = sl' at *
        have hm : sc'.isMatch = sl'.isMatch := by rw [n1.eq]
        by_cases hma : sl'.isMatch = true
        · rw [if_pos (hm.trans hma), if_pos hma]
          exact (emitMatch_sim hS n1 hma n3).base hM
        · rw [if_neg (by rw [hm]; exact hma), if_neg hma]
          have hiff := InWin.inj hS.win n2 hprev
          by_cases hst2 : sl'.startPos = bl.pos
          · rw [if_pos (show (bc1.consumed && sc'.startPos == bc1.pos) = true by simp [hbf, hcp, hiff.mpr hst2]),
              if_pos (show (bl1.consumed && sl'.startPos == bl1.pos) = true by simp [hlf, hlp, hst2])]
            exact (emitEnd_sim hS n1 n2).base hM
          · rw [if_neg (show ¬ (bc1.consumed && sc'.startPos == bc1.pos) = true by simp [hbf, hcp]; exact fun h => hst2 (hiff.mp h)),
              if_neg (show ¬ (bl1.consumed && sl'.startPos == bl1.pos) = true by simp [hlf, hlp]; exact hst2)]
            have e3 : L.skip (bc1.size + 2) bc1 cCharEOF bc.pos = (bc1, .ok bc.pos) := by
              unfold Lexer.skip; rw [if_neg (by simp [hbf])]
            have e4 : L.skip (bl1.size + 2) bl1 cCharEOF bl.pos = (bl1, .ok bl.pos) := by
              unfold Lexer.skip; rw [if_neg (by simp [hlf])]
            rw [e3, e4]
            simp only
            have hS2 := hS.setPos hprev
            have hM2 : Moved bc1 bl1 { bc1 with pos := bc.pos } { bl1 with pos := bl.pos } := ⟨⟨_, _, rfl⟩, ⟨_, _, rfl⟩⟩
            have hfc : 2 ≤ kc := by
              rcases hkc with h3 | ⟨⟨_, h3⟩, _⟩
              · omega
              · rw [hsp] at hst2; exact absurd h3 hst2
            have hfl : 2 ≤ kl := by
              rcases hkl with h3 | ⟨⟨_, h3⟩, _⟩
              · omega
              · rw [hsp] at hst2; exact absurd h3 hst2
            refine ((ih kl (some 0) { sc' with startPos := bc.pos } { sl' with startPos := bl.pos } _ _ hS2 ⟨?_, n1.last, fun _ => hprev, n1.mtch⟩ hprev n3
              (.inr ⟨⟨rfl, rfl⟩, ?_⟩) (.inr ⟨⟨rfl, rfl⟩, ?_⟩) (fun _ => hp)).base hM2).base hM
            · rw [n1.eq]
            · show 2 * (R.length - bl.pos) + 2 ≤ kc; omega
            · show 2 * (s.length - bl.pos) + 2 ≤ kl; rw [hsR]; omega
    · left
      rw [e1]
      refine ⟨rfl, e0, fun h1 h2 => ?_⟩
      rw [e2 h1 h2]

/-- Between two calls of `scan`. -/
structure SimSt0 (sc sl : LexState) (S k lo r : Nat) : Prop where
  eq : sc = { sl with matchPos := sc.matchPos, startPos := sc.startPos, lastMatchPos := sc.lastMatchPos }
  last : sl.isMatch = false → InWin S k lo r sc.lastMatchPos sl.lastMatchPos
  start : sl.isMatch = true ∨ sl.asked = true → InWin S k lo r sc.startPos sl.startPos
  mtch : sl.isMatch = true → InWin S k lo r sc.matchPos sl.matchPos

theorem SimSt.weak {sc sl : LexState} {S k lo r : Nat} (h : SimSt sc sl S k lo r) : SimSt0 sc sl S k lo r :=
  ⟨h.eq, fun _ => h.last, h.start, h.mtch⟩

/-- `scan`. -/
theorem scan_sim (L : Lexer) {R s : List Nat} {fin : Bool} {lo rHat k : Nat} {sc sl : LexState} {bc bl : InBuf}
    (h : Sim bc bl R s fin lo rHat k) (hst : SimSt0 sc sl bc.size k lo R.length) (hnp : sl.isMatch = true → sl.asked = false) (hcons : bl.consumed = true → bl.pos = R.length) :
    SimRes bc bl R s fin lo rHat k (L.scan sc bc) (L.scan sl bl) := by
  have hask : sc.asked = sl.asked := by rw [hst.eq]
  have hm : sc.isMatch = sl.isMatch := by rw [hst.eq]
  have hw := h.win
  have hl := h.inv.lo_le
  have hf1 : 2 * (R.length - bl.pos) + 3 ≤ Lexer.scanFuel bc := by unfold Lexer.scanFuel; omega
  have hf2 : 2 * (s.length - bl.pos) + 3 ≤ Lexer.scanFuel bl := by
    have := h.view.half
    unfold Lexer.scanFuel; omega
  unfold Lexer.scan
  rw [hask, hm]
  by_cases ha : sl.asked = true
  · have hmf : sl.isMatch = false := by
      cases hb : sl.isMatch
      · rfl
      · rw [hnp hb] at ha; cases ha
    rw [if_pos ha, if_pos ha]
    have hp : sc.prevState = sl.prevState := by rw [hst.eq]
    rw [hp]
    refine scanLoop_sim L _ _ _ _ _ _ _ h ⟨?_, hst.last hmf, fun _ => hst.start (.inr ha), hst.mtch⟩ (hst.start (.inr ha)) rfl (.inl hf1) (.inl hf2) hcons
    rw [hst.eq]
  · rw [if_neg ha, if_neg ha]
    by_cases hma : sl.isMatch = true
    · rw [if_pos hma, if_pos hma]
      have hml : sc.matchLine = sl.matchLine := by rw [hst.eq]
      have hty : sc.typeIds = sl.typeIds := by rw [hst.eq]
      refine .inr (.inr ⟨bc.pos, bl.pos, bl.consumed, _, _, by rw [← h.cons], rfl, h, ?_, rfl, rfl, ?_⟩)
      · refine ⟨?_, hst.mtch hma, ?_, ?_⟩
        · rw [hst.eq]
        · simp [ha]
        · simp
      · simp only [hml, hty]
        exact mkTok_sim (hst.start (.inl hma)) (hst.mtch hma)
    · rw [if_neg hma, if_neg hma]
      have hln : sc.line = sl.line := by rw [hst.eq]
      refine scanLoop_sim L _ _ _ _ _ _ _ h ⟨?_, hst.last (by simpa using hma), fun _ => h.posNear, fun hh => absurd hh hma⟩ h.posNear (by simpa using ha) (.inl hf1) (.inl hf2) hcons
      rw [hst.eq]

end LogSurgeon
