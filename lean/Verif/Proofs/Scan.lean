import Verif.Model.Lexer
set_option linter.unusedSimpArgs false
/-
`Lexer.scan` on an input that lies linearly in the buffer, as a function on lists.
-/
namespace LogSurgeon

/-- The input ends with the text `s`. -/
def InBuf.ends (b : InBuf) (s : List Nat) : Bool := b.finished && b.lastRead == s.length

/-- The bytes still to be lexed are `s` (positions `0 … s.length`), lying linearly in the first half of the
active buffer; `fin`: the end of `s` is the end of the input. -/
structure View (b : InBuf) (s : List Nat) (fin : Bool) : Prop where
  len : s.length ≤ b.lastRead
  content : ∀ i, i < s.length → (b.mem b.active)[i]? = s[i]?
  fin_eq : b.ends s = fin
  half : s.length ≤ b.size / 2
  lrfh : s.length = 0 ∨ b.lrfh = true
  unfin : fin = false → b.lrfh = true ∧ s.length = b.size / 2

/-- The buffer has been filled up to the end of `s`. -/
theorem View.of {b : InBuf} {s : List Nat} {fin : Bool} (len : b.lastRead = s.length)
    (content : ∀ i, i < s.length → (b.mem b.active)[i]? = s[i]?) (fin_eq : b.finished = fin) (half : s.length ≤ b.size / 2)
    (lrfh : s.length = 0 ∨ b.lrfh = true) (unfin : fin = false → b.lrfh = true ∧ s.length = b.size / 2) : View b s fin :=
  ⟨by omega, content, by simp [InBuf.ends, len, fin_eq], half, lrfh, unfin⟩

theorem View.upd {b s fin} (h : View b s fin) (pos cp : Nat) (consumed : Bool) :
    View { b with pos := pos, consumed := consumed, consumedPos := cp } s fin :=
  ⟨h.len, h.content, h.fin_eq, h.half, h.lrfh, h.unfin⟩

theorem View.upd2 {b s fin} (h : View b s fin) (pos : Nat) (consumed : Bool) :
    View { b with pos := pos, consumed := consumed } s fin :=
  ⟨h.len, h.content, h.fin_eq, h.half, h.lrfh, h.unfin⟩

theorem View.finished {b s} (h : View b s true) : b.finished = true := by
  have := h.fin_eq
  simp only [InBuf.ends, Bool.and_eq_true] at this
  exact this.1

theorem getNext_lt {b s fin} (h : View b s fin) (hi : b.pos < s.length) :
    b.getNext = ({ b with pos := b.pos + 1 }, .char s[b.pos]) := by
  unfold InBuf.getNext
  have hl := h.len
  have hh := h.half
  have h1 : (b.finished && b.pos == b.lastRead) = false := by
    simp; intro; omega
  have hlr : b.lrfh = true := h.lrfh.resolve_left (by omega)
  have h2 : ((b.lrfh && b.pos == b.size / 2) || (!b.lrfh && b.pos == 0)) = false := by
    simp [hlr]; omega
  have h3 : (b.mem b.active)[b.pos]? = some s[b.pos] := by
    rw [h.content _ hi, List.getElem?_eq_getElem hi]
  rw [if_neg (by simp [h1]), if_neg (by simp [h2]), h3]
  simp only
  rw [if_neg (by omega)]

theorem getNext_eof {b s} (h : View b s true) (hi : b.pos = s.length) :
    b.getNext = ({ b with consumed := true }, .char cCharEOF) := by
  unfold InBuf.getNext
  have := h.fin_eq
  simp only [InBuf.ends, Bool.and_eq_true, beq_iff_eq] at this
  rw [if_pos (by simp [this, hi])]

theorem getNext_oob {b s} (h : View b s false) (hi : b.pos = s.length) : b.getNext = (b, .oob) := by
  unfold InBuf.getNext
  have := h.unfin rfl
  have h2 := h.fin_eq
  simp only [InBuf.ends] at h2
  rw [if_neg (by rw [hi, Bool.beq_comm, h2]; simp), if_pos (by simp [this.1, hi, this.2])]

/-! ### The pure lexer -/

/-- A character at which the lexer may start a token. -/
def Lexer.isHit (L : Lexer) (c : Nat) : Bool := L.isFirst c && L.isDelim c

/-- A run in progress: DFA state, start position, last candidate. -/
abbrev Cur := Option (Nat × Nat × Option (Nat × List Nat))

inductive Found where
  | tok (a e : Nat) (ty : List Nat)
  | nothing
  | more
deriving Repr, DecidableEq

namespace Lexer

/-- Start a run with character `c` at position `i`. -/
def enter (L : Lexer) (c i : Nat) : Cur :=
  (L.dfa.next 0 c).map fun q => (q, i, if c == newline && L.hasDelims then some (i + 1, L.dfa.ids q) else none)

/-- Candidate after seeing that character `c` follows at position `i` in state `q`. -/
def cand (L : Lexer) (q i c : Nat) (m : Option (Nat × List Nat)) : Option (Nat × List Nat) :=
  if (L.isDelim c || !L.hasDelims) && L.dfa.isAccepting q then some (i, L.dfa.ids q) else m

/-- The next non-uncaught token. -/
def find (L : Lexer) (fin : Bool) : Cur → Nat → List Nat → Found
  | none, _, [] => if fin then .nothing else .more
  | none, i, c :: r => find L fin (if L.isHit c then L.enter c i else none) (i + 1) r
  | some (q, a, m), i, [] =>
    if fin then
      match (if L.dfa.isAccepting q then some (i, L.dfa.ids q) else m) with
      | some (e, ty) => .tok a e ty
      | none => .nothing
    else .more
  | some (q, a, m), i, c :: r =>
    if c == newline && L.hasDelims && (L.cand q i c m).isNone then find L fin (L.enter c i) (i + 1) r
    else match L.dfa.next q c with
      | some q' => find L fin (some (q', a, L.cand q i c m)) (i + 1) r
      | none => match L.cand q i c m with
        | some (e, ty) => .tok a e ty
        | none => find L fin (if L.isHit c then L.enter c i else none) (i + 1) r

end Lexer

/-- What the lexer needs of its automaton. -/
structure LexOk (L : Lexer) : Prop where
  root : L.dfa.isAccepting 0 = false
  nl : L.hasDelims = true → (L.dfa.next 0 newline).isSome

/-- Number of newlines before position `i`. -/
def nlCount (s : List Nat) (i : Nat) : Nat := (s.take i).count newline

theorem nlCount_succ {s : List Nat} {i : Nat} (h : i < s.length) :
    nlCount s (i + 1) = nlCount s i + if s[i] = newline then 1 else 0 := by
  unfold nlCount
  rw [List.take_add_one, List.getElem?_eq_getElem h, List.count_append]
  simp [List.count_cons]

/-- Newline is a delimiter of a lexer with delimiters. -/
def NlDelim (L : Lexer) : Prop := L.hasDelims = true ∧ L.isDelim newline = true

/-- Relation between the candidate and the lexer's fields. -/
def MRel (m : Option (Nat × List Nat)) (st : LexState) : Prop :=
  match m with
  | none => st.isMatch = false
  | some (e, ty) => st.isMatch = true ∧ st.matchPos = e ∧ st.typeIds = some ty

/-- Line bookkeeping invariant. -/
structure LineOk (L : Lexer) (s : List Nat) (st : LexState) (i : Nat) : Prop where
  line : NlDelim L → st.line = nlCount s i
  mline : NlDelim L → st.isMatch = true → st.matchLine = nlCount s st.matchPos
  nline : NlDelim L → st.isMatch = false → st.matchLine = st.line

/-- Between two calls: the next token starts at `p`. -/
structure AtQ (L : Lexer) (s : List Nat) (st : LexState) (b : InBuf) (p : Nat) : Prop where
  asked : st.asked = false
  isMatch : st.isMatch = false
  last : st.lastMatchPos = p
  pos : b.pos = p
  line : NlDelim L → st.line = nlCount s p
  lastLine : NlDelim L → st.lastMatchLine = nlCount s p

/-- Between two calls: the token `[a, e)` is to be returned next. -/
structure AtP (L : Lexer) (s : List Nat) (st : LexState) (b : InBuf) (a e : Nat) (ty : List Nat) : Prop where
  asked : st.asked = false
  isMatch : st.isMatch = true
  start : st.startPos = a
  stop : st.matchPos = e
  types : st.typeIds = some ty
  pos : b.pos = e
  line : NlDelim L → st.line = nlCount s e
  mline : NlDelim L → st.matchLine = nlCount s e

/-- A token text range, with the storage of `b`. -/
structure IsTok (b : InBuf) (t : Token) (a e : Nat) (ty : List Nat) (line : Nat) : Prop where
  start : t.startPos = a
  stop : t.endPos = e
  buf : t.buf = b.active
  size : t.bufSize = b.size
  types : t.types = some ty
  line_eq : t.line = line
  wrap : t.wrap = []

/-- What a call produces, given what the pure lexer finds; `cov` is the start of the first byte not
yet in a token. -/
def Outcome (L : Lexer) (s : List Nat) (cov lline : Nat) (b : InBuf) (f : Found)
    (r : LexState × InBuf × Except Fail Token) : Prop :=
  (∃ pos' c', r.2.1 = { b with pos := pos', consumed := c' } ∧
    (c' = true → pos' = s.length ∧ b.ends s = true)) ∧
  match f with
  | .tok a e ty =>
    if cov = a then AtQ L s r.1 r.2.1 e ∧
      ∃ t l, r.2.2 = .ok t ∧ IsTok b t a e ty l ∧ (NlDelim L → l = nlCount s e)
    else AtP L s r.1 r.2.1 a e ty ∧
      ∃ t, r.2.2 = .ok t ∧ IsTok b t cov a [tokenUncaught] lline
  | .nothing =>
    if cov = s.length then AtQ L s r.1 r.2.1 s.length ∧
      ∃ t l, r.2.2 = .ok t ∧ IsTok b t s.length s.length [tokenEnd] l ∧ (NlDelim L → l = nlCount s s.length)
    else AtP L s r.1 r.2.1 s.length s.length [tokenEnd] ∧
      ∃ t, r.2.2 = .ok t ∧ IsTok b t cov s.length [tokenUncaught] lline
  | .more => r.2.2 = .error .oob

theorem isTok_mk (b : InBuf) (a e l : Nat) (ty : List Nat) (p : Nat) (c : Bool) :
    IsTok b (Lexer.mkToken { b with pos := p, consumed := c } a e l (some ty)) a e ty l :=
  ⟨rfl, rfl, rfl, rfl, rfl, rfl, rfl⟩

/-- The skip loop: it ends at a hit, or at the end. -/
theorem skip_spec (L : Lexer) {s : List Nat} {fin : Bool} :
    ∀ (k : Nat) (b : InBuf) (prev : Nat) (hprev : prev < s.length), View b s fin → b.consumed = false →
      b.pos = prev + 1 → s.length - b.pos + 2 ≤ k →
      (∃ j, prev ≤ j ∧ ∃ hj : j < s.length, L.isHit s[j] = true ∧
        (∀ x, prev ≤ x → (hx : x < j) → L.isHit (s[x]'(by omega)) = false) ∧
        L.skip k b s[prev] prev = ({ b with pos := j + 1 }, .ok j)) ∨
      ((∀ x, prev ≤ x → (hx : x < s.length) → L.isHit s[x] = false) ∧
        ((fin = true ∧ L.skip k b s[prev] prev = ({ b with pos := s.length, consumed := true }, .ok s.length)) ∨
         (fin = false ∧ L.skip k b s[prev] prev = ({ b with pos := s.length }, .error .oob)))) := by
  intro k
  induction k with
  | zero => intros; omega
  | succ k ih =>
    intro b prev hprev hV hc hpos hk
    unfold Lexer.skip
    by_cases hhit : L.isHit s[prev] = true
    · left
      refine ⟨prev, Nat.le_refl _, hprev, hhit, fun x h1 h2 => by omega, ?_⟩
      rw [if_neg (by simp [Lexer.isHit] at hhit; simp [hhit])]
      rw [← hpos]
    · rw [if_pos (by
        simp only [Lexer.isHit, Bool.and_eq_true, not_and, Bool.not_eq_true] at hhit
        simp only [hc, BEq.rfl, Bool.true_and, Bool.or_eq_true, beq_iff_eq]
        cases hf : L.isFirst s[prev]
        · exact Or.inl rfl
        · exact Or.inr (hhit hf))]
      have hhit' : L.isHit s[prev] = false := by simpa using hhit
      by_cases hlt : b.pos < s.length
      · rw [getNext_lt hV hlt]
        simp only
        have hV' := hV.upd2 (b.pos + 1) b.consumed
        have := ih { b with pos := b.pos + 1 } b.pos hlt hV' hc rfl (by simp only; omega)
        simp only at this
        rcases this with ⟨j, hj1, hj2, hj3, hj4, hj5⟩ | ⟨h1, h2⟩
        · left
          refine ⟨j, by omega, hj2, hj3, ?_, hj5⟩
          intro x hx1 hx2
          by_cases hx : x = prev
          · subst hx; exact hhit'
          · exact hj4 x (by omega) hx2
        · right
          refine ⟨?_, h2⟩
          intro x hx1 hx2
          by_cases hx : x = prev
          · subst hx; exact hhit'
          · exact h1 x (by omega) hx2
      · right
        have hpe : b.pos = s.length := by omega
        refine ⟨?_, ?_⟩
        · intro x h1 h2
          have : x = prev := by omega
          subst this; exact hhit'
        · cases fin with
          | true =>
            left
            rw [getNext_eof hV hpe]
            refine ⟨rfl, ?_⟩
            simp only
            cases k with
            | zero => omega
            | succ k =>
              unfold Lexer.skip
              simp [hpe]
          | false =>
            right
            rw [getNext_oob hV hpe]
            refine ⟨rfl, ?_⟩
            simp [← hpe]

/-- In skip mode, `find` moves to the next hit. -/
theorem find_skip (L : Lexer) (fin : Bool) (s : List Nat) (prev j : Nat) (hpj : prev ≤ j) (hj : j ≤ s.length)
    (h : ∀ x, prev ≤ x → (hx : x < j) → L.isHit (s[x]'(by omega)) = false) :
    L.find fin none prev (s.drop prev) = L.find fin none j (s.drop j) := by
  induction j with
  | zero => have : prev = 0 := by omega
            subst this; rfl
  | succ j ih =>
    by_cases hp : prev = j + 1
    · subst hp; rfl
    · rw [ih (by omega) (by omega) (fun x h1 h2 => h x h1 (by omega))]
      rw [List.drop_eq_getElem_cons (by omega : j < s.length), Lexer.find,
        h j (by omega) (by omega)]
      simp

/-- Emitting a match. -/
theorem emitMatch_outcome {L : Lexer} {s : List Nat} {st : LexState} {b b0 : InBuf} {a e : Nat} {ty : List Nat}
    (hb : ∃ p c, b = { b0 with pos := p, consumed := c }) (hs : st.startPos = a)
    (hm : MRel (some (e, ty)) st) (hask : st.asked = false)
    (hml : NlDelim L → st.matchLine = nlCount s st.matchPos) :
    Outcome L s st.lastMatchPos st.lastMatchLine b0 (.tok a e ty) (Lexer.emitMatch st b) := by
  obtain ⟨p, c, rfl⟩ := hb
  obtain ⟨h1, h2, h3⟩ := hm
  subst a e
  unfold Lexer.emitMatch Outcome
  simp only
  by_cases hc : st.lastMatchPos = st.startPos
  · rw [if_neg (by simp [hc]), if_pos hc]
    refine ⟨⟨_, _, rfl, by simp⟩, ⟨hask, rfl, rfl, rfl, hml, hml⟩, _, _, rfl, ?_, hml⟩
    rw [h3]
    exact isTok_mk ..
  · rw [if_pos (by simpa using hc), if_neg hc]
    exact ⟨⟨_, _, rfl, by simp⟩, ⟨hask, h1, rfl, rfl, h3, rfl, hml, hml⟩, _, rfl, isTok_mk ..⟩

/-- Emitting the end. -/
theorem emitEnd_outcome {L : Lexer} {s : List Nat} {st : LexState} {b b0 : InBuf}
    (hb : ∃ p c, b = { b0 with pos := p, consumed := c }) (hfin : b0.ends s = true)
    (hpos : b.pos = s.length) (hs : st.startPos = s.length)
    (hm : st.isMatch = false) (hask : st.asked = false)
    (hl : NlDelim L → st.line = nlCount s s.length)
    (hll : NlDelim L → st.lastMatchPos = s.length → st.lastMatchLine = nlCount s s.length)
    (hml : NlDelim L → st.matchLine = st.line) :
    Outcome L s st.lastMatchPos st.lastMatchLine b0 .nothing (Lexer.emitEnd st b) := by
  obtain ⟨p, c, rfl⟩ := hb
  simp only at hpos
  subst p
  unfold Lexer.emitEnd Outcome
  simp only
  by_cases hc : st.lastMatchPos = s.length
  · rw [if_neg (by simp [hc, hs]), if_pos hc]
    exact ⟨⟨_, _, rfl, fun _ => ⟨rfl, hfin⟩⟩, ⟨hask, hm, hc, rfl, hl, fun h => hll h hc⟩, _, _, rfl,
      isTok_mk .., hl⟩
  · rw [if_pos (by rw [hs]; simpa using hc), if_neg hc]
    refine ⟨⟨_, _, rfl, fun _ => ⟨rfl, hfin⟩⟩, ⟨hask, rfl, hs, rfl, rfl, rfl, hl, fun h => ?_⟩, _, rfl, ?_⟩
    · simp only; rw [hml h, hl h]
    · rw [hs]; exact isTok_mk ..

/-- The part of the state that `find` never touches. -/
structure SameCov (st st' : LexState) : Prop where
  asked : st'.asked = st.asked
  last : st'.lastMatchPos = st.lastMatchPos
  lastLine : st'.lastMatchLine = st.lastMatchLine

/-- `noteMatch` computes `cand`. -/
theorem noteMatch_spec {L : Lexer} {s : List Nat} {st : LexState} {b : InBuf} {q c : Nat}
    {m : Option (Nat × List Nat)} {i : Nat} (hc : b.consumed = false) (hm : MRel m st)
    (hl : LineOk L s st i) :
    MRel (L.cand q i c m) (L.noteMatch q i c st b) ∧ SameCov st (L.noteMatch q i c st b) ∧
    (L.noteMatch q i c st b).startPos = st.startPos ∧ (L.noteMatch q i c st b).line = st.line ∧
    LineOk L s (L.noteMatch q i c st b) i := by
  unfold Lexer.cand Lexer.noteMatch
  simp only [hc, Bool.or_false]
  split
  · refine ⟨⟨rfl, rfl, rfl⟩, ⟨rfl, rfl, rfl⟩, rfl, rfl, ⟨hl.line, fun h _ => hl.line h, fun _ h => ?_⟩⟩
    simp at h
  · exact ⟨hm, ⟨rfl, rfl, rfl⟩, rfl, rfl, hl⟩

/-- One iteration on a fresh start at a hit. -/
theorem scanLoop_fresh {L : Lexer} (hL : LexOk L) {s : List Nat} {fin : Bool} {k : Nat} {st : LexState}
    {b : InBuf} (hV : View b s fin) (hlt : b.pos < s.length) (hhit : L.isHit s[b.pos] = true)
    (hm : st.isMatch = false) (hstart : st.startPos = b.pos) (hc : b.consumed = false)
    (hl : LineOk L s st b.pos) :
    ∃ q' m' st', L.enter s[b.pos] b.pos = some (q', b.pos, m') ∧
      L.scanLoop (k + 1) (some 0) st b = L.scanLoop k (some q') st' { b with pos := b.pos + 1 } ∧
      MRel m' st' ∧ st'.startPos = b.pos ∧ SameCov st st' ∧ LineOk L s st' (b.pos + 1) := by
  have hsome : (L.dfa.next 0 s[b.pos]).isSome = true := by
    simp [Lexer.isHit, Lexer.isFirst] at hhit; exact hhit.1
  obtain ⟨q', hq'⟩ := Option.isSome_iff_exists.mp hsome
  have hnm : ∀ b' : InBuf, L.noteMatch 0 b.pos s[b.pos] st b' = st := by
    intro b'; simp [Lexer.noteMatch, hL.root]
  have hcnt := nlCount_succ hlt
  have key : ∃ m' st', L.enter s[b.pos] b.pos = some (q', b.pos, m') ∧
      L.noteNewline 0 b.pos s[b.pos] st { b with pos := b.pos + 1 } = some (st', some q') ∧
      MRel m' st' ∧ st'.startPos = b.pos ∧ SameCov st st' ∧ LineOk L s st' (b.pos + 1) := by
    by_cases hn : s[b.pos] = newline
    · rw [hn] at hq'
      simp only [hn, if_true] at hcnt
      by_cases hd : L.hasDelims = true
      · refine ⟨some (b.pos + 1, L.dfa.ids q'),
          { st with line := st.line + 1, isMatch := true, typeIds := some (L.dfa.ids q'), startPos := b.pos,
                    matchPos := b.pos + 1, matchLine := st.line + 1 },
          by simp [Lexer.enter, hn, hd, hq'], by simp [Lexer.noteNewline, hn, hd, hm, hq'], ⟨rfl, rfl, rfl⟩,
          rfl, ⟨rfl, rfl, rfl⟩, fun h => ?_, fun h _ => ?_, fun _ h => by simp at h⟩
        · simp only; rw [hl.line h, hcnt]
        · simp only; rw [hl.line h, hcnt]
      · refine ⟨none, { st with line := st.line + 1 },
          by simp [Lexer.enter, hn, hd, hq'], by simp [Lexer.noteNewline, hn, hd, hm, hq'], hm, hstart, ⟨rfl, rfl, rfl⟩,
          fun h => absurd h.1 hd, fun h => absurd h.1 hd, fun h => absurd h.1 hd⟩
    · simp only [hn, if_false] at hcnt
      exact ⟨none, st, by simp [Lexer.enter, hn, hq'], by simp [Lexer.noteNewline, hn, hq'], hm, hstart,
        ⟨rfl, rfl, rfl⟩, fun h => by rw [hl.line h, hcnt]; rfl, hl.mline, hl.nline⟩
  obtain ⟨m', st', he, hnn, hrest⟩ := key
  refine ⟨q', m', st', he, ?_, hrest⟩
  rw [Lexer.scanLoop]
  simp only [getNext_lt hV hlt, hnm, hnn]
  simp [hc]

/-- The loop of `scan` computes what `find` finds. -/
theorem scanLoop_find {L : Lexer} (hL : LexOk L) {s : List Nat} {fin : Bool} :
    ∀ (k q a : Nat) (m : Option (Nat × List Nat)) (st : LexState) (b b0 : InBuf), View b s fin →
      (∃ p c, b = { b0 with pos := p, consumed := c }) →
      b.pos ≤ s.length → 2 * (s.length - b.pos) + 3 ≤ k → st.startPos = a →
      MRel m st → (b.consumed = true → b.pos = s.length ∧ fin = true) → st.asked = false →
      LineOk L s st b.pos → (NlDelim L → st.lastMatchPos = s.length → st.lastMatchLine = nlCount s s.length) →
      Outcome L s st.lastMatchPos st.lastMatchLine b0
        (L.find fin (some (q, a, m)) b.pos (s.drop b.pos)) (L.scanLoop k (some q) st b) := by
  intro k
  induction k using Nat.strongRecOn with
  | _ k ih =>
  intro q a m st b b0 hV hb hpos hk hstart hm hcons hask hl hll
  obtain ⟨k, rfl⟩ : ∃ k', k = k' + 2 := ⟨k - 2, by omega⟩
  have hb0 : ∀ p c, ∃ p' c', ({ b with pos := p, consumed := c } : InBuf) = { b0 with pos := p', consumed := c' } := by
    obtain ⟨p', c', rfl⟩ := hb; intro p c; exact ⟨p, c, rfl⟩
  have hb1 : ∀ p, ∃ p' c', ({ b with pos := p } : InBuf) = { b0 with pos := p', consumed := c' } := by
    obtain ⟨p', c', rfl⟩ := hb; intro p; exact ⟨p, c', rfl⟩
  have hfin0 : b0.ends s = fin := by obtain ⟨p', c', rfl⟩ := hb; exact hV.fin_eq
  -- scanning on after a failed run, from the position `j`
  have restart_end : ∀ (k : Nat) (st : LexState) (b : InBuf), View b s true →
      (∃ p' c', b = { b0 with pos := p', consumed := c' }) → b.pos = s.length →
      st.startPos = s.length → st.isMatch = false → st.asked = false →
      LineOk L s st s.length → (NlDelim L → st.lastMatchPos = s.length → st.lastMatchLine = nlCount s s.length) →
      Outcome L s st.lastMatchPos st.lastMatchLine b0 .nothing (L.scanLoop (k + 1) (some 0) st b) := by
    intro k st b hV hb hpos hs hm hask hl hll
    rw [Lexer.scanLoop]
    have hnm : L.noteMatch 0 b.pos cCharEOF st { b with consumed := true } = st := by
      simp [Lexer.noteMatch, hL.root]
    have hnn : L.noteNewline 0 b.pos cCharEOF st { b with consumed := true }
        = some (st, L.dfa.next 0 cCharEOF) := by
      simp [Lexer.noteNewline, cCharEOF, newline]
    simp only [getNext_eof hV hpos, hnm, hnn]
    rw [if_pos (by simp), if_neg (by simp [hm]), if_pos (by simp [hpos, hs])]
    have hbb : ∃ p' c', ({ b with consumed := true } : InBuf) = { b0 with pos := p', consumed := c' } := by
      obtain ⟨p, c, rfl⟩ := hb; exact ⟨p, true, rfl⟩
    have hf : b0.ends s = true := by obtain ⟨p, c, rfl⟩ := hb; exact hV.fin_eq
    exact emitEnd_outcome hbb hf hpos hs hm hask hl.line hll (fun h => hl.nline h hm)
  by_cases hlt : b.pos < s.length
  · -- a character is read
    have hc : b.consumed = false := by
      cases h : b.consumed
      · rfl
      · have := (hcons h).1; omega
    rw [Lexer.scanLoop]
    simp only [getNext_lt hV hlt]
    obtain ⟨hm1, hcov1, hs1, hline1, hl1⟩ := noteMatch_spec (L := L) (q := q) (c := s[b.pos])
      (b := { b with pos := b.pos + 1 }) (by exact hc) hm hl
    generalize hst1 : L.noteMatch q b.pos s[b.pos] st { b with pos := b.pos + 1 } = st1 at *
    rw [List.drop_eq_getElem_cons hlt, Lexer.find]
    generalize hm1' : L.cand q b.pos s[b.pos] m = m1 at *
    have hcnt := nlCount_succ hlt
    have hV' := hV.upd2 (b.pos + 1) b.consumed
    rw [← hcov1.last, ← hcov1.lastLine]
    have hask1 : st1.asked = false := by rw [hcov1.asked]; exact hask
    have hll1 : NlDelim L → st1.lastMatchPos = s.length → st1.lastMatchLine = nlCount s s.length := by
      rw [hcov1.last, hcov1.lastLine]; exact hll
    by_cases hover : (s[b.pos] == newline && L.hasDelims && m1.isNone) = true
    · -- newline rule
      rw [if_pos hover]
      simp only [Bool.and_eq_true, beq_iff_eq, Option.isNone_iff_eq_none] at hover
      obtain ⟨⟨hn, hd⟩, rfl⟩ := hover
      have hmf : st1.isMatch = false := hm1
      obtain ⟨q', hq'⟩ := Option.isSome_iff_exists.mp (hL.nl hd)
      simp only [hn, if_true] at hcnt
      have hnn : L.noteNewline q b.pos s[b.pos] st1 { b with pos := b.pos + 1 } =
          some ({ st1 with line := st1.line + 1, isMatch := true, typeIds := some (L.dfa.ids q'), startPos := b.pos,
                           matchPos := b.pos + 1, matchLine := st1.line + 1 }, some q') := by
        simp [Lexer.noteNewline, hn, hd, hmf, hq']
      simp only [hnn]
      rw [if_neg (by simp [hc])]
      have henter : L.enter s[b.pos] b.pos = some (q', b.pos, some (b.pos + 1, L.dfa.ids q')) := by
        simp [Lexer.enter, hn, hd, hq']
      rw [henter]
      refine ih (k + 1) (by omega) q' b.pos (some (b.pos + 1, L.dfa.ids q')) _ { b with pos := b.pos + 1 } b0
        hV' (hb1 _) hlt (by simp only; omega) rfl ⟨rfl, rfl, rfl⟩ (fun h => ?_) hask1 ?_ hll1
      · simp [hc] at h
      · refine ⟨fun h => ?_, fun h _ => ?_, fun _ h => by simp at h⟩
        · simp only; rw [hl1.line h, hcnt]
        · simp only; rw [hl1.line h, hcnt]
    · rw [if_neg hover]
      -- the state after line counting
      let st2 : LexState := if s[b.pos] == newline then { st1 with line := st1.line + 1 } else st1
      have hnn : L.noteNewline q b.pos s[b.pos] st1 { b with pos := b.pos + 1 } = some (st2, L.dfa.next q s[b.pos]) := by
        unfold Lexer.noteNewline
        simp only
        by_cases hn : s[b.pos] = newline
        · have hmt : (L.hasDelims && !st1.isMatch) = false := by
            cases hd : L.hasDelims
            · simp
            · cases m1 with
              | none => simp [hn, hd] at hover
              | some x => have : st1.isMatch = true := hm1.1
                          simp [this]
          rw [if_pos (by simpa using hn), if_neg (by simp [hmt])]
          simp [st2, hn]
        · rw [if_neg (by simpa using hn)]
          simp [st2, hn]
      have hm2 : MRel m1 st2 := by
        simp only [st2]; split
        · cases m1 <;> exact hm1
        · exact hm1
      have hs2 : st2.startPos = a := by
        simp only [st2]; split <;> simp [hs1, hstart]
      have hcov2 : SameCov st1 st2 := by
        simp only [st2]; split <;> exact ⟨rfl, rfl, rfl⟩
      have hl2m : NlDelim L → st2.isMatch = true → st2.matchLine = nlCount s st2.matchPos := by
        simp only [st2]; split <;> exact hl1.mline
      have hl2 : LineOk L s st2 (b.pos + 1) := by
        refine ⟨fun h => ?_, hl2m, fun h hm' => ?_⟩
        · simp only [st2]
          by_cases hn : s[b.pos] = newline
          · rw [if_pos (by simpa using hn)]
            simp only [hn, if_true] at hcnt
            simp only; rw [hl1.line h, hcnt]
          · rw [if_neg (by simpa using hn)]
            simp only [hn, if_false] at hcnt
            rw [hl1.line h, hcnt]; rfl
        · simp only [st2] at hm' ⊢
          by_cases hn : s[b.pos] = newline
          · exfalso
            rw [if_pos (by simpa using hn)] at hm'
            cases m1 with
            | none => simp [hn, h.1] at hover
            | some x => have : st1.isMatch = true := hm1.1
                        simp [this] at hm'
          · rw [if_neg (by simpa using hn)] at hm' ⊢
            exact hl1.nline h hm'
      have hask2 : st2.asked = false := by rw [hcov2.asked]; exact hask1
      rw [← hcov2.last, ← hcov2.lastLine]
      have hll2 : NlDelim L → st2.lastMatchPos = s.length → st2.lastMatchLine = nlCount s s.length := by
        rw [hcov2.last, hcov2.lastLine]; exact hll1
      clear_value st2
      simp only [hnn]
      cases hnext : L.dfa.next q s[b.pos] with
      | some q' =>
        simp only
        rw [if_neg (c := (b.consumed || (some q' : Option Nat).isNone) = true) (by simp [hc])]
        refine ih (k + 1) (by omega) q' a m1 st2 { b with pos := b.pos + 1 } b0
          hV' (hb1 _) hlt (by simp only; omega) hs2 hm2 (fun h => ?_) hask2 hl2 hll2
        simp [hc] at h
      | none =>
        simp only
        rw [if_pos (c := (b.consumed || (none : Option Nat).isNone) = true) (by simp)]
        cases m1 with
        | some x =>
          obtain ⟨e, ty⟩ := x
          simp only
          rw [if_pos hm2.1]
          exact emitMatch_outcome (hb1 _) hs2 hm2 hask2 (fun h => hl2.mline h hm2.1)
        | none =>
          have hmf : st2.isMatch = false := hm2
          simp only
          rw [if_neg (c := st2.isMatch = true) (by simp [hmf]),
            if_neg (c := (b.consumed && st2.startPos == b.pos + 1) = true) (by simp [hc])]
          -- in skip mode there is no newline to count
          have hlines : ∀ j, b.pos ≤ j → j ≤ s.length →
              (∀ x, b.pos ≤ x → x < j → ∀ hx' : x < s.length, L.isHit s[x] = false) →
              NlDelim L → nlCount s j = nlCount s b.pos := by
            intro j h1 h2 h3 hN
            induction j with
            | zero => have : b.pos = 0 := by omega
                      rw [this]
            | succ j ihj =>
              by_cases hj : b.pos = j + 1
              · rw [hj]
              · rw [nlCount_succ (by omega), ihj (by omega) (by omega) (fun x hx1 hx2 => h3 x hx1 (by omega))]
                have := h3 j (by omega) (by omega) (by omega)
                rw [if_neg, Nat.add_zero]
                intro hn
                have h4 := hL.nl hN.1
                simp [Lexer.isHit, Lexer.isFirst, hn, hN.2, h4] at this
          have hnn' : NlDelim L → s[b.pos] ≠ newline := by
            intro h hn; simp [hn, h.1] at hover
          have hl2' : NlDelim L → st2.line = nlCount s b.pos := by
            intro h
            rw [hl2.line h, hcnt, if_neg (hnn' h), Nat.add_zero]
          have hfs : L.find fin (if L.isHit s[b.pos] = true then L.enter s[b.pos] b.pos else none) (b.pos + 1)
              (s.drop (b.pos + 1)) = L.find fin none b.pos (s.drop b.pos) := by
            
            conv => rhs; rw [List.drop_eq_getElem_cons hlt]
            conv => rhs; rw [Lexer.find.eq_def]
          rw [hfs]
          have hsz : s.length ≤ b.size := by have := hV.half; omega
          have hskip := skip_spec L (b.size + 2) { b with pos := b.pos + 1 } b.pos hlt hV' hc rfl
            (by simp only; omega)
          rcases hskip with ⟨j, hj1, hj2, hj3, hj4, hj5⟩ | ⟨h1, ⟨hfin, h2⟩ | ⟨hfin, h2⟩⟩
          · simp only at hj5
            simp only [hj5]
            rw [find_skip L fin s b.pos j hj1 (by omega) hj4]
            have hVj := hV.upd2 j b.consumed
            have hlj : LineOk L s { st2 with startPos := j } j := by
              refine ⟨fun h => ?_, fun _ h => ?_, fun h h' => hl2.nline h h'⟩
              · simp only; rw [hl2' h, hlines j hj1 (by omega) (fun x a b _ => hj4 x a b) h]
              · simp [hmf] at h
            obtain ⟨q', m', st', he, hsc, hm', hs', hcov', hl'⟩ := scanLoop_fresh hL (k := k) (st := { st2 with startPos := j })
              (b := { b with pos := j }) hVj hj2 hj3 hmf rfl hc hlj
            simp only at hsc he hs' hl'
            rw [hsc, List.drop_eq_getElem_cons hj2, Lexer.find, hj3, if_pos rfl, he]
            rw [← show st'.lastMatchPos = st2.lastMatchPos from hcov'.last,
              ← show st'.lastMatchLine = st2.lastMatchLine from hcov'.lastLine]
            refine ih k (by omega) q' j m' st' { b with pos := j + 1 } b0 (hV.upd2 (j + 1) b.consumed) (hb1 _)
              (by simp only; omega) (by simp only; omega) hs' hm' (fun h => ?_) ?_ hl' ?_
            · simp [hc] at h
            · rw [hcov'.asked]; exact hask2
            · rw [hcov'.last, hcov'.lastLine]; exact hll2
          · subst hfin
            simp only at h2
            simp only [h2]
            rw [find_skip L true s b.pos s.length (by omega) (Nat.le_refl _) h1]
            have hend : L.find true none s.length (s.drop s.length) = .nothing := by
              rw [List.drop_length, Lexer.find]; rfl
            rw [hend]
            have hln := hlines s.length (by omega) (Nat.le_refl _) (fun x a b _ => h1 x a b)
            refine restart_end k { st2 with startPos := s.length } { b with pos := s.length, consumed := true }
              (hV.upd2 _ _) (hb0 _ _) rfl rfl hmf hask2 ?_ hll2
            refine ⟨fun h => ?_, fun _ h => ?_, fun h h' => hl2.nline h h'⟩
            · simp only; rw [hl2' h, hln h]
            · simp [hmf] at h
          · subst hfin
            simp only at h2
            simp only [h2]
            rw [find_skip L false s b.pos s.length (by omega) (Nat.le_refl _) h1]
            have hend : L.find false none s.length (s.drop s.length) = .more := by
              rw [List.drop_length, Lexer.find]; rfl
            rw [hend]
            refine ⟨⟨s.length, b.consumed, ?_, ?_⟩, rfl⟩
            · obtain ⟨p', c', rfl⟩ := hb; rfl
            · simp [hc]
  · -- the end of the input
    have hpe : b.pos = s.length := by omega
    cases fin with
    | false =>
      rw [Lexer.scanLoop]
      simp only [getNext_oob hV hpe]
      rw [hpe, List.drop_length, Lexer.find]
      refine ⟨?_, rfl⟩
      obtain ⟨p', c', rfl⟩ := hb
      exact ⟨p', c', rfl, fun h => by have := (hcons h).2; simp at this⟩
    | true =>
      rw [Lexer.scanLoop]
      simp only [getNext_eof hV hpe]
      rw [hpe, List.drop_length, Lexer.find]
      have hnn : ∀ (st : LexState) (b' : InBuf), L.noteNewline q s.length cCharEOF st b'
          = some (st, L.dfa.next q cCharEOF) := by
        intro st b'; simp [Lexer.noteNewline, cCharEOF, newline]
      simp only [hnn, if_true, Bool.true_or]
      rw [hpe] at hl
      have hb2 := hb0 s.length true
      by_cases hacc : L.dfa.isAccepting q = true
      · have hnm : L.noteMatch q s.length cCharEOF st { b with pos := s.length, consumed := true } =
            { st with isMatch := true, typeIds := some (L.dfa.ids q), matchPos := s.length, matchLine := st.line } := by
          simp [Lexer.noteMatch, hacc]
        simp only [hnm, hacc, if_true]
        exact emitMatch_outcome (st := { st with isMatch := true, typeIds := some (L.dfa.ids q), matchPos := s.length, matchLine := st.line })
          hb2 hstart ⟨rfl, rfl, rfl⟩ hask hl.line
      · have hnm : L.noteMatch q s.length cCharEOF st { b with pos := s.length, consumed := true } = st := by
          simp [Lexer.noteMatch, hacc]
        simp only [hnm, if_neg hacc]
        cases m with
        | some x =>
          obtain ⟨e, ty⟩ := x
          rw [if_pos hm.1]
          exact emitMatch_outcome hb2 hstart hm hask (fun h => hl.mline h hm.1)
        | none =>
          have hmf : st.isMatch = false := hm
          rw [if_neg (by simp [hmf])]
          simp only
          by_cases hse : st.startPos = s.length
          · rw [if_pos (by simp [hse])]
            exact emitEnd_outcome hb2 hfin0 rfl hse hmf hask hl.line hll (fun h => hl.nline h hmf)
          · rw [if_neg (by simp [hse])]
            have hsk : L.skip (b.size + 2) { b with pos := s.length, consumed := true } cCharEOF s.length =
                ({ b with pos := s.length, consumed := true }, .ok s.length) := by
              unfold Lexer.skip; simp
            simp only [hsk]
            refine restart_end k { st with startPos := s.length } { b with pos := s.length, consumed := true }
              (hV.upd2 _ _) (hb0 _ _) rfl rfl hmf hask ⟨hl.line, hl.mline, hl.nline⟩ hll
