import Verif.Proofs.SchemaLexemes
/-
Lines of the tokens of a lexer without delimiters that accepts every byte.
-/
namespace LogSurgeon

theorem nlCount_step {s : List Nat} {i : Nat} (h : i < s.length) : nlCount s (i + 1) = nlCount s i + if s[i] = newline then 1 else 0 := by
  unfold nlCount
  rw [List.take_add_one, List.getElem?_eq_getElem h, List.count_append]
  simp only [Option.toList_some, List.count_singleton]
  by_cases hc : s[i] = newline <;> simp [hc]

/-- Where the lines stand after a call. -/
def LineOut (s : List Nat) (r : LexState × InBuf × Except Fail Token) : Prop :=
  r.1.line = nlCount s r.2.1.pos ∧ ∀ t, r.2.2 = .ok t → t.line = nlCount s t.endPos

theorem line_loop {L : Lexer} (hd : L.hasDelims = false) {s : List Nat}
    (hone : ∀ c ∈ s, ∃ q', L.dfa.next 0 c = some q' ∧ L.dfa.isAccepting q' = true) :
    ∀ (k q : Nat) (st : LexState) (b : InBuf), View b s true → b.pos ≤ s.length → s.length - b.pos + 1 ≤ k →
      (b.consumed = true → b.pos = s.length) → st.line = nlCount s b.pos → st.lastMatchPos = st.startPos →
      (st.isMatch = true → st.matchLine = nlCount s st.matchPos) →
      (st.isMatch = true ∨ L.dfa.isAccepting q = true ∨ (q = 0 ∧ st.startPos = b.pos)) →
      LineOut s (L.scanLoop k (some q) st b)
  | 0, q, st, b, _, _, hk, _, _, _, _, _ => by omega
  | k + 1, q, st, b, hV, hpos, hk, hcons, hline, hlast, hml, hor => by
    rw [Lexer.scanLoop]
    by_cases hlt : b.pos < s.length
    · have hc : b.consumed = false := by
        cases h : b.consumed
        · rfl
        · have := hcons h; omega
      simp only [getNext_lt hV hlt]
      generalize hst1 : L.noteMatch q b.pos s[b.pos] st { b with pos := b.pos + 1 } = st1
      have f1 : st1.line = nlCount s b.pos := by
        rw [← hst1]; unfold Lexer.noteMatch; split <;> exact hline
      have f2 : st1.lastMatchPos = st1.startPos := by
        rw [← hst1]; unfold Lexer.noteMatch; split <;> exact hlast
      have f3 : st1.startPos = st.startPos := by
        rw [← hst1]; unfold Lexer.noteMatch; split <;> rfl
      have f4 : st1.isMatch = true → st1.matchLine = nlCount s st1.matchPos := by
        rw [← hst1]; unfold Lexer.noteMatch; split
        · intro _; exact hline
        · exact hml
      have f5 : st1.isMatch = true ∨ (q = 0 ∧ L.dfa.isAccepting q = false) := by
        rw [← hst1]
        unfold Lexer.noteMatch
        rcases hor with h | h | ⟨h, _⟩
        · left; split
          · rfl
          · exact h
        · left; rw [if_pos (by simp [hd, h])]
        · cases ha : L.dfa.isAccepting q
          · right; exact ⟨h, rfl⟩
          · left; rw [if_pos (by simp [hd])]
      have hnn : L.noteNewline q b.pos s[b.pos] st1 { b with pos := b.pos + 1 } =
          some ({ st1 with line := nlCount s (b.pos + 1) }, L.dfa.next q s[b.pos]) := by
        unfold Lexer.noteNewline
        rw [nlCount_step hlt]
        by_cases hn : s[b.pos] = newline
        · simp [hn, hd, f1]
        · simp only [hn, ← f1, Nat.add_zero, if_false, beq_iff_eq]
      simp only [hnn]
      cases hq : L.dfa.next q s[b.pos] with
      | none =>
        have hm : st1.isMatch = true := by
          rcases f5 with h | ⟨rfl, _⟩
          · exact h
          · obtain ⟨q', e, _⟩ := hone _ (List.getElem_mem hlt)
            rw [e] at hq; cases hq
        rw [if_pos (by simp), if_pos hm]
        unfold Lexer.emitMatch
        simp only
        rw [if_neg (by simp [f2])]
        refine ⟨f4 hm, fun t ht => ?_⟩
        cases ht
        exact f4 hm
      | some q' =>
        rw [if_neg (by simp [hc])]
        refine line_loop hd hone k q' { st1 with line := nlCount s (b.pos + 1) } { b with pos := b.pos + 1 } (hV.upd2 (b.pos + 1) b.consumed |> fun h => ?_) (by simp; omega) (by simp; omega) ?_ rfl f2 f4 ?_
        · exact ⟨hV.len, hV.content, hV.fin_eq, hV.half, hV.lrfh, hV.unfin⟩
        · intro h; simp [hc] at h
        · rcases f5 with h | ⟨rfl, _⟩
          · exact .inl h
          · obtain ⟨q'', e, ha⟩ := hone _ (List.getElem_mem hlt)
            rw [e] at hq; cases hq
            exact .inr (.inl ha)
    · have hpe : b.pos = s.length := by omega
      simp only [getNext_eof hV hpe]
      have hnn : ∀ st1, L.noteNewline q b.pos cCharEOF st1 { b with consumed := true } = some (st1, L.dfa.next q cCharEOF) := by
        intro st1; simp [Lexer.noteNewline, cCharEOF, newline]
      simp only [hnn, Bool.true_or, if_true]
      generalize hst1 : L.noteMatch q b.pos cCharEOF st { b with consumed := true } = st1
      have f1 : st1.line = nlCount s b.pos := by
        rw [← hst1]; unfold Lexer.noteMatch; split <;> exact hline
      have f2 : st1.lastMatchPos = st1.startPos := by
        rw [← hst1]; unfold Lexer.noteMatch; split <;> exact hlast
      have f3 : st1.startPos = st.startPos := by
        rw [← hst1]; unfold Lexer.noteMatch; split <;> rfl
      have f4 : st1.isMatch = true → st1.matchLine = nlCount s st1.matchPos := by
        rw [← hst1]; unfold Lexer.noteMatch; split
        · intro _; exact hline
        · exact hml
      by_cases hm : st1.isMatch = true
      · rw [if_pos hm]
        unfold Lexer.emitMatch
        simp only
        rw [if_neg (by simp [f2])]
        refine ⟨f4 hm, fun t ht => ?_⟩
        cases ht
        exact f4 hm
      · rw [if_neg hm]
        have hs : st.startPos = b.pos := by
          rcases hor with h | h | ⟨_, h⟩
          · exfalso; apply hm; rw [← hst1]; unfold Lexer.noteMatch; split
            · rfl
            · exact h
          · exfalso; apply hm; rw [← hst1]; unfold Lexer.noteMatch; rw [if_pos (by simp [h])]
          · exact h
        rw [if_pos (by simp [f3, hs])]
        unfold Lexer.emitEnd
        rw [if_neg (by simp [f2])]
        refine ⟨f1, fun t ht => ?_⟩
        cases ht
        exact f1

/-- The line of a token of the schema lexer: the number of newlines before its end. -/
theorem scan_line {L : Lexer} (hd : L.hasDelims = false) {s : List Nat} (hone : ∀ c ∈ s, L.dfa.idsOn [c] ≠ []) {st : LexState} {b : InBuf} {p : Nat}
    (h : Ready L s st b p) (hp : p ≤ s.length) (hl : st.line = nlCount s p) : LineOut s (L.scan st b) := by
  unfold Lexer.scan
  rw [if_neg (by simp [h.at'.asked]), if_neg (by simp [h.at'.isMatch])]
  have hpos := h.at'.pos
  have hhalf := h.view.half
  refine line_loop hd (fun c hc => ?_) _ 0 { st with startPos := b.pos, matchPos := b.pos, matchLine := st.line, typeIds := none } b h.view (by omega) (by unfold Lexer.scanFuel; omega)
    h.pos (by rw [hpos]; exact hl) (by simp [hpos, h.at'.last]) (fun hm => ?_) (.inr (.inr ⟨rfl, rfl⟩))
  · have h1 := hone c hc
    unfold Dfa.idsOn at h1
    rw [Dfa.run] at h1
    cases hq : L.dfa.next 0 c with
    | none => simp [hq] at h1
    | some q' =>
      rw [hq] at h1
      exact ⟨q', rfl, accepting_iff.mpr h1⟩
  · simp [h.at'.isMatch] at hm

end LogSurgeon
