import Verif.Proofs.Scan
import Verif.Spec.Lexing
/-
A lexer without delimiters: the longest match.
-/
namespace LogSurgeon

/-- The ids after reading `u` from state `q`. -/
def Dfa.idsFrom (d : Dfa) (q : Nat) (u : List Nat) : List Nat := ((d.run q u).map d.ids).getD []

theorem Dfa.idsFrom_nil (d : Dfa) (q : Nat) : d.idsFrom q [] = d.ids q := rfl

theorem Dfa.idsFrom_cons (d : Dfa) (q c : Nat) (u : List Nat) :
    d.idsFrom q (c :: u) = match d.next q c with | some q' => d.idsFrom q' u | none => [] := by
  unfold Dfa.idsFrom
  rw [Dfa.run]
  cases d.next q c <;> rfl

theorem accepting_iff {d : Dfa} {q : Nat} : d.isAccepting q = true ↔ d.ids q ≠ [] := by
  unfold Dfa.isAccepting
  cases d.ids q <;> simp

/-- The longest match wins; without any match the candidate stays. -/
theorem find_munch {L : Lexer} (hd : L.hasDelims = false) (a : Nat) : ∀ (r : List Nat) (q i : Nat) (m : Option (Nat × List Nat)),
    (∀ n, n ≤ r.length → L.dfa.idsFrom q (r.take n) ≠ [] → (∀ n', n < n' → n' ≤ r.length → L.dfa.idsFrom q (r.take n') = []) →
      L.find true (some (q, a, m)) i r = .tok a (i + n) (L.dfa.idsFrom q (r.take n))) ∧
    ((∀ n, n ≤ r.length → L.dfa.idsFrom q (r.take n) = []) → ∀ e ty, m = some (e, ty) → L.find true (some (q, a, m)) i r = .tok a e ty)
  | [], q, i, m => by
    rw [Lexer.find]
    constructor
    · intro n hn h1 _
      simp only [List.length_nil, Nat.le_zero] at hn
      subst hn
      rw [List.take_nil, Dfa.idsFrom_nil] at h1 ⊢
      rw [if_pos rfl, if_pos (accepting_iff.mpr h1)]
      rfl
    · intro h e ty hm
      have := h 0 (Nat.le_refl _)
      rw [List.take_nil, Dfa.idsFrom_nil] at this
      rw [if_pos rfl, if_neg (by rw [accepting_iff]; simp [this]), hm]
  | c :: r, q, i, m => by
    have hm0 : L.cand q i c m = if L.dfa.isAccepting q = true then some (i, L.dfa.ids q) else m := by
      simp [Lexer.cand, hd]
    rw [Lexer.find, if_neg (by simp [hd])]
    have hstep : ∀ n, L.dfa.idsFrom q ((c :: r).take (n + 1)) = match L.dfa.next q c with | some q' => L.dfa.idsFrom q' (r.take n) | none => [] :=
      fun n => by rw [List.take_succ_cons, Dfa.idsFrom_cons]
    have h0 : L.dfa.idsFrom q ((c :: r).take 0) = L.dfa.ids q := rfl
    constructor
    · intro n hn h1 h2
      cases n with
      | zero =>
        rw [h0] at h1 ⊢
        rw [if_pos (accepting_iff.mpr h1)] at hm0
        rw [hm0]
        cases hq : L.dfa.next q c with
        | none => rfl
        | some q' =>
          refine (find_munch hd a r q' (i + 1) (some (i, L.dfa.ids q))).2 ?_ _ _ rfl
          intro n hn
          have := h2 (n + 1) (by omega) (by simp; omega)
          rw [hstep, hq] at this
          exact this
      | succ n =>
        rw [hstep] at h1 ⊢
        cases hq : L.dfa.next q c with
        | none => rw [hq] at h1; exact absurd rfl h1
        | some q' =>
          rw [hq] at h1
          simp only at h1 ⊢
          have := (find_munch hd a r q' (i + 1) (L.cand q i c m)).1 n (by simpa using hn) h1 ?_
          · rw [this]; congr 1; omega
          · intro n' h3 h4
            have := h2 (n' + 1) (by omega) (by simp; omega)
            rw [hstep, hq] at this
            exact this
    · intro h e ty hm
      have h1 := h 0 (by simp)
      rw [h0] at h1
      rw [if_neg (by rw [accepting_iff]; simp [h1])] at hm0
      rw [hm0, hm]
      cases hq : L.dfa.next q c with
      | none => rfl
      | some q' =>
        refine (find_munch hd a r q' (i + 1) (some (e, ty))).2 ?_ _ _ rfl
        intro n hn
        have := h (n + 1) (by simp; omega)
        rw [hstep, hq] at this
        exact this

/-- Between two calls of a lexer without delimiters: everything before `p` is in tokens. -/
structure Ready (L : Lexer) (s : List Nat) (st : LexState) (b : InBuf) (p : Nat) : Prop where
  view : View b s true
  at' : AtQ L s st b p
  pos : b.consumed = true → b.pos = s.length

theorem Ready.consumedPos {L : Lexer} {s : List Nat} {st : LexState} {b : InBuf} {p : Nat} (h : Ready L s st b p) (c : Nat) :
    Ready L s st { b with consumedPos := c } p :=
  ⟨⟨h.view.len, h.view.content, h.view.fin_eq, h.view.half, h.view.lrfh, h.view.unfin⟩,
    ⟨h.at'.asked, h.at'.isMatch, h.at'.last, h.at'.pos, h.at'.line, h.at'.lastLine⟩, h.pos⟩

/-- The next token of a lexer without delimiters. -/
theorem scan_munch {L : Lexer} (hd : L.hasDelims = false) (hroot : L.dfa.ids 0 = []) {s : List Nat} {st : LexState} {b : InBuf} {p : Nat}
    (h : Ready L s st b p) (hp : p ≤ s.length) {st' : LexState} {b' : InBuf} {res : Except Fail Token} (hs : L.scan st b = (st', b', res)) :
    (∃ pos' c', b' = { b with pos := pos', consumed := c' }) ∧
    (∀ n, 0 < n → p + n ≤ s.length → L.dfa.idsOn (slice s p (p + n)) ≠ [] →
      (∀ n', n < n' → p + n' ≤ s.length → L.dfa.idsOn (slice s p (p + n')) = []) →
      Ready L s st' b' (p + n) ∧ ∃ t l, res = .ok t ∧ IsTok b t p (p + n) (L.dfa.idsOn (slice s p (p + n))) l) ∧
    (p = s.length → Ready L s st' b' p ∧ ∃ t l, res = .ok t ∧ IsTok b t p p [tokenEnd] l) := by
  have hL : LexOk L := ⟨by
    cases ha : L.dfa.isAccepting 0
    · rfl
    · exact absurd hroot (accepting_iff.mp ha), fun h => by simp [hd] at h⟩
  have hnd : ¬ NlDelim L := fun h => by simp [NlDelim, hd] at h
  unfold Lexer.scan at hs
  rw [if_neg (by simp [h.at'.asked]), if_neg (by simp [h.at'.isMatch])] at hs
  have hpos := h.at'.pos
  have hhalf := h.view.half
  have out := scanLoop_find hL (s := s) (fin := true) (Lexer.scanFuel b) 0 b.pos none
    { st with startPos := b.pos, matchPos := b.pos, matchLine := st.line, typeIds := none } b b h.view ⟨_, _, rfl⟩ (by omega)
    (by unfold Lexer.scanFuel; omega) rfl h.at'.isMatch (fun hc => ⟨h.pos hc, rfl⟩) h.at'.asked
    ⟨fun hn => absurd hn hnd, fun hn => absurd hn hnd, fun hn => absurd hn hnd⟩ (fun hn => absurd hn hnd)
  rw [hs] at out
  simp only [h.at'.last] at out
  obtain ⟨⟨pos', c', rfl, hc'⟩, out⟩ := out
  refine ⟨⟨_, _, rfl⟩, ?_, ?_⟩
  · intro n hn hle h1 h2
    have hids : ∀ n', L.dfa.idsFrom 0 ((s.drop b.pos).take n') = L.dfa.idsOn (slice s p (p + n')) := by
      intro n'
      unfold Dfa.idsFrom Dfa.idsOn slice
      rw [hpos, Nat.add_sub_cancel_left]
    have hf := (find_munch hd b.pos (s.drop b.pos) 0 b.pos none).1 n (by simp; omega) (by rw [hids]; exact h1) (by
      intro n' h3 h4
      rw [hids]
      simp only [List.length_drop] at h4
      exact h2 n' h3 (by omega))
    rw [hf, hids] at out
    simp only [hpos, if_true] at out
    obtain ⟨o1, t, l, o2, o3, _⟩ := out
    exact ⟨⟨h.view.upd2 _ _, o1, fun hc => (hc' hc).1⟩, t, l, o2, o3⟩
  · intro hpe
    have hf : L.find true (some (0, b.pos, none)) b.pos (s.drop b.pos) = .nothing := by
      rw [hpos, hpe, List.drop_length, Lexer.find, if_pos rfl, if_neg (by simp [hL.root])]
    rw [hf] at out
    simp only [hpe, if_true] at out
    obtain ⟨o1, t, l, o2, o3, _⟩ := out
    exact ⟨⟨h.view.upd2 _ _, hpe ▸ o1, fun hc => (hc' hc).1⟩, t, l, o2, hpe ▸ o3⟩

end LogSurgeon
