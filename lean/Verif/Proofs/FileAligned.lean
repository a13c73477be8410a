import Verif.Proofs.RingParse
import Verif.Proofs.DfaShape
/-
A buffer whose last character is in its last place: the lexer does not see the end of the input.
-/
namespace LogSurgeon
open Grammar

/-- The end of the input cannot be noticed: `lastRead` is not a position. -/
structure Endless (S : Nat) (b : InBuf) : Prop where
  size : b.size = S
  pos : b.pos < S
  cons : b.consumed = false
  last : b.finished = true → b.lastRead = S

theorem Endless.getNext {S : Nat} {b : InBuf} (h : Endless S b) : Endless S b.getNext.1 ∧ (∃ p, b.getNext.1 = { b with pos := p }) := by
  unfold InBuf.getNext
  rw [if_neg (by
    intro hh
    simp only [Bool.and_eq_true, beq_iff_eq] at hh
    have := h.last hh.1
    have := h.pos
    omega)]
  split
  · exact ⟨h, b.pos, rfl⟩
  · cases hc : (b.mem b.active)[b.pos]? with
    | none => exact ⟨h, b.pos, rfl⟩
    | some c =>
      refine ⟨⟨h.size, ?_, h.cons, h.last⟩, _, rfl⟩
      have h1 := h.pos
      have h2 := h.size
      show (if b.pos + 1 = b.size then 0 else b.pos + 1) < S
      split <;> omega

theorem Endless.at {S : Nat} {b : InBuf} (h : Endless S b) {p : Nat} (hp : p < S) : Endless S { b with pos := p } := ⟨h.size, hp, h.cons, h.last⟩

theorem Endless.skip {S : Nat} (L : Lexer) : ∀ (k : Nat) (b : InBuf) (c prev : Nat), Endless S b → prev < S →
    Endless S (L.skip k b c prev).1 ∧ (∀ p, (L.skip k b c prev).2 = .ok p → p < S) ∧ ∃ p, (L.skip k b c prev).1 = { b with pos := p }
  | 0, b, c, prev, h, _ => ⟨h, (by intro p h; cases h), b.pos, rfl⟩
  | k + 1, b, c, prev, h, hp => by
    rw [Lexer.skip]
    split
    · obtain ⟨h1, p, h2⟩ := h.getNext
      generalize b.getNext = x at h1 h2
      obtain ⟨b', r⟩ := x
      simp only at h1 h2
      cases r with
      | oob => exact ⟨h1, (by intro p h; cases h), p, h2⟩
      | ub => exact ⟨h1, (by intro p h; cases h), p, h2⟩
      | char c' =>
        obtain ⟨h3, h4, p', h5⟩ := Endless.skip L k b' c' b.pos h1 h.pos
        exact ⟨h3, h4, p', by rw [h5, h2]⟩
    · exact ⟨h, (by intro p h; cases h; exact hp), b.pos, rfl⟩

/-- The token found is not the end of the input, and the lexer is as before. -/
structure Midst (S : Nat) (st : LexState) : Prop where
  pos : st.matchPos < S
  types : ∀ tys, st.typeIds = some tys → tokenEnd ∉ tys

/-- What a call of the lexer yields. -/
def EndlessScan (S : Nat) (b : InBuf) (r : LexState × InBuf × Except Fail Token) : Prop :=
  ∀ t, r.2.2 = .ok t → Midst S r.1 ∧ r.1.asked = false ∧ Endless S r.2.1 ∧ (∃ p, r.2.1 = { b with pos := p }) ∧ ∀ tys, t.types = some tys → tokenEnd ∉ tys

theorem noEnd_emitMatch {S : Nat} {st : LexState} {b : InBuf} (hst : Midst S st) (ha : st.asked = false) (hb : Endless S b) : EndlessScan S b (Lexer.emitMatch st b) := by
  intro t ht
  have e : ({ b with consumed := false, pos := st.matchPos } : InBuf) = { b with pos := st.matchPos } := by
    have := hb.cons
    obtain ⟨⟩ := b
    simp only at this
    subst this
    rfl
  have hb' : Endless S { b with consumed := false, pos := st.matchPos } := by rw [e]; exact hb.at hst.pos
  unfold Lexer.emitMatch at ht ⊢
  simp only at ht ⊢
  split at ht
  · rename_i hne
    simp only [Except.ok.injEq] at ht
    rw [if_pos hne]
    subst ht
    refine ⟨⟨hst.pos, hst.types⟩, ha, hb', ⟨_, e⟩, fun tys h => ?_⟩
    cases h
    decide
  · rename_i hne
    simp only [Except.ok.injEq] at ht
    rw [if_neg hne]
    subst ht
    exact ⟨⟨hst.pos, hst.types⟩, ha, hb', ⟨_, e⟩, fun tys h => hst.types tys h⟩

theorem noEnd_loop {S : Nat} {L : Lexer} (hd : L.hasDelims = false) (hids : ∀ u q, L.dfa.run 0 u = some q → tokenEnd ∉ L.dfa.ids q) :
    ∀ (k : Nat) (state : Option Nat) (st : LexState) (b : InBuf), (∀ q, state = some q → ∃ u, L.dfa.run 0 u = some q) → Midst S st → st.asked = false → Endless S b →
      EndlessScan S b (L.scanLoop k state st b)
  | 0, state, st, b, _, _, _, _ => by intro t ht; cases ht
  | k + 1, state, st, b, hq, hst, ha, hb => by
    rw [Lexer.scanLoop]
    obtain ⟨h1, p, h2⟩ := hb.getNext
    generalize b.getNext = x at h1 h2
    obtain ⟨b', r⟩ := x
    simp only at h1 h2
    cases r with
    | oob => intro t ht; cases ht
    | ub => intro t ht; cases ht
    | char c =>
      simp only
      cases state with
      | none => intro t ht; cases ht
      | some q =>
        simp only
        obtain ⟨u, hu⟩ := hq q rfl
        have hM : Midst S (L.noteMatch q b.pos c st b') ∧ (L.noteMatch q b.pos c st b').asked = false := by
          unfold Lexer.noteMatch
          split
          · exact ⟨⟨hb.pos, fun tys h => by cases h; exact hids u q hu⟩, ha⟩
          · exact ⟨hst, ha⟩
        generalize L.noteMatch q b.pos c st b' = st1 at hM
        have hN : ∃ st2, L.noteNewline q b.pos c st1 b' = some (st2, L.dfa.next q c) ∧ Midst S st2 ∧ st2.asked = false := by
          unfold Lexer.noteNewline
          simp only [hd, Bool.false_and, Bool.false_eq_true, if_false]
          split
          · exact ⟨_, rfl, ⟨hM.1.pos, hM.1.types⟩, hM.2⟩
          · exact ⟨_, rfl, hM⟩
        obtain ⟨st2, hN1, hN2, hN3⟩ := hN
        rw [hN1]
        simp only [h1.cons, Bool.false_or, Bool.false_and, Bool.false_eq_true, if_false]
        have hback : ∀ {b2 : InBuf} {r}, (∃ p, b2 = { b with pos := p }) → EndlessScan S b2 r → EndlessScan S b r := by
          rintro b2 r ⟨p2, e⟩ h t ht
          obtain ⟨g1, g2, g3, ⟨p3, g4⟩, g5⟩ := h t ht
          exact ⟨g1, g2, g3, ⟨p3, by rw [g4, e]⟩, g5⟩
        split
        · split
          · exact hback ⟨p, h2⟩ (noEnd_emitMatch hN2 hN3 h1)
          · obtain ⟨k1, k2, p', k3⟩ := Endless.skip L (b'.size + 2) b' c b.pos h1 hb.pos
            generalize L.skip (b'.size + 2) b' c b.pos = x at k1 k2 k3
            obtain ⟨b3, r⟩ := x
            simp only at k1 k2 k3
            cases r with
            | error e => cases e <;> (intro t ht; cases ht)
            | ok prev =>
              refine hback ⟨prev, ?_⟩ (noEnd_loop hd hids k (some 0) _ _ ?_ ⟨hN2.pos, hN2.types⟩ hN3 (k1.at (k2 prev rfl)))
              · rw [k3, h2]
              · intro q h; cases h; exact ⟨[], rfl⟩
        · refine hback ⟨p, h2⟩ (noEnd_loop hd hids k _ _ _ ?_ hN2 hN3 h1)
          intro q' h
          refine ⟨u ++ [c], ?_⟩
          rw [Dfa.run_append, hu]
          simp [Dfa.run, h]

theorem noEnd_scan {S : Nat} (hS : 0 < S) {L : Lexer} (hd : L.hasDelims = false) (hids : ∀ u q, L.dfa.run 0 u = some q → tokenEnd ∉ L.dfa.ids q) {st : LexState} {b : InBuf}
    (hst : Midst S st) (ha : st.asked = false) (hb : Endless S b) : EndlessScan S b (L.scan st b) := by
  unfold Lexer.scan
  rw [if_neg (by rw [ha]; decide)]
  split
  · intro t ht
    simp only [Except.ok.injEq] at ht
    subst ht
    exact ⟨⟨hst.pos, hst.types⟩, ha, hb, ⟨b.pos, rfl⟩, fun tys h => hst.types tys h⟩
  · refine noEnd_loop hd hids _ _ _ _ ?_ ⟨hb.pos, ?_⟩ ha hb
    · intro q h; cases h; exact ⟨[], rfl⟩
    · intro tys h; cases h

/-! ### The machine -/

theorem moved_next {g : Grammar} {tb : Grammar.Table} {ruleOf : Nat → Option SemRule} {resets : Nat → Bool} {text : Token → List Nat} {s : MStack} {tok : Token} {s' : MStack} :
    ∀ {tys : List Nat} {G : Statics}, (parseAdvanceM g tb ruleOf resets text s tok tys G).1 = .ok (.moved s') → s'.next = s.next ∨ s'.next = some tok
  | [], G, h => by simp [parseAdvanceM] at h
  | ty :: tys, G, h => by
    unfold parseAdvanceM at h
    have key : ∀ s', (parseSymbolM g tb ruleOf resets text s tok ty G).1 = .ok (.moved s') → s'.next = s.next ∨ s'.next = some tok := by
      intro s' hh
      unfold parseSymbolM at hh
      split at hh
      · split at hh
        · cases hh
        · split at hh
          · cases hh
          · cases hh
          · cases hh
          · cases hh; exact .inl rfl
          · split at hh
            · cases hh
            · rename_i s1 G1 hr
              cases hh
              right
              unfold reduceM at hr
              simp only at hr
              split at hr
              · cases hr
              split at hr
              · cases hr
              split at hr
              · cases hr
              split at hr
              · cases hr
              split at hr
              · split at hr
                · cases hr
                split at hr
                · cases hr
                · cases hr; rfl
                · cases hr
              · cases hr
      · cases hh
    generalize parseSymbolM g tb ruleOf resets text s tok ty G = x at h key
    obtain ⟨r, G'⟩ := x
    cases r with
    | error e => cases h
    | ok r =>
      cases r with
      | no => exact moved_next h
      | accepted => cases h
      | moved s1 => cases h; exact key _ rfl

theorem accepted_end {g : Grammar} {t : LR0} {tb : Grammar.Table} (hT : TableOk g t tb) {ruleOf : Nat → Option SemRule} {resets : Nat → Bool} {text : Token → List Nat} {s : MStack} {tok : Token} :
    ∀ {tys : List Nat} {G : Statics}, (parseAdvanceM g tb ruleOf resets text s tok tys G).1 = .ok .accepted → tokenEnd ∈ tys
  | [], G, h => by simp [parseAdvanceM] at h
  | ty :: tys, G, h => by
    unfold parseAdvanceM at h
    have key : (parseSymbolM g tb ruleOf resets text s tok ty G).1 = .ok .accepted → ty = tokenEnd := by
      intro hh
      unfold parseSymbolM at hh
      split at hh
      · rename_i q qs hs
        split at hh
        · cases hh
        · rename_i acts ha
          split at hh
          · cases hh
          · cases hh
          · rename_i hfl
            exact (hT.acts q acts ha ty _ hfl).1
          · cases hh
          · split at hh <;> cases hh
      · cases hh
    generalize parseSymbolM g tb ruleOf resets text s tok ty G = x at h key
    obtain ⟨r, G'⟩ := x
    cases r with
    | error e => cases h
    | ok r =>
      cases r with
      | no => exact List.mem_cons_of_mem _ (accepted_end hT h)
      | accepted => rw [key rfl]; exact List.mem_cons_self
      | moved _ => cases h

variable {σ : Type}

/-- A parser whose input ends at the end of the buffer. -/
structure Aligned (rest : σ → List Nat) (S : Nat) (th : MThread σ) : Prop where
  st : Midst S th.st
  asked : th.st.asked = false
  buf : Endless S th.b
  le : th.b.lastRead ≤ S
  whole : th.b.finished = false → (th.b.lastRead + (rest th.src).length) % S = 0 ∧ (th.b.lastRead = 0 → rest th.src ≠ [])
  next : ∀ tok tys, th.s.next = some tok → tok.types = some tys → tokenEnd ∉ tys

theorem Aligned.read {rest : σ → List Nat} {S : Nat} (hS : 2 ≤ S) {rd : σ → Nat → σ × InBuf.ReadRes} (hrd : Serves rd rest) {th : MThread σ} (h : Aligned rest S th) :
    Aligned rest S { th with src := (th.b.readIfSafe rd th.src).1, b := (th.b.readIfSafe rd th.src).2.1 } := by
  by_cases hs : th.b.readIsSafe = true
  · have hf : th.b.finished = false := by
      unfold InBuf.readIsSafe at hs
      cases hb : th.b.finished
      · rfl
      · simp [hb] at hs
    have hsz := h.buf.size
    obtain ⟨w1, w2⟩ := h.whole hf
    have hle := h.le
    obtain ⟨q1, q2⟩ := hrd th.src (th.b.size / 2) (by omega)
    unfold InBuf.readIfSafe
    rw [if_pos hs]
    generalize rd th.src (th.b.size / 2) = x at q1 q2
    obtain ⟨src', a⟩ := x
    simp only at q1 q2 ⊢
    have hfull : ∀ n, 0 < n → n ≤ S → n % S = 0 → n = S := by
      intro n h1 h2 h3
      refine Decidable.byContradiction fun hne => ?_
      rw [Nat.mod_eq_of_lt (by omega)] at h3
      omega
    by_cases hr : rest th.src = []
    · rw [if_pos hr] at q2
      subst q2
      rw [hr, List.length_nil, Nat.add_zero] at w1
      have h0 : 0 < th.b.lastRead := by
        rcases Nat.eq_zero_or_pos th.b.lastRead with h | h
        · exact absurd hr (w2 h)
        · exact h
      exact ⟨h.st, h.asked, ⟨h.buf.size, h.buf.pos, h.buf.cons, fun _ => hfull _ h0 hle w1⟩, hle, (fun h => by cases h), h.next⟩
    · rw [if_neg hr] at q2
      subst q2
      have hpos : 0 < (rest th.src).length := List.length_pos_iff.mpr hr
      have hlen : ((rest th.src).take (th.b.size / 2)).length = min (th.b.size / 2) (rest th.src).length := List.length_take
      have hlast : ∀ m, 0 < m → m ≤ S → 0 < (if th.b.lastRead + m > th.b.size then th.b.lastRead + m - th.b.size else th.b.lastRead + m) ∧
          (if th.b.lastRead + m > th.b.size then th.b.lastRead + m - th.b.size else th.b.lastRead + m) ≤ S ∧
          (if th.b.lastRead + m > th.b.size then th.b.lastRead + m - th.b.size else th.b.lastRead + m) % S = (th.b.lastRead + m) % S := by
        intro m h1 h2
        split
        · refine ⟨by omega, by omega, ?_⟩
          rw [hsz, Nat.mod_eq_sub_mod (a := th.b.lastRead + m) (by omega)]
        · exact ⟨by omega, by omega, rfl⟩
      obtain ⟨l1, l2, l3⟩ := hlast ((rest th.src).take (th.b.size / 2)).length (by omega) (by omega)
      refine ⟨h.st, h.asked, ⟨hsz, h.buf.pos, h.buf.cons, fun hfin => ?_⟩, l2, fun hfin => ⟨?_, fun h0 => ?_⟩, h.next⟩
      · have hfin : (th.b.finished || decide (((rest th.src).take (th.b.size / 2)).length < th.b.size / 2)) = true := hfin
        rw [hf] at hfin
        simp only [Bool.false_or, decide_eq_true_eq] at hfin
        refine hfull _ l1 l2 ?_
        show (if th.b.lastRead + ((rest th.src).take (th.b.size / 2)).length > th.b.size then _ else _) % S = 0
        rw [l3, hlen, Nat.min_eq_right (by omega)]
        exact w1
      · show ((if th.b.lastRead + ((rest th.src).take (th.b.size / 2)).length > th.b.size then th.b.lastRead + ((rest th.src).take (th.b.size / 2)).length - th.b.size
            else th.b.lastRead + ((rest th.src).take (th.b.size / 2)).length) + (rest src').length) % S = 0
        rw [Nat.add_mod, l3, ← Nat.add_mod, q1, List.length_drop, hlen]
        rw [show th.b.lastRead + min (th.b.size / 2) (rest th.src).length + ((rest th.src).length - th.b.size / 2) = th.b.lastRead + (rest th.src).length by omega]
        exact w1
      · exact absurd h0 (by show (if _ then _ else _) ≠ 0; omega)
  · have e : th.b.readIfSafe rd th.src = (th.src, th.b, true) := by
      unfold InBuf.readIfSafe
      rw [if_neg hs]
    rw [e]
    exact h

section
variable {sc : List (Nat × String)} (hsc : sc.Perm schemaSpecialChars) {addr : Nat → Nat} (hinj : ∀ a b, addr a = addr b → a = b)
  {L : Lexer} (hlex : schemaLexer sc addr = .ok L)
include hsc hinj hlex

/-- The schema lexer has no rule for the end of the input. -/
theorem schema_ids_end : ∀ u q, L.dfa.run 0 u = some q → tokenEnd ∉ L.dfa.ids q := by
  obtain ⟨L', hlex', hL⟩ := schemaLexer_ok hsc hinj
  cases hlex.symm.trans hlex'
  intro u q hu hmem
  have hshape : ∀ q c r, L.dfa.next q c = some r → c < cSizeOfByte := by
    unfold schemaLexer at hlex
    split at hlex
    · cases hlex
    · rename_i d hd
      cases hlex
      exact (dfa_shape hd).1
  have hbytes := run_allBytes hshape u 0 (by rw [hu]; rfl)
  obtain ⟨s, x, h1, h2, h3⟩ := (hL.ids _ hbytes tokenEnd).mp (by unfold Dfa.idsOn; rw [hu]; exact hmem)
  have := schema_names (perm_names hsc) h2 (schema_end _)
  subst this
  have : ∀ y ∈ lexSpec, y.1 ≠ "$end" := by decide
  exact this _ h1 rfl

theorem Aligned.step {rest : σ → List Nat} {S : Nat} (hS : 2 ≤ S) {P : MParser σ} (hrd : Serves P.rd rest) (hL : P.L = L) {t : LR0} (hT : TableOk (schemaGrammar P.specials) t P.tb)
    {th : MThread σ} (h : Aligned rest S th) (G : Statics) :
    (∀ a, (P.step th G).1 ≠ .done a) ∧ ∀ th', (P.step th G).1 = .running th' → Aligned rest S th' := by
  have hids := schema_ids_end hsc hinj hlex
  have hd : L.hasDelims = false := by
    obtain ⟨L', hlex', hL⟩ := schemaLexer_ok hsc hinj
    cases hlex.symm.trans hlex'
    exact hL.delims
  have h1 := h.read hS hrd
  unfold MParser.step
  generalize th.b.readIfSafe P.rd th.src = x at h1
  obtain ⟨src, b, ok⟩ := x
  simp only at h1 ⊢
  rw [hL]
  have hget : EndlessScan S b (getNextSymbol L th.s.next th.st b) := by
    cases hn : th.s.next with
    | none => exact noEnd_scan (by omega) hd hids h1.st h1.asked h1.buf
    | some tok =>
      intro t ht
      simp only [getNextSymbol, Except.ok.injEq] at ht ⊢
      subst ht
      exact ⟨h1.st, h1.asked, h1.buf, ⟨b.pos, rfl⟩, fun tys hh => h.next _ _ hn hh⟩
  generalize getNextSymbol L th.s.next th.st b = y at hget
  obtain ⟨st, b1, r⟩ := y
  cases r with
  | error e => exact ⟨(by intro a h; cases h), (by intro a h; cases h)⟩
  | ok tok =>
    obtain ⟨g1, g2, g3, ⟨p, g4⟩, g5⟩ := hget tok rfl
    simp only at g1 g2 g3 g4 g5 ⊢
    cases hty : tok.types with
    | none => exact ⟨(by intro a h; cases h), (by intro a h; cases h)⟩
    | some tys =>
      simp only
      have hacc := fun {text : Token → List Nat} {s : MStack} {G : Statics} => accepted_end (ruleOf := schemaRuleOf P.specials) (resets := schemaResets (schemaGrammar P.specials)) (text := text) (s := s)
        (tok := tok) (tys := tys) (G := G) hT
      have hacc := hacc (text := tokenText b1.mem) (s := { th.s with next := none }) (G := G)
      have hmv := fun s' => moved_next (g := schemaGrammar P.specials) (tb := P.tb) (ruleOf := schemaRuleOf P.specials) (resets := schemaResets (schemaGrammar P.specials)) (text := tokenText b1.mem)
        (s := { th.s with next := none }) (tok := tok) (tys := tys) (G := G) (s' := s')
      generalize parseAdvanceM (schemaGrammar P.specials) P.tb (schemaRuleOf P.specials) (schemaResets (schemaGrammar P.specials)) (tokenText b1.mem) { th.s with next := none } tok tys G = z at hacc hmv
      obtain ⟨r, G'⟩ := z
      cases r with
      | error e => exact ⟨(by intro a h; cases h), (by intro a h; cases h)⟩
      | ok r =>
        cases r with
        | no => exact ⟨(by intro a h; cases h), (by intro a h; cases h)⟩
        | accepted => exact absurd (hacc rfl) (g5 tys hty)
        | moved s' =>
          refine ⟨(by intro a h; cases h), fun th' he => ?_⟩
          simp only [MPhase.running.injEq] at he
          subst he
          have hnc : ∃ c, noteConsumedM (schemaHasRule P.specials) s' b1 = { b1 with consumedPos := c } := by
            unfold noteConsumedM
            split
            · split
              · exact ⟨_, rfl⟩
              · exact ⟨b1.consumedPos, rfl⟩
            · exact ⟨b1.consumedPos, rfl⟩
          obtain ⟨c, hnc⟩ := hnc
          have hlr : b1.lastRead = b.lastRead := by rw [g4]
          have hfi : b1.finished = b.finished := by rw [g4]
          have hw := h1.whole
          have hl := h1.le
          simp only at hw hl
          refine ⟨g1, g2, ?_, ?_, ?_, ?_⟩
          · rw [hnc]; exact ⟨g3.size, g3.pos, g3.cons, g3.last⟩
          · rw [hnc]; show b1.lastRead ≤ S; rw [hlr]; exact hl
          · rw [hnc]
            show b1.finished = false → (b1.lastRead + _) % S = 0 ∧ (b1.lastRead = 0 → _)
            rw [hfi, hlr]; exact hw
          · intro tok' tys' hn hty'
            rcases hmv s' rfl with h | h
            · rw [h] at hn; cases hn
            · rw [h] at hn
              cases hn
              exact g5 tys' hty'

theorem Aligned.alone {rest : σ → List Nat} {S : Nat} (hS : 2 ≤ S) {P : MParser σ} (hrd : Serves P.rd rest) (hL : P.L = L) {t : LR0} (hT : TableOk (schemaGrammar P.specials) t P.tb) :
    ∀ (k : Nat) (th : MThread σ) (G : Statics), Aligned rest S th → ∀ a, (P.alone k (.running th) G).1 ≠ .done a
  | 0, th, G, _, a => by intro h; cases h
  | k + 1, th, G, h, a => by
    obtain ⟨h1, h2⟩ := h.step hsc hinj hlex hS hrd hL hT G
    show (P.alone k (P.step th G).1 (P.step th G).2).1 ≠ .done a
    generalize P.step th G = x at h1 h2
    obtain ⟨x, G'⟩ := x
    cases x with
    | running th' => exact Aligned.alone hS hrd hL hT k th' G' (h2 th' rfl) a
    | done b => exact absurd rfl (h1 b)
    | rejected _ _ => rw [alone_stopped _ (by simp)]; simp
    | failed _ => rw [alone_stopped _ (by simp)]; simp
end

end LogSurgeon
