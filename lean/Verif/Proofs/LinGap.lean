import Verif.Proofs.SchemaGap
import Verif.Proofs.RingParse
import Verif.Proofs.SchemaRoom
/-
How far the parser of schema files gets, in bytes, without noting what it has consumed.
-/
namespace LogSurgeon
open Grammar

/-! ### Lines -/

theorem linesFit_len : ∀ {k : Nat} {xs : List (List Lexeme)}, LinesFit k xs → ∀ x ∈ xs, x.length ≤ 2000
  | _, [], _, _, h => by cases h
  | k, y :: ys, h, x, hx => by
    rcases List.mem_cons.mp hx with rfl | hx
    · have := h.1; omega
    · exact linesFit_len h.2 x hx

theorem fit_len {k : Nat} {ls : List Lexeme} (h : Fit k ls) : ∀ x ∈ unitLines ls, x.length ≤ 2000 := by
  unfold Fit at h
  generalize unitLines ls = xs at h ⊢
  cases xs with
  | nil => intro x hx; cases hx
  | cons y ys =>
    intro x hx
    rcases List.mem_cons.mp hx with rfl | hx
    · have := h.1; omega
    · exact linesFit_len h.2 x hx

/-- Units without a line end are in one line. -/
theorem unitLines_part {b c : List Lexeme} (hb : .char 10 ∉ b) : ∀ a : List Lexeme, ∃ x ∈ unitLines (a ++ (b ++ c)), b.length ≤ x.length
  | [] => by
    rw [List.nil_append]
    induction b with
    | nil =>
      obtain ⟨x, xs, h⟩ := List.exists_cons_of_ne_nil (unitLines_ne ([] ++ c))
      exact ⟨x, by rw [h]; simp, Nat.zero_le _⟩
    | cons l b ih =>
      simp only [List.mem_cons, not_or] at hb
      have key : ∀ b : List Lexeme, .char 10 ∉ b → ∃ x xs, unitLines (b ++ c) = x :: xs ∧ b.length ≤ x.length := by
        intro b
        induction b with
        | nil =>
          intro _
          obtain ⟨x, xs, h⟩ := List.exists_cons_of_ne_nil (unitLines_ne ([] ++ c))
          exact ⟨x, xs, h, Nat.zero_le _⟩
        | cons l b ih =>
          intro hb
          simp only [List.mem_cons, not_or] at hb
          obtain ⟨x, xs, h1, h2⟩ := ih hb.2
          obtain ⟨y, ys, e1, e2⟩ := unitLines_cons (Ne.symm hb.1) (b ++ c)
          rw [h1] at e1
          cases e1
          exact ⟨_, _, e2, by simp; omega⟩
      obtain ⟨x, xs, h1, h2⟩ := key (l :: b) (by simp only [List.mem_cons, not_or]; exact hb)
      exact ⟨x, by rw [h1]; simp, h2⟩
  | l :: a => by
    obtain ⟨x, hx, h⟩ := unitLines_part (c := c) hb a
    rw [List.cons_append]
    by_cases hl : l = .char 10
    · subst hl
      rw [unitLines_newline]
      exact ⟨x, List.mem_cons_of_mem _ hx, h⟩
    · obtain ⟨y, ys, e1, e2⟩ := unitLines_cons hl (a ++ (b ++ c))
      rw [e1] at hx
      rw [e2]
      rcases List.mem_cons.mp hx with rfl | hx
      · exact ⟨_, List.mem_cons_self, by simp; omega⟩
      · exact ⟨x, List.mem_cons_of_mem _ hx, h⟩

theorem text_length_le : ∀ ls : List Lexeme, (textOf ls).length ≤ 10 * ls.length
  | [] => by simp [textOf]
  | l :: ls => by
    have := text_length_le ls
    have h : l.text.length ≤ 10 := by cases l <;> simp [Lexeme.text, delimitersWord]
    unfold textOf at this ⊢
    rw [List.flatMap_cons, List.length_append, List.length_cons]
    omega

/-- Units that have line ends at the first two places only. -/
theorem span_bytes {k : Nat} {ls : List Lexeme} (h : Fit k ls) {us n : Nat} (hle : us ≤ n) (hl : ∀ j, us ≤ j → j < n → ls[j]? = some (.char 10) → j ≤ us + 1) :
    (textOf (ls.take n)).length ≤ (textOf (ls.take us)).length + 20020 := by
  have e : ls.take n = ls.take us ++ (ls.take n).drop us := by
    have := (List.take_append_drop us (ls.take n)).symm
    rwa [List.take_take, Nat.min_eq_left hle] at this
  have h1 : ((ls.take n).drop us).length ≤ 2002 := by
    have hb : Lexeme.char 10 ∉ (ls.take n).drop (us + 2) := by
      intro hm
      obtain ⟨j, hj⟩ := List.getElem?_of_mem hm
      rw [List.getElem?_drop, List.getElem?_take] at hj
      split at hj
      · rename_i hlt
        have := hl _ (by omega) hlt hj
        omega
      · cases hj
    obtain ⟨x, hx, hlen⟩ := unitLines_part (c := ls.drop n) hb (ls.take (min n (us + 2)))
    have : ls.take (min n (us + 2)) ++ ((ls.take n).drop (us + 2) ++ ls.drop n) = ls := by
      rw [← List.append_assoc]
      have h2 := List.take_append_drop (us + 2) (ls.take n)
      rw [List.take_take, Nat.min_comm] at h2
      rw [h2, List.take_append_drop]
    rw [this] at hx
    have := fit_len h x hx
    rw [List.length_drop] at hlen ⊢
    omega
  have h2 := text_length_le ((ls.take n).drop us)
  rw [e, textOf_append, List.length_append]
  omega

/-! ### The machine on a buffer that has the whole text -/

section
variable {τ : Type} {sc : List (Nat × String)} (hsc : sc.Perm schemaSpecialChars) {L : Lexer} (hL : SchemaLexOk L (schemaGrammar (sc.map (·.2))))
  {w : List Nat} (hb : AllBytes w)
include hsc hL hb

/-- The next token and where it begins. -/
theorem atUnit_next {i : Nat} {st : LexState} {b : InBuf} (h : AtUnit L w i st b) :
    ∃ st' b' t, L.scan st b = (st', b', .ok t) ∧ AtUnit L w (i + 1) st' b' ∧ (∃ p c, b' = { b with pos := p, consumed := c }) ∧ UnitTok L w b.mem i t ∧
      t.startPos = (textOf ((lexemes w).take i)).length := by
  obtain ⟨st', b', t, h1, h2, _, h4⟩ := atUnit_scan hsc hL hb h
  obtain ⟨p, hp, hr, hl, hlex, htext⟩ := h
  have hlen : (textOf ((lexemes w).take i)).length = p := by rw [← htext, List.length_take]; omega
  obtain ⟨hb', ⟨he, h5, t', l, h6, h7⟩ | ⟨l, t', h6, _, _, _, _, line, h7⟩⟩ := scan_unit hsc hL hb hr hp h1
  · cases h6
    exact ⟨st', b', t, h1, h2, hb', h4, by rw [hlen]; exact h7.start⟩
  · cases h6
    exact ⟨st', b', t, h1, h2, hb', h4, by rw [hlen]; exact h7.start⟩

omit hsc hL hb in
theorem atUnit_pos {i : Nat} {st : LexState} {b : InBuf} (h : AtUnit L w i st b) : b.pos = (textOf ((lexemes w).take i)).length ∧ b.pos ≤ w.length ∧ w.length ≤ b.size / 2 := by
  obtain ⟨p, hp, hr, hl, hlex, htext⟩ := h
  have hlen : (textOf ((lexemes w).take i)).length = p := by rw [← htext, List.length_take]; omega
  have := hr.at'.pos
  have := hr.view.half
  refine ⟨by omega, by omega, by omega⟩

/-- The machine while it runs. -/
structure LinAt (sc : List (Nat × String)) (L : Lexer) (t : LR0) (w : List Nat) (th : MThread τ) (G : Statics) (s : PState) (used : List Token) (us : Nat) : Prop where
  at' : AtUnit L w (used.length + if th.s.next.isSome then 1 else 0) th.st th.b
  inv : ParseInv (schemaGrammar (sc.map (·.2))) t 0 used s
  top : ∃ q qs, s.states = some q :: qs
  near : MNear (schemaRuleOf (sc.map (·.2))) (tokenText th.b.mem) s th.s G
  typed : ∀ x ∈ used, Typed (schemaGrammar (sc.map (·.2))) x
  next : ∀ tok, th.s.next = some tok → UnitTok L w th.b.mem used.length tok ∧ tok.startPos = (textOf ((lexemes w).take used.length)).length
  gap : GapAt (sc.map (·.2)) (fun j => (lexemes w)[j]? = some (.char 10)) s used.length us
  low : lowOf th.b = (textOf ((lexemes w).take us)).length - 1

omit hsc hL hb in
/-- It is not far from what it has noted. -/
theorem LinAt.bytes {k : Nat} (hf : Fit k (lexemes w)) {t : LR0} {th : MThread τ} {G : Statics} {s : PState} {used : List Token} {us : Nat}
    (h : LinAt sc L t w th G s used us) (hn : th.s.next = none) : th.b.pos + 10 < lowOf th.b + 24000 := by
  have h1 := h.at'
  rw [hn] at h1
  have h2 := (atUnit_pos h1).1
  simp only [Option.isSome_none, Bool.false_eq_true, if_false, Nat.add_zero] at h2
  have h3 := span_bytes hf h.gap.le h.gap.lines
  have := h.low
  omega

variable {o : Orders} {fuel : Nat} {sid : Nat} {t : LR0} {P : MParser τ} (hPL : P.L = L) (hPs : P.specials = sc.map (·.2))
  (S : Sound (schemaGrammar (sc.map (·.2))) o fuel P.tb (schemaTerminals (sc.map (·.2))) "Schema" (("Schema", ["Comment"]) :: (schemaProductions (sc.map (·.2))).tail) sid t)
include hPL hPs S

theorem LinAt.step {th : MThread τ} {G : Statics} {s : PState} {used : List Token} {us : Nat} (h : LinAt sc L t w th G s used us)
    {th' : MThread τ} (hst : (P.step th G).1 = .running th') : ∃ s' used' us', LinAt sc L t w th' (P.step th G).2 s' used' us' := by
  have hfin : th.b.finished = true := by
    obtain ⟨p, _, hr, _⟩ := h.at'
    exact hr.view.finished
  -- the token
  have htok : ∃ st1 b1 tok, getNextSymbol L th.s.next th.st th.b = (st1, b1, .ok tok) ∧ AtUnit L w (used.length + 1) st1 b1 ∧
      (∃ p c, b1 = { th.b with pos := p, consumed := c }) ∧ UnitTok L w th.b.mem used.length tok ∧ tok.startPos = (textOf ((lexemes w).take used.length)).length := by
    cases hn : th.s.next with
    | none =>
      have hat := h.at'
      rw [hn] at hat
      obtain ⟨st', b', t, h1, h2, h3, h4, h5⟩ := atUnit_next hsc hL hb hat
      exact ⟨st', b', t, h1, h2, h3, h4, h5⟩
    | some tok =>
      have hat := h.at'
      rw [hn] at hat
      exact ⟨th.st, th.b, tok, rfl, hat, ⟨th.b.pos, th.b.consumed, rfl⟩, h.next tok hn⟩
  obtain ⟨st1, b1, tok, hget, hat1, ⟨p1, c1, hb1⟩, hunit, hstart⟩ := htok
  have hm1 : b1.mem = th.b.mem := by rw [hb1]
  have hlow1 : lowOf b1 = lowOf th.b := by rw [hb1]; rfl
  have hty : ∃ tys, tok.types = some tys ∧ (∀ ty ∈ tys, ty ∈ (schemaGrammar (sc.map (·.2))).terminals) ∧
      ((∃ l : Lexeme, AllBytes l.text ∧ tok.types = some (L.dfa.idsOn l.text) ∧ ((lexemes w)[used.length]? = some (.char 10) → l = .char 10)) ∨ tok.types = some [tokenEnd]) := by
    cases hl : (lexemes w)[used.length]? with
    | none =>
      obtain ⟨h1, _⟩ := hunit.fin hl
      exact ⟨_, h1, fun ty hty => by rw [List.mem_singleton.mp hty]; exact S.finT, .inr h1⟩
    | some l =>
      obtain ⟨h1, _, h3, _⟩ := hunit.unit l hl
      exact ⟨_, h1, fun ty hty => (types_terminals hsc hL h3 ty hty).1, .inl ⟨l, h3, h1, fun e => by simpa using e⟩⟩
  obtain ⟨tys, hty, htt, hu⟩ := hty
  unfold MParser.step at hst ⊢
  rw [← hPL] at hget
  simp only [readIfSafe_fin hfin, hget, hty, hPs] at hst ⊢
  have hnear' : MNear (schemaRuleOf (sc.map (·.2))) (tokenText b1.mem) { s with next := none } { th.s with next := none } G := by
    rw [hm1]; exact ⟨h.near.states, rfl, h.near.kids, h.near.vals⟩
  obtain ⟨q, qs, hq⟩ := h.top
  have hadvM := parseAdvance_near (g := schemaGrammar (sc.map (·.2))) (tb := P.tb) (resets := schemaResets (schemaGrammar (sc.map (·.2)))) hnear' tok tys
  have hgap := fun s' => gap_step hsc hL S h.gap h.inv hq h.typed hty htt hu (resets := schemaResets (schemaGrammar (sc.map (·.2)))) (s' := s')
  generalize parseAdvanceM (schemaGrammar (sc.map (·.2))) P.tb (schemaRuleOf (sc.map (·.2))) (schemaResets (schemaGrammar (sc.map (·.2)))) (tokenText b1.mem) { th.s with next := none } tok tys G = rm at hadvM hst ⊢
  obtain ⟨rm, G'⟩ := rm
  cases hadv : (schemaGrammar (sc.map (·.2))).parseAdvance P.tb (schemaResets (schemaGrammar (sc.map (·.2)))) { s with next := none } tok tys with
  | error e =>
    rw [hadv] at hadvM
    obtain ⟨e', he'⟩ := hadvM
    simp only at he'
    subst he'
    cases hst
  | ok res =>
    rw [hadv] at hadvM
    cases res with
    | no =>
      simp only [Prod.mk.injEq] at hadvM
      obtain ⟨rfl, rfl⟩ := hadvM
      cases hst
    | accepted =>
      simp only [Prod.mk.injEq] at hadvM
      obtain ⟨rfl, rfl⟩ := hadvM
      exfalso
      generalize th.s.matched = ms at hst
      simp only at hst
      cases ms with
      | nil => cases hst
      | cons m ms =>
        cases m with
        | tok _ => cases hst
        | nt i p v n => cases ms <;> cases v <;> cases hst
    | moved s' =>
      rcases hadvM with ⟨m', h1, h2⟩ | ⟨e, h1, h2⟩
      · simp only at h1 h2
        subst h1
        simp only [MPhase.running.injEq] at hst ⊢
        subst hst
        rw [noteConsumed_near h2]
        obtain ⟨htop, hcase⟩ := hgap s' hadv
        have hnx := h2.next
        have htyped : Typed (schemaGrammar (sc.map (·.2))) tok := ⟨tys, hty, htt⟩
        rcases hcase with ⟨g1, g2, g3, _, _⟩ | ⟨g1, g2, g3, p, cs, ts, g4⟩
        · have e : noteConsumed (schemaHasRule (sc.map (·.2))) s' b1 = b1 := by unfold noteConsumed; rw [g1]
          rw [e]
          rw [g1] at hnx
          refine ⟨s', used ++ [tok], us, ?_, g2, htop, h2, ?_, ?_, ?_, ?_⟩
          · rw [hnx]
            simp only [List.length_append, List.length_singleton, Option.isSome_none, Bool.false_eq_true, if_false, Nat.add_zero]
            exact hat1
          · intro x hx
            rcases List.mem_append.mp hx with hx | hx
            · exact h.typed x hx
            · rw [List.mem_singleton.mp hx]; exact htyped
          · intro tok' ht
            rw [hnx] at ht; cases ht
          · rw [List.length_append]; exact g3
          · rw [hlow1]; exact h.low
        · rw [g1] at hnx
          refine ⟨s', used, gapNext (sc.map (·.2)) s' used.length us, ?_, g2, htop, ?_, h.typed, ?_, ?_, ?_⟩
          · rw [hnx]
            simp only [Option.isSome_some, if_true]
            obtain ⟨c, hc⟩ := noteConsumed_cp (hasRule := schemaHasRule (sc.map (·.2))) s' b1
            rw [hc]
            exact (atUnit_step hsc hL hb _ _ _ hat1).2.1 c
          · obtain ⟨c, hc⟩ := noteConsumed_cp (hasRule := schemaHasRule (sc.map (·.2))) s' b1
            rw [hc]; exact h2
          · intro tok' ht
            rw [hnx] at ht
            cases ht
            obtain ⟨c, hc⟩ := noteConsumed_cp (hasRule := schemaHasRule (sc.map (·.2))) s' b1
            rw [hc]
            refine ⟨?_, hstart⟩
            show UnitTok L w b1.mem used.length tok
            rw [hm1]; exact hunit
          · exact g3
          · unfold noteConsumed gapNext
            rw [g1, g4]
            simp only
            by_cases hr : schemaHasRule (sc.map (·.2)) p = true
            · rw [if_pos hr, if_pos hr]
              unfold lowOf
              simp only
              have h3 := (atUnit_pos hat1)
              have hle : (textOf ((lexemes w).take used.length)).length ≤ (textOf ((lexemes w).take (used.length + 1))).length := by
                rw [List.take_add, textOf_append, List.length_append]; omega
              by_cases h0 : tok.startPos = 0
              · rw [if_pos h0, if_pos rfl]; omega
              · rw [if_neg h0, if_neg (by omega)]; omega
            · rw [if_neg hr, if_neg hr, hlow1]; exact h.low
      · simp only at h1; subst h1
        cases hst
end

end LogSurgeon
