import Verif.Proofs.SchemaLexemes
import Verif.Model.SchemaParse
/-
The loop of `parse` on a text that lies completely in the buffer is the parse of the tokens of the text.
-/
namespace LogSurgeon

/-! ### The consumed position has no influence on the lexer -/

/-- Another consumed position. -/
def InBuf.cp (b : InBuf) (c : Nat) : InBuf := { b with consumedPos := c }

theorem getNext_cp (b : InBuf) (c : Nat) : (b.cp c).getNext = (b.getNext.1.cp c, b.getNext.2) := by
  unfold InBuf.getNext InBuf.cp
  simp only
  split
  · rfl
  · split
    · rfl
    · split <;> rfl

theorem skip_cp (L : Lexer) (c : Nat) : ∀ (k : Nat) (b : InBuf) (x p : Nat),
    L.skip k (b.cp c) x p = ((L.skip k b x p).1.cp c, (L.skip k b x p).2)
  | 0, b, x, p => rfl
  | k + 1, b, x, p => by
    unfold Lexer.skip
    rw [getNext_cp]
    have hc : (b.cp c).consumed = b.consumed := rfl
    have hp : (b.cp c).pos = b.pos := rfl
    rw [hc, hp]
    split
    · cases h : b.getNext with
      | mk b' r =>
        cases r with
        | char y => exact skip_cp L c k b' y b.pos
        | oob => rfl
        | ub => rfl
    · rfl

theorem emitMatch_cp (st : LexState) (b : InBuf) (c : Nat) :
    Lexer.emitMatch st (b.cp c) = ((Lexer.emitMatch st b).1, (Lexer.emitMatch st b).2.1.cp c, (Lexer.emitMatch st b).2.2) := by
  unfold Lexer.emitMatch
  simp only
  split <;> rfl

theorem emitEnd_cp (st : LexState) (b : InBuf) (c : Nat) :
    Lexer.emitEnd st (b.cp c) = ((Lexer.emitEnd st b).1, (Lexer.emitEnd st b).2.1.cp c, (Lexer.emitEnd st b).2.2) := by
  unfold Lexer.emitEnd
  split <;> rfl

theorem scanLoop_cp (L : Lexer) (c : Nat) : ∀ (k : Nat) (q : Option Nat) (st : LexState) (b : InBuf),
    L.scanLoop k q st (b.cp c) = ((L.scanLoop k q st b).1, (L.scanLoop k q st b).2.1.cp c, (L.scanLoop k q st b).2.2)
  | 0, q, st, b => rfl
  | k + 1, q, st, b => by
    rw [Lexer.scanLoop, Lexer.scanLoop, getNext_cp]
    cases h : b.getNext with
    | mk b' r =>
      cases r with
      | oob => rfl
      | ub => rfl
      | char x =>
        cases q with
        | none => rfl
        | some q =>
          have h1 : ∀ st, L.noteMatch q b.pos x st (b'.cp c) = L.noteMatch q b.pos x st b' := fun st => rfl
          have h2 : ∀ st, L.noteNewline q b.pos x st (b'.cp c) = L.noteNewline q b.pos x st b' := fun st => rfl
          have hp : (b.cp c).pos = b.pos := rfl
          have hc : (b'.cp c).consumed = b'.consumed := rfl
          have hp' : (b'.cp c).pos = b'.pos := rfl
          have hs' : (b'.cp c).size = b'.size := rfl
          simp only [hp, h1, h2, hc, hp', hs']
          cases hn : L.noteNewline q b.pos x (L.noteMatch q b.pos x st b') b' with
          | none => rfl
          | some y =>
            obtain ⟨st', next⟩ := y
            simp only
            by_cases h3 : (b'.consumed || next.isNone) = true
            · rw [if_pos h3, if_pos h3]
              by_cases h4 : st'.isMatch = true
              · rw [if_pos h4, if_pos h4]
                exact emitMatch_cp st' b' c
              · rw [if_neg h4, if_neg h4]
                by_cases h5 : (b'.consumed && st'.startPos == b'.pos) = true
                · rw [if_pos h5, if_pos h5]
                  exact emitEnd_cp st' b' c
                · rw [if_neg h5, if_neg h5, skip_cp]
                  cases hsk : L.skip (b'.size + 2) b' x b.pos with
                  | mk b'' r' =>
                    cases r' with
                    | ok p => exact scanLoop_cp L c k (some 0) { st' with startPos := p } { b'' with pos := p }
                    | error e => cases e <;> rfl
            · rw [if_neg h3, if_neg h3]
              exact scanLoop_cp L c k next st' b'

theorem scan_cp (L : Lexer) (c : Nat) (st : LexState) (b : InBuf) :
    L.scan st (b.cp c) = ((L.scan st b).1, (L.scan st b).2.1.cp c, (L.scan st b).2.2) := by
  unfold Lexer.scan
  split
  · exact scanLoop_cp L c _ _ _ b
  · split
    · rfl
    · exact scanLoop_cp L c _ _ _ b

/-! ### The tokens -/

/-- The next `k` tokens (as long as there is no failure). -/
def Lexer.scanToks (L : Lexer) : Nat → LexState → InBuf → List Token
  | 0, _, _ => []
  | k + 1, st, b =>
    match L.scan st b with
    | (st', b', .ok t) => t :: scanToks L k st' b'
    | _ => []

theorem scanToks_cp (L : Lexer) (c : Nat) : ∀ (k : Nat) (st : LexState) (b : InBuf), L.scanToks k st (b.cp c) = L.scanToks k st b
  | 0, _, _ => rfl
  | k + 1, st, b => by
    rw [Lexer.scanToks, Lexer.scanToks, scan_cp]
    cases h : L.scan st b with
    | mk st' x =>
      obtain ⟨b', r⟩ := x
      cases r with
      | error e => rfl
      | ok t => simp only; rw [scanToks_cp L c k st' b']

theorem tokenText_slice {b : InBuf} {s : List Nat} (hV : View b s true) {t : Token} {a e : Nat} {ty : List Nat} {l : Nat} (h : IsTok b t a e ty l)
    (hae : a ≤ e) (hes : e ≤ s.length) : tokenText b.mem t = slice s a e := by
  unfold tokenText Token.toString
  rw [h.start, h.stop, if_pos hae, h.buf]
  have hlen : s.length ≤ (b.mem b.active).length := by
    refine Decidable.byContradiction fun hn => ?_
    have h1 := hV.content (b.mem b.active).length (by omega)
    rw [List.getElem?_eq_none (Nat.le_refl _), List.getElem?_eq_getElem (by omega)] at h1
    cases h1
  unfold readRange slice
  rw [if_pos ⟨hae, by omega⟩]
  simp only [Option.map_some, Option.getD_some]
  apply List.ext_getElem?
  intro i
  by_cases hi : i < e - a
  · rw [List.getElem?_take_of_lt hi, List.getElem?_take_of_lt hi, List.getElem?_drop, List.getElem?_drop]
    exact hV.content _ (by omega)
  · rw [List.getElem?_eq_none (by simp; omega), List.getElem?_eq_none (by simp; omega)]

/-- The tokens of a text: its units, then end tokens. -/
theorem scanToks_units {L : Lexer} {sc : List (Nat × String)} (hsc : sc.Perm schemaSpecialChars) (hL : SchemaLexOk L (schemaGrammar (sc.map (·.2))))
    {s : List Nat} (hs : AllBytes s) : ∀ (ls : List Lexeme) (st : LexState) (b : InBuf) (p : Nat), Ready L s st b p → p ≤ s.length →
    lexemes (s.drop p) = ls →
    ∃ toks, List.Forall₂ (fun t l => t.types = some (L.dfa.idsOn l.text) ∧ tokenText b.mem t = l.text ∧ AllBytes l.text) toks ls ∧
      ∀ k, (∃ ends, L.scanToks (ls.length + k) st b = toks ++ ends ∧ ends.length = k ∧ ∀ t ∈ ends, t.types = some [tokenEnd])
  | [], st, b, p, h, hp, hl => by
    have hend : p = s.length := by
      rcases Nat.lt_or_eq_of_le hp with hlt | heq
      · obtain ⟨l, h1, _⟩ := lexemes_cons s[p] (s.drop (p + 1))
        rw [← List.drop_eq_getElem_cons hlt, hl] at h1
        cases h1
      · exact heq
    refine ⟨[], .nil, fun k => ?_⟩
    suffices hsuf : ∀ (k : Nat) (st : LexState) (b : InBuf), Ready L s st b p →
        ∃ ends, L.scanToks k st b = ends ∧ ends.length = k ∧ ∀ t ∈ ends, t.types = some [tokenEnd] by
      obtain ⟨ends, h1, h2⟩ := hsuf k st b h
      exact ⟨ends, by simpa using h1, h2⟩
    intro k
    induction k with
    | zero => intro st b _; exact ⟨[], rfl, rfl, by simp⟩
    | succ k ih =>
      intro st b h
      rw [Lexer.scanToks]
      cases hscan : L.scan st b with
      | mk st' x =>
        obtain ⟨b', r⟩ := x
        obtain ⟨_, ⟨_, h1, t, l, h2, h3⟩ | ⟨l, t, h2, h3, _⟩⟩ := scan_unit hsc hL hs h hp hscan
        · subst h2
          obtain ⟨ends, e1, e2, e3⟩ := ih st' b' h1
          refine ⟨t :: L.scanToks k st' b', rfl, ?_, ?_⟩
          · rw [e1]; simp [e2]
          · rw [e1]
            intro x hx
            rcases List.mem_cons.mp hx with rfl | hx
            · exact h3.types
            · exact e3 x hx
        · have : 0 < l.text.length := by
            cases l with
            | char c => exact Nat.one_pos
            | delimiters => decide
          omega
  | l :: ls, st, b, p, h, hp, hl => by
    cases hscan : L.scan st b with
    | mk st' x =>
      obtain ⟨b', r⟩ := x
      obtain ⟨⟨pos', c', hb⟩, ⟨he, _⟩ | ⟨l', t, h2, h3, h4, h5, h6, line, h7⟩⟩ := scan_unit hsc hL hs h hp hscan
      · rw [he, List.drop_length] at hl
        cases hl
      · rw [hl] at h4
        cases h4
        subst h2
        obtain ⟨toks, t1, t2⟩ := scanToks_units hsc hL hs _ st' b' _ h6 h3 rfl
        have hmem : b'.mem = b.mem := by rw [hb]
        rw [hmem] at t1
        refine ⟨t :: toks, .cons ⟨h7.types, ?_, ?_⟩ t1, fun k => ?_⟩
        · rw [tokenText_slice h.view h7 (by omega) h3, h5]
        · rw [← h5]; exact allBytes_slice hs _ _
        · obtain ⟨ends, e1, e2, e3⟩ := t2 k
          refine ⟨ends, ?_, e2, e3⟩
          rw [List.length_cons, Nat.add_right_comm, Lexer.scanToks, hscan]
          simp only
          rw [e1]; rfl

/-! ### The loop -/

/-- The loop of `parse` without the place where it stops: the tree, the children counter and the buffer. -/
def parseFrom {σ : Type} (L : Lexer) (g : Grammar) (tb : Grammar.Table) (resets hasRule : Nat → Bool) (rd : σ → Nat → σ × InBuf.ReadRes) :
    Nat → PState → σ → LexState → InBuf → Except Fail (Tree × Nat × InBuf)
  | 0, _, _, _, _ => .error .diverge
  | k + 1, s, src, st, b =>
    let (src, b, _) := b.readIfSafe rd src
    match getNextSymbol L s.next st b with
    | (_, _, .error e) => .error (scanFail e)
    | (st, b, .ok tok) =>
      match tok.types with
      | none => .error .ub
      | some tys =>
        match g.parseAdvance tb resets { s with next := none } tok tys with
        | .error e => .error e
        | .ok .no => .error .throws
        | .ok .accepted =>
          match s.matched with
          | [] => .error .ub
          | .leaf _ :: _ => .error .throws
          | t :: _ => .ok (t, s.kids, b)
        | .ok (.moved s) => parseFrom L g tb resets hasRule rd k s src st (noteConsumed hasRule s b)

/-- What `parseFrom` returns. -/
def Stop.result : Except Fail Stop → Except Fail (Tree × Nat × InBuf)
  | .error e => .error e
  | .ok (.accepted t kids b) => .ok (t, kids, b)
  | .ok (.rejected _ _ _ _) => .error .throws

theorem parseFrom_stop {σ : Type} {L : Lexer} {g : Grammar} {tb : Grammar.Table} {resets hasRule : Nat → Bool} {rd : σ → Nat → σ × InBuf.ReadRes} :
    ∀ (k : Nat) (s : PState) (src : σ) (st : LexState) (b : InBuf),
    parseFrom L g tb resets hasRule rd k s src st b = Stop.result (stopFrom L g tb resets hasRule rd k s src st b)
  | 0, _, _, _, _ => rfl
  | k + 1, s, src, st, b => by
    rw [parseFrom, stopFrom]
    rcases b.readIfSafe rd src with ⟨src1, b1, x⟩
    simp only
    rcases getNextSymbol L s.next st b1 with ⟨st1, b2, r⟩
    cases r with
    | error e => rfl
    | ok tok =>
      simp only
      cases tok.types with
      | none => rfl
      | some tys =>
        simp only
        cases g.parseAdvance tb resets { s with next := none } tok tys with
        | error e => rfl
        | ok r =>
          cases r with
          | no => rfl
          | accepted =>
            cases s.matched with
            | nil => rfl
            | cons x xs => cases x <;> rfl
          | moved s1 => exact parseFrom_stop k s1 src1 st1 _

/-- The AST is that of the tree. -/
theorem generateSchemaAst_tree {σ : Type} {L : Lexer} {rules : List (Nat × Regex)} {specials : List String} {tb : Grammar.Table} {fuel kids : Nat}
    {rd : σ → Nat → σ × InBuf.ReadRes} {src : σ} {b : InBuf} {t : Tree} {kids' : Nat} {b' : InBuf}
    (h : parseFrom L (schemaGrammar specials) tb (schemaResets (schemaGrammar specials)) (schemaHasRule specials) rd fuel
      { states := [tb.root], matched := [], next := none, kids := kids } src {} b.reset = .ok (t, kids', b')) :
    generateSchemaAst L rules specials tb fuel kids rd src b =
      match schemaOfTree specials (tokenText b'.mem) t with
      | .error e => .error e
      | .ok a => .ok (a, kids') := by
  rw [parseFrom_stop] at h
  unfold generateSchemaAst
  generalize stopFrom L (schemaGrammar specials) tb (schemaResets (schemaGrammar specials)) (schemaHasRule specials) rd fuel
      { states := [tb.root], matched := [], next := none, kids := kids } src {} b.reset = r at h
  cases r with
  | error e => cases h
  | ok r =>
    cases r with
    | rejected _ _ _ _ => cases h
    | accepted t1 k1 b1 =>
      simp only [Stop.result, Except.ok.injEq, Prod.mk.injEq] at h
      obtain ⟨rfl, rfl, rfl⟩ := h
      rfl

/-- Without a tree there is no AST. -/
theorem generateSchemaAst_error {σ : Type} {L : Lexer} {rules : List (Nat × Regex)} {specials : List String} {tb : Grammar.Table} {fuel kids : Nat}
    {rd : σ → Nat → σ × InBuf.ReadRes} {src : σ} {b : InBuf} {e : Fail}
    (h : parseFrom L (schemaGrammar specials) tb (schemaResets (schemaGrammar specials)) (schemaHasRule specials) rd fuel
      { states := [tb.root], matched := [], next := none, kids := kids } src {} b.reset = .error e) :
    ∃ e', generateSchemaAst L rules specials tb fuel kids rd src b = .error e' := by
  rw [parseFrom_stop] at h
  unfold generateSchemaAst
  generalize stopFrom L (schemaGrammar specials) tb (schemaResets (schemaGrammar specials)) (schemaHasRule specials) rd fuel
      { states := [tb.root], matched := [], next := none, kids := kids } src {} b.reset = r at h
  cases r with
  | error e => exact ⟨e, rfl⟩
  | ok r =>
    cases r with
    | accepted _ _ _ => cases h
    | rejected s tok st b1 =>
      simp only
      cases Tree.eval.evals (schemaRuleOf specials) (tokenText b1.mem) s.matched.reverse 0 with
      | error e => exact ⟨e, rfl⟩
      | ok v =>
        simp only
        cases reportError L rules (schemaGrammar specials) tb fuel s tok st b1 with
        | error e => exact ⟨e, rfl⟩
        | ok m => exact ⟨.throws, rfl⟩

section Loop
variable {σ : Type} {L : Lexer} {g : Grammar} {tb : Grammar.Table} {resets hasRule : Nat → Bool} {rd : σ → Nat → σ × InBuf.ReadRes}

theorem readIfSafe_fin {b : InBuf} (h : b.finished = true) (src : σ) : b.readIfSafe rd src = (src, b, true) := by
  unfold InBuf.readIfSafe
  rw [if_neg (by simp [InBuf.readIsSafe, h])]

theorem noteConsumed_cp (s : PState) (b : InBuf) : ∃ c, noteConsumed hasRule s b = b.cp c := by
  unfold noteConsumed
  split
  · split
    · exact ⟨_, rfl⟩
    · exact ⟨b.consumedPos, rfl⟩
  · exact ⟨b.consumedPos, rfl⟩

/-- What the two loops return. -/
def SameResult (m : Mem) : Except Fail (Tree × Nat × InBuf) → Except Fail (Tree × List Token × Nat) → Prop
  | .ok (t, k, b), .ok (t', _, k') => t = t' ∧ k = k' ∧ b.mem = m
  | .error e, .error e' => e = e'
  | _, _ => False

/-- The loop of `parse` is the parse of the tokens, if scanning always succeeds and there is nothing more to read. -/
theorem parseFrom_toks (P : LexState → InBuf → Prop)
    (hP : ∀ st b, P st b → b.finished = true ∧ (∀ c, P st (b.cp c)) ∧ ∃ st' b' t, L.scan st b = (st', b', .ok t) ∧ P st' b' ∧ b'.mem = b.mem) :
    ∀ (k m : Nat) (s : PState) (src : σ) (st : LexState) (b : InBuf), P st b → k ≤ m →
    SameResult b.mem (parseFrom L g tb resets hasRule rd k s src st b) (g.parseLoop tb resets k s (L.scanToks m st b))
  | 0, m, s, src, st, b, _, _ => rfl
  | k + 1, m, s, src, st, b, h, hm => by
    obtain ⟨hf, hcp, st', b', t, hscan, hP', hmem⟩ := hP st b h
    rw [parseFrom, Grammar.parseLoop.eq_def, readIfSafe_fin hf]
    obtain ⟨m, rfl⟩ : ∃ m', m = m' + 1 := ⟨m - 1, by omega⟩
    have key : ∀ (tok : Token) (st1 : LexState) (b1 : InBuf) (input : List Token), P st1 b1 → b1.mem = b.mem →
        (∃ m1, k ≤ m1 ∧ input = L.scanToks m1 st1 b1) →
        SameResult b.mem
          (match tok.types with
            | none => .error .ub
            | some tys =>
              match g.parseAdvance tb resets { s with next := none } tok tys with
              | .error e => .error e
              | .ok .no => .error .throws
              | .ok .accepted =>
                match s.matched with
                | [] => .error .ub
                | .leaf _ :: _ => .error .throws
                | t :: _ => .ok (t, s.kids, b1)
              | .ok (.moved s) => parseFrom L g tb resets hasRule rd k s src st1 (noteConsumed hasRule s b1))
          (match tok.types with
            | none => .error .ub
            | some tys =>
              match g.parseAdvance tb resets { s with next := none } tok tys with
              | .error e => .error e
              | .ok .no => .error .throws
              | .ok .accepted =>
                match s.matched with
                | [] => .error .ub
                | .leaf _ :: _ => .error .throws
                | t :: _ => .ok (t, input, s.kids)
              | .ok (.moved s) => g.parseLoop tb resets k s input) := by
      intro tok st1 b1 input hP1 hmem1 hin
      cases tok.types with
      | none => rfl
      | some tys =>
        simp only
        cases g.parseAdvance tb resets { s with next := none } tok tys with
        | error e => rfl
        | ok r =>
          cases r with
          | no => rfl
          | accepted =>
            cases s.matched with
            | nil => rfl
            | cons x xs =>
              cases x with
              | leaf _ => rfl
              | node p cs => exact ⟨rfl, rfl, hmem1⟩
          | moved s1 =>
            simp only
            obtain ⟨m1, hm1, rfl⟩ := hin
            obtain ⟨c, hc⟩ := noteConsumed_cp (hasRule := hasRule) s1 b1
            rw [hc]
            have := parseFrom_toks P hP k m1 s1 src st1 (b1.cp c) ((hP st1 b1 hP1).2.1 c) hm1
            rw [scanToks_cp] at this
            rw [← hmem1]
            exact this
    cases hn : s.next with
    | some tok =>
      simp only [hn, getNextSymbol]
      have := key tok st b (L.scanToks (m + 1) st b) h rfl ⟨m + 1, by omega, rfl⟩
      exact this
    | none =>
      simp only [hn, getNextSymbol, hscan, Lexer.scanToks]
      exact key t st' b' (L.scanToks m st' b') hP' hmem ⟨m, by omega, rfl⟩

end Loop

/-- More input does no harm. -/
theorem parseLoop_append {g : Grammar} {tb : Grammar.Table} {resets : Nat → Bool} (more : List Token) : ∀ (k : Nat) (s : PState) (input : List Token)
    (t : Tree) (rest : List Token) (kids : Nat), g.parseLoop tb resets k s input = .ok (t, rest, kids) →
    g.parseLoop tb resets k s (input ++ more) = .ok (t, rest ++ more, kids)
  | 0, _, _, _, _, _, h => by cases h
  | k + 1, s, input, t, rest, kids, h => by
    rw [Grammar.parseLoop.eq_def] at h ⊢
    have key : ∀ (tok : Token) (inp : List Token),
        (match tok.types with
            | none => .error .ub
            | some tys =>
              match g.parseAdvance tb resets { s with next := none } tok tys with
              | .error e => .error e
              | .ok .no => .error .throws
              | .ok .accepted =>
                match s.matched with
                | [] => .error .ub
                | .leaf _ :: _ => .error .throws
                | t :: _ => .ok (t, inp, s.kids)
              | .ok (.moved s) => g.parseLoop tb resets k s inp) = Except.ok (t, rest, kids) →
        (match tok.types with
            | none => .error .ub
            | some tys =>
              match g.parseAdvance tb resets { s with next := none } tok tys with
              | .error e => .error e
              | .ok .no => .error .throws
              | .ok .accepted =>
                match s.matched with
                | [] => .error .ub
                | .leaf _ :: _ => .error .throws
                | t :: _ => .ok (t, inp ++ more, s.kids)
              | .ok (.moved s) => g.parseLoop tb resets k s (inp ++ more)) = Except.ok (t, rest ++ more, kids) := by
      intro tok inp h
      cases hty : tok.types with
      | none => rw [hty] at h; cases h
      | some tys =>
        rw [hty] at h
        simp only at h ⊢
        cases hadv : g.parseAdvance tb resets { s with next := none } tok tys with
        | error e => rw [hadv] at h; cases h
        | ok r =>
          rw [hadv] at h
          cases r with
          | no => cases h
          | accepted =>
            simp only at h ⊢
            cases hm : s.matched with
            | nil => rw [hm] at h; cases h
            | cons x xs =>
              rw [hm] at h
              cases x with
              | leaf _ => cases h
              | node p cs => cases h; rfl
          | moved s1 => exact parseLoop_append more k s1 inp t rest kids h
    cases hn : s.next with
    | some tok =>
      simp only [hn] at h ⊢
      exact key tok input h
    | none =>
      simp only [hn] at h ⊢
      cases input with
      | nil => cases h
      | cons x xs => exact key x xs h

end LogSurgeon
