import Verif.Proofs.Viable
import Verif.Proofs.LexLine
import Verif.Proofs.SchemaReject
import Verif.Spec.ErrorMessage
/-
Where the parser of schema files stops, and what it reports.
-/
namespace LogSurgeon
open Grammar

/-! ### More input, more steps -/

section
variable {g : Grammar} {tb : Table} {resets : Nat → Bool}

theorem pull_append {o : Option Token} {inp inp' : List Token} {tok : Token} (h : pull o inp = some (tok, inp')) (more : List Token) :
    pull o (inp ++ more) = some (tok, inp' ++ more) := by
  cases o with
  | some t => cases h; rfl
  | none =>
    cases inp with
    | nil => cases h
    | cons x xs => cases h; rfl

theorem stopLoop_append (more : List Token) : ∀ (k : Nat) (s : PState) (inp : List Token) (s' : PState) (tok : Token) (rest : List Token),
    g.stopLoop tb resets k s inp = .ok (.rejected s' tok rest) → g.stopLoop tb resets k s (inp ++ more) = .ok (.rejected s' tok (rest ++ more))
  | 0, _, _, _, _, _, h => by cases h
  | k + 1, s, inp, s', tok, rest, h => by
    rw [stopLoop_succ] at h ⊢
    cases hp : pull s.next inp with
    | none => rw [hp] at h; cases h
    | some x =>
      obtain ⟨t, inp'⟩ := x
      rw [hp] at h
      rw [pull_append hp]
      simp only at h ⊢
      cases hty : t.types with
      | none => rw [hty] at h; cases h
      | some tys =>
        rw [hty] at h
        simp only at h ⊢
        cases hadv : g.parseAdvance tb resets { s with next := none } t tys with
        | error e => rw [hadv] at h; cases h
        | ok r =>
          rw [hadv] at h
          cases r with
          | no => cases h; rfl
          | accepted =>
            simp only at h
            cases hm : s.matched with
            | nil => rw [hm] at h; cases h
            | cons x xs =>
              rw [hm] at h
              cases x <;> cases h
          | moved s1 => exact stopLoop_append more k s1 inp' s' tok rest h

theorem stopLoop_mono : ∀ (k : Nat) (s : PState) (inp : List Token) (r : TokStop), g.stopLoop tb resets k s inp = .ok r →
    ∀ k', k ≤ k' → g.stopLoop tb resets k' s inp = .ok r
  | 0, _, _, _, h, _, _ => by cases h
  | k + 1, s, inp, r, h, k', hk => by
    obtain ⟨k', rfl⟩ : ∃ j, k' = j + 1 := ⟨k' - 1, by omega⟩
    rw [stopLoop_succ] at h ⊢
    cases hp : pull s.next inp with
    | none => rw [hp] at h; cases h
    | some x =>
      obtain ⟨t, inp'⟩ := x
      rw [hp] at h
      simp only at h ⊢
      cases hty : t.types with
      | none => rw [hty] at h; cases h
      | some tys =>
        rw [hty] at h
        simp only at h ⊢
        cases hadv : g.parseAdvance tb resets { s with next := none } t tys with
        | error e => rw [hadv] at h; cases h
        | ok r' =>
          rw [hadv] at h
          cases r' with
          | no => exact h
          | accepted => exact h
          | moved s1 => exact stopLoop_mono k s1 inp' r h k' (by omega)

end

/-! ### The loop and the tokens -/

section Loop
variable {σ : Type} {L : Lexer} {g : Grammar} {tb : Grammar.Table} {resets hasRule : Nat → Bool} {rd : σ → Nat → σ × InBuf.ReadRes}

/-- What the two loops return; `P j` holds after `j` tokens were taken. -/
def SameStop (L : Lexer) (P : Nat → LexState → InBuf → Prop) (m : Mem) (total : Nat) : Except Fail Stop → Except Fail TokStop → Prop
  | .ok (.accepted t k b), .ok (.accepted t' _ k') => t = t' ∧ k = k' ∧ b.mem = m
  | .ok (.rejected s tok st b), .ok (.rejected s' tok' rest) =>
    s = s' ∧ tok = tok' ∧ b.mem = m ∧ ∃ j n, P j st b ∧ n + j = total ∧ rest = L.scanToks n st b
  | .error e, .error e' => e = e'
  | _, _ => False

theorem stopFrom_toks (P : Nat → LexState → InBuf → Prop)
    (hP : ∀ i st b, P i st b → b.finished = true ∧ (∀ c, P i st (b.cp c)) ∧ ∃ st' b' t, L.scan st b = (st', b', .ok t) ∧ P (i + 1) st' b' ∧ b'.mem = b.mem) :
    ∀ (k m i : Nat) (s : PState) (src : σ) (st : LexState) (b : InBuf), P i st b → k ≤ m →
    SameStop L P b.mem (m + i) (stopFrom L g tb resets hasRule rd k s src st b) (g.stopLoop tb resets k s (L.scanToks m st b))
  | 0, m, i, s, src, st, b, _, _ => rfl
  | k + 1, m, i, s, src, st, b, h, hm => by
    obtain ⟨hf, hcp, st', b', t, hscan, hP', hmem⟩ := hP i st b h
    rw [stopFrom, Grammar.stopLoop.eq_def, readIfSafe_fin hf]
    have key : ∀ (tok : Token) (st1 : LexState) (b1 : InBuf) (input : List Token) (i1 m1 : Nat), P i1 st1 b1 → b1.mem = b.mem →
        m1 + i1 = m + i → k ≤ m1 → input = L.scanToks m1 st1 b1 →
        SameStop L P b.mem (m + i)
          (match tok.types with
            | none => .error .ub
            | some tys =>
              match g.parseAdvance tb resets { s with next := none } tok tys with
              | .error e => .error e
              | .ok .no => .ok (.rejected { s with next := none } tok st1 b1)
              | .ok .accepted =>
                match s.matched with
                | [] => .error .ub
                | .leaf _ :: _ => .error .throws
                | t :: _ => .ok (.accepted t s.kids b1)
              | .ok (.moved s) => stopFrom L g tb resets hasRule rd k s src st1 (noteConsumed hasRule s b1))
          (match tok.types with
            | none => .error .ub
            | some tys =>
              match g.parseAdvance tb resets { s with next := none } tok tys with
              | .error e => .error e
              | .ok .no => .ok (.rejected { s with next := none } tok input)
              | .ok .accepted =>
                match s.matched with
                | [] => .error .ub
                | .leaf _ :: _ => .error .throws
                | t :: _ => .ok (.accepted t input s.kids)
              | .ok (.moved s) => g.stopLoop tb resets k s input) := by
      intro tok st1 b1 input i1 m1 hP1 hmem1 hsum hkm hin
      cases tok.types with
      | none => rfl
      | some tys =>
        simp only
        cases g.parseAdvance tb resets { s with next := none } tok tys with
        | error e => rfl
        | ok r =>
          cases r with
          | no => exact ⟨rfl, rfl, hmem1, i1, m1, hP1, hsum, hin⟩
          | accepted =>
            cases s.matched with
            | nil => rfl
            | cons x xs =>
              cases x with
              | leaf _ => rfl
              | node p cs => exact ⟨rfl, rfl, hmem1⟩
          | moved s1 =>
            simp only
            subst hin
            obtain ⟨c, hc⟩ := noteConsumed_cp (hasRule := hasRule) s1 b1
            rw [hc]
            have := stopFrom_toks P hP k m1 i1 s1 src st1 (b1.cp c) ((hP i1 st1 b1 hP1).2.1 c) hkm
            rw [scanToks_cp, hsum] at this
            rw [← hmem1]
            exact this
    cases hn : s.next with
    | some tok =>
      simp only [hn, getNextSymbol]
      exact key tok st b _ i m h rfl rfl (by omega) rfl
    | none =>
      obtain ⟨m, rfl⟩ : ∃ m', m = m' + 1 := ⟨m - 1, by omega⟩
      simp only [hn, getNextSymbol, hscan, Lexer.scanToks]
      exact key t st' b' (L.scanToks m st' b') (i + 1) m hP' hmem (by omega) (by omega) rfl

theorem scanToks_nth (P : Nat → LexState → InBuf → Prop)
    (hP : ∀ i st b, P i st b → b.finished = true ∧ (∀ c, P i st (b.cp c)) ∧ ∃ st' b' t, L.scan st b = (st', b', .ok t) ∧ P (i + 1) st' b' ∧ b'.mem = b.mem) :
    ∀ (n i : Nat) (st : LexState) (b : InBuf), P i st b → (L.scanToks n st b).length = n ∧
      ∀ (j : Nat) (t : Token), (L.scanToks n st b)[j]? = some t → ∃ st1 b1 st2 b2, P (i + j) st1 b1 ∧ b1.mem = b.mem ∧ L.scan st1 b1 = (st2, b2, .ok t)
  | 0, i, st, b, h => ⟨rfl, fun j t ht => by simp [Lexer.scanToks] at ht⟩
  | n + 1, i, st, b, h => by
    obtain ⟨_, _, st', b', t', hscan, hP', hmem⟩ := hP i st b h
    obtain ⟨h1, h2⟩ := scanToks_nth P hP n (i + 1) st' b' hP'
    rw [Lexer.scanToks, hscan]
    simp only
    refine ⟨by simp [h1], fun j t ht => ?_⟩
    cases j with
    | zero =>
      simp only [List.getElem?_cons_zero, Option.some.injEq] at ht
      subst ht
      exact ⟨st, b, st', b', h, rfl, hscan⟩
    | succ j =>
      rw [List.getElem?_cons_succ] at ht
      obtain ⟨st1, b1, st2, b2, e1, e2, e3⟩ := h2 j t ht
      exact ⟨st1, b1, st2, b2, by rw [show i + (j + 1) = i + 1 + j by omega]; exact e1, by rw [e2, hmem], e3⟩

end Loop

/-! ### Texts -/

theorem lineBefore_append_free {u v : List Nat} (h : ∀ x ∈ v, endsLine x = false) : lineBefore (u ++ v) = lineBefore u ++ v := by
  unfold lineBefore
  rw [List.reverse_append, List.takeWhile_append_of_pos (by intro x hx; simp [h x (List.mem_reverse.mp hx)])]
  simp

theorem lineBefore_stop {u : List Nat} {c : Nat} (hc : endsLine c = true) : lineBefore (u ++ [c]) = [] := by
  simp [lineBefore, hc]

/-- The unit is a newline or a carriage return. -/
def Lexeme.ends (l : Lexeme) : Bool := l == .char 10 || l == .char 13

theorem ends_free {l : Lexeme} (h : l.ends = false) : ∀ x ∈ l.text, endsLine x = false := by
  cases l with
  | char c =>
    intro x hx
    simp only [Lexeme.text, List.mem_singleton] at hx
    subst hx
    simpa [Lexeme.ends, endsLine] using h
  | delimiters => decide

theorem ends_text {l : Lexeme} : l.ends = true ↔ l.text = [13] ∨ l.text = [10] := by
  cases l with
  | char c => simp [Lexeme.ends, Lexeme.text]; omega
  | delimiters => decide

theorem ends_has {l : Lexeme} : hasNewline l.text = l.ends := by
  cases l with
  | char c =>
    simp only [hasNewline, Lexeme.text, Lexeme.ends]
    by_cases h1 : c = 10
    · subst h1; rfl
    · by_cases h2 : c = 13
      · subst h2; rfl
      · have e1 : ¬ (10 = c) := fun h => h1 h.symm
        have e2 : ¬ (13 = c) := fun h => h2 h.symm
        simp [h1, h2, e1, e2]
  | delimiters => rfl

/-! ### What was read of the line -/

/-- The tokens of a tree, from left to right. -/
def Tree.leaves : Tree → List Token
  | .leaf t => [t]
  | .node _ cs => all cs
where
  /-- The same for several trees. -/
  all : List Tree → List Token
    | [] => []
    | t :: ts => t.leaves ++ all ts

/-- The number of nodes. -/
def Tree.nodes : Tree → Nat
  | .leaf _ => 1
  | .node _ cs => 1 + all cs
where
  /-- The same for several trees. -/
  all : List Tree → Nat
    | [] => 0
    | t :: ts => t.nodes + all ts

theorem leaves_append (a b : List Tree) : Tree.leaves.all (a ++ b) = Tree.leaves.all a ++ Tree.leaves.all b := by
  induction a with
  | nil => rfl
  | cons x xs ih => simp [Tree.leaves.all, ih]

theorem nodes_append (a b : List Tree) : Tree.nodes.all (a ++ b) = Tree.nodes.all a + Tree.nodes.all b := by
  induction a with
  | nil => simp [Tree.nodes.all]
  | cons x xs ih => simp [Tree.nodes.all, ih, Nat.add_assoc]

theorem nodes_reverse (a : List Tree) : Tree.nodes.all a.reverse = Tree.nodes.all a := by
  induction a with
  | nil => rfl
  | cons x xs ih => simp [nodes_append, Tree.nodes.all, ih, Nat.add_comm]

theorem forest_leaves {g : Grammar} {ss : List Nat} {ts : List Tree} {w : List Token} (h : Forest g ss ts w) : Tree.leaves.all ts = w := by
  induction h with
  | nil => rfl
  | tok _ _ _ ih => simp [Tree.leaves.all, Tree.leaves, ih]
  | prod _ _ _ ih1 ih2 => simp [Tree.leaves.all, Tree.leaves, ih1, ih2]

theorem forall₂_split {α β} {R : α → β → Prop} : ∀ {a a' : List α} {l : List β}, List.Forall₂ R (a ++ a') l →
    ∃ b b', List.Forall₂ R a b ∧ List.Forall₂ R a' b' ∧ l = b ++ b'
  | [], _, _, h => ⟨[], _, .nil, h, rfl⟩
  | _ :: _, _, _, h => by
    cases h with
    | cons h1 h2 =>
      obtain ⟨b, b', e1, e2, rfl⟩ := forall₂_split h2
      exact ⟨_ :: b, b', .cons h1 e1, e2, rfl⟩

/-- `get_input_after_last_newline` gives the part of the line before the token. -/
theorem afterLastNewline_spec (text : Token → List Nat) : ∀ (k : Nat) (ts : List Tree) (acc : List Nat) (ls : List Lexeme), Tree.nodes.all ts ≤ k →
    List.Forall₂ (fun t l => text t = Lexeme.text l) (Tree.leaves.all ts.reverse) ls →
    afterLastNewline text k ts acc = .ok (lineBefore (textOf ls) ++ acc)
  | k, [], acc, ls, _, h => by
    cases h
    cases k <;> rfl
  | 0, t :: ts, acc, ls, hk, _ => by
    cases t <;> simp [Tree.nodes.all, Tree.nodes] at hk
  | k + 1, .leaf t :: ts, acc, ls, hk, h => by
    rw [List.reverse_cons, leaves_append] at h
    obtain ⟨ls', l', h1, h2, rfl⟩ : ∃ ls' l', List.Forall₂ (fun t l => text t = Lexeme.text l) (Tree.leaves.all ts.reverse) ls' ∧
        text t = Lexeme.text l' ∧ ls = ls' ++ [l'] := by
      obtain ⟨a, b, h1, h2, rfl⟩ := forall₂_split h
      simp only [Tree.leaves.all, Tree.leaves, List.append_nil] at h2
      cases h2 with
      | cons h3 h4 => cases h4; exact ⟨a, _, h1, h3, rfl⟩
    rw [afterLastNewline, textOf_append]
    have ht : textOf [l'] = l'.text := by simp [textOf]
    rw [ht, h2]
    simp only [Tree.nodes.all, Tree.nodes] at hk
    by_cases he : l'.ends = true
    · rw [if_pos (ends_text.mp he)]
      have : ∃ c, l'.text = [c] ∧ endsLine c = true := by
        rcases ends_text.mp he with e | e <;> exact ⟨_, e, rfl⟩
      obtain ⟨c, e, hc⟩ := this
      rw [e, lineBefore_stop hc]; rfl
    · rw [if_neg (fun h => he (ends_text.mpr h)), afterLastNewline_spec text k ts _ ls' (by omega) h1,
        lineBefore_append_free (ends_free (by simpa using he)), List.append_assoc]
  | k + 1, .node p cs :: ts, acc, ls, hk, h => by
    rw [afterLastNewline]
    refine afterLastNewline_spec text k _ acc ls ?_ ?_
    · rw [nodes_append, nodes_reverse]
      simp only [Tree.nodes.all, Tree.nodes] at hk
      omega
    · rw [List.reverse_append, List.reverse_reverse, leaves_append]
      rw [List.reverse_cons, leaves_append] at h
      simpa [Tree.leaves.all, Tree.leaves] using h

/-! ### The units one after the other -/

/-- The lexer has delivered `i` units (or all of them and end tokens). -/
def AtUnit (L : Lexer) (w : List Nat) (i : Nat) (st : LexState) (b : InBuf) : Prop :=
  ∃ p, p ≤ w.length ∧ Ready L w st b p ∧ st.line = nlCount w p ∧ lexemes (w.drop p) = (lexemes w).drop i ∧ w.take p = textOf ((lexemes w).take i)

/-- What is known about a token. -/
structure UnitTok (L : Lexer) (w : List Nat) (m : Mem) (i : Nat) (t : Token) : Prop where
  unit : ∀ l, (lexemes w)[i]? = some l → t.types = some (L.dfa.idsOn l.text) ∧ tokenText m t = l.text ∧ AllBytes l.text ∧
    t.line = (textOf ((lexemes w).take (i + 1))).count newline
  fin : (lexemes w)[i]? = none → t.types = some [tokenEnd] ∧ tokenText m t = [] ∧ t.line = w.count newline

section
variable {sc : List (Nat × String)} (hsc : sc.Perm schemaSpecialChars) {L : Lexer} (hL : SchemaLexOk L (schemaGrammar (sc.map (·.2))))
  {w : List Nat} (hb : AllBytes w)
include hsc hL hb

theorem atUnit_scan {i : Nat} {st : LexState} {b : InBuf} (h : AtUnit L w i st b) :
    ∃ st' b' t, L.scan st b = (st', b', .ok t) ∧ AtUnit L w (i + 1) st' b' ∧ b'.mem = b.mem ∧ UnitTok L w b.mem i t := by
  obtain ⟨p, hp, hr, hl, hlex, htext⟩ := h
  have hone : ∀ c ∈ w, L.dfa.idsOn [c] ≠ [] := fun c hc =>
    (ids_nonempty hsc hL (u := [c]) (fun x hx => by rw [List.mem_singleton.mp hx]; exact hb c hc)).mpr (.inl ⟨c, rfl⟩)
  have hline := scan_line hL.delims hone hr hp hl
  cases hscan : L.scan st b with
  | mk st' x =>
    obtain ⟨b', r⟩ := x
    rw [hscan] at hline
    obtain ⟨hl1, hl2⟩ := hline
    simp only at hl1 hl2
    obtain ⟨⟨pos', c', hb'⟩, ⟨he, h1, t, l, h2, h3⟩ | ⟨l, t, h2, h3, h4, h5, h6, line, h7⟩⟩ := scan_unit hsc hL hb hr hp hscan
    · subst h2
      subst he
      have hend : (lexemes w).length ≤ i := by
        rw [List.drop_length] at hlex
        exact List.drop_eq_nil_iff.mp hlex.symm
      refine ⟨st', b', t, rfl, ⟨w.length, hp, h1, by rw [hl1, h1.at'.pos], ?_, ?_⟩, by rw [hb'], fun l hl => ?_, fun _ => ⟨h3.types, ?_, ?_⟩⟩
      · rw [hlex, List.drop_eq_nil_of_le hend, List.drop_eq_nil_of_le (by omega)]
      · rw [htext, List.take_of_length_le hend, List.take_of_length_le (by omega)]
      · rw [List.getElem?_eq_none hend] at hl; cases hl
      · rw [tokenText_slice hr.view h3 (Nat.le_refl _) hp]
        simp [slice]
      · rw [hl2 t rfl, h3.stop]; simp [nlCount]
    · subst h2
      rw [hlex] at h4
      have hi : i < (lexemes w).length := by
        refine Decidable.byContradiction fun hn => ?_
        rw [List.drop_eq_nil_of_le (by omega)] at h4
        cases h4
      rw [List.drop_eq_getElem_cons hi] at h4
      simp only [List.cons.injEq] at h4
      obtain ⟨h4, h8⟩ := h4
      have htake : w.take (p + l.text.length) = textOf ((lexemes w).take (i + 1)) := by
        rw [List.take_add, htext, List.take_add_one, List.getElem?_eq_getElem hi, h4, textOf_append]
        congr 1
        rw [← h5]
        simp [slice, textOf]
        rw [← h5]; simp [slice]
      refine ⟨st', b', t, rfl, ⟨p + l.text.length, h3, h6, by rw [hl1, h6.at'.pos], h8.symm, htake⟩, by rw [hb'], fun l' hl' => ?_, fun hn => ?_⟩
      · rw [List.getElem?_eq_getElem hi, h4] at hl'
        cases hl'
        refine ⟨h7.types, ?_, ?_, ?_⟩
        · rw [tokenText_slice hr.view h7 (by omega) h3, h5]
        · rw [← h5]; exact allBytes_slice hb _ _
        · rw [hl2 t rfl, h7.stop, nlCount, htake]
      · rw [List.getElem?_eq_getElem hi] at hn; cases hn

theorem atUnit_step (i : Nat) (st : LexState) (b : InBuf) (h : AtUnit L w i st b) :
    b.finished = true ∧ (∀ c, AtUnit L w i st (b.cp c)) ∧ ∃ st' b' t, L.scan st b = (st', b', .ok t) ∧ AtUnit L w (i + 1) st' b' ∧ b'.mem = b.mem := by
  refine ⟨?_, fun c => ?_, ?_⟩
  · obtain ⟨p, _, hr, _⟩ := h
    exact hr.view.finished
  · obtain ⟨p, hp, hr, hl⟩ := h
    exact ⟨p, hp, hr.consumedPos c, hl⟩
  · obtain ⟨st', b', t, h1, h2, h3, _⟩ := atUnit_scan hsc hL hb h
    exact ⟨st', b', t, h1, h2, h3⟩

/-- The type of a unit is not the end of the input. -/
theorem unit_isEnd {l : Lexeme} (hl : AllBytes l.text) {t : Token} (ht : t.types = some (L.dfa.idsOn l.text)) : isEnd t = some false := by
  have hne : L.dfa.idsOn l.text ≠ [] := by
    refine (ids_nonempty hsc hL hl).mpr ?_
    cases l with
    | char c => exact .inl ⟨c, rfl⟩
    | delimiters => exact .inr rfl
  obtain ⟨v, vs, hv⟩ := List.exists_cons_of_ne_nil hne
  unfold isEnd
  rw [ht, hv]
  simp only [Option.bind_some, List.head?_cons, Option.map_some, Option.some.injEq, beq_eq_false_iff_ne, ne_eq]
  intro he
  subst he
  obtain ⟨s, x, h1, h2, h3⟩ := (hL.ids _ hl tokenEnd).mp (by rw [hv]; simp)
  have := schema_names (perm_names hsc) h2 (schema_end _)
  subst this
  have : ∀ y ∈ lexSpec, y.1 ≠ "$end" := by decide
  exact this _ h1 rfl

/-- `get_input_until_next_newline` after a unit that is no line end. -/
theorem untilNewline_spec : ∀ (k i : Nat) (st : LexState) (b : InBuf) (acc : List Nat), AtUnit L w i st b → (lexemes w).length - i + 1 ≤ k →
    untilNewline L k st b acc = .ok (acc ++ lineAfter (textOf ((lexemes w).drop i)))
  | 0, i, st, b, acc, _, hk => by omega
  | k + 1, i, st, b, acc, h, hk => by
    obtain ⟨st', b', t, h1, h2, h3, h4⟩ := atUnit_scan hsc hL hb h
    rw [untilNewline]
    simp only [getNextSymbol, h1]
    rw [h3]
    by_cases hi : i < (lexemes w).length
    · obtain ⟨l, hl⟩ : ∃ l, (lexemes w)[i]? = some l := ⟨_, List.getElem?_eq_getElem hi⟩
      obtain ⟨u1, u2, u3, _⟩ := h4.unit l hl
      have hd : (lexemes w).drop i = l :: (lexemes w).drop (i + 1) := by
        rw [List.drop_eq_getElem_cons hi]
        rw [List.getElem?_eq_getElem hi] at hl
        cases hl; rfl
      rw [u2, ends_has, unit_isEnd hsc hL hb u3 u1, hd]
      have htx : textOf (l :: (lexemes w).drop (i + 1)) = l.text ++ textOf ((lexemes w).drop (i + 1)) := by simp [textOf]
      rw [htx]
      by_cases he : l.ends = true
      · rw [if_pos he]
        have : ∃ c, l.text = [c] ∧ endsLine c = true := by
          rcases ends_text.mp he with e | e <;> exact ⟨_, e, rfl⟩
        obtain ⟨c, e, hc⟩ := this
        rw [e]
        simp [lineAfter, hc]
      · rw [if_neg he]
        simp only
        rw [untilNewline_spec k (i + 1) st' b' _ h2 (by omega), List.append_assoc]
        congr 2
        unfold lineAfter
        rw [List.takeWhile_append_of_pos]
        intro x hx
        simp [ends_free (by simpa using he) x hx]
    · obtain ⟨u1, u2, _⟩ := h4.fin (List.getElem?_eq_none (by omega))
      rw [u2]
      have : isEnd t = some true := by unfold isEnd; rw [u1]; rfl
      rw [this, List.drop_eq_nil_of_le (by omega)]
      rfl

end

/-! ### The message -/

theorem shown_unescape (c : Nat) : unescape c = shown c := by
  unfold unescape shown
  split
  · rfl
  · split
    · rename_i h; subst h; rfl
    · split
      · rename_i h; subst h; rfl
      · split
        · rename_i h; subst h; rfl
        · split
          · rename_i h; subst h; rfl
          · rename_i h1 h2 h3 h4 h5
            simp [h2, h3, h4, h5]

theorem quoted_dropLast : ∀ (xs : List (List Nat)), xs ≠ [] → (xs.flatMap fun x => [39] ++ x ++ [39, 44]).dropLast = quotedList xs
  | [], h => absurd rfl h
  | [x], _ => by
    simp only [List.flatMap_cons, List.flatMap_nil, List.append_nil, quotedList]
    rw [show ([39] ++ x ++ [39, 44] : List Nat) = ([39] ++ x ++ [39]) ++ [44] by simp, List.dropLast_concat]
    rfl
  | x :: y :: xs, _ => by
    have ih := quoted_dropLast (y :: xs) (by simp)
    rw [List.flatMap_cons, List.dropLast_append_of_ne_nil (by simp), ih]
    rfl

theorem expected_dropLast (xs : List (List Nat)) : (plainText "expected " ++ xs.flatMap fun x => [39] ++ x ++ [39, 44]).dropLast = expectedPhrase xs := by
  cases xs with
  | nil => rfl
  | cons x xs =>
    rw [List.dropLast_append_of_ne_nil (by simp), quoted_dropLast _ (by simp)]
    rfl

theorem flatMap_filterMap {α β} (f : Nat → Option α) (h : α → List β) (l : List Nat) :
    (l.flatMap fun i => match f i with | some x => h x | none => []) = (l.filterMap f).flatMap h := by
  induction l with
  | nil => rfl
  | cons i l ih =>
    rw [List.flatMap_cons, ih, List.filterMap_cons]
    cases f i <;> rfl

theorem expectedText_names (rules : List (Nat × Regex)) (g : Grammar) (acts : List Grammar.Action) :
    ∃ names : List (List Nat), (expectedText rules g acts = names.flatMap fun x => [39] ++ x ++ [39, 44]) ∧
      ∀ n ∈ names, ∃ (i : Nat) (a : Grammar.Action), acts[i]? = some a ∧ (∀ b, a ≠ .flag b) ∧ n = symbolText rules g i := by
  refine ⟨(List.range acts.length).filterMap fun (i : Nat) => match acts[i]? with
    | some (.shift _) => some (symbolText rules g i)
    | some (.reduce _) => some (symbolText rules g i)
    | _ => none, ?_, ?_⟩
  case refine_2 =>
    intro n hn
    obtain ⟨i, _, hi⟩ := List.mem_filterMap.mp hn
    cases h : acts[i]? with
    | none => rw [h] at hi; cases hi
    | some a =>
      rw [h] at hi
      cases a with
      | flag b => cases hi
      | shift x => exact ⟨i, _, h, by simp, (Option.some.inj hi).symm⟩
      | reduce p => exact ⟨i, _, h, by simp, (Option.some.inj hi).symm⟩
  rw [← flatMap_filterMap]
  unfold expectedText
  congr 1
  funext i
  cases acts[i]? with
  | none => rfl
  | some a => cases a <;> rfl

/-- `report_error`, in terms of what was consumed, the token, and the rest of the line. -/
theorem reportError_eq {L : Lexer} {rules : List (Nat × Regex)} {g : Grammar} {tb : Table} {fuel : Nat} {s : PState} {tok : Token} {st : LexState} {b : InBuf}
    {consumed rest : List Nat} {e : Bool} {q : Nat} {qs : List (Option Nat)} {acts : List Grammar.Action}
    (h1 : afterLastNewline (tokenText b.mem) fuel s.matched [] = .ok consumed) (h2 : restOfLine L fuel tok st b = .ok rest)
    (h3 : isEnd tok = some e) (h4 : s.states = some q :: qs) (h5 : tb.actions.lookup q = some acts)
    {names : List (List Nat)} (hn : expectedText rules g acts = names.flatMap fun x => [39] ++ x ++ [39, 44]) :
    (e = true ∧ consumed = [] → reportError L rules g tb fuel s tok st b =
        .ok (messageHead (tok.line + 1) 1 ++ asciiBytes "empty file\n" ++ asciiBytes "          " ++ tokenText b.mem tok ++ rest ++ asciiBytes "^\n")) ∧
      (¬ (e = true ∧ consumed = []) → reportError L rules g tb fuel s tok st b =
        .ok (messageHead (tok.line + 1) (consumed.length + 1) ++ expectedPhrase names ++ asciiBytes " before '" ++ shown ((tokenText b.mem tok).headD 0) ++
          asciiBytes "' token\n" ++ asciiBytes "          " ++ consumed ++ tokenText b.mem tok ++ rest ++ List.replicate (consumed.length + 10) 32 ++ asciiBytes "^\n")) := by
  refine ⟨?_, ?_⟩
  · rintro ⟨rfl, rfl⟩
    unfold reportError
    rw [h1]
    simp only [bind, Except.bind, h2, h3]
    rw [if_pos (by simp)]
    simp only [messageHead, List.append_assoc, List.length_nil, Nat.zero_add]
    rfl
  · intro hne
    unfold reportError
    rw [h1]
    simp only [bind, Except.bind, h2, h3, h4, h5]
    rw [if_neg (by simpa using hne), hn, expected_dropLast, shown_unescape]
    simp only [messageHead, List.append_assoc]
    rfl

theorem textOf_lexemes : ∀ (n : Nat) (w : List Nat), w.length ≤ n → textOf (lexemes w) = w
  | _, [], _ => rfl
  | 0, c :: r, h => by simp at h
  | n + 1, c :: r, h => by
    obtain ⟨l, h1, h2, h3, _⟩ := lexemes_cons c r
    rw [h1, textOf_cons, textOf_lexemes n _ (by simp at h ⊢; omega)]
    conv => lhs; arg 1; rw [← h2]
    exact List.take_append_drop _ _

end LogSurgeon
