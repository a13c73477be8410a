import Verif.Proofs.SchemaMachine
import Verif.Proofs.ErrorReport
import Verif.Proofs.LalrSound
/-
The machine that applies the semantic rules at each reduction and the parser that evaluates the trees at the end.
-/
namespace LogSurgeon
open Grammar

section
variable {ruleOf : Nat → Option SemRule} {text : Token → List Nat}

theorem evals_append_ok {a b : List Tree} : ∀ {k : Nat} {vs : List SemChild} {k' : Nat}, Tree.eval.evals ruleOf text a k = .ok (vs, k') →
    Tree.eval.evals ruleOf text (a ++ b) k = (match Tree.eval.evals ruleOf text b k' with
      | .error e => .error e
      | .ok (ws, k'') => .ok (vs ++ ws, k'') : Except Fail (List SemChild × Nat)) := by
  induction a with
  | nil =>
    intro k vs k' h
    cases h
    rw [List.nil_append]
    cases Tree.eval.evals ruleOf text b k with
    | error e => rfl
    | ok x => rfl
  | cons t a ih =>
    intro k vs k' h
    rw [List.cons_append]
    rw [Tree.eval.evals] at h ⊢
    cases ht : t.eval ruleOf text k with
    | error e => rw [ht] at h; cases h
    | ok x =>
      obtain ⟨v, k1⟩ := x
      rw [ht] at h
      simp only at h ⊢
      cases ha : Tree.eval.evals ruleOf text a k1 with
      | error e => rw [ha] at h; cases h
      | ok x =>
        obtain ⟨us, k2⟩ := x
        rw [ha] at h
        cases h
        rw [ih ha]
        cases Tree.eval.evals ruleOf text b k' with
        | error e => rfl
        | ok x => rfl

theorem evals_append_error {a b : List Tree} : ∀ {k : Nat} {e : Fail}, Tree.eval.evals ruleOf text a k = .error e →
    Tree.eval.evals ruleOf text (a ++ b) k = .error e := by
  induction a with
  | nil => intro k e h; cases h
  | cons t a ih =>
    intro k e h
    rw [List.cons_append]
    rw [Tree.eval.evals] at h ⊢
    cases ht : t.eval ruleOf text k with
    | error e => rw [ht] at h; exact h
    | ok x =>
      obtain ⟨v, k1⟩ := x
      rw [ht] at h
      simp only at h ⊢
      cases ha : Tree.eval.evals ruleOf text a k1 with
      | error e' => rw [ha] at h; cases h; rw [ih ha]
      | ok x => rw [ha] at h; cases h

/-- The same symbol. -/
inductive SymKind : Tree → Matched → Prop
  | leaf (t : Token) : SymKind (.leaf t) (.tok t)
  | node (p : Nat) (cs : List Tree) (a : Nat) (v : SemVal) (n : Nat) : SymKind (.node p cs) (.nt a p v n)

/-- The stack of the machine (tops first) has the values of the trees on the stack of the parser. -/
inductive Vals (ruleOf : Nat → Option SemRule) (text : Token → List Nat) : List Tree → List Matched → Prop
  | nil : Vals ruleOf text [] []
  | cons {t m ts ms} : Vals ruleOf text ts ms →
      t.eval ruleOf text ((ms.map (Matched.len text)).sum) = .ok (m.child text, (ms.map (Matched.len text)).sum + m.len text) → SymKind t m →
      Vals ruleOf text (t :: ts) (m :: ms)

theorem Vals.length {ts ms} (h : Vals ruleOf text ts ms) : ms.length = ts.length := by
  induction h with
  | nil => rfl
  | cons _ _ _ ih => simp [ih]

theorem Vals.drop {ts ms} (h : Vals ruleOf text ts ms) : ∀ n, Vals ruleOf text (ts.drop n) (ms.drop n) := by
  induction h with
  | nil => intro n; simpa using .nil
  | cons h1 h2 h3 ih =>
    intro n
    cases n with
    | zero => exact .cons h1 h2 h3
    | succ n => exact ih n

theorem Vals.take {ts ms} (h : Vals ruleOf text ts ms) : ∀ n, n ≤ ts.length →
    Tree.eval.evals ruleOf text (ts.take n).reverse (((ms.drop n).map (Matched.len text)).sum) =
      .ok ((ms.take n).reverse.map (Matched.child text), (ms.map (Matched.len text)).sum) := by
  induction h with
  | nil => intro n _; simp [Tree.eval.evals]
  | @cons t m ts ms h1 h2 h3 ih =>
    intro n hn
    cases n with
    | zero => simp [Tree.eval.evals]
    | succ n =>
      simp only [List.length_cons] at hn
      simp only [List.take_succ_cons, List.reverse_cons, List.drop_succ_cons]
      rw [evals_append_ok (ih n (by omega))]
      simp only [Tree.eval.evals, h2, List.map_append, List.map_cons, List.map_nil, List.sum_cons]
      rw [Nat.add_comm]

theorem Vals.all {ts ms} (h : Vals ruleOf text ts ms) :
    Tree.eval.evals ruleOf text ts.reverse 0 = .ok (ms.reverse.map (Matched.child text), (ms.map (Matched.len text)).sum) := by
  have := h.take ts.length (Nat.le_refl _)
  rw [List.take_length, ← h.length, List.drop_length, List.take_length] at this
  exact this

/-- Evaluating the trees on the stack fails. -/
def BadStack (ruleOf : Nat → Option SemRule) (text : Token → List Nat) (e : Fail) (ts : List Tree) : Prop :=
  Tree.eval.evals ruleOf text ts.reverse 0 = .error e

theorem BadStack.cons {e : Fail} {ts : List Tree} (h : BadStack ruleOf text e ts) (t : Tree) : BadStack ruleOf text e (t :: ts) := by
  unfold BadStack at h ⊢
  rw [List.reverse_cons]
  exact evals_append_error h

theorem BadStack.reduce {e : Fail} {ts : List Tree} (h : BadStack ruleOf text e ts) (p n : Nat) : BadStack ruleOf text e (.node p (ts.take n).reverse :: ts.drop n) := by
  unfold BadStack at h ⊢
  have e1 : ts.reverse = (ts.drop n).reverse ++ (ts.take n).reverse := by rw [← List.reverse_append, List.take_append_drop]
  rw [e1] at h
  rw [List.reverse_cons]
  cases hd : Tree.eval.evals ruleOf text (ts.drop n).reverse 0 with
  | error e' =>
    rw [evals_append_error hd] at h
    cases h
    exact evals_append_error hd
  | ok x =>
    obtain ⟨vs, k⟩ := x
    rw [evals_append_ok hd] at h ⊢
    cases hc : Tree.eval.evals ruleOf text (ts.take n).reverse k with
    | ok x => rw [hc] at h; cases h
    | error e' =>
      rw [hc] at h
      cases h
      simp only [Tree.eval.evals, Tree.eval, hc]

theorem bad_top {e : Fail} {ts : List Tree} {ms : List Matched} (h : Vals ruleOf text ts ms) {t : Tree}
    (ht : t.eval ruleOf text ((ms.map (Matched.len text)).sum) = .error e) : BadStack ruleOf text e (t :: ts) := by
  unfold BadStack
  rw [List.reverse_cons, evals_append_ok h.all]
  simp only [Tree.eval.evals, ht]

/-- Machine and parser are at the same place. -/
structure MNear (ruleOf : Nat → Option SemRule) (text : Token → List Nat) (s : PState) (m : MStack) (G : Statics) : Prop where
  states : m.states = s.states
  next : m.next = s.next
  kids : G.kids = s.kids
  vals : Vals ruleOf text s.matched m.matched

variable {g : Grammar} {tb : Grammar.Table} {resets : Nat → Bool}

theorem reduce_near {s : PState} {m : MStack} {G : Statics} (h : MNear ruleOf text s m G) (tok : Token) (p : Nat) :
    match g.reduce tb resets s tok p with
    | .error _ => ∃ e', (reduceM g tb ruleOf resets text m tok p G).1 = .error e'
    | .ok s' => (∃ m', (reduceM g tb ruleOf resets text m tok p G).1 = .ok m' ∧ MNear ruleOf text s' m' (reduceM g tb ruleOf resets text m tok p G).2) ∨
        ∃ e, (reduceM g tb ruleOf resets text m tok p G).1 = .error (.fail e) ∧ BadStack ruleOf text e s'.matched := by
  obtain ⟨hq, hn, hk, hv⟩ := h
  unfold Grammar.reduce reduceM
  simp only
  rw [hq, hk, hv.length]
  by_cases h1 : (decide (s.states.length < (g.body p).length) || decide (s.matched.length < (g.body p).length)) = true
  · rw [if_pos h1, if_pos (by rw [h1]; rfl)]
    exact ⟨_, rfl⟩
  rw [if_neg h1]
  by_cases h2 : 0 < (g.body p).length ∧ cSizeOfAllChildren < s.kids + (g.body p).length
  · rw [if_pos h2, if_pos (by rw [Bool.or_eq_true, decide_eq_true_eq]; exact .inr h2)]
    exact ⟨_, rfl⟩
  rw [if_neg h2, if_neg (by rw [Bool.or_eq_true, decide_eq_true_eq]; exact fun h => h.elim h1 h2)]
  simp only [Bool.or_eq_true, decide_eq_true_eq, not_or, Nat.not_lt] at h1
  have hlen : (m.matched.take (g.body p).length).reverse.length = (g.body p).length := by
    simp only [List.length_reverse, List.length_take, hv.length]; omega
  have hr : ∀ {α : Type} (G' : Statics) (f : Matched → α),
      ((List.range (g.body p).length).map fun i => f ((G'.store s.kids (m.matched.take (g.body p).length).reverse).arr (s.kids + i))) =
        ((m.matched.take (g.body p).length).reverse).map f := by
    intro α G' f
    have := store_read G' s.kids (m.matched.take (g.body p).length).reverse f
    rw [hlen] at this
    exact this
  simp only [hr]
  have hd := hv.drop (g.body p).length
  have ht := hv.take (g.body p).length h1.2
  have hev : (Tree.node p (s.matched.take (g.body p).length).reverse).eval ruleOf text (((m.matched.drop (g.body p).length).map (Matched.len text)).sum) =
      (match ruleOf p with
      | none => .error .ub
      | some r =>
        match r.apply (((m.matched.drop (g.body p).length).map (Matched.len text)).sum) ((m.matched.take (g.body p).length).reverse.map (Matched.child text)) with
        | .error e => .error e
        | .ok v => .ok (.val v, (m.matched.map (Matched.len text)).sum) : Except Fail (SemChild × Nat)) := by
    rw [Tree.eval, ht]
    simp only
    cases ruleOf p with
    | none => rfl
    | some r =>
      simp only
      cases r.apply (((m.matched.drop (g.body p).length).map (Matched.len text)).sum) ((m.matched.take (g.body p).length).reverse.map (Matched.child text)) with
      | error e => rfl
      | ok v => rfl
  have hsum : (m.matched.map (Matched.len text)).sum = ((m.matched.drop (g.body p).length).map (Matched.len text)).sum +
      (((m.matched.take (g.body p).length).reverse).map (Matched.len text)).sum := by
    conv => lhs; rw [← List.take_append_drop (g.body p).length m.matched]
    rw [List.map_append, List.sum_append, List.map_reverse, List.sum_reverse, Nat.add_comm]
  cases hrule : ruleOf p with
  | none =>
    rw [hrule] at hev
    have hbad := bad_top hd hev
    cases s.states.drop (g.body p).length with
    | nil => exact ⟨_, rfl⟩
    | cons q qs =>
      cases q with
      | none => exact ⟨_, rfl⟩
      | some q =>
        simp only
        cases tb.actions.lookup q with
        | none => exact ⟨_, rfl⟩
        | some acts =>
          simp only
          cases acts[g.head p]? with
          | none => exact ⟨_, rfl⟩
          | some a =>
            cases a with
            | flag x => exact ⟨_, rfl⟩
            | reduce x => exact ⟨_, rfl⟩
            | shift q' => exact .inr ⟨_, rfl, hbad⟩
  | some r =>
    rw [hrule] at hev
    simp only at hev ⊢
    cases happ : r.apply (((m.matched.drop (g.body p).length).map (Matched.len text)).sum) ((m.matched.take (g.body p).length).reverse.map (Matched.child text)) with
    | error e =>
      rw [happ] at hev
      have hbad := bad_top hd hev
      cases s.states.drop (g.body p).length with
      | nil => exact ⟨_, rfl⟩
      | cons q qs =>
        cases q with
        | none => exact ⟨_, rfl⟩
        | some q =>
          simp only
          cases tb.actions.lookup q with
          | none => exact ⟨_, rfl⟩
          | some acts =>
            simp only
            cases acts[g.head p]? with
            | none => exact ⟨_, rfl⟩
            | some a =>
              cases a with
              | flag x => exact ⟨_, rfl⟩
              | reduce x => exact ⟨_, rfl⟩
              | shift q' => exact .inr ⟨_, rfl, hbad⟩
    | ok v =>
      rw [happ] at hev
      simp only at hev ⊢
      cases s.states.drop (g.body p).length with
      | nil => exact ⟨_, rfl⟩
      | cons q qs =>
        cases q with
        | none => exact ⟨_, rfl⟩
        | some q =>
          simp only
          cases tb.actions.lookup q with
          | none => exact ⟨_, rfl⟩
          | some acts =>
            simp only
            cases acts[g.head p]? with
            | none => exact ⟨_, rfl⟩
            | some a =>
              cases a with
              | flag x => exact ⟨_, rfl⟩
              | reduce x => exact ⟨_, rfl⟩
              | shift q' =>
                refine .inl ⟨_, rfl, rfl, rfl, rfl, .cons hd ?_ (.node ..)⟩
                rw [hev, hsum]
                simp only [Matched.child, Matched.len]


theorem parseSymbol_near {s : PState} {m : MStack} {G : Statics} (h : MNear ruleOf text s m G) (tok : Token) (ty : Nat) :
    match g.parseSymbol tb resets s tok ty with
    | .error _ => ∃ e', (parseSymbolM g tb ruleOf resets text m tok ty G).1 = .error e'
    | .ok .no => parseSymbolM g tb ruleOf resets text m tok ty G = (.ok .no, G)
    | .ok .accepted => parseSymbolM g tb ruleOf resets text m tok ty G = (.ok .accepted, G)
    | .ok (.moved s') => (∃ m', (parseSymbolM g tb ruleOf resets text m tok ty G).1 = .ok (.moved m') ∧
          MNear ruleOf text s' m' (parseSymbolM g tb ruleOf resets text m tok ty G).2) ∨
        ∃ e, (parseSymbolM g tb ruleOf resets text m tok ty G).1 = .error (.fail e) ∧ BadStack ruleOf text e s'.matched := by
  unfold Grammar.parseSymbol parseSymbolM
  have hst := h.states
  rw [hst]
  cases hs : s.states with
  | nil => exact ⟨_, rfl⟩
  | cons q qs =>
    cases q with
    | none => exact ⟨_, rfl⟩
    | some q =>
      simp only
      cases tb.actions.lookup q with
      | none => exact ⟨_, rfl⟩
      | some acts =>
        simp only
        cases acts[ty]? with
        | none => exact ⟨_, rfl⟩
        | some a =>
          cases a with
          | flag x => cases x <;> rfl
          | shift q' =>
            refine .inl ⟨_, rfl, ?_, h.next, h.kids, ?_⟩
            · rfl
            · exact .cons h.vals (by simp [Tree.eval, Matched.child, Matched.len]) (.leaf tok)
          | reduce p =>
            simp only
            have hr := reduce_near (g := g) (tb := tb) (resets := resets) h tok p
            generalize reduceM g tb ruleOf resets text m tok p G = rm at hr ⊢
            obtain ⟨rm, G'⟩ := rm
            cases hred : g.reduce tb resets s tok p with
            | error e =>
              rw [hred] at hr
              obtain ⟨e', he'⟩ := hr
              simp only at he'
              subst he'
              exact ⟨e', rfl⟩
            | ok s' =>
              rw [hred] at hr
              rcases hr with ⟨m', h1, h2⟩ | ⟨e, h1, h2⟩
              · simp only at h1 h2; subst h1
                exact .inl ⟨m', rfl, h2⟩
              · simp only at h1; subst h1
                exact .inr ⟨e, rfl, h2⟩

theorem parseAdvance_near {s : PState} {m : MStack} {G : Statics} (h : MNear ruleOf text s m G) (tok : Token) : ∀ tys : List Nat,
    match g.parseAdvance tb resets s tok tys with
    | .error _ => ∃ e', (parseAdvanceM g tb ruleOf resets text m tok tys G).1 = .error e'
    | .ok .no => parseAdvanceM g tb ruleOf resets text m tok tys G = (.ok .no, G)
    | .ok .accepted => parseAdvanceM g tb ruleOf resets text m tok tys G = (.ok .accepted, G)
    | .ok (.moved s') => (∃ m', (parseAdvanceM g tb ruleOf resets text m tok tys G).1 = .ok (.moved m') ∧
          MNear ruleOf text s' m' (parseAdvanceM g tb ruleOf resets text m tok tys G).2) ∨
        ∃ e, (parseAdvanceM g tb ruleOf resets text m tok tys G).1 = .error (.fail e) ∧ BadStack ruleOf text e s'.matched
  | [] => rfl
  | ty :: tys => by
    have hr := parseSymbol_near (g := g) (tb := tb) (resets := resets) h tok ty
    unfold Grammar.parseAdvance parseAdvanceM
    generalize parseSymbolM g tb ruleOf resets text m tok ty G = rm at hr ⊢
    obtain ⟨rm, G'⟩ := rm
    cases hred : g.parseSymbol tb resets s tok ty with
    | error e =>
      rw [hred] at hr
      obtain ⟨e', he'⟩ := hr
      simp only at he'
      subst he'
      exact ⟨e', rfl⟩
    | ok r =>
      rw [hred] at hr
      cases r with
      | no =>
        simp only [Prod.mk.injEq] at hr
        obtain ⟨rfl, rfl⟩ := hr
        exact parseAdvance_near h tok tys
      | accepted =>
        simp only [Prod.mk.injEq] at hr
        obtain ⟨rfl, rfl⟩ := hr
        rfl
      | moved s' =>
        rcases hr with ⟨m', h1, h2⟩ | ⟨e, h1, h2⟩
        · simp only at h1 h2; subst h1
          exact .inl ⟨m', rfl, h2⟩
        · simp only at h1; subst h1
          exact .inr ⟨e, rfl, h2⟩

theorem parseAdvance_bad {s : PState} {e : Fail} (h : BadStack ruleOf text e s.matched) (tok : Token) : ∀ (tys : List Nat) (s' : PState),
    g.parseAdvance tb resets s tok tys = .ok (.moved s') → BadStack ruleOf text e s'.matched
  | [], s', he => by simp [Grammar.parseAdvance] at he
  | ty :: tys, s', he => by
    unfold Grammar.parseAdvance at he
    cases hps : g.parseSymbol tb resets s tok ty with
    | error e => rw [hps] at he; cases he
    | ok r0 =>
      rw [hps] at he
      cases r0 with
      | no => exact parseAdvance_bad h tok tys s' he
      | accepted => cases he
      | moved s1 =>
        cases he
        unfold Grammar.parseSymbol at hps
        split at hps
        · split at hps
          · cases hps
          split at hps
          · cases hps
          · cases hps
          · cases hps
          · cases hps
            exact h.cons _
          · rename_i p ha
            split at hps
            · cases hps
            · rename_i s1 hs1
              cases hps
              unfold Grammar.reduce at hs1
              simp only at hs1
              split at hs1
              · cases hs1
              split at hs1
              · split at hs1
                · cases hs1
                split at hs1
                · cases hs1
                · cases hs1
                  exact h.reduce p _
                · cases hs1
              · cases hs1
        · cases hps

end

/-! ### The loop -/

section Loop
variable {σ : Type} {P : MParser σ} {t : LR0} {r start : Nat}

theorem single_stack {g : Grammar} {used : List Token} {s : PState} (h : ParseInv g t r used s)
    (hx : ∀ xs, StackOk t r s.states xs → xs = [start]) : ∃ x, s.matched = [x] := by
  obtain ⟨xs, h1, h2⟩ := h.stacks
  have := hx xs h1
  subst this
  have hl := h2.length
  simp only [List.length_reverse, List.length_singleton] at hl
  exact List.length_eq_one_iff.mp (by omega)

/-- Trees on the stack that cannot be evaluated stay there. -/
def StaysBad (specials : List String) (text : Token → List Nat) (e : Fail) : Except Fail Stop → Prop
  | .ok (.accepted t _ _) => t.eval (schemaRuleOf specials) text 0 = .error e
  | .ok (.rejected s _ _ _) => BadStack (schemaRuleOf specials) text e s.matched
  | .error _ => True

theorem stopFrom_bad (hT : TableOk (schemaGrammar P.specials) t P.tb) (hr : P.tb.root = some r) (hR : RootOk (schemaGrammar P.specials) start)
    {text : Token → List Nat} {e : Fail} : ∀ (k : Nat) (s : PState) (src : σ) (st : LexState) (b : InBuf) (used : List Token),
    ParseInv (schemaGrammar P.specials) t r used s → BadStack (schemaRuleOf P.specials) text e s.matched →
    StaysBad P.specials text e (stopFrom P.L (schemaGrammar P.specials) P.tb (schemaResets (schemaGrammar P.specials)) (schemaHasRule P.specials) P.rd k s src st b)
  | 0, s, src, st, b, used, _, _ => trivial
  | k + 1, s, src, st, b, used, hinv, hbad => by
    generalize hg : schemaGrammar P.specials = g at *
    rw [stopFrom]
    generalize b.readIfSafe P.rd src = x
    obtain ⟨src, b, _⟩ := x
    simp only
    generalize getNextSymbol P.L s.next st b = y
    obtain ⟨st, b, y⟩ := y
    cases y with
    | error e => trivial
    | ok tok =>
      simp only
      cases hty : tok.types with
      | none => trivial
      | some tys =>
        simp only
        have hinv' : ParseInv g t r used { s with next := none } := ⟨hinv.stacks⟩
        have hsp : ∀ {res}, g.parseAdvance P.tb (schemaResets g) { s with next := none } tok tys = .ok res → _ :=
          fun {res} h => parseAdvance_spec hT hr hR hinv' hty (fun _ h => h) h
        have hb := parseAdvance_bad (g := g) (tb := P.tb) (resets := schemaResets g) (s := { s with next := none }) hbad tok tys
        cases hadv : g.parseAdvance P.tb (schemaResets g) { s with next := none } tok tys with
        | error e => trivial
        | ok res =>
          have hs := hsp hadv
          cases res with
          | no => exact hbad
          | accepted =>
            obtain ⟨x, hx⟩ := single_stack hinv' hs.2
            have hx : s.matched = [x] := hx
            simp only [hx]
            unfold BadStack at hbad
            rw [hx] at hbad
            simp only [List.reverse_singleton, Tree.eval.evals] at hbad
            cases x with
            | leaf _ => trivial
            | node p cs =>
              show (Tree.node p cs).eval (schemaRuleOf P.specials) text 0 = .error e
              cases hev : (Tree.node p cs).eval (schemaRuleOf P.specials) text 0 with
              | error e' => rw [hev] at hbad; cases hbad; rfl
              | ok x => rw [hev] at hbad; cases hbad
          | moved s' =>
            subst hg
            rcases hs with ⟨_, hi⟩ | ⟨_, hi⟩
            · exact stopFrom_bad hT hr hR k s' src st _ _ hi (hb s' hadv)
            · exact stopFrom_bad hT hr hR k s' src st _ _ hi (hb s' hadv)

theorem alone_stopped (x : MPhase σ) (hx : ∀ th, x ≠ .running th) : ∀ (k : Nat) (G : Statics), P.alone k x G = (x, G)
  | 0, G => rfl
  | k + 1, G => by
    have : P.advance x G = (x, G) := by
      cases x with
      | running th => exact absurd rfl (hx th)
      | done a => rfl
      | rejected th tok => rfl
      | failed e => rfl
    rw [MParser.alone, this]
    exact alone_stopped x hx k G

/-- The parser and the machine come to the same. -/
def SameEnd (specials : List String) (text : Token → List Nat) : Except Fail Stop → MPhase σ × Statics → Prop
  | .ok (.accepted t kids _), (x, G) =>
    match schemaOfTree specials text t with
    | .ok a => x = .done a ∧ G.kids = kids
    | .error e => x = .failed (.fail e)
  | .ok (.rejected s tok st b), (x, G) =>
    (∃ e, BadStack (schemaRuleOf specials) text e s.matched ∧ x = .failed (.fail e)) ∨
    ∃ m src, x = .rejected ⟨m, src, st, b⟩ tok ∧ MNear (schemaRuleOf specials) text s m G
  | .error e, (x, _) => (∃ e', x = .failed e') ∨ (e = .diverge ∧ ∃ th, x = .running th)

theorem noteConsumed_near {hasRule : Nat → Bool} {ruleOf : Nat → Option SemRule} {text : Token → List Nat} {s : PState} {m : MStack} {G : Statics}
    (h : MNear ruleOf text s m G) (b : InBuf) : noteConsumedM hasRule m b = noteConsumed hasRule s b := by
  obtain ⟨_, hn, _, hv⟩ := h
  unfold noteConsumedM noteConsumed
  rw [hn]
  cases s.next with
  | none => rfl
  | some t =>
    generalize s.matched = ts at hv
    generalize m.matched = ms at hv
    cases hv with
    | nil => rfl
    | cons _ _ hk => cases hk <;> rfl

theorem alone_sim (hT : TableOk (schemaGrammar P.specials) t P.tb) (hr : P.tb.root = some r) (hR : RootOk (schemaGrammar P.specials) start)
    (Inv : Nat → LexState → InBuf → Prop)
    (hP : ∀ i st b, Inv i st b → b.finished = true ∧ (∀ c, Inv i st (b.cp c)) ∧ ∃ st' b' t, P.L.scan st b = (st', b', .ok t) ∧ Inv (i + 1) st' b' ∧ b'.mem = b.mem) :
    ∀ (k i : Nat) (s : PState) (m : MStack) (src : σ) (st : LexState) (b : InBuf) (G : Statics) (used : List Token), Inv i st b →
    ParseInv (schemaGrammar P.specials) t r used s → MNear (schemaRuleOf P.specials) (tokenText b.mem) s m G →
    SameEnd P.specials (tokenText b.mem)
      (stopFrom P.L (schemaGrammar P.specials) P.tb (schemaResets (schemaGrammar P.specials)) (schemaHasRule P.specials) P.rd k s src st b)
      (P.alone k (.running ⟨m, src, st, b⟩) G)
  | 0, i, s, m, src, st, b, G, used, _, _, _ => .inr ⟨rfl, _, rfl⟩
  | k + 1, i, s, m, src, st, b, G, used, h, hinv, hnear => by
    obtain ⟨hf, hcp, st', b', tok', hscan, hP', hmem⟩ := hP i st b h
    have ih := alone_sim hT hr hR Inv hP k
    have hbadTail : ∀ (text : Token → List Nat) (e : Fail) (s : PState) (src : σ) (st : LexState) (b : InBuf) (used : List Token),
        ParseInv (schemaGrammar P.specials) t r used s → BadStack (schemaRuleOf P.specials) text e s.matched →
        StaysBad P.specials text e (stopFrom P.L (schemaGrammar P.specials) P.tb (schemaResets (schemaGrammar P.specials)) (schemaHasRule P.specials) P.rd k s src st b) :=
      fun text e => stopFrom_bad (text := text) (e := e) hT hr hR k
    generalize hg : schemaGrammar P.specials = g at *
    have key : ∀ (tok : Token) (i1 : Nat) (st1 : LexState) (b1 : InBuf), Inv i1 st1 b1 → b1.mem = b.mem →
        getNextSymbol P.L s.next st b = (st1, b1, .ok tok) → SameEnd P.specials (tokenText b.mem)
      (stopFrom P.L g P.tb (schemaResets g) (schemaHasRule P.specials) P.rd (k + 1) s src st b)
      (P.alone (k + 1) (.running ⟨m, src, st, b⟩) G) := by
      intro tok i1 st1 b1 hI1 hm1 hget
      rw [stopFrom, MParser.alone]
      show SameEnd P.specials (tokenText b.mem) _ (P.alone k (P.step ⟨m, src, st, b⟩ G).1 (P.step ⟨m, src, st, b⟩ G).2)
      unfold MParser.step
      simp only [readIfSafe_fin hf, hnear.next, hget, hg]
      cases hty : tok.types with
      | none => rw [alone_stopped _ (by simp)]; exact .inl ⟨_, rfl⟩
      | some tys =>
        simp only
        have hinv' : ParseInv g t r used { s with next := none } := ⟨hinv.stacks⟩
        have hnear' : MNear (schemaRuleOf P.specials) (tokenText b1.mem) { s with next := none } { m with next := none } G := by
          rw [hm1]; exact ⟨hnear.states, rfl, hnear.kids, hnear.vals⟩
        have hsp : ∀ {res}, g.parseAdvance P.tb (schemaResets g) { s with next := none } tok tys = .ok res → _ :=
          fun {res} h => parseAdvance_spec hT hr hR hinv' hty (fun _ h => h) h
        have hadvM := parseAdvance_near (g := g) (tb := P.tb) (resets := schemaResets g) hnear' tok tys
        generalize parseAdvanceM g P.tb (schemaRuleOf P.specials) (schemaResets g) (tokenText b1.mem) { m with next := none } tok tys G = rm at hadvM ⊢
        obtain ⟨rm, G'⟩ := rm
        cases hadv : g.parseAdvance P.tb (schemaResets g) { s with next := none } tok tys with
        | error e =>
          rw [hadv] at hadvM
          obtain ⟨e', he'⟩ := hadvM
          simp only at he'
          subst he'
          rw [alone_stopped _ (by simp)]; exact .inl ⟨_, rfl⟩
        | ok res =>
          have hs := hsp hadv
          rw [hadv] at hadvM
          cases res with
          | no =>
            simp only [Prod.mk.injEq] at hadvM
            obtain ⟨rfl, rfl⟩ := hadvM
            simp only
            rw [alone_stopped _ (by simp)]
            rw [hm1] at hnear'
            exact .inr ⟨_, _, rfl, hnear'⟩
          | accepted =>
            simp only [Prod.mk.injEq] at hadvM
            obtain ⟨rfl, rfl⟩ := hadvM
            simp only
            obtain ⟨x, hx⟩ := single_stack hinv' hs.2
            have hx : s.matched = [x] := hx
            have hv := hnear.vals
            rw [hx] at hv ⊢
            generalize m.matched = ms at hv ⊢
            cases hv with
            | cons h0 hev hk =>
              cases h0
              cases hk with
              | leaf _ => rw [alone_stopped _ (by simp)]; exact .inl ⟨_, rfl⟩
              | node p cs a v n =>
                simp only [List.map_nil, List.sum_nil, Matched.child] at hev
                simp only [SameEnd, schemaOfTree]
                rw [hev]
                cases v with
                | schema a => simp only; rw [alone_stopped _ (by simp)]; exact ⟨rfl, hnear.kids⟩
                | null => simp only; rw [alone_stopped _ (by simp)]
                | ident _ => simp only; rw [alone_stopped _ (by simp)]
                | delims _ => simp only; rw [alone_stopped _ (by simp)]
                | var _ => simp only; rw [alone_stopped _ (by simp)]
                | regex _ => simp only; rw [alone_stopped _ (by simp)]
          | moved s' =>
            have hused : ∃ used', ParseInv g t r used' s' := by
              rcases hs with ⟨_, hi⟩ | ⟨_, hi⟩
              · exact ⟨_, hi⟩
              · exact ⟨_, hi⟩
            obtain ⟨used', hi⟩ := hused
            rcases hadvM with ⟨m', h1, h2⟩ | ⟨e, h1, h2⟩
            · simp only at h1 h2; subst h1
              simp only
              rw [noteConsumed_near h2]
              obtain ⟨c, hc⟩ := noteConsumed_cp (hasRule := schemaHasRule P.specials) s' b1
              rw [hc]
              have := ih i1 s' m' src st1 (b1.cp c) G' used' ((hP i1 st1 b1 hI1).2.1 c) hi h2
              rw [← hm1]
              exact this
            · simp only at h1; subst h1
              simp only
              rw [alone_stopped _ (by simp)]
              rw [hm1] at h2
              have hsb := hbadTail _ _ s' src st1 (noteConsumed (schemaHasRule P.specials) s' b1) used' hi h2
              generalize stopFrom P.L g P.tb (schemaResets g) (schemaHasRule P.specials) P.rd k s' src st1 (noteConsumed (schemaHasRule P.specials) s' b1) = res at hsb
              cases res with
              | error e => exact .inl ⟨_, rfl⟩
              | ok res =>
                cases res with
                | rejected s tok st b => exact .inl ⟨e, hsb, rfl⟩
                | accepted t kids b =>
                  simp only [StaysBad] at hsb
                  simp only [SameEnd, schemaOfTree]
                  rw [hsb]
    cases hn : s.next with
    | some tok => exact key tok i st b h rfl (by rw [hn]; rfl)
    | none => exact key tok' (i + 1) st' b' hP' hmem (by rw [hn]; exact hscan)

end Loop

end LogSurgeon
