import Verif.Model.SchemaMachine
import Mathlib.Logic.Function.Iterate
/-
The static array of children cannot be observed: a reduction reads what it has just written.
-/
namespace LogSurgeon

/-- A symbol without the place of its children. -/
def Matched.erase : Matched → Matched
  | .tok t => .tok t
  | .nt _ p v n => .nt 0 p v n

def MStack.erase (s : MStack) : MStack := { s with matched := s.matched.map Matched.erase }

def MThread.erase {σ : Type} (th : MThread σ) : MThread σ := { th with s := th.s.erase }

def MPhase.erase {σ : Type} : MPhase σ → MPhase σ
  | .running th => .running th.erase
  | .done a => .done a
  | .rejected th tok => .rejected th.erase tok
  | .failed e => .failed e

def MSym.erase : MSym → MSym
  | .no => .no
  | .accepted => .accepted
  | .moved s => .moved s.erase

theorem erase_child (text : Token → List Nat) (m : Matched) : m.erase.child text = m.child text := by cases m <;> rfl
theorem erase_len (text : Token → List Nat) (m : Matched) : m.erase.len text = m.len text := by cases m <;> rfl

theorem store_read {α : Type} (G : Statics) (start : Nat) (cs : List Matched) (f : Matched → α) :
    ((List.range cs.length).map fun i => f ((G.store start cs).arr (start + i))) = cs.map f := by
  apply List.ext_getElem
  · simp
  · intro i h1 h2
    simp only [List.length_map, List.length_range] at h1 h2
    simp [Statics.store, h2]

/-- A reduction without the array. -/
def reduceV (g : Grammar) (tb : Grammar.Table) (ruleOf : Nat → Option SemRule) (text : Token → List Nat)
    (s : MStack) (tok : Token) (p : Nat) : Except MFail MStack :=
  let n := (g.body p).length
  if s.states.length < n || s.matched.length < n then .error (.fail .ub)
  else
    let cs := (s.matched.take n).reverse
    let below := s.matched.drop n
    match ruleOf p with
    | none => .error (.fail .ub)
    | some r =>
      match r.apply ((below.map (Matched.len text)).sum) (cs.map (Matched.child text)) with
      | .error e => .error (.fail e)
      | .ok v =>
        match s.states.drop n with
        | some q :: qs =>
          match tb.actions.lookup q with
          | none => .error (.fail .ub)
          | some acts =>
            match acts[g.head p]? with
            | none => .error (.fail .ub)
            | some (.shift q') =>
              .ok { states := q' :: some q :: qs, matched := .nt 0 p v ((cs.map (Matched.len text)).sum) :: below, next := some tok }
            | some _ => .error (.fail .throws)
        | _ => .error (.fail .ub)

section
variable {g : Grammar} {tb : Grammar.Table} {ruleOf : Nat → Option SemRule} {resets : Nat → Bool} {text : Token → List Nat}

def eraseS : Except MFail MStack → Except MFail MStack
  | .ok s => .ok s.erase
  | .error e => .error e

theorem reduceM_erase (s : MStack) (tok : Token) (p : Nat) (G : Statics) :
    (reduceM g tb ruleOf resets text s tok p G).1 = .error .full ∨
    eraseS (reduceM g tb ruleOf resets text s tok p G).1 = reduceV g tb ruleOf text s.erase tok p := by
  have hl : s.erase.matched.length = s.matched.length := List.length_map ..
  have hq : s.erase.states = s.states := rfl
  have hm : s.erase.matched = s.matched.map Matched.erase := rfl
  unfold reduceM reduceV
  rw [hl, hq, hm]
  by_cases h1 : (decide (s.states.length < (g.body p).length) || decide (s.matched.length < (g.body p).length)) = true
  · rw [if_pos h1, if_pos h1]; exact .inr rfl
  rw [if_neg h1, if_neg h1]
  by_cases h2 : 0 < (g.body p).length ∧ cSizeOfAllChildren < G.kids + (g.body p).length
  · rw [if_pos h2]; exact .inl rfl
  rw [if_neg h2]
  refine .inr ?_
  have hlen : (s.matched.take (g.body p).length).reverse.length = (g.body p).length := by
    simp only [Bool.or_eq_true, decide_eq_true_eq, not_or, Nat.not_lt] at h1
    simp only [List.length_reverse, List.length_take]; omega
  have hr : ∀ {α : Type} (G' : Statics) (f : Matched → α),
      ((List.range (g.body p).length).map fun i => f ((G'.store G.kids (s.matched.take (g.body p).length).reverse).arr (G.kids + i))) =
        ((s.matched.take (g.body p).length).reverse).map f := by
    intro α G' f
    have := store_read G' G.kids (s.matched.take (g.body p).length).reverse f
    rw [hlen] at this
    exact this
  have e1 : ((s.matched.map Matched.erase).drop (g.body p).length).map (Matched.len text) = (s.matched.drop (g.body p).length).map (Matched.len text) := by
    rw [← List.map_drop, List.map_map]; congr 1; funext m; exact erase_len text m
  have e2 : ((s.matched.map Matched.erase).take (g.body p).length).reverse.map (Matched.child text) = ((s.matched.take (g.body p).length).reverse).map (Matched.child text) := by
    rw [← List.map_take, ← List.map_reverse, List.map_map]; congr 1; funext m; exact erase_child text m
  have e3 : ((s.matched.map Matched.erase).take (g.body p).length).reverse.map (Matched.len text) = ((s.matched.take (g.body p).length).reverse).map (Matched.len text) := by
    rw [← List.map_take, ← List.map_reverse, List.map_map]; congr 1; funext m; exact erase_len text m
  simp only [e1, e2, e3, hr]
  cases ruleOf p with
  | none => rfl
  | some r =>
    simp only
    cases r.apply ((s.matched.drop (g.body p).length).map (Matched.len text)).sum (((s.matched.take (g.body p).length).reverse).map (Matched.child text)) with
    | error e => rfl
    | ok v =>
      simp only
      cases s.states.drop (g.body p).length with
      | nil => rfl
      | cons q qs =>
        cases q with
        | none => rfl
        | some q =>
          simp only
          cases tb.actions.lookup q with
          | none => rfl
          | some acts =>
            simp only
            cases acts[g.head p]? with
            | none => rfl
            | some a =>
              cases a with
              | flag x => rfl
              | reduce x => rfl
              | shift q' =>
                simp only [eraseS, MStack.erase, List.map_cons, List.map_drop, Matched.erase]

def parseSymbolV (g : Grammar) (tb : Grammar.Table) (ruleOf : Nat → Option SemRule) (text : Token → List Nat)
    (s : MStack) (tok : Token) (ty : Nat) : Except MFail MSym :=
  match s.states with
  | some q :: _ =>
    match tb.actions.lookup q with
    | none => .error (.fail .ub)
    | some acts =>
      match acts[ty]? with
      | none => .error (.fail .ub)
      | some (.flag false) => .ok .no
      | some (.flag true) => .ok .accepted
      | some (.shift q') => .ok (.moved { s with states := q' :: s.states, matched := .tok tok :: s.matched })
      | some (.reduce p) =>
        match reduceV g tb ruleOf text s tok p with
        | .error e => .error e
        | .ok s => .ok (.moved s)
  | _ => .error (.fail .ub)

def eraseY : Except MFail MSym → Except MFail MSym
  | .ok s => .ok s.erase
  | .error e => .error e

theorem parseSymbolM_erase (s : MStack) (tok : Token) (ty : Nat) (G : Statics) :
    (parseSymbolM g tb ruleOf resets text s tok ty G).1 = .error .full ∨
    eraseY (parseSymbolM g tb ruleOf resets text s tok ty G).1 = parseSymbolV g tb ruleOf text s.erase tok ty := by
  unfold parseSymbolM parseSymbolV
  have hs : s.erase.states = s.states := rfl
  rw [hs]
  cases s.states with
  | nil => exact .inr rfl
  | cons q qs =>
    cases q with
    | none => exact .inr rfl
    | some q =>
      simp only
      cases tb.actions.lookup q with
      | none => exact .inr rfl
      | some acts =>
        simp only
        cases acts[ty]? with
        | none => exact .inr rfl
        | some a =>
          cases a with
          | flag x => cases x <;> exact .inr rfl
          | shift q' => exact .inr rfl
          | reduce p =>
            simp only
            have := reduceM_erase (g := g) (tb := tb) (ruleOf := ruleOf) (resets := resets) (text := text) s tok p G
            generalize reduceM g tb ruleOf resets text s tok p G = r at this ⊢
            obtain ⟨r, G'⟩ := r
            rcases this with h | h
            · simp only at h; subst h; exact .inl rfl
            · rw [← h]
              cases r <;> exact .inr rfl

def parseAdvanceV (g : Grammar) (tb : Grammar.Table) (ruleOf : Nat → Option SemRule) (text : Token → List Nat)
    (s : MStack) (tok : Token) : List Nat → Except MFail MSym
  | [] => .ok .no
  | ty :: tys =>
    match parseSymbolV g tb ruleOf text s tok ty with
    | .error e => .error e
    | .ok .no => parseAdvanceV g tb ruleOf text s tok tys
    | .ok r => .ok r

theorem parseAdvanceM_erase (s : MStack) (tok : Token) : ∀ (tys : List Nat) (G : Statics),
    (parseAdvanceM g tb ruleOf resets text s tok tys G).1 = .error .full ∨
    eraseY (parseAdvanceM g tb ruleOf resets text s tok tys G).1 = parseAdvanceV g tb ruleOf text s.erase tok tys
  | [], _ => .inr rfl
  | ty :: tys, G => by
    unfold parseAdvanceM parseAdvanceV
    have := parseSymbolM_erase (g := g) (tb := tb) (ruleOf := ruleOf) (resets := resets) (text := text) s tok ty G
    generalize parseSymbolM g tb ruleOf resets text s tok ty G = r at this ⊢
    obtain ⟨r, G'⟩ := r
    rcases this with h | h
    · simp only at h; subst h; exact .inl rfl
    · rw [← h]
      cases r with
      | error e => exact .inr rfl
      | ok r =>
        cases r with
        | no => exact parseAdvanceM_erase s tok tys G'
        | accepted => exact .inr rfl
        | moved s' => exact .inr rfl

end

section
variable {σ : Type}

/-- One iteration without the array. -/
def MParser.stepV (P : MParser σ) (th : MThread σ) : MPhase σ :=
  let (src, b, _) := th.b.readIfSafe P.rd th.src
  match getNextSymbol P.L th.s.next th.st b with
  | (_, _, .error e) => .failed (.fail (scanFail e))
  | (st, b, .ok tok) =>
    match tok.types with
    | none => .failed (.fail .ub)
    | some tys =>
      match parseAdvanceV (schemaGrammar P.specials) P.tb (schemaRuleOf P.specials) (tokenText b.mem) { th.s with next := none } tok tys with
      | .error e => .failed e
      | .ok .no => .rejected ⟨{ th.s with next := none }, src, st, b⟩ tok
      | .ok .accepted =>
        match th.s.matched with
        | [] => .failed (.fail .ub)
        | .tok _ :: _ => .failed (.fail .throws)
        | .nt _ _ (.schema a) _ :: [] => .done a
        | .nt _ _ _ _ :: _ => .failed (.fail .ub)
      | .ok (.moved s) => .running ⟨s, src, st, noteConsumedM (schemaHasRule P.specials) s b⟩

theorem noteConsumedM_erase (hasRule : Nat → Bool) (s : MStack) (b : InBuf) : noteConsumedM hasRule s.erase b = noteConsumedM hasRule s b := by
  obtain ⟨q, m, n⟩ := s
  cases n with
  | none => rfl
  | some t =>
    cases m with
    | nil => rfl
    | cons x xs => cases x <;> rfl

theorem step_erase (P : MParser σ) (th : MThread σ) (G : Statics) :
    (P.step th G).1 = .failed .full ∨ (P.step th G).1.erase = P.stepV th.erase := by
  unfold MParser.step MParser.stepV
  have hb : th.erase.b = th.b := rfl
  have hsrc : th.erase.src = th.src := rfl
  have hst : th.erase.st = th.st := rfl
  have hn : th.erase.s.next = th.s.next := rfl
  rw [hb, hsrc, hst, hn]
  generalize th.b.readIfSafe P.rd th.src = x
  obtain ⟨src, b, _⟩ := x
  simp only
  generalize getNextSymbol P.L th.s.next th.st b = y
  obtain ⟨st, b, y⟩ := y
  cases y with
  | error e => exact .inr rfl
  | ok tok =>
    simp only
    cases tok.types with
    | none => exact .inr rfl
    | some tys =>
      simp only
      have := parseAdvanceM_erase (g := schemaGrammar P.specials) (tb := P.tb) (ruleOf := schemaRuleOf P.specials)
        (resets := schemaResets (schemaGrammar P.specials)) (text := tokenText b.mem) { th.s with next := none } tok tys G
      have he : ({ th.s with next := none } : MStack).erase = { th.erase.s with next := none } := rfl
      rw [he] at this
      generalize schemaGrammar P.specials = g at *
      generalize parseAdvanceM g P.tb (schemaRuleOf P.specials) (schemaResets g) (tokenText b.mem) { th.s with next := none } tok tys G = r at this ⊢
      obtain ⟨r, G'⟩ := r
      rcases this with h | h
      · simp only at h; subst h; exact .inl rfl
      · rw [← h]
        refine .inr ?_
        cases r with
        | error e => rfl
        | ok r =>
          cases r with
          | no => rfl
          | moved s =>
            simp only [MPhase.erase, MThread.erase, eraseY, MSym.erase]
            rw [noteConsumedM_erase]
          | accepted =>
            simp only [eraseY, MSym.erase]
            have hm : th.erase.s.matched = th.s.matched.map Matched.erase := rfl
            rw [hm]
            cases th.s.matched with
            | nil => rfl
            | cons x xs =>
              cases x with
              | tok t => rfl
              | nt a p v n => cases v <;> cases xs <;> rfl

def MParser.advanceV (P : MParser σ) : MPhase σ → MPhase σ
  | .running th => P.stepV th
  | x => x

theorem advance_erase (P : MParser σ) (x : MPhase σ) (G : Statics) :
    (P.advance x G).1 = .failed .full ∨ (P.advance x G).1.erase = P.advanceV x.erase := by
  cases x with
  | running th => exact step_erase P th G
  | done a => exact .inr rfl
  | rejected th tok => exact .inr rfl
  | failed e => exact .inr rfl

theorem advance_full (P : MParser σ) (G : Statics) : P.advance (.failed .full) G = (.failed .full, G) := rfl

theorem schedule_erase (P : Nat → MParser σ) (i : Nat) : ∀ (is : List Nat) (x : Nat → MPhase σ) (G : Statics) (y : MPhase σ),
    x i = .failed .full ∨ (x i).erase = y →
    (runSchedule P is x G).1 i = .failed .full ∨ ((runSchedule P is x G).1 i).erase = ((P i).advanceV)^[is.count i] y
  | [], x, G, y, h => h
  | j :: is, x, G, y, h => by
    unfold runSchedule
    by_cases hji : i = j
    · subst hji
      rw [List.count_cons_self, Function.iterate_succ_apply]
      refine schedule_erase P i is _ _ _ ?_
      simp only [if_true]
      rcases h with h | h
      · rw [h]; exact .inl rfl
      · rw [← h]; exact advance_erase (P i) (x i) G
    · rw [List.count_cons_of_ne (fun h => hji h.symm)]
      refine schedule_erase P i is _ _ _ ?_
      simp only [if_neg hji]
      exact h

theorem alone_erase (P : MParser σ) : ∀ (k : Nat) (x : MPhase σ) (G : Statics) (y : MPhase σ), x = .failed .full ∨ x.erase = y →
    (P.alone k x G).1 = .failed .full ∨ ((P.alone k x G).1).erase = (P.advanceV)^[k] y
  | 0, x, G, y, h => h
  | k + 1, x, G, y, h => by
    rw [Function.iterate_succ_apply]
    refine alone_erase P k _ _ _ ?_
    rcases h with h | h
    · rw [h]; exact .inl rfl
    · rw [← h]; exact advance_erase P x G

end

end LogSurgeon
