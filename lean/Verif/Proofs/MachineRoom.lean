import Verif.Proofs.SchemaMachine
import Mathlib.Algebra.BigOperators.Group.Finset.Basic
/-
The array of children has room for as many steps as it has free places.
-/
namespace LogSurgeon
open Grammar

variable {σ : Type}

/-- How many symbols a parser has on its stack. -/
def MPhase.stack : MPhase σ → Nat
  | .running th => th.s.matched.length
  | _ => 0

theorem resetKids_le (resets : Nat → Bool) (p k : Nat) : resetKids resets p k ≤ k := by
  unfold resetKids
  split <;> omega

variable {g : Grammar} {tb : Grammar.Table} {ruleOf : Nat → Option SemRule} {resets : Nat → Bool} {text : Token → List Nat}

theorem reduceM_room (s : MStack) (tok : Token) (p : Nat) (G : Statics) :
    (∀ s', (reduceM g tb ruleOf resets text s tok p G).1 = .ok s' →
      (reduceM g tb ruleOf resets text s tok p G).2.kids + s'.matched.length ≤ G.kids + s.matched.length + 1) ∧
    (reduceM g tb ruleOf resets text s tok p G).2.kids ≤ G.kids + s.matched.length ∧
    ((reduceM g tb ruleOf resets text s tok p G).1 = .error .full → cSizeOfAllChildren < G.kids + s.matched.length) := by
  unfold reduceM
  simp only
  by_cases h1 : (decide (s.states.length < (g.body p).length) || decide (s.matched.length < (g.body p).length)) = true
  · rw [if_pos h1]
    exact ⟨(by intro s' h; cases h), Nat.le_add_right _ _, (by intro h; cases h)⟩
  rw [if_neg h1]
  have hlen : (g.body p).length ≤ s.matched.length := by
    simp only [Bool.or_eq_true, decide_eq_true_eq, not_or] at h1; omega
  by_cases h2 : 0 < (g.body p).length ∧ cSizeOfAllChildren < G.kids + (g.body p).length
  · rw [if_pos h2]
    exact ⟨(by intro s' h; cases h), (by simp; omega), (by intro _; omega)⟩
  rw [if_neg h2]
  have hk : ∀ k, resetKids resets p k ≤ k := resetKids_le resets p
  have hk1 := hk (G.kids + (g.body p).length)
  simp only [Statics.store]
  cases ruleOf p with
  | none => exact ⟨(by intro s' h; cases h), (by simp; omega), (by intro h; cases h)⟩
  | some r =>
    simp only
    generalize r.apply _ _ = ap
    cases ap with
    | error e => exact ⟨(by intro s' h; cases h), (by simp; omega), (by intro h; cases h)⟩
    | ok v =>
      simp only
      cases hd : s.states.drop (g.body p).length with
      | nil => exact ⟨(by intro s' h; cases h), (by simp; omega), (by intro h; cases h)⟩
      | cons q qs =>
        cases q with
        | none => exact ⟨(by intro s' h; cases h), (by simp; omega), (by intro h; cases h)⟩
        | some q =>
          simp only
          cases tb.actions.lookup q with
          | none => exact ⟨(by intro s' h; cases h), (by simp; omega), (by intro h; cases h)⟩
          | some acts =>
            simp only
            cases acts[g.head p]? with
            | none => exact ⟨(by intro s' h; cases h), (by simp; omega), (by intro h; cases h)⟩
            | some a =>
              cases a with
              | flag x => exact ⟨(by intro s' h; cases h), (by simp; omega), (by intro h; cases h)⟩
              | reduce x => exact ⟨(by intro s' h; cases h), (by simp; omega), (by intro h; cases h)⟩
              | shift q' =>
                refine ⟨?_, (by simp; omega), (by intro h; cases h)⟩
                intro s' h
                cases h
                simp
                omega

theorem parseSymbolM_room (s : MStack) (tok : Token) (ty : Nat) (G : Statics) :
    (∀ s', (parseSymbolM g tb ruleOf resets text s tok ty G).1 = .ok (.moved s') →
      (parseSymbolM g tb ruleOf resets text s tok ty G).2.kids + s'.matched.length ≤ G.kids + s.matched.length + 1) ∧
    (parseSymbolM g tb ruleOf resets text s tok ty G).2.kids ≤ G.kids + s.matched.length ∧
    ((parseSymbolM g tb ruleOf resets text s tok ty G).1 = .error .full → cSizeOfAllChildren < G.kids + s.matched.length) ∧
    ((parseSymbolM g tb ruleOf resets text s tok ty G).1 = .ok .no → (parseSymbolM g tb ruleOf resets text s tok ty G).2 = G) := by
  unfold parseSymbolM
  cases s.states with
  | nil => exact ⟨(by intro s' h; cases h), Nat.le_add_right _ _, (by intro h; cases h), (by intro h; cases h)⟩
  | cons q qs =>
    cases q with
    | none => exact ⟨(by intro s' h; cases h), Nat.le_add_right _ _, (by intro h; cases h), (by intro h; cases h)⟩
    | some q =>
      simp only
      cases tb.actions.lookup q with
      | none => exact ⟨(by intro s' h; cases h), Nat.le_add_right _ _, (by intro h; cases h), (by intro h; cases h)⟩
      | some acts =>
        simp only
        cases acts[ty]? with
        | none => exact ⟨(by intro s' h; cases h), Nat.le_add_right _ _, (by intro h; cases h), (by intro h; cases h)⟩
        | some a =>
          cases a with
          | flag x =>
            cases x with
            | false => exact ⟨(by intro s' h; cases h), Nat.le_add_right _ _, (by intro h; cases h), fun _ => rfl⟩
            | true => exact ⟨(by intro s' h; cases h), Nat.le_add_right _ _, (by intro h; cases h), (by intro h; cases h)⟩
          | shift q' =>
            refine ⟨?_, Nat.le_add_right _ _, (by intro h; cases h), (by intro h; cases h)⟩
            intro s' h
            cases h
            simp
            omega
          | reduce p =>
            simp only
            have h := reduceM_room (g := g) (tb := tb) (ruleOf := ruleOf) (resets := resets) (text := text) s tok p G
            generalize reduceM g tb ruleOf resets text s tok p G = r at h ⊢
            obtain ⟨r, G'⟩ := r
            obtain ⟨h1, h2, h3⟩ := h
            cases r with
            | error e => exact ⟨(by intro s' h; cases h), h2, (by intro h; cases h; exact h3 rfl), (by intro h; cases h)⟩
            | ok s1 => exact ⟨(by intro s' h; cases h; exact h1 _ rfl), h2, (by intro h; cases h), (by intro h; cases h)⟩

theorem parseAdvanceM_room (s : MStack) (tok : Token) : ∀ (tys : List Nat) (G : Statics),
    (∀ s', (parseAdvanceM g tb ruleOf resets text s tok tys G).1 = .ok (.moved s') →
      (parseAdvanceM g tb ruleOf resets text s tok tys G).2.kids + s'.matched.length ≤ G.kids + s.matched.length + 1) ∧
    (parseAdvanceM g tb ruleOf resets text s tok tys G).2.kids ≤ G.kids + s.matched.length ∧
    ((parseAdvanceM g tb ruleOf resets text s tok tys G).1 = .error .full → cSizeOfAllChildren < G.kids + s.matched.length)
  | [], G => ⟨(by intro s' h; cases h), Nat.le_add_right _ _, (by intro h; cases h)⟩
  | ty :: tys, G => by
    rw [parseAdvanceM]
    have h := parseSymbolM_room (g := g) (tb := tb) (ruleOf := ruleOf) (resets := resets) (text := text) s tok ty G
    generalize parseSymbolM g tb ruleOf resets text s tok ty G = r at h ⊢
    obtain ⟨r, G'⟩ := r
    obtain ⟨h1, h2, h3, h4⟩ := h
    cases r with
    | error e => exact ⟨(by intro s' h; cases h), h2, (by intro h; cases h; exact h3 rfl)⟩
    | ok r =>
      cases r with
      | no =>
        have : G' = G := h4 rfl
        subst this
        exact parseAdvanceM_room s tok tys G'
      | accepted => exact ⟨(by intro s' h; cases h), h2, (by intro h; cases h)⟩
      | moved s1 => exact ⟨(by intro s' h; cases h; exact h1 _ rfl), h2, (by intro h; cases h)⟩

theorem advance_room (P : MParser σ) (x : MPhase σ) (G : Statics) :
    (P.advance x G).2.kids + (P.advance x G).1.stack ≤ G.kids + x.stack + 1 ∧
    ((P.advance x G).1 = .failed .full → x = .failed .full ∨ cSizeOfAllChildren < G.kids + x.stack) := by
  cases x with
  | done a => exact ⟨Nat.le_succ _, (by intro h; cases h)⟩
  | rejected th tok => exact ⟨Nat.le_succ _, (by intro h; cases h)⟩
  | failed e => exact ⟨Nat.le_succ _, fun h => .inl h⟩
  | running th =>
    show (P.step th G).2.kids + (P.step th G).1.stack ≤ G.kids + th.s.matched.length + 1 ∧
      ((P.step th G).1 = .failed .full → _ ∨ cSizeOfAllChildren < G.kids + th.s.matched.length)
    unfold MParser.step
    generalize th.b.readIfSafe P.rd th.src = x
    obtain ⟨src, b, _⟩ := x
    simp only
    generalize getNextSymbol P.L th.s.next th.st b = y
    obtain ⟨st, b, y⟩ := y
    cases y with
    | error e => exact ⟨(by simp [MPhase.stack]; omega), (by intro h; cases h)⟩
    | ok tok =>
      simp only
      cases tok.types with
      | none => exact ⟨(by simp [MPhase.stack]; omega), (by intro h; cases h)⟩
      | some tys =>
        simp only
        have h := parseAdvanceM_room (g := schemaGrammar P.specials) (tb := P.tb) (ruleOf := schemaRuleOf P.specials) (resets := schemaResets (schemaGrammar P.specials))
          (text := tokenText b.mem) { th.s with next := none } tok tys G
        generalize parseAdvanceM (schemaGrammar P.specials) P.tb (schemaRuleOf P.specials) (schemaResets (schemaGrammar P.specials)) (tokenText b.mem)
          { th.s with next := none } tok tys G = r at h ⊢
        obtain ⟨r, G'⟩ := r
        obtain ⟨h1, h2, h3⟩ := h
        simp only at h1 h2 h3
        cases r with
        | error e => exact ⟨(by simp [MPhase.stack]; omega), (by intro h; cases h; exact .inr (h3 rfl))⟩
        | ok r =>
          cases r with
          | no => exact ⟨(by simp [MPhase.stack]; omega), (by intro h; cases h)⟩
          | moved s' => exact ⟨(by simp only [MPhase.stack]; exact h1 s' rfl), (by intro h; cases h)⟩
          | accepted =>
            simp only
            split
            · exact ⟨(by simp [MPhase.stack]; omega), (by intro h; cases h)⟩
            · exact ⟨(by simp [MPhase.stack]; omega), (by intro h; cases h)⟩
            · exact ⟨(by simp [MPhase.stack]; omega), (by intro h; cases h)⟩
            · exact ⟨(by simp [MPhase.stack]; omega), (by intro h; cases h)⟩

/-- As long as there is room for all the steps, no parser fills the array. -/
theorem schedule_room (P : Nat → MParser σ) (S : Finset Nat) : ∀ (is : List Nat) (x : Nat → MPhase σ) (G : Statics), (∀ i ∈ is, i ∈ S) →
    (∀ j, x j ≠ .failed .full) → G.kids + (∑ j ∈ S, (x j).stack) + is.length ≤ cSizeOfAllChildren → ∀ j, (runSchedule P is x G).1 j ≠ .failed .full
  | [], x, G, _, hx, _ => hx
  | i :: is, x, G, hS, hx, hroom => by
    have hi := hS i (by simp)
    obtain ⟨h1, h2⟩ := advance_room (P i) (x i) G
    have hsum := Finset.add_sum_erase S (fun j => (x j).stack) hi
    simp only [List.length_cons] at hroom
    rw [runSchedule]
    refine schedule_room P S is _ _ (fun j hj => hS j (by simp [hj])) ?_ ?_
    · intro j
      by_cases hj : j = i
      · simp only [hj, if_true]
        intro h
        rcases h2 h with h | h
        · exact hx i h
        · omega
      · simp only [hj, if_false]; exact hx j
    · have hsum' := Finset.add_sum_erase S (fun j => (if j = i then ((P i).advance (x i) G).1 else x j).stack) hi
      simp only [if_true] at hsum'
      have heq : ∑ j ∈ S.erase i, (if j = i then ((P i).advance (x i) G).1 else x j).stack = ∑ j ∈ S.erase i, (x j).stack := by
        refine Finset.sum_congr rfl fun j hj => ?_
        rw [if_neg (Finset.ne_of_mem_erase hj)]
      omega

end LogSurgeon
