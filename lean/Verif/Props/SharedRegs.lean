import Verif.Proofs.SharedRegs
/-
C61: registers in every history, shared positions included.
-/
namespace LogSurgeon

/-- C61: for every history of calls of a register handler (registers added behind any node, set, copied, appended to and read in any order, with any
indices), every call returns, and what is returned is what registers with shared cells return. -/
theorem C61_registers (ops : List SharedOp) : outputs RegisterHandler.stepShared .empty ops = outputs SharedRegs.step {} ops :=
  (shared_outputs ops sharedRel_init).1

/-- The register handler after a history. -/
abbrev regsAfter (ops : List SharedOp) : RegisterHandler := finalState RegisterHandler.stepShared .empty ops

/-- C61: reading never runs off an array and never hangs: registers are known or reported. -/
theorem C61_query_total (ops : List SharedOp) (r : Nat) :
    (∃ l, (regsAfter ops).getReversedPositions r = .ok l ∧ l ≠ []) ∨ (regsAfter ops).getReversedPositions r = .error .outOfRange := by
  have R := (shared_outputs ops sharedRel_init).2
  show (∃ l, (finalState RegisterHandler.stepShared .empty ops).getReversedPositions r = .ok l ∧ l ≠ []) ∨ _
  unfold regsAfter
  generalize finalState RegisterHandler.stepShared .empty ops = h at R ⊢
  generalize finalState SharedRegs.step {} ops = a at R
  simp only [RegisterHandler.getReversedPositions, RegisterHandler.at_]
  cases hr : h.regs[r]? with
  | none => right; rfl
  | some n =>
    left
    obtain ⟨c, h1, _⟩ := R.reg r n hr
    have hq := query_spec R.tree n
    simp only [h1] at hq
    exact ⟨_, hq, by simp⟩

/-- C61: what a copy means for later writes.  In any state, after `copy_register(d, s)` both registers read the same, and go on doing so when
`set_register` is used on either of them, until one of them is the target of another `copy_register` or of `append_position`. -/
theorem C61_copies_share (a : SharedRegs) (d s : Nat) (writes : List (Nat × Int)) (hs : s < a.regs.length) (hd : d < a.regs.length) :
    let a' := finalState SharedRegs.step a (.copy d s :: writes.map fun w => .set w.1 w.2)
    (a'.step (.query d)).2 = (a'.step (.query s)).2 := by
  have keep : ∀ (ws : List (Nat × Int)) (b : SharedRegs), b.regs[d]? = b.regs[s]? →
      (finalState SharedRegs.step b (ws.map fun w => .set w.1 w.2)).regs[d]? = (finalState SharedRegs.step b (ws.map fun w => .set w.1 w.2)).regs[s]? := by
    intro ws
    induction ws with
    | nil => intro b h; exact h
    | cons w ws ih =>
      intro b h
      simp only [List.map_cons, finalState]
      refine ih _ ?_
      simp only [SharedRegs.step]
      split <;> exact h
  have e := keep writes ((a.step (.copy d s)).1) (by
    simp only [SharedRegs.step]
    rw [List.getElem?_eq_getElem hs, List.getElem?_eq_getElem hd]
    simp only [List.getElem?_set]
    by_cases h : d = s
    · subst h; simp
    · simp [h, hd, List.getElem?_eq_getElem hs])
  simp only [finalState]
  generalize finalState SharedRegs.step (a.step (.copy d s)).1 (writes.map fun w => .set w.1 w.2) = b at e ⊢
  simp only [SharedRegs.step, e]

/-- C61: `append_position` separates: it changes what its own register reads and no other. -/
theorem C61_append_private (ops : List SharedOp) (r q : Nat) (x : Int) (hq : q ≠ r) :
    (((regsAfter ops).stepShared (.append r x)).1.getReversedPositions q) = (regsAfter ops).getReversedPositions q := by
  have R := (shared_outputs ops sharedRel_init).2
  unfold regsAfter
  generalize finalState RegisterHandler.stepShared .empty ops = h at R ⊢
  generalize finalState SharedRegs.step {} ops = a at R
  have R' := (shared_step R (.append r x)).1
  have look : ∀ {h : RegisterHandler} {a : SharedRegs}, SharedRel h a → ∀ q, h.getReversedPositions q =
      match a.regs[q]? with | none => .error .outOfRange | some l => .ok (l.map a.pos) := by
    intro h a R q
    simp only [RegisterHandler.getReversedPositions, RegisterHandler.at_]
    cases hr : h.regs[q]? with
    | none => rw [R.none hr]; rfl
    | some n =>
      obtain ⟨c, h1, h2⟩ := R.reg q n hr
      have hq := query_spec R.tree n
      simp only [h1] at hq
      rw [h2]
      exact hq
  rw [look R', look R]
  simp only [SharedRegs.step]
  cases hr : a.regs[r]? with
  | none => rfl
  | some l =>
    simp only [List.getElem?_set, if_neg (Ne.symm hq)]
    cases hq' : a.regs[q]? with
    | none => rfl
    | some l' =>
      simp only [Except.ok.injEq]
      apply List.map_congr_left
      intro i hi
      obtain ⟨n, hn⟩ : ∃ n, h.regs[q]? = some n := by
        have := (List.getElem?_eq_some_iff.mp hq').1
        exact ⟨_, List.getElem?_eq_getElem (by rw [R.len]; exact this)⟩
      obtain ⟨c, h1, h2⟩ := R.reg q n hn
      rw [hq'] at h2
      injection h2 with h2
      have hlt := chain_lt R.tree n _ h1 i (by rw [← h2]; exact hi)
      have := (List.getElem?_eq_some_iff.mp h1).1
      exact if_neg (by omega)

/-- A history with every operation; registers 0 and 1 share a position after the copy, and a register is added behind the node of another. -/
example : outputs RegisterHandler.stepShared .empty
    [.add 0 7, .add 0 8, .copy 1 0, .set 1 9, .query 0, .append 1 3, .set 1 4, .query 0, .query 1, .add 3 1, .query 2, .set 0 6, .query 2, .query 5, .add 9 0] =
    [.unit, .unit, .unit, .unit, .positions [9], .unit, .unit, .positions [9], .positions [4, 9], .unit, .positions [1, 4, 9], .unit, .positions [1, 4, 6],
      .err .outOfRange, .err .outOfRange] := by decide

end LogSurgeon
