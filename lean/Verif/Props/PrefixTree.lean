import Verif.Proofs.PrefixTree
/-
C30, C31: prefix tree and registers.
-/
namespace LogSurgeon

/-- **C30** For every history of operations, the prefix tree returns exactly what the abstract tree
(each id has a chain of ids; each id has a position) returns. -/
theorem C30_tree_refines (ops : List TreeOp) :
    outputs PrefixTree.step .empty ops = outputs AbsTree.step .init ops :=
  (tree_outputs ops treeRel_init).1

example : outputs PrefixTree.step .empty
    [.insert 0 4, .insert 1 7, .insert 1 9, .set 1 5, .query 2, .query 3, .query 8, .insert 9 1] =
    [.id 1, .id 2, .id 3, .unit, .positions [7, 5], .positions [9, 5], .err .outOfRange,
      .err .outOfRange] := by decide

/-- The tree reached by a history. -/
abbrev treeAfter (ops : List TreeOp) : PrefixTree := finalState PrefixTree.step .empty ops

/-- **C30** In every reachable tree, an insertion below a known node yields a fresh id whose reversed
path is the inserted position followed by the parent's path, and no existing path changes. -/
theorem C30_insert_paths (ops : List TreeOp) (p : Nat) (x : Int) :
    (p < (treeAfter ops).size →
      ∃ t' path, (treeAfter ops).insert p x = .ok (t', (treeAfter ops).size) ∧
        (treeAfter ops).getReversedPositions p = .ok path ∧
        t'.getReversedPositions (treeAfter ops).size = .ok (x :: path) ∧
        t'.size = (treeAfter ops).size + 1 ∧
        ∀ i, i < (treeAfter ops).size →
          t'.getReversedPositions i = (treeAfter ops).getReversedPositions i) ∧
    ((treeAfter ops).size ≤ p → (treeAfter ops).insert p x = .error .outOfRange) := by
  have hR := (tree_outputs ops treeRel_init).2
  unfold treeAfter
  generalize finalState PrefixTree.step .empty ops = t at hR ⊢
  generalize finalState AbsTree.step .init ops = a at hR
  have query : ∀ {t a}, TreeRel t a → ∀ i, i < t.size →
      ∃ c, a.chains[i]? = some c ∧ t.getReversedPositions i = .ok (c.map a.pos) := by
    intro t a hR i hi
    have hl := hR.len
    obtain ⟨c, hc⟩ := getElem?_some_of_lt (l := a.chains) (i := i) (by
      have : i < t.nodes.length := hi
      omega)
    refine ⟨c, hc, ?_⟩
    have h := (tree_outputs [.query i] hR).1
    simp only [outputs, PrefixTree.step, AbsTree.step, hc, List.cons.injEq, and_true] at h
    revert h
    cases t.getReversedPositions i <;> simp
  refine ⟨fun hp => ?_, fun hp => ?_⟩
  · have hl := hR.len
    obtain ⟨c, hc, hq⟩ := query hR p hp
    have hstep := tree_outputs [.insert p x] hR
    have hsz : a.chains.length = t.size := by unfold PrefixTree.size; omega
    have hins : t.insert p x = .ok (⟨t.nodes ++ [⟨some p, x⟩]⟩, t.size) := by
      have : ¬ t.nodes.length ≤ p := by have : p < t.nodes.length := hp; omega
      simp [PrefixTree.insert, this, PrefixTree.size]
    simp only [outputs, finalState, PrefixTree.step, AbsTree.step, hc, hins] at hstep
    refine ⟨_, _, hins, hq, ?_, ?_, ?_⟩
    · obtain ⟨c', hc', hq'⟩ := query hstep.2 t.size (by simp [PrefixTree.size])
      rw [hq']
      rw [← hsz] at hc'
      simp at hc'
      subst hc'
      simp only [List.map_cons, ↓reduceIte]
      congr 2
      apply List.map_congr_left
      intro j hj
      have := chain_lt hR p c hc j hj
      rw [if_neg]
      have : p < t.nodes.length := hp
      omega
    · simp [PrefixTree.size]
    · intro i hi
      obtain ⟨c', hc', hq'⟩ := query hstep.2 i (by
        have : i < t.nodes.length := hi
        simp [PrefixTree.size]; omega)
      obtain ⟨c'', hc'', hq''⟩ := query hR i hi
      rw [hq', hq'']
      simp only at hc'
      rw [List.getElem?_append_left (by omega), hc''] at hc'
      simp only [Option.some.injEq] at hc'
      subst hc'
      congr 1
      apply List.map_congr_left
      intro j hj
      have := chain_lt hR i c'' hc'' j hj
      exact if_neg (by omega)
  · simp [PrefixTree.insert, show t.nodes.length ≤ p from hp]

/-- **C30** A query in a reachable tree either returns a path or reports an unknown id; it neither
runs off the node array nor loops. -/
theorem C30_query_total (ops : List TreeOp) (i : Nat) :
    (i < (treeAfter ops).size → ∃ path, (treeAfter ops).getReversedPositions i = .ok path) ∧
    ((treeAfter ops).size ≤ i → (treeAfter ops).getReversedPositions i = .error .outOfRange) := by
  refine ⟨fun h => ?_, fun h => ?_⟩
  · obtain ⟨_, path, _, hq, _⟩ := (C30_insert_paths ops i 0).1 h
    exact ⟨path, hq⟩
  · have : (treeAfter ops).nodes[i]? = none := List.getElem?_eq_none h
    simp [PrefixTree.getReversedPositions, this]

/-- **C31** (partial: `set_register` only on registers that own their newest position) For every such
history the register handler returns exactly what independent lists of positions return. -/
theorem C31_registers_partial (ops : List RegOp) (h : SetsOwned [] ops) :
    outputs RegisterHandler.step .empty ops = outputs AbsRegs.step [] ops :=
  reg_outputs ops regRel_init h

/-- The hypothesis is met by a history using every operation. -/
example : SetsOwned [] [.add 1, .add 2, .set 0 5, .copy 1 0, .append 1 3, .set 1 4, .query 0, .query 1] ∧
    outputs RegisterHandler.step .empty
      [.add 1, .add 2, .set 0 5, .copy 1 0, .append 1 3, .set 1 4, .query 0, .query 1] =
      [.unit, .unit, .unit, .unit, .unit, .unit, .positions [5], .positions [4, 5]] := by
  constructor
  · simp [SetsOwned, ownStep]
  · decide

theorem setsOwned_of_noSet (ops : List RegOp) : (∀ o ∈ ops, ∀ r x, o ≠ .set r x) →
    ∀ own, SetsOwned own ops := by
  induction ops with
  | nil => intros; trivial
  | cons o os ih =>
    intro h own
    exact ⟨fun r x he => absurd he (h o (by simp) r x), ih (fun o' ho => h o' (by simp [ho])) _⟩

/-- **C31** (partial) Histories of add, copy, append and query, in any order and on any ids. -/
theorem C31_noSet_partial (ops : List RegOp) (h : ∀ o ∈ ops, ∀ r x, o ≠ .set r x) :
    outputs RegisterHandler.step .empty ops = outputs AbsRegs.step [] ops :=
  C31_registers_partial ops (setsOwned_of_noSet ops h [])

/-- **C31 refuted in general**: after `copy_register`, `set_register` on one register changes the
other: for all positions `x`, `y`, `z` with `z ≠ x`. -/
theorem C31_registers_refuted (x y z : Int) (hz : z ≠ x) :
    outputs RegisterHandler.step .empty [.add x, .add y, .copy 1 0, .set 1 z, .query 0] =
      [.unit, .unit, .unit, .unit, .positions [z]] ∧
    outputs AbsRegs.step [] [.add x, .add y, .copy 1 0, .set 1 z, .query 0] =
      [.unit, .unit, .unit, .unit, .positions [x]] ∧
    ([.unit, .unit, .unit, .unit, .positions [z]] : List RegOut) ≠
      [.unit, .unit, .unit, .unit, .positions [x]] := by
  refine ⟨rfl, rfl, ?_⟩
  simp [hz]

end LogSurgeon
