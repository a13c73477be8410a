import Verif.Proofs.PrefixTree
import Verif.Spec.SharedRegs
/- The register handler and registers with shared cells. -/
namespace LogSurgeon

structure SharedRel (h : RegisterHandler) (a : SharedRegs) : Prop where
  tree : TreeRel h.tree ⟨a.made, a.pos⟩
  len : h.regs.length = a.regs.length
  reg : ∀ (r n : Nat), h.regs[r]? = some n → ∃ c, a.made[n]? = some (n :: c) ∧ a.regs[r]? = some (n :: c)

theorem sharedRel_init : SharedRel .empty {} :=
  ⟨treeRel_init, rfl, fun r n h => by simp [RegisterHandler.empty] at h⟩

theorem SharedRel.none {h : RegisterHandler} {a : SharedRegs} (R : SharedRel h a) {r : Nat} (hr : h.regs[r]? = none) : a.regs[r]? = none := by
  rw [List.getElem?_eq_none_iff] at hr ⊢
  rw [← R.len]; exact hr

/-- A new cell. -/
theorem shared_new {h : RegisterHandler} {a : SharedRegs} (R : SharedRel h a) {n : Nat} {l : List Nat} (hl : a.made[n]? = some l) (x : Int) :
    ∃ t', h.tree.insert n x = .ok (t', a.made.length) ∧
      TreeRel t' ⟨a.made ++ [a.made.length :: l], fun i => if i = a.made.length then x else a.pos i⟩ := by
  have hi := insert_spec R.tree n x
  cases hins : h.tree.insert n x with
  | ok p =>
    obtain ⟨t', i⟩ := p
    rw [hins] at hi
    obtain ⟨h1, h2, h3, _⟩ := hi
    have hlen := R.tree.len
    simp only at hlen
    simp only [AbsTree.step, hl] at h1 h3
    injection h1 with h1
    subst h1
    exact ⟨t', rfl, h3⟩
  | error e =>
    rw [hins] at hi
    obtain ⟨h1, _⟩ := hi
    simp only [AbsTree.step, hl] at h1
    cases h1

theorem shared_step {h : RegisterHandler} {a : SharedRegs} (R : SharedRel h a) (op : SharedOp) :
    SharedRel (h.stepShared op).1 (a.step op).1 ∧ (h.stepShared op).2 = (a.step op).2 := by
  have hlen := R.tree.len
  simp only at hlen
  cases op with
  | add c x =>
    simp only [RegisterHandler.stepShared, SharedRegs.step, RegisterHandler.addRegister]
    cases hm : a.made[c]? with
    | none =>
      have hle : h.tree.nodes.length ≤ c := by
        rw [← hlen]; exact List.getElem?_eq_none_iff.mp hm
      have : h.tree.insert c x = .error .outOfRange := by simp [PrefixTree.insert, hle]
      rw [this]
      exact ⟨R, rfl⟩
    | some l =>
      obtain ⟨t', e1, e2⟩ := shared_new R hm x
      rw [e1]
      simp only [bind, Except.bind]
      refine ⟨⟨e2, by simp [R.len], ?_⟩, trivial⟩
      intro r n hr
      simp only at hr ⊢
      by_cases hlt : r < h.regs.length
      · rw [List.getElem?_append_left hlt] at hr
        obtain ⟨c', h1, h2⟩ := R.reg r n hr
        refine ⟨c', ?_, ?_⟩
        · rw [List.getElem?_append_left (List.getElem?_eq_some_iff.mp h1).1]; exact h1
        · rw [List.getElem?_append_left (by rw [← R.len]; exact hlt)]; exact h2
      · rw [List.getElem?_append_right (by omega)] at hr
        have h0 : r - h.regs.length = 0 := by
          have := (List.getElem?_eq_some_iff.mp hr).1
          simp at this; omega
        rw [h0] at hr
        simp only [List.getElem?_cons_zero, Option.some.injEq] at hr
        subst hr
        refine ⟨l, by simp, ?_⟩
        have : r = a.regs.length := by have := R.len; omega
        subst this
        simp
  | set r x =>
    simp only [RegisterHandler.stepShared, SharedRegs.step, RegisterHandler.setRegister, RegisterHandler.at_]
    cases hr : h.regs[r]? with
    | none => rw [R.none hr]; exact ⟨R, rfl⟩
    | some n =>
      obtain ⟨c, h1, h2⟩ := R.reg r n hr
      rw [h2]
      simp only [bind, Except.bind]
      have hs := set_spec R.tree n x
      cases ht : h.tree.set n x with
      | ok t' =>
        rw [ht] at hs
        obtain ⟨_, h3, hn⟩ := hs
        have hn' : n < a.made.length := by omega
        simp only [AbsTree.step, if_pos hn'] at h3
        exact ⟨⟨h3, R.len, R.reg⟩, rfl⟩
      | error e =>
        rw [ht] at hs
        have := (List.getElem?_eq_some_iff.mp h1).1
        omega
  | copy d s =>
    simp only [RegisterHandler.stepShared, SharedRegs.step, RegisterHandler.copyRegister, RegisterHandler.at_]
    cases hs : h.regs[s]? with
    | none => rw [R.none hs]; exact ⟨R, rfl⟩
    | some n =>
      obtain ⟨c, h1, h2⟩ := R.reg s n hs
      rw [h2]
      cases hd : h.regs[d]? with
      | none => rw [R.none hd]; exact ⟨R, rfl⟩
      | some n' =>
        obtain ⟨c', h1', h2'⟩ := R.reg d n' hd
        rw [h2']
        simp only [bind, Except.bind]
        refine ⟨⟨R.tree, by simp [R.len], ?_⟩, trivial⟩
        intro r m hm
        simp only [List.getElem?_set] at hm ⊢
        by_cases e : d = r
        · subst e
          have hlt := (List.getElem?_eq_some_iff.mp hd).1
          have hlt' := (List.getElem?_eq_some_iff.mp h2').1
          simp only [hlt, hlt', if_true, Option.some.injEq] at hm ⊢
          subst hm
          exact ⟨c, h1, rfl⟩
        · simp only [if_neg e] at hm ⊢
          exact R.reg r m hm
  | append r x =>
    simp only [RegisterHandler.stepShared, SharedRegs.step, RegisterHandler.appendPosition, RegisterHandler.at_]
    cases hr : h.regs[r]? with
    | none => rw [R.none hr]; exact ⟨R, rfl⟩
    | some n =>
      obtain ⟨c, h1, h2⟩ := R.reg r n hr
      rw [h2]
      simp only [bind, Except.bind]
      obtain ⟨t', e1, e2⟩ := shared_new R h1 x
      rw [e1]
      refine ⟨⟨e2, by simp [R.len], ?_⟩, rfl⟩
      intro q m hm
      simp only [List.getElem?_set] at hm ⊢
      by_cases e : r = q
      · subst e
        have hlt := (List.getElem?_eq_some_iff.mp hr).1
        have hlt' := (List.getElem?_eq_some_iff.mp h2).1
        simp only [hlt, hlt', if_true, Option.some.injEq] at hm ⊢
        subst hm
        exact ⟨n :: c, by simp, rfl⟩
      · simp only [if_neg e] at hm ⊢
        obtain ⟨c', g1, g2⟩ := R.reg q m hm
        exact ⟨c', by rw [List.getElem?_append_left (List.getElem?_eq_some_iff.mp g1).1]; exact g1, g2⟩
  | query r =>
    simp only [RegisterHandler.stepShared, SharedRegs.step, RegisterHandler.getReversedPositions, RegisterHandler.at_]
    cases hr : h.regs[r]? with
    | none => rw [R.none hr]; exact ⟨R, rfl⟩
    | some n =>
      obtain ⟨c, h1, h2⟩ := R.reg r n hr
      rw [h2]
      have hq := query_spec R.tree n
      simp only [h1] at hq
      simp only [bind, Except.bind, hq]
      exact ⟨R, trivial⟩

theorem shared_outputs (ops : List SharedOp) : ∀ {h : RegisterHandler} {a : SharedRegs}, SharedRel h a →
    outputs RegisterHandler.stepShared h ops = outputs SharedRegs.step a ops ∧
    SharedRel (finalState RegisterHandler.stepShared h ops) (finalState SharedRegs.step a ops) := by
  induction ops with
  | nil => intro h a R; exact ⟨rfl, R⟩
  | cons o os ih =>
    intro h a R
    obtain ⟨h1, h2⟩ := shared_step R o
    obtain ⟨h3, h4⟩ := ih h1
    exact ⟨by simp only [outputs, h2, h3], h4⟩

end LogSurgeon
