import Verif.Proofs.IntervalTree
/-
C46: `UnicodeIntervalTree` as a map from intervals to values.
-/
namespace LogSurgeon

/-- What holds of a tree between calls. -/
def ITree.Good {α : Type} (t : ITree α) : Prop := t.Bounded ∧ ITree.Sorted t.all ∧ ITree.ProperAll t.all

theorem ITree.call_spec {α : Type} {diff : Nat → Nat → Int} {t t' : ITree α} {o : ITreeOp α} {r : List (Range × α)} (hg : t.Good) (ho : o.Proper)
    (h : t.call diff o = .ok (t', r)) : t'.Good ∧ MapCall t.all o t'.all r := by
  obtain ⟨h1, h2, h3⟩ := hg
  have touch : ∀ {i : Range}, i.1 ≤ i.2 → ∀ p ∈ t.all, (ITree.meets p.1.1 p.1.2 i = true ↔ Touches p.1 i) := fun hi p hp => meets_iff (h3 p hp) hi
  cases o with
  | insert a iv x =>
    obtain ⟨t'', hi, h⟩ := bind_ok h
    cases h
    obtain ⟨i1, i2, i3⟩ := ITree.insert_spec hi h1 h2
    refine ⟨⟨i1, i2, fun p hp => ?_⟩, .insert i3 i2⟩
    rcases (i3 p).mp hp with rfl | ⟨hp, _⟩
    · exact ho
    · exact h3 p hp
  | all => cases h; exact ⟨⟨h1, h2, h3⟩, .all⟩
  | find i =>
    obtain ⟨xs, hf, h⟩ := bind_ok h
    have hr : xs = r ∧ t = t' := by
      have h : (Except.ok (t, xs) : Except Fail (ITree α × List (Range × α))) = .ok (t', r) := h
      rw [Except.ok.injEq, Prod.mk.injEq] at h
      exact ⟨h.2, h.1⟩
    obtain ⟨hr, rfl⟩ := hr
    refine ⟨⟨h1, h2, h3⟩, ?_⟩
    rw [← hr]
    have hx : xs = t.findIn i := by
      unfold ITree.find at hf
      split at hf <;> cases hf
      rfl
    rw [hx, ITree.find_spec h1 h3]
    refine .find List.filter_sublist fun p => ?_
    rw [List.mem_filter]
    exact ⟨fun h => ⟨h.1, (touch ho p h.1).mp h.2⟩, fun h => ⟨h.1, (touch ho p h.1).mpr h.2⟩⟩
  | pop i =>
    obtain ⟨g1, g2, g3⟩ := ITree.pop_spec (show t.pop diff i (t.all.length + 1) = .ok (t', r) from h) h1 h2 h3
    have hsub : List.Sublist t'.all t.all := by rw [g2]; exact List.filter_sublist
    refine ⟨⟨g1, List.Pairwise.sublist hsub h2, fun p hp => h3 p (hsub.subset hp)⟩, .pop ?_ (fun p => ?_) hsub fun p => ?_⟩
    · rw [g3]; exact List.filter_sublist
    · rw [g3, List.mem_filter]
      exact ⟨fun h => ⟨h.1, (touch ho p h.1).mp h.2⟩, fun h => ⟨h.1, (touch ho p h.1).mpr h.2⟩⟩
    · rw [g2, List.mem_filter]
      constructor
      · rintro ⟨ha, hb⟩
        refine ⟨ha, fun ht => ?_⟩
        rw [(touch ho p ha).mpr ht] at hb
        cases hb
      · rintro ⟨ha, hb⟩
        refine ⟨ha, ?_⟩
        cases hm : ITree.meets p.1.1 p.1.2 i with
        | true => exact absurd ((touch ho p ha).mp hm) hb
        | false => rfl
  | reset =>
    cases h
    exact ⟨⟨trivial, .nil, fun p hp => by cases hp⟩, .reset⟩

/-- C46 (partial: calls that run into undefined behaviour are excluded, see below).  For every history of calls on a new tree, all addresses and whatever
the differences of pointers in `balance_factor` are: if no call runs into undefined behaviour, the data returned are those of a map from
intervals to values. -/
theorem C46_histories_partial {α : Type} (diff : Nat → Nat → Int) {os : List (ITreeOp α)} (ho : ∀ o ∈ os, o.Proper) {rs : List (List (Range × α))}
    (h : ITree.calls diff .nil os = .ok rs) : MapCalls [] os rs := by
  have key : ∀ (os : List (ITreeOp α)) (t : ITree α) (rs : List (List (Range × α))), t.Good → (∀ o ∈ os, o.Proper) → ITree.calls diff t os = .ok rs →
      MapCalls t.all os rs := by
    intro os
    induction os with
    | nil => intro t rs _ _ h; cases h; exact .nil
    | cons o os ih =>
      intro t rs hg ho h
      obtain ⟨⟨t', r⟩, h1, h⟩ := bind_ok h
      obtain ⟨rs', h2, h⟩ := bind_ok h
      cases h
      obtain ⟨g1, g2⟩ := ITree.call_spec hg (ho o (by simp)) h1
      exact .cons g2 (ih t' rs' g1 (fun o h => ho o (by simp [h])) h2)
  exact key os .nil rs ⟨trivial, .nil, fun p hp => by cases hp⟩ ho h

/-- C46: no history of calls hangs (`pop` stops by itself). -/
theorem C46_no_hang {α : Type} (diff : Nat → Nat → Int) {os : List (ITreeOp α)} (ho : ∀ o ∈ os, o.Proper) : ITree.calls diff .nil os ≠ .error .diverge := by
  have hins : ∀ (a : Nat) (iv : Range) (x : α) (t : ITree α), t.insert diff a iv x ≠ .error .diverge := by
    intro a iv x t
    induction t with
    | nil => simp [ITree.insert]
    | node a' l iv' x' lo up h r ihl ihr =>
      unfold ITree.insert
      split
      · cases hl : l.insert diff a iv x with
        | error e => exact fun h => ihl (by rw [hl]; cases h; rfl)
        | ok l' => exact ITree.balance_diverge
      · split
        · cases hr : r.insert diff a iv x with
          | error e => exact fun h => ihr (by rw [hr]; cases h; rfl)
          | ok r' => exact ITree.balance_diverge
        · exact ITree.balance_diverge
  have hcall : ∀ (t : ITree α) (o : ITreeOp α), t.Good → t.call diff o ≠ .error .diverge := by
    intro t o hg
    cases o with
    | insert a iv x =>
      intro h
      have h : (t.insert diff a iv x >>= fun t => .ok (t, [])) = .error .diverge := h
      cases hi : t.insert diff a iv x with
      | error e => rw [hi] at h; exact hins a iv x t (by rw [hi]; cases h; rfl)
      | ok t' => rw [hi] at h; cases h
    | all => exact fun h => by cases h
    | find i =>
      intro h
      have h : (t.find i >>= fun r => .ok (t, r)) = .error .diverge := h
      cases hi : t.find i with
      | error e =>
        rw [hi] at h
        have : e = .diverge := by cases h; rfl
        subst this
        unfold ITree.find at hi
        split at hi <;> cases hi
      | ok t' => rw [hi] at h; cases h
    | pop i => exact ITree.pop_diverge hg.1 hg.2.1 hg.2.2 (Nat.lt_succ_self _)
    | reset => exact fun h => by cases h
  have key : ∀ (os : List (ITreeOp α)) (t : ITree α), t.Good → (∀ o ∈ os, o.Proper) → ITree.calls diff t os ≠ .error .diverge := by
    intro os
    induction os with
    | nil => intro t _ _ h; cases h
    | cons o os ih =>
      intro t hg ho h
      have h : (t.call diff o >>= fun z => ITree.calls diff z.1 os >>= fun rs => .ok (z.2 :: rs)) = .error .diverge := h
      cases h1 : t.call diff o with
      | error e => rw [h1] at h; exact hcall t o hg (by rw [h1]; cases h; rfl)
      | ok z =>
        obtain ⟨t', r⟩ := z
        rw [h1] at h
        have h : (ITree.calls diff t' os >>= fun rs => .ok (r :: rs)) = .error .diverge := h
        have ih' := ih t' (ITree.call_spec hg (ho o (by simp)) h1).1 (fun o h => ho o (by simp [h]))
        cases h2 : ITree.calls diff t' os with
        | error e => rw [h2] at h; exact ih' (by rw [h2]; cases h; rfl)
        | ok rs => rw [h2] at h; cases h
  exact key os .nil ⟨trivial, .nil, fun p hp => by cases hp⟩ ho

/-- Nodes close to each other, at the beginning of the memory: the difference is that of the addresses. -/
def nearDiff (a b : Nat) : Int := a - b

/-- The hypotheses of C46 are met: insertions with a rotation, a value replaced, both queries and a removal. -/
example : ITree.calls nearDiff .nil [.insert 1 (10, 20) 'a', .insert 2 (30, 40) 'b', .insert 3 (5, 7) 'c', .insert 9 (30, 40) 'd', .all, .find (20, 30),
      .pop (6, 6), .all] =
    .ok [[], [], [], [], [((5, 7), 'c'), ((10, 20), 'a'), ((30, 40), 'd')], [((10, 20), 'a'), ((30, 40), 'd')], [((5, 7), 'c')],
      [((10, 20), 'a'), ((30, 40), 'd')]] := rfl

/-- The full statement is false: `balance_factor` subtracts the addresses of the children instead of their heights.  The second insertion
of any two different intervals is undefined behaviour if the new node is not at the very beginning of the memory (the square of
the difference overflows). -/
theorem C46_second_interval_refuted {α : Type} {diff : Nat → Nat → Int} {a b : Nat} {i j : Range} (hij : i ≠ j) (x y : α)
    (h1 : 46340 < diff b 0 ∨ diff b 0 < -46340) (h2 : 46340 < diff 0 b ∨ diff 0 b < -46340) (os : List (ITreeOp α)) :
    ITree.calls diff .nil (.insert a i x :: .insert b j y :: os) = .error .ub := by
  have sq : ∀ d : Int, 46340 < d ∨ d < -46340 → ITree.intMul d d = .error .ub := by
    intro d hd
    unfold ITree.intMul
    rw [if_pos]
    right
    rcases hd with hd | hd
    · have : (46341 : Int) * 46341 ≤ d * d := Int.mul_le_mul (by omega) (by omega) (by decide) (by omega)
      omega
    · have : (46341 : Int) * 46341 ≤ (-d) * (-d) := Int.mul_le_mul (by omega) (by omega) (by decide) (by omega)
      rw [Int.neg_mul_neg] at this
      omega
  have hins : (ITree.update a .nil i x .nil).insert diff b j y = .error .ub := by
    simp only [ITree.update, ITree.insert]
    split
    · simp only [bind, Except.bind, ITree.update, ITree.balance, ITree.balanceFactor, ITree.addr]
      rw [sq _ h2]
    · split
      · simp only [bind, Except.bind, ITree.update, ITree.balance, ITree.balanceFactor, ITree.addr]
        rw [sq _ h1]
      · rename_i n1 n2
        exact absurd (before_total (fun h => n2 (before_iff.mpr h)) (fun h => n1 (before_iff.mpr h))) hij
  have e1 : (ITree.nil : ITree α).call diff (.insert a i x) = .ok (ITree.update a .nil i x .nil, []) := rfl
  have e2 : (ITree.update a .nil i x .nil).call diff (.insert b j y) = .error .ub := by
    show (((ITree.update a .nil i x .nil).insert diff b j y) >>= fun t => .ok (t, [])) = _
    rw [hins]
    rfl
  simp only [ITree.calls, e1, e2, bind, Except.bind]

/-- The full statement is false: `find` on an empty tree dereferences a null pointer. -/
theorem C46_find_empty_refuted {α : Type} (diff : Nat → Nat → Int) (i : Range) (os : List (ITreeOp α)) :
    ITree.calls diff (.nil : ITree α) (.find i :: os) = .error .ub := rfl

/-- The full statement is false: `pop` of an interval that only touches an interval right of the root violates an assertion, even if no rebalancing
takes place. -/
theorem C46_pop_refuted : ITree.calls (fun _ _ => 0) .nil [.insert 1 (1, 2) 'a', .insert 2 (5, 6) 'b', .pop (5, 6)] = .error .ub := rfl

/-- The full statement is false: `pop` of an interval with two neighbours violates an assertion (`pop_min` expects a right child). -/
theorem C46_pop_min_refuted : ITree.calls (fun _ _ => 0) .nil [.insert 1 (3, 4) 'a', .insert 2 (1, 2) 'b', .insert 3 (5, 6) 'c', .pop (3, 4)] =
    .error .ub := rfl

/-- The condition on the addresses in `C46_second_interval_refuted` is met on every machine where nodes of 48 bytes lie above 2.3 megabytes and below 2³¹ nodes. -/
example : let diff : Nat → Nat → Int := fun a b => ((a : Int) - b) / 48
    (46340 < diff 0x5555000 0 ∨ diff 0x5555000 0 < -46340) ∧ (46340 < diff 0 0x5555000 ∨ diff 0 0x5555000 < -46340) := by decide

end LogSurgeon
