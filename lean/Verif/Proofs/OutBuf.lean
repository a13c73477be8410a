import Verif.Spec.Events
/-
The output buffer as a growing array.
-/
namespace LogSurgeon
namespace OutBuf

theorem setToken_some {o : OutBuf} {i : Nat} (t : Token) (h : i < o.size) :
    ∃ o', o.setToken i t = some o' ∧ (∀ j, o'.get j = if j = i then t else o.get j) ∧
      o'.hasTimestamp = o.hasTimestamp ∧ o'.hasDelims = o.hasDelims ∧ o'.pos = o.pos ∧ o'.size = o.size ∧
      o'.staticSize = o.staticSize := by
  unfold setToken
  rw [if_pos h]
  refine ⟨_, rfl, ?_⟩
  cases hd : o.dynItems with
  | none =>
    refine ⟨fun j => ?_, rfl, rfl, rfl, rfl, rfl⟩
    simp [get, hd]
  | some d =>
    refine ⟨fun j => ?_, rfl, rfl, rfl, rfl, rfl⟩
    simp [get, hd]

theorem advance_spec {o : OutBuf} (h : o.pos < o.size) :
    (∀ j, j < o.size → o.advance.get j = o.get j) ∧ o.advance.pos = o.pos + 1 ∧ o.advance.pos < o.advance.size ∧
    o.advance.hasTimestamp = o.hasTimestamp ∧ o.advance.hasDelims = o.hasDelims ∧ o.advance.staticSize = o.staticSize ∧
    o.size ≤ o.advance.size := by
  unfold advance
  simp only
  split
  · rename_i he
    refine ⟨fun j hj => ?_, rfl, ?_, rfl, rfl, rfl, ?_⟩
    · show ((some fun i => if i < o.size then o.get i else {}).getD _) j = _
      simp [hj]
    · show o.pos + 1 < 2 * o.size; omega
    · show o.size ≤ 2 * o.size; omega
  · rename_i he
    exact ⟨fun j _ => rfl, rfl, by show o.pos + 1 < o.size; omega, rfl, rfl, rfl, Nat.le_refl _⟩

end OutBuf
end LogSurgeon
