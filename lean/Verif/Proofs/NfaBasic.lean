import Verif.Spec.Automata
/- Basic lemmas on NFA extension, paths, closed assignments. -/
namespace LogSurgeon

theorem Nfa.Path.append {n : Nfa} {p q r w x} (h : n.Path p w q) (h' : n.Path q x r) :
    n.Path p (w ++ x) r := by
  induction h with
  | nil => exact h'
  | cons e _ ih => exact .cons e (ih h')

theorem Nfa.Path.single {n : Nfa} {p l q} (h : n.Edge p l q) : n.Path p [l] q := .cons h (.nil _)

theorem Nfa.path_append_iff {n : Nfa} {p r : Nat} {w x : List Label} :
    n.Path p (w ++ x) r ↔ ∃ q, n.Path p w q ∧ n.Path q x r := by
  constructor
  · intro h
    induction w generalizing p with
    | nil => exact ⟨p, .nil _, h⟩
    | cons l w ih =>
      cases h with
      | cons e h => obtain ⟨q, h1, h2⟩ := ih h; exact ⟨q, .cons e h1, h2⟩
  · rintro ⟨q, h1, h2⟩; exact h1.append h2

theorem bytesOf_append (w x : List Label) : bytesOf (w ++ x) = bytesOf w ++ bytesOf x := by
  induction w with
  | nil => rfl
  | cons l w ih => cases l <;> simp [bytesOf, ih]

/-- `n'` extends `n`: keeps its states' flags and edges, adds only non-accepting states. -/
structure Nfa.Ext (n n' : Nfa) : Prop where
  len : n.states.length ≤ n'.states.length
  edge : ∀ p l q, n.Edge p l q → n'.Edge p l q
  flags : ∀ (i : Nat) (s : NState), n.states[i]? = some s →
    ∃ s' : NState, n'.states[i]? = some s' ∧ s'.accepting = s.accepting ∧ s'.varId = s.varId
  fresh : ∀ (i : Nat) (s : NState), n.states.length ≤ i → n'.states[i]? = some s → s.accepting = false

theorem Nfa.Ext.refl (n : Nfa) : n.Ext n :=
  ⟨Nat.le_refl _, fun _ _ _ h => h, fun _ s h => ⟨s, h, rfl, rfl⟩, fun i s h h' => by
    rw [List.getElem?_eq_none h] at h'; cases h'⟩

theorem Nfa.Ext.trans {a b c : Nfa} (h : a.Ext b) (h' : b.Ext c) : a.Ext c where
  len := Nat.le_trans h.len h'.len
  edge p l q e := h'.edge _ _ _ (h.edge _ _ _ e)
  flags i s hs := by
    obtain ⟨s1, h1, h2, h3⟩ := h.flags i s hs
    obtain ⟨s2, h4, h5, h6⟩ := h'.flags i s1 h1
    exact ⟨s2, h4, by rw [h5, h2], by rw [h6, h3]⟩
  fresh i s hi hs := by
    by_cases hb : b.states.length ≤ i
    · exact h'.fresh i s hb hs
    · have hb : i < b.states.length := by omega
      obtain ⟨s2, h4, h5, h6⟩ := h'.flags i b.states[i] (List.getElem?_eq_getElem hb)
      rw [hs] at h4; cases h4
      rw [h5]; exact h.fresh i _ hi (List.getElem?_eq_getElem hb)

theorem Nfa.Ext.path {a b : Nfa} (h : a.Ext b) {p w q} (hp : a.Path p w q) : b.Path p w q := by
  induction hp with
  | nil => exact .nil _
  | cons e _ ih => exact .cons (h.edge _ _ _ e) ih

/-- All transitions lead to existing states. -/
def Nfa.WF (n : Nfa) : Prop := ∀ p l q, n.Edge p l q → q < n.states.length

theorem Nfa.Edge.lt {n : Nfa} {p l q} (h : n.Edge p l q) : p < n.states.length := by
  obtain ⟨s, hs, _⟩ := h
  exact (List.getElem?_eq_some_iff.mp hs).1

abbrev Lang := List Label → Prop

/-- The assignment `I` is closed under the transitions of `n`. -/
def Nfa.Closed (n : Nfa) (I : Nat → Lang) : Prop :=
  ∀ p l q w, n.Edge p l q → I p w → I q (w ++ [l])

theorem Nfa.Closed.path {n : Nfa} {I : Nat → Lang} (h : n.Closed I) {p w q} (hp : n.Path p w q)
    {x} (hx : I p x) : I q (x ++ w) := by
  induction hp generalizing x with
  | nil => simpa using hx
  | cons e _ ih => simpa using ih (h _ _ _ _ e hx)

/-! #### The elementary updates -/

theorem Nfa.edge_setRoot {n : Nfa} {r p l q} : (n.setRoot r).Edge p l q ↔ n.Edge p l q := Iff.rfl

theorem Nfa.path_setRoot {n : Nfa} {r p w q} : (n.setRoot r).Path p w q ↔ n.Path p w q := by
  constructor
  · intro h; induction h with
    | nil => exact .nil _
    | cons e _ ih => exact .cons e ih
  · intro h; induction h with
    | nil => exact .nil _
    | cons e _ ih => exact .cons e ih

theorem Nfa.ext_setRoot (n : Nfa) (r : Nat) : n.Ext (n.setRoot r) := by
  have := Nfa.Ext.refl n
  exact ⟨this.len, this.edge, this.flags, this.fresh⟩

theorem Nfa.Ext.setRoot {a b : Nfa} (h : a.Ext b) (r : Nat) : a.Ext (b.setRoot r) :=
  h.trans (b.ext_setRoot r)

theorem Nfa.Ext.ofSetRoot {a b : Nfa} {r : Nat} (h : (a.setRoot r).Ext b) : a.Ext b :=
  (a.ext_setRoot r).trans h

theorem Nfa.edge_pushState {n : Nfa} {s : NState} {p l q} :
    (n.pushState s).1.Edge p l q ↔ n.Edge p l q ∨ (p = n.states.length ∧ (l, q) ∈ s.out) := by
  unfold Nfa.Edge Nfa.pushState
  simp only
  constructor
  · rintro ⟨t, ht, hl⟩
    rw [List.getElem?_append] at ht
    split at ht
    · exact .inl ⟨t, ht, hl⟩
    · rename_i h
      obtain ⟨h1, h2⟩ := List.getElem?_eq_some_iff.mp ht
      simp at h1 h2
      subst h2
      exact .inr ⟨by omega, hl⟩
  · rintro (⟨t, ht, hl⟩ | ⟨rfl, hl⟩)
    · exact ⟨t, by rw [List.getElem?_append_left (List.getElem?_eq_some_iff.mp ht).1]; exact ht, hl⟩
    · exact ⟨s, by simp, hl⟩

theorem Nfa.length_pushState {n : Nfa} {s : NState} :
    (n.pushState s).1.states.length = n.states.length + 1 := by simp [Nfa.pushState]

theorem Nfa.ext_pushState (n : Nfa) (s : NState) (h : s.accepting = false) :
    n.Ext (n.pushState s).1 where
  len := by simp [Nfa.pushState]
  edge p l q h := Nfa.edge_pushState.mpr (.inl h)
  flags i t ht := ⟨t, by
    simp only [Nfa.pushState]
    rw [List.getElem?_append_left (List.getElem?_eq_some_iff.mp ht).1]; exact ht, rfl, rfl⟩
  fresh i t hi ht := by
    obtain ⟨h1, h2⟩ := List.getElem?_eq_some_iff.mp ht
    simp only [Nfa.pushState, List.length_append, List.length_singleton] at h1
    have : i = n.states.length := by omega
    subst this
    simp [Nfa.pushState] at ht
    subst ht; exact h

/-- `n.modifyState i f` where `f` keeps the flags and adds transitions. -/
theorem Nfa.edge_modifyState {n : Nfa} {i : Nat} {f : NState → NState} {p l q}
    (hi : i < n.states.length) (extra : List (Label × Nat))
    (hf : ∀ s x, x ∈ (f s).out ↔ x ∈ s.out ∨ x ∈ extra) :
    (n.modifyState i f).Edge p l q ↔ n.Edge p l q ∨ (p = i ∧ (l, q) ∈ extra) := by
  unfold Nfa.Edge Nfa.modifyState
  simp only [List.getElem?_modify]
  constructor
  · rintro ⟨t, ht, hl⟩
    split at ht
    · rename_i hip
      subst hip
      simp only [Option.map_eq_map, Option.map_eq_some_iff] at ht
      obtain ⟨s, hs, rfl⟩ := ht
      rcases (hf _ _).mp hl with h | h
      · exact .inl ⟨s, hs, h⟩
      · exact .inr ⟨rfl, h⟩
    · simp at ht; exact .inl ⟨t, ht, hl⟩
  · rintro (⟨t, ht, hl⟩ | ⟨rfl, hl⟩)
    · by_cases hip : i = p
      · subst hip
        exact ⟨f t, by simp [ht], (hf _ _).mpr (.inl hl)⟩
      · exact ⟨t, by simp [hip, ht], hl⟩
    · exact ⟨f n.states[p], by simp [List.getElem?_eq_getElem hi], (hf _ _).mpr (.inr hl)⟩

theorem Nfa.ext_modifyState {n : Nfa} {i : Nat} {f : NState → NState}
    (hi : i < n.states.length) (extra : List (Label × Nat))
    (hf : ∀ s x, x ∈ (f s).out ↔ x ∈ s.out ∨ x ∈ extra)
    (hfl : ∀ s, (f s).accepting = s.accepting ∧ (f s).varId = s.varId) :
    n.Ext (n.modifyState i f) where
  len := by simp [Nfa.modifyState]
  edge p l q h := (Nfa.edge_modifyState hi extra hf).mpr (.inl h)
  flags j s hs := by
    simp only [Nfa.modifyState, List.getElem?_modify]
    by_cases hij : i = j
    · subst hij; exact ⟨f s, by simp [hs], (hfl s).1, (hfl s).2⟩
    · exact ⟨s, by simp [hij, hs], rfl, rfl⟩
  fresh j s hj hs := by
    rw [List.getElem?_eq_none (by simpa [Nfa.modifyState] using hj)] at hs; cases hs

theorem Nfa.length_modifyState {n : Nfa} {i : Nat} {f : NState → NState} :
    (n.modifyState i f).states.length = n.states.length := by simp [Nfa.modifyState]

end LogSurgeon
