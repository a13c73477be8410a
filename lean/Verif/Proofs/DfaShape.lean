import Verif.Proofs.DfaIds
/-
Properties of all states of a generated DFA (reachable or not): transitions are on bytes, variable ids are
those of rules.
-/
namespace LogSurgeon

/-- All states are of the form produced by the subset construction. -/
def DStatesOk (n : Nfa) (l : List DState) : Prop :=
  ∀ s ∈ l, (∀ p ∈ s.trans, p.1 < cSizeOfByte) ∧ ∃ set, s.ids = acceptIds n set

theorem dstatesOk_create {n : Nfa} {st : SubsetState} (h : DStatesOk n st.dfa) (set : StateSet) :
    DStatesOk n (st.create n set).1.dfa := by
  intro s hs
  simp only [SubsetState.create, List.mem_append, List.mem_singleton] at hs
  rcases hs with hs | rfl
  · exact h s hs
  · exact ⟨by simp, set, rfl⟩

theorem dstatesOk_bytes {n : Nfa} {addr : Nat → Nat} {set : StateSet} {q : Nat} (cs : List Nat) :
    ∀ {st st' : SubsetState}, (∀ c ∈ cs, c < cSizeOfByte) → DStatesOk n st.dfa →
    subsetBytes n addr set q cs st = some st' → DStatesOk n st'.dfa := by
  induction cs with
  | nil => intro st st' _ h hh; simp only [subsetBytes, Option.some.injEq] at hh; subst hh; exact h
  | cons c cs ih =>
    intro st st' hc h hh
    simp only [subsetBytes, Option.bind_eq_some_iff] at hh
    obtain ⟨t, _, hh⟩ := hh
    have hcs : ∀ c ∈ cs, c < cSizeOfByte := fun c h => hc c (.tail _ h)
    split at hh
    · exact ih hcs h hh
    · refine ih hcs ?_ hh
      have h1 : DStatesOk n (st.nextState n t).1.dfa := by
        unfold SubsetState.nextState
        split
        · exact h
        · exact dstatesOk_create h t
      intro s hs
      simp only [SubsetState.addTrans] at hs
      obtain ⟨i, hi, rfl⟩ := List.mem_iff_getElem.mp hs
      rw [List.getElem_modify]
      rw [List.length_modify] at hi
      have := h1 _ (List.getElem_mem hi)
      split
      · refine ⟨?_, this.2⟩
        intro p hp
        rcases List.mem_cons.mp hp with rfl | hp
        · exact hc c (.head _)
        · exact this.1 p hp
      · exact this

theorem dstatesOk_loop {n : Nfa} {addr : Nat → Nat} (k : Nat) : ∀ {st st' : SubsetState},
    DStatesOk n st.dfa → subsetLoop n addr k st = some st' → DStatesOk n st'.dfa := by
  induction k with
  | zero =>
    intro st st' h hh
    obtain ⟨d, m, stk⟩ := st
    cases stk with
    | nil => simp only [subsetLoop, Option.some.injEq] at hh; subst hh; exact h
    | cons => simp [subsetLoop] at hh
  | succ k ih =>
    intro st st' h hh
    obtain ⟨d, m, stk⟩ := st
    cases stk with
    | nil => simp only [subsetLoop, Option.some.injEq] at hh; subst hh; exact h
    | cons x rest =>
      simp only [subsetLoop, Option.bind_eq_some_iff] at hh
      obtain ⟨q, _, st1, h1, h2⟩ := hh
      exact ih (dstatesOk_bytes _ (fun c hc => List.mem_range.mp hc) (by exact h) h1) h2

theorem dfa_shape {rules : List Rule} {addr : Nat → Nat} {d : Dfa} (h : generateDfa rules addr = some d) :
    (∀ q c r, d.next q c = some r → c < cSizeOfByte) ∧ ∀ q v, v ∈ d.ids q → ∃ r ∈ rules, r.id = v := by
  simp only [generateDfa, Option.bind_eq_some_iff] at h
  obtain ⟨n, hn, h⟩ := h
  obtain ⟨ends, hI⟩ := buildNfa_inv hn
  simp only [nfaToDfa, Option.bind_eq_some_iff, Option.map_eq_some_iff] at h
  obtain ⟨start, _, st, hst, rfl⟩ := h
  have hok : DStatesOk n st.dfa := dstatesOk_loop _ (dstatesOk_create (by intro s hs; cases hs) start) hst
  constructor
  · intro q c r hnext
    simp only [Dfa.next, Option.bind_eq_some_iff, DState.next] at hnext
    obtain ⟨s, hs, hl⟩ := hnext
    exact (hok s (List.mem_of_getElem? hs)).1 (c, r) (by
      have := List.lookup_eq_some_iff.mp hl
      obtain ⟨l1, l2, h1, _⟩ := this
      rw [h1]; simp)
  · intro q v hv
    simp only [Dfa.ids] at hv
    cases hs : st.dfa[q]? with
    | none => simp [hs] at hv
    | some s =>
      simp only [hs, Option.map_some, Option.getD_some] at hv
      obtain ⟨set, hset⟩ := (hok s (List.mem_of_getElem? hs)).2
      rw [hset, acceptIds_eq hI] at hv
      simp only [List.mem_map, List.mem_filter, decide_eq_true_eq] at hv
      obtain ⟨e, ⟨_, he⟩, rfl⟩ := hv
      obtain ⟨i, hi, rfl⟩ := List.mem_iff_getElem.mp he
      have hi' := hi
      rw [hI.len] at hi'
      obtain ⟨t, h1, _, h3⟩ := hI.acc i hi'
      exact ⟨rules[i], List.getElem_mem hi', by simp [Nfa.varOf, h1, h3]⟩

theorem run_allBytes {d : Dfa} (h : ∀ q c r, d.next q c = some r → c < cSizeOfByte) (w : List Nat) :
    ∀ q, (d.run q w).isSome → AllBytes w := by
  induction w with
  | nil => intro q _ c hc; cases hc
  | cons c w ih =>
    intro q hs d' hd
    simp only [Dfa.run] at hs
    cases hn : d.next q c with
    | none => simp [hn] at hs
    | some r =>
      simp only [hn, Option.bind_some] at hs
      rcases List.mem_cons.mp hd with rfl | hd
      · exact h _ _ _ hn
      · exact ih r hs d' hd

end LogSurgeon
