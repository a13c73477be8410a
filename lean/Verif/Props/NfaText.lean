import Verif.Proofs.Bfs
/-
C33: traversal and serialization of the NFA.

The reader needs: `Spec/Automata.lean` (`Nfa.Edge`, `Nfa.Path`) and from the model `Nfa.bfsOrder`,
`Nfa.serializeStates`, `Nfa.serialize` (Model/NfaText.lean) and `buildNfa`.
-/
namespace LogSurgeon

/-- C33: for every NFA whose transitions lead to existing states and are labelled with bytes (both hold of
every NFA the library builds, `C33_built`), the traversal terminates and lists the states reachable from the
root, each exactly once, the root first, and in order of distance: a path to a state listed later is never
shorter than some path to any state listed earlier. -/
theorem C33_bfs {n : Nfa} (hwf : n.WF) (hb : n.BytesOk) (hr : n.root < n.states.length) :
    ∃ order : List Nat, n.bfsOrder = some order ∧ order.head? = some n.root ∧ order.Nodup ∧
      (∀ q, q ∈ order ↔ ∃ w, n.Path n.root w q) ∧
      order.Pairwise (fun p q => ∀ w, n.Path n.root w q → ∃ w', n.Path n.root w' p ∧ w'.length ≤ w.length) := by
  obtain ⟨order, L, h1, h2⟩ := bfs_spec hwf hb hr
  have hroot : n.root ∈ order := List.mem_of_mem_head? (by simpa using h2.head)
  refine ⟨order, h1, by simpa using h2.head, by simpa using h2.nodup, fun q => ⟨fun hq => ?_, ?_⟩, ?_⟩
  · obtain ⟨_, w, hw, _⟩ := h2.reach q (by simpa using hq)
    exact ⟨w, hw⟩
  · rintro ⟨w, hw⟩; exact (h2.closed hw hroot).1
  · have hs : order.Pairwise (fun a b => L a ≤ L b) := by simpa using h2.sorted
    refine hs.imp_of_mem ?_
    intro p q hp hq hpq w hw
    obtain ⟨_, w', h3, h4⟩ := h2.reach p (by simpa using hp)
    have := (h2.closed hw hroot).2
    rw [h2.root] at this
    exact ⟨w', h3, by omega⟩

/-- C33: every NFA built from lexical rules meets the hypotheses of the theorems here. -/
theorem C33_built {rules : List Rule} {n : Nfa} (h : buildNfa rules = some n) :
    n.WF ∧ n.BytesOk ∧ n.root < n.states.length := by
  obtain ⟨ends, hI⟩ := buildNfa_inv h
  exact ⟨hI.wf, buildNfa_bytes h, by rw [hI.root]; exact hI.pos⟩

/-- C33: the serialization has one line for each reachable state, in traversal order; the line of the `i`-th
state carries the number `i`, the accepting mark of that state and exactly its transitions, with
destinations given by their position in the traversal. -/
theorem C33_serialize {n : Nfa} (hwf : n.WF) (hb : n.BytesOk) (hr : n.root < n.states.length) :
    ∃ (order : List Nat) (lines : List SerState), n.bfsOrder = some order ∧ n.serializeStates = some lines ∧
      lines.length = order.length ∧
      ∀ (i : Nat) (p : Nat) (line : SerState), order[i]? = some p → lines[i]? = some line →
        line.id = i ∧
        (∀ v, line.accepting = some v ↔ n.AcceptingFor p v) ∧
        (∀ c j, (c, j) ∈ line.bytes ↔ ∃ q, n.Edge p (.byte c) q ∧ order[j]? = some q) ∧
        (∀ j, j ∈ line.eps ↔ ∃ q, n.Edge p .eps q ∧ order[j]? = some q) ∧
        (∀ j t, (j, t) ∈ line.posStart ↔ ∃ q, n.Edge p (.openTag t) q ∧ order[j]? = some q) ∧
        (∀ j t, line.posEnd = some (j, t) ↔ ∃ q, n.Edge p (.closeTag t) q ∧ order[j]? = some q) ∧
        (∀ j ts, line.neg = some (j, ts) ↔ ∃ q, n.Edge p (.negTags ts) q ∧ order[j]? = some q) := by
  obtain ⟨order, L, h1, h2⟩ := bfs_spec hwf hb hr
  have hn : order.Nodup := by simpa using h2.nodup
  have hst : ∀ p ∈ order, n.states[p]? = some (n.states[p]?.getD {}) := by
    intro p hp
    have hlt := (h2.reach p (by simpa using hp)).1
    rw [List.getElem?_eq_getElem hlt]; rfl
  have key := fun p hp => serializeState_spec hn (hst p hp) hp
        (fun l q hq => by simpa using (h2.edges p hp l q hq).1) hb
  have tot : ∃ lines, mapAll (fun q => serializeState (stateIds order) q (n.states[q]?.getD {})) order =
      some lines := by
    refine ⟨_, mapAll_total (g := fun q => (serializeState (stateIds order) q (n.states[q]?.getD {})).getD
      ⟨0, none, [], [], [], none, none⟩) fun q hq => ?_⟩
    obtain ⟨line, h5, _⟩ := key q hq
    rw [h5]; rfl
  obtain ⟨lines, hl⟩ := tot
  have hf := mapAll_some hl
  refine ⟨order, lines, h1, by simp only [Nfa.serializeStates, h1, Option.bind_some, hl],
    hf.length_eq.symm, ?_⟩
  intro i p line hi hli
  have hp : p ∈ order := List.mem_of_getElem? hi
  obtain ⟨line', h5, h6, h7, h8⟩ := key p hp
  have h3 := hst p hp
  generalize n.states[p]?.getD {} = s at h3 h5 h7
  have hline : line = line' := by
    obtain ⟨hi1, hi2⟩ := List.getElem?_eq_some_iff.mp hi
    obtain ⟨hl1, hl2⟩ := List.getElem?_eq_some_iff.mp hli
    have := hf.get hi1 hl1
    simp only [List.get_eq_getElem, hi2, hl2, h3, Option.getD_some] at this
    rw [h5] at this; exact (Option.some.inj this).symm
  subst hline
  refine ⟨?_, ?_, h8⟩
  · obtain ⟨a1, a2⟩ := List.getElem?_eq_some_iff.mp h6
    obtain ⟨b1, b2⟩ := List.getElem?_eq_some_iff.mp hi
    have := List.Nodup.idxOf_getElem hn _ a1
    rw [a2, ← b2, List.Nodup.idxOf_getElem hn _ b1] at this
    exact this.symm
  · intro v
    rw [h7]
    constructor
    · intro h
      by_cases ha : s.accepting = true
      · rw [if_pos ha] at h; cases h; exact ⟨s, h3, ha, rfl⟩
      · rw [if_neg ha] at h; cases h
    · rintro ⟨s', h9, h10, rfl⟩
      rw [h3] at h9; cases h9
      rw [if_pos h10]

/-- C33, about the text itself: if no reachable state has a transition on the newline character and no
tag name contains one, then the text has exactly as many lines as there are reachable states.
Missing: newline transitions, see `C33_text_refuted`. -/
theorem C33_text_partial {n : Nfa} (hwf : n.WF) (hb : n.BytesOk) (hr : n.root < n.states.length)
    {name : Tag → List Nat} (hname : ∀ t, 10 ∉ name t)
    (hnl : ∀ w p q, n.Path n.root w p → ¬ n.Edge p (.byte 10) q) :
    ∃ order text, n.bfsOrder = some order ∧ n.serialize name = some text ∧ text.count 10 = order.length := by
  obtain ⟨order', h1', hh, hn, hreach, _⟩ := C33_bfs hwf hb hr
  obtain ⟨order, lines, h1, h2, h3, h4⟩ := C33_serialize hwf hb hr
  obtain rfl : order = order' := Option.some.inj (h1.symm.trans h1')
  refine ⟨order, joinWith [10] (lines.map (SerState.text name)) ++ [10], h1,
    by simp only [Nfa.serialize, h2, Option.map_some], ?_⟩
  rw [count_join, List.length_map, h3]
  · simp only [List.mem_map]
    rintro a ⟨line, hl, rfl⟩
    refine serText_nl hname line fun b hb' e => ?_
    obtain ⟨i, hi, rfl⟩ := List.mem_iff_getElem.mp hl
    obtain ⟨_, _, h5, _⟩ := h4 i _ _ (List.getElem?_eq_getElem (by omega)) (List.getElem?_eq_getElem hi)
    obtain ⟨c, j⟩ := b
    simp only at e; subst e
    obtain ⟨q, h6, _⟩ := (h5 10 j).mp hb'
    obtain ⟨w, hw⟩ := (hreach _).mp (List.getElem_mem (l := order) (n := i) (by omega))
    exact hnl w _ q hw h6
  · intro e
    have hlen : lines.length = 0 := by simpa using congrArg List.length e
    have : order = [] := List.length_eq_zero_iff.mp (by omega)
    rw [this] at hh; simp at hh

/-- A small NFA: rule `a|b(?<3>c)`. -/
def bfsNfa : Nfa :=
  (buildNfa [⟨8, .mkOr (.mkLiteral 97) (.mkCat (.mkLiteral 98) (.mkCapture (.mkLiteral 99) 3))⟩]).getD ⟨[], 0⟩

set_option maxRecDepth 100000 in
example : buildNfa [⟨8, .mkOr (.mkLiteral 97) (.mkCat (.mkLiteral 98) (.mkCapture (.mkLiteral 99) 3))⟩] = some bfsNfa ∧
    bfsNfa.bfsOrder = some [0, 2, 3, 1, 4, 5] ∧
    (bfsNfa.serializeStates.map fun ls => ls.map (·.id)) = some [0, 1, 2, 3, 4, 5] := by
  decide +kernel

set_option maxRecDepth 100000 in
/-- C33 fails for the text: the NFA of the regex `\n` has two states and its serialization three lines, because
the transition character is written raw. -/
theorem C33_text_refuted : ∃ (n : Nfa) (text : List Nat), buildNfa [⟨8, .mkLiteral 10⟩] = some n ∧
    n.bfsOrder = some [0, 1] ∧ n.serialize (fun _ => []) = some text ∧ text.count 10 = 3 := by
  refine ⟨{ states := [{ bytes := [(10, 1)] }, { accepting := true, varId := 8 }], root := 0 }, _,
    by decide +kernel, by decide +kernel, rfl, by decide +kernel⟩

end LogSurgeon
