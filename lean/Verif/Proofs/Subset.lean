import Verif.Proofs.Worklist
import Verif.Proofs.NfaBasic
import Mathlib.Data.Finset.Powerset
/- Correctness and termination of the subset construction. -/
namespace LogSurgeon

theorem mem_spontaneous {n : Nfa} {p q : Nat} :
    q ∈ n.spontaneous p ↔ ∃ l, n.Edge p l q ∧ bytesOf [l] = [] := by
  unfold Nfa.spontaneous Nfa.Edge
  cases h : n.states[p]? with
  | none => simp
  | some s =>
    simp only [Option.map_some, Option.getD_some, NState.spontaneous, Option.some.injEq, NState.out]
    constructor
    · intro hq
      simp only [List.mem_append, List.mem_map] at hq
      rcases hq with ((hq | ⟨a, ha, rfl⟩) | ⟨a, ha, rfl⟩) | ⟨a, ha, rfl⟩
      · exact ⟨.eps, ⟨s, rfl, by simp [hq]⟩, rfl⟩
      · exact ⟨.openTag a.1, ⟨s, rfl, by simp [ha]⟩, rfl⟩
      · exact ⟨.closeTag a.1, ⟨s, rfl, by
          simp only [Option.mem_toList] at ha; simp [ha]⟩, rfl⟩
      · exact ⟨.negTags a.1, ⟨s, rfl, by
          simp only [Option.mem_toList] at ha; simp [ha]⟩, rfl⟩
    · rintro ⟨l, ⟨s', rfl, hl⟩, hb⟩
      simp only [List.mem_append, List.mem_map, Prod.mk.injEq] at hl ⊢
      rcases hl with (((⟨a, _, rfl, rfl⟩ | ⟨a, ha, rfl, rfl⟩) | ⟨a, ha, rfl, rfl⟩) | ⟨a, ha, rfl, rfl⟩) | ⟨a, ha, rfl, rfl⟩
      · simp [bytesOf] at hb
      · exact .inl (.inl (.inl ha))
      · exact .inl (.inl (.inr ⟨a, ha, rfl⟩))
      · exact .inl (.inr ⟨a, ha, rfl⟩)
      · exact .inr ⟨a, ha, rfl⟩

theorem mem_byteTransitions {n : Nfa} {p q c : Nat} :
    (∃ s, n.states[p]? = some s ∧ q ∈ s.byteTransitions c) ↔ n.Edge p (.byte c) q := by
  unfold Nfa.Edge
  constructor
  · rintro ⟨s, hs, hq⟩
    refine ⟨s, hs, ?_⟩
    simp only [NState.byteTransitions, List.mem_map, List.mem_filter] at hq
    obtain ⟨⟨a, b⟩, ⟨h1, h2⟩, rfl⟩ := hq
    simp at h2; subst h2
    simp [NState.out, h1]
  · rintro ⟨s, hs, hq⟩
    refine ⟨s, hs, ?_⟩
    simp only [NState.out, List.mem_append, List.mem_map, Prod.mk.injEq] at hq
    simp only [NState.byteTransitions, List.mem_map, List.mem_filter]
    rcases hq with (((⟨a, h, h1, h2⟩ | ⟨a, _, h, _⟩) | ⟨a, _, h, _⟩) | ⟨a, _, h, _⟩) | ⟨a, _, h, _⟩
    · cases h1; exact ⟨a, ⟨h, by simp⟩, h2⟩
    all_goals cases h

/-- `y` is reachable from the root by reading `w`. -/
def Nfa.ReachBy (n : Nfa) (w : List Nat) (y : Nat) : Prop := ∃ lw, n.Path n.root lw y ∧ bytesOf lw = w

theorem reach_iff_path {n : Nfa} {p q : Nat} :
    Reach n.spontaneous p q ↔ ∃ lw, n.Path p lw q ∧ bytesOf lw = [] := by
  constructor
  · intro h
    induction h with
    | refl => exact ⟨[], .nil _, rfl⟩
    | step e _ ih =>
      obtain ⟨l, h1, h2⟩ := mem_spontaneous.mp e
      obtain ⟨lw, h3, h4⟩ := ih
      refine ⟨l :: lw, .cons h1 h3, ?_⟩
      have := bytesOf_append [l] lw
      rw [h2, h4] at this; exact this
  · rintro ⟨lw, h, hb⟩
    induction h with
    | nil => exact .refl _
    | @cons p l q w r e _ ih =>
      have := bytesOf_append [l] w
      rw [show [l] ++ w = l :: w from rfl, hb] at this
      have h1 : bytesOf [l] = [] ∧ bytesOf w = [] := by simpa using this.symm
      exact .step (mem_spontaneous.mpr ⟨l, e, h1.1⟩) (ih h1.2)

theorem path_byte_split {n : Nfa} {p r : Nat} {lw : List Label} {w : List Nat} {c : Nat}
    (h : n.Path p lw r) (hb : bytesOf lw = w ++ [c]) :
    ∃ lw1 q q1, n.Path p lw1 q ∧ bytesOf lw1 = w ∧ n.Edge q (.byte c) q1 ∧ Reach n.spontaneous q1 r := by
  induction h generalizing w with
  | nil p => simp [bytesOf] at hb
  | @cons p l q lw' r e hp ih =>
    cases l with
    | byte d =>
      simp only [bytesOf] at hb
      cases w with
      | nil =>
        simp at hb
        obtain ⟨rfl, hb⟩ := hb
        exact ⟨[], p, q, .nil _, rfl, e, reach_iff_path.mpr ⟨lw', hp, hb⟩⟩
      | cons a w =>
        simp at hb
        obtain ⟨rfl, hb⟩ := hb
        obtain ⟨lw1, q', q1, h1, h2, h3, h4⟩ := ih hb
        exact ⟨_ :: lw1, q', q1, .cons e h1, by simp [bytesOf, h2], h3, h4⟩
    | eps | openTag _ | closeTag _ | negTags _ =>
      simp only [bytesOf] at hb
      obtain ⟨lw1, q', q1, h1, h2, h3, h4⟩ := ih hb
      exact ⟨_ :: lw1, q', q1, .cons e h1, by simp [bytesOf, h2], h3, h4⟩

theorem reachBy_nil {n : Nfa} {y : Nat} : n.ReachBy [] y ↔ Reach n.spontaneous n.root y :=
  reach_iff_path.symm

theorem reachBy_snoc {n : Nfa} {w : List Nat} {c y : Nat} :
    n.ReachBy (w ++ [c]) y ↔ ∃ q, n.ReachBy w q ∧ ∃ s, n.states[q]? = some s ∧
      ∃ q1 ∈ s.byteTransitions c, Reach n.spontaneous q1 y := by
  constructor
  · rintro ⟨lw, h, hb⟩
    obtain ⟨lw1, q, q1, h1, h2, h3, h4⟩ := path_byte_split h hb
    obtain ⟨s, hs, hq⟩ := mem_byteTransitions.mpr h3
    exact ⟨q, ⟨lw1, h1, h2⟩, s, hs, q1, hq, h4⟩
  · rintro ⟨q, ⟨lw1, h1, h2⟩, s, hs, q1, hq, h4⟩
    obtain ⟨lw2, h5, h6⟩ := reach_iff_path.mp h4
    have e := mem_byteTransitions.mp ⟨s, hs, hq⟩
    refine ⟨lw1 ++ (.byte c :: lw2), h1.append (.cons e h5), ?_⟩
    rw [bytesOf_append, h2]; simp [bytesOf, h6]

/-! #### Invariant of the loop -/

/-- The sets met by the construction. -/
structure GoodSet (n : Nfa) (addr : Nat → Nat) (S : StateSet) : Prop where
  sorted : SortedBy addr S
  lt : ∀ q ∈ S, q < n.states.length
  ne : S ≠ []

structure SubInv (n : Nfa) (addr : Nat → Nat) (start : StateSet) (st : SubsetState)
    (pending : StateSet → Nat → Prop) : Prop where
  keys : (st.map.map (·.1)).Nodup
  len : st.map.length = st.dfa.length
  good : ∀ S q, (S, q) ∈ st.map → GoodSet n addr S
  state : ∀ S q, (S, q) ∈ st.map → ∃ d, st.dfa[q]? = some d ∧ d.ids = acceptIds n S
  inj : ∀ S S' q, (S, q) ∈ st.map → (S', q) ∈ st.map → S = S'
  start : (start, 0) ∈ st.map
  stack : ∀ S ∈ st.stack, ∃ q, (S, q) ∈ st.map
  nodup : st.stack.Nodup
  trans : ∀ S q, (S, q) ∈ st.map → ∀ c, c < cSizeOfByte →
    (pending S c → ∀ d, st.dfa[q]? = some d → d.next c = none) ∧
    (¬ pending S c → ∀ d, st.dfa[q]? = some d → ∀ T, moveSet n addr S c = some T →
      ((T = [] ∧ d.next c = none) ∨ ∃ q', (T, q') ∈ st.map ∧ d.next c = some q'))

theorem lookup_of_mem {α β} [BEq α] [LawfulBEq α] {l : List (α × β)} (hn : (l.map (·.1)).Nodup)
    {a : α} {b : β} (h : (a, b) ∈ l) : l.lookup a = some b := by
  induction l with
  | nil => cases h
  | cons x l ih =>
    obtain ⟨k, v⟩ := x
    have hn' := List.nodup_cons.mp (by simpa using hn : (k :: l.map (·.1)).Nodup)
    rcases List.mem_cons.mp h with h | h'
    · cases h; simp [List.lookup]
    · have : a ≠ k := by
        rintro rfl
        exact hn'.1 (List.mem_map.mpr ⟨(a, b), h', rfl⟩)
      simp only [List.lookup]
      have hb : (a == k) = false := by simpa using this
      rw [hb]
      exact ih hn'.2 h'

theorem mem_of_lookup {α β} [BEq α] [LawfulBEq α] {l : List (α × β)}
    {a : α} {b : β} (h : l.lookup a = some b) : (a, b) ∈ l := by
  induction l with
  | nil => simp [List.lookup] at h
  | cons x l ih =>
    obtain ⟨k, v⟩ := x
    simp only [List.lookup] at h
    split at h
    · rename_i hk
      have : a = k := by simpa using hk
      cases h; subst this; exact .head _
    · exact .tail _ (ih h)

theorem not_mem_of_lookup_none {α β} [BEq α] [LawfulBEq α] {l : List (α × β)}
    {a : α} (h : l.lookup a = none) : a ∉ l.map (·.1) := by
  induction l with
  | nil => simp
  | cons x l ih =>
    obtain ⟨k, v⟩ := x
    simp only [List.lookup] at h
    split at h
    · cases h
    · rename_i hk
      have : a ≠ k := by simpa using hk
      simp only [List.map_cons, List.mem_cons, not_or]
      exact ⟨this, ih h⟩

/-- Number of possible sets. -/
theorem keys_bound {n : Nfa} {addr : Nat → Nat} (l : List StateSet) (hn : l.Nodup)
    (hg : ∀ S ∈ l, GoodSet n addr S) : l.length ≤ 2 ^ n.states.length := by
  classical
  have hinj : ∀ S ∈ l, ∀ T ∈ l, S.toFinset = T.toFinset → S = T := by
    intro S hS T hT h
    refine sortedBy_ext (hg S hS).sorted (hg T hT).sorted fun x => ?_
    have := Finset.ext_iff.mp h x
    simpa using this
  have h1 : (l.map List.toFinset).Nodup := List.Nodup.map_on (fun S hS T hT h => hinj S hS T hT h) hn
  have h2 : (l.map List.toFinset).toFinset ⊆ (Finset.range n.states.length).powerset := by
    intro F hF
    simp only [List.mem_toFinset, List.mem_map] at hF
    obtain ⟨S, hS, rfl⟩ := hF
    rw [Finset.mem_powerset]
    intro x hx
    simp only [List.mem_toFinset] at hx
    exact Finset.mem_range.mpr ((hg S hS).lt x hx)
  have h3 := Finset.card_le_card h2
  rw [List.toFinset_card_of_nodup h1, Finset.card_powerset, Finset.card_range, List.length_map] at h3
  exact h3

theorem reach_lt {n : Nfa} (hwf : n.WF) {p q : Nat} (h : Reach n.spontaneous p q)
    (hp : p < n.states.length) : q < n.states.length := by
  induction h with
  | refl => exact hp
  | step e _ ih =>
    obtain ⟨l, h1, _⟩ := mem_spontaneous.mp e
    exact ih (hwf _ _ _ h1)

theorem good_move {n : Nfa} (hwf : n.WF) {addr : Nat → Nat} (hinj : ∀ a b, addr a = addr b → a = b)
    {S T : StateSet} {c : Nat} (h : moveSet n addr S c = some T) (hne : T ≠ []) : GoodSet n addr T := by
  obtain ⟨R, h1, h2, h3⟩ := moveSet_spec n hinj S c
  rw [h] at h1; cases h1
  refine ⟨h2, fun q hq => ?_, hne⟩
  obtain ⟨p, hp, s, hs, q1, hq1, hr⟩ := (h3 q).mp hq
  exact reach_lt hwf hr (hwf _ _ _ (mem_byteTransitions.mp ⟨s, hs, hq1⟩))

theorem next_append_none {d : List DState} {x : DState} {q : Nat} {s : DState}
    (h : d[q]? = some s) : (d ++ [x])[q]? = some s := by
  rw [List.getElem?_append_left (List.getElem?_eq_some_iff.mp h).1]; exact h

/-- Creating or finding the state of a set keeps the invariant (new sets are pending). -/
theorem nextState_inv {n : Nfa} {addr : Nat → Nat} {start : StateSet} {st : SubsetState}
    {pending : StateSet → Nat → Prop} (h : SubInv n addr start st pending) {T : StateSet}
    (hT : GoodSet n addr T) {st' : SubsetState} {q : Nat} (he : st.nextState n T = (st', q)) :
    (T, q) ∈ st'.map ∧ (∀ x ∈ st.map, x ∈ st'.map) ∧
    (∀ p : Nat, ∀ d, st.dfa[p]? = some d → st'.dfa[p]? = some d) ∧
    (∀ S ∈ st'.stack, S ∈ st.stack ∨ (S ∉ st.map.map (·.1) ∧ S = T)) ∧
    (∀ S ∈ st.stack, S ∈ st'.stack) ∧
    st'.map.length + st.stack.length = st.map.length + st'.stack.length ∧
    SubInv n addr start st' (fun S c => pending S c ∨ (S = T ∧ S ∉ st.map.map (·.1))) := by
  unfold SubsetState.nextState at he
  split at he
  · rename_i q' hl
    cases he
    have hm := mem_of_lookup hl
    refine ⟨hm, fun x hx => hx, fun p d hd => hd, fun S hS => .inl hS, fun S hS => hS, by omega, ?_⟩
    have hk : T ∈ st.map.map (·.1) := List.mem_map.mpr ⟨_, hm, rfl⟩
    have : (fun S c => pending S c ∨ (S = T ∧ S ∉ st.map.map (·.1))) = pending := by
      funext S c; apply propext
      constructor
      · rintro (h | ⟨rfl, h⟩)
        · exact h
        · exact absurd hk h
      · exact .inl
    rw [this]; exact h
  · rename_i hl
    have hnk := not_mem_of_lookup_none hl
    simp only [SubsetState.create, Prod.mk.injEq] at he
    obtain ⟨rfl, rfl⟩ := he
    have hlt : ∀ S q, (S, q) ∈ st.map → q < st.dfa.length := fun S q hm => by
      obtain ⟨d, hd, _⟩ := h.state S q hm
      exact (List.getElem?_eq_some_iff.mp hd).1
    have hdold : ∀ (p : Nat) d, p < st.dfa.length →
        (st.dfa ++ [{ ids := acceptIds n T }])[p]? = some d → st.dfa[p]? = some d := by
      intro p d hp hd
      rwa [List.getElem?_append_left hp] at hd
    refine ⟨.head _, fun x hx => .tail _ hx, fun p d hd => next_append_none hd, ?_, fun S hS => .tail _ hS,
      by simp only [List.length_cons]; omega, ?_⟩
    · intro S hS
      rcases List.mem_cons.mp hS with rfl | hS
      · exact .inr ⟨hnk, rfl⟩
      · exact .inl hS
    · constructor
      · simp only [List.map_cons]; exact List.nodup_cons.mpr ⟨hnk, h.keys⟩
      · simp [h.len]
      · intro S q hm
        rcases List.mem_cons.mp hm with hm | hm
        · cases hm; exact hT
        · exact h.good S q hm
      · intro S q hm
        rcases List.mem_cons.mp hm with hm | hm
        · cases hm; exact ⟨{ ids := acceptIds n T }, by simp, rfl⟩
        · obtain ⟨d, hd, hi⟩ := h.state S q hm
          exact ⟨d, next_append_none hd, hi⟩
      · intro S S' q hm hm'
        rcases List.mem_cons.mp hm with hm | hm <;> rcases List.mem_cons.mp hm' with hm' | hm'
        · cases hm; cases hm'; rfl
        · cases hm; have := hlt _ _ hm'; omega
        · cases hm'; have := hlt _ _ hm; omega
        · exact h.inj S S' q hm hm'
      · exact .tail _ h.start
      · intro S hS
        rcases List.mem_cons.mp hS with rfl | hS
        · exact ⟨_, .head _⟩
        · obtain ⟨q, hq⟩ := h.stack S hS
          exact ⟨q, .tail _ hq⟩
      · refine List.nodup_cons.mpr ⟨fun hS => ?_, h.nodup⟩
        obtain ⟨q, hq⟩ := h.stack T hS
        exact hnk (List.mem_map.mpr ⟨_, hq, rfl⟩)
      · intro S q hm c hc
        rcases List.mem_cons.mp hm with hm | hm
        · cases hm
          constructor
          · intro _ d hd
            simp at hd; subst hd; rfl
          · intro hp
            exact absurd (.inr ⟨rfl, hnk⟩) hp
        · have hk : S ∈ st.map.map (·.1) := List.mem_map.mpr ⟨_, hm, rfl⟩
          obtain ⟨t1, t2⟩ := h.trans S q hm c hc
          constructor
          · rintro (hp | ⟨_, hp⟩) d hd
            · exact t1 hp d (hdold q d (hlt _ _ hm) hd)
            · exact absurd hk hp
          · intro hp d hd T' hT'
            rcases t2 (fun h => hp (.inl h)) d (hdold q d (hlt _ _ hm) hd) T' hT' with h | ⟨q', h1, h2⟩
            · exact .inl h
            · exact .inr ⟨q', .tail _ h1, h2⟩

theorem addTrans_get {st : SubsetState} {q c dest p : Nat} {d : DState}
    (h : (st.addTrans q c dest).dfa[p]? = some d) :
    ∃ d0, st.dfa[p]? = some d0 ∧ d.ids = d0.ids ∧
      ((p = q ∧ d.trans = (c, dest) :: d0.trans) ∨ (p ≠ q ∧ d = d0)) := by
  simp only [SubsetState.addTrans, List.getElem?_modify] at h
  split at h
  · rename_i hpq
    simp only [Option.map_eq_map, Option.map_eq_some_iff] at h
    obtain ⟨d0, h1, rfl⟩ := h
    exact ⟨d0, h1, rfl, .inl ⟨hpq.symm, rfl⟩⟩
  · rename_i hpq
    simp at h
    exact ⟨d, h, rfl, .inr ⟨Ne.symm hpq, rfl⟩⟩

theorem subsetBytes_inv {n : Nfa} (hwf : n.WF) {addr : Nat → Nat}
    (hinj : ∀ a b, addr a = addr b → a = b) {start S : StateSet} {q : Nat} :
    ∀ (cs : List Nat), cs.Nodup → (∀ c ∈ cs, c < cSizeOfByte) → ∀ (st : SubsetState) (P : StateSet → Prop),
    (S, q) ∈ st.map → (∀ T ∈ st.stack, P T) → (∀ T, P T → T ∈ st.map.map (·.1)) → ¬ P S →
    SubInv n addr start st (fun T c => P T ∨ (T = S ∧ c ∈ cs)) →
    ∃ (st' : SubsetState) (P' : StateSet → Prop), subsetBytes n addr S q cs st = some st' ∧
      (∀ T ∈ st'.stack, P' T) ∧ (∀ T, P' T → T ∈ st'.map.map (·.1)) ∧ ¬ P' S ∧
      (∀ T, P' T → P T ∨ T ∈ st'.stack) ∧ (∀ T ∈ st.stack, T ∈ st'.stack) ∧
      st'.map.length + st.stack.length = st.map.length + st'.stack.length ∧
      SubInv n addr start st' (fun T _ => P' T) := by
  intro cs
  induction cs with
  | nil =>
    intro _ _ st P hm hst hP hS hI
    refine ⟨st, P, rfl, hst, hP, hS, fun T h => .inl h, fun T h => h, by omega, ?_⟩
    simpa using hI
  | cons c cs ih =>
    intro hnd hlt st P hm hst hP hS hI
    have hnd' := List.nodup_cons.mp hnd
    obtain ⟨T, hT, hTs, hTm⟩ := moveSet_spec n hinj S c
    simp only [subsetBytes, hT, Option.bind_some]
    by_cases hTe : T = []
    · subst hTe
      simp only [List.isEmpty_nil, if_true]
      refine ih hnd'.2 (fun x hx => hlt x (.tail _ hx)) st P hm hst hP hS ?_
      refine { hI with trans := fun S' q' hm' c' hc' => ?_ }
      obtain ⟨t1, t2⟩ := hI.trans S' q' hm' c' hc'
      constructor
      · rintro (h | ⟨rfl, h⟩)
        · exact t1 (.inl h)
        · exact t1 (.inr ⟨rfl, .tail _ h⟩)
      · intro hp
        by_cases hcc : S' = S ∧ c' = c
        · obtain ⟨rfl, rfl⟩ := hcc
          intro d hd T' hT'
          rw [hT] at hT'; cases hT'
          exact .inl ⟨rfl, t1 (.inr ⟨rfl, .head _⟩) d hd⟩
        · refine t2 ?_
          rintro (h | ⟨rfl, h⟩)
          · exact hp (.inl h)
          · rcases List.mem_cons.mp h with rfl | h
            · exact hcc ⟨rfl, rfl⟩
            · exact hp (.inr ⟨rfl, h⟩)
    · have : T.isEmpty = false := by simpa using hTe
      simp only [this]
      rw [if_neg (by simp)]
      have hTg := good_move hwf hinj hT hTe
      obtain ⟨⟨st1, dest⟩, hns⟩ : ∃ p, st.nextState n T = p := ⟨_, rfl⟩
      rw [hns]
      simp only
      obtain ⟨a1, a2, a3, a4, a5, a6, a7⟩ := nextState_inv hI hTg hns
      let P1 : StateSet → Prop := fun U => P U ∨ (U = T ∧ U ∉ st.map.map (·.1))
      have hSk : S ∈ st.map.map (·.1) := List.mem_map.mpr ⟨_, hm, rfl⟩
      obtain ⟨st', P', b1, b2, b3, b4, b5, b6, b7, b8⟩ :=
        ih hnd'.2 (fun x hx => hlt x (.tail _ hx)) (st1.addTrans q c dest) P1 (a2 _ hm)
        (by
          intro U hU
          rcases a4 U hU with h | ⟨h, rfl⟩
          · exact .inl (hst U h)
          · exact .inr ⟨rfl, h⟩)
        (by
          rintro U (h | ⟨rfl, h⟩)
          · obtain ⟨x, hx, rfl⟩ := List.mem_map.mp (hP U h)
            exact List.mem_map.mpr ⟨x, a2 x hx, rfl⟩
          · exact List.mem_map.mpr ⟨_, a1, rfl⟩)
        (by
          rintro (h | ⟨_, h⟩)
          · exact hS h
          · exact h hSk)
        (by
          constructor
          · exact a7.keys
          · simpa [SubsetState.addTrans] using a7.len
          · exact a7.good
          · intro S' q' hm'
            obtain ⟨d, hd, hi⟩ := a7.state S' q' hm'
            by_cases hq : q = q'
            · subst hq
              exact ⟨{ d with trans := (c, dest) :: d.trans }, by simp [SubsetState.addTrans, List.getElem?_modify, hd], hi⟩
            · exact ⟨d, by simp [SubsetState.addTrans, List.getElem?_modify, hd, hq], hi⟩
          · exact a7.inj
          · exact a7.start
          · exact a7.stack
          · exact a7.nodup
          · intro S' q' hm' c' hc'
            obtain ⟨t1, t2⟩ := a7.trans S' q' hm' c' hc'
            constructor
            · intro hp d hd
              obtain ⟨d0, h1, h2, h3⟩ := addTrans_get hd
              have hp' : (P S' ∨ S' = S ∧ c' ∈ c :: cs) ∨ S' = T ∧ S' ∉ st.map.map (·.1) := by
                rcases hp with (h | h) | ⟨h, h'⟩
                · exact .inl (.inl h)
                · exact .inr h
                · exact .inl (.inr ⟨h, .tail _ h'⟩)
              have hn := t1 hp' d0 h1
              rcases h3 with ⟨rfl, h3⟩ | ⟨_, rfl⟩
              · have hSS : S' = S := a7.inj _ _ _ hm' (a2 _ hm)
                subst hSS
                have hcc : c' ≠ c := by
                  rintro rfl
                  rcases hp with (h | ⟨_, h⟩) | ⟨_, h⟩
                  · exact hS h
                  · exact h hSk
                  · exact hnd'.1 h
                have hb : (c' == c) = false := by simpa using hcc
                simp only [DState.next, h3, List.lookup, hb]
                exact hn
              · exact hn
            · intro hp d hd T' hT'
              obtain ⟨d0, h1, h2, h3⟩ := addTrans_get hd
              by_cases hcc : S' = S ∧ c' = c
              · obtain ⟨rfl, rfl⟩ := hcc
                have hqq : q' = q := by
                  have e1 := lookup_of_mem a7.keys hm'
                  have e2 := lookup_of_mem a7.keys (a2 _ hm)
                  rw [e1] at e2; exact Option.some.inj e2
                rcases h3 with ⟨_, h3⟩ | ⟨hne, _⟩
                · rw [hT] at hT'; cases hT'
                  refine .inr ⟨dest, a1, ?_⟩
                  simp [DState.next, h3, List.lookup]
                · exact absurd hqq hne
              · have hp' : ¬ ((P S' ∨ S' = S ∧ c' ∈ c :: cs) ∨ S' = T ∧ S' ∉ st.map.map (·.1)) := by
                  rintro ((h | ⟨rfl, h⟩) | h)
                  · exact hp (.inl (.inl h))
                  · rcases List.mem_cons.mp h with rfl | h
                    · exact hcc ⟨rfl, rfl⟩
                    · exact hp (.inr ⟨rfl, h⟩)
                  · exact hp (.inl (.inr h))
                have hr := t2 hp' d0 h1 T' hT'
                rcases h3 with ⟨rfl, h3⟩ | ⟨_, rfl⟩
                · have hSS : S' = S := a7.inj _ _ _ hm' (a2 _ hm)
                  have hc2 : c' ≠ c := fun h => hcc ⟨hSS, h⟩
                  have hb : (c' == c) = false := by simpa using hc2
                  have : d.next c' = d0.next c' := by simp [DState.next, h3, List.lookup, hb]
                  rw [this]; exact hr
                · exact hr)
      refine ⟨st', P', b1, b2, b3, b4, ?_, fun U hU => b6 U (a5 U hU), ?_, b8⟩
      · intro U hU
        rcases b5 U hU with (h | ⟨rfl, h⟩) | h
        · exact .inl h
        · refine .inr (b6 U ?_)
          -- `U` was created, hence pushed
          have : U ∈ st1.stack := by
            unfold SubsetState.nextState at hns
            split at hns
            · rename_i hl
              exact absurd (List.mem_map.mpr ⟨_, mem_of_lookup hl, rfl⟩) h
            · simp only [SubsetState.create, Prod.mk.injEq] at hns
              obtain ⟨rfl, _⟩ := hns
              exact .head _
          exact this
        · exact .inr h
      · have e1 : (st1.addTrans q c dest).map.length = st1.map.length := rfl
        have e2 : (st1.addTrans q c dest).stack.length = st1.stack.length := rfl
        omega

theorem subsetLoop_inv {n : Nfa} (hwf : n.WF) {addr : Nat → Nat}
    (hinj : ∀ a b, addr a = addr b → a = b) {start : StateSet} :
    ∀ (k : Nat) (st : SubsetState), SubInv n addr start st (fun T _ => T ∈ st.stack) →
    2 ^ n.states.length + st.stack.length ≤ k + st.map.length →
    ∃ st', subsetLoop n addr k st = some st' ∧ SubInv n addr start st' (fun _ _ => False) := by
  intro k
  induction k with
  | zero =>
    rintro ⟨d, m, stack⟩ hI hk
    cases stack with
    | nil => exact ⟨_, rfl, by simpa using hI⟩
    | cons S rest =>
      exfalso
      have hb := keys_bound (n := n) (addr := addr) (m.map (·.1)) hI.keys (fun S hS => by
        obtain ⟨⟨a, b⟩, h1, rfl⟩ := List.mem_map.mp hS
        exact hI.good a b h1)
      simp only [List.length_map, List.length_cons] at hb hk
      omega
  | succ k ih =>
    rintro ⟨d, m, stack⟩ hI hk
    cases stack with
    | nil => exact ⟨_, rfl, by simpa using hI⟩
    | cons S rest =>
      obtain ⟨q, hq⟩ := hI.stack S (.head _)
      have hnd := List.nodup_cons.mp hI.nodup
      have hl := lookup_of_mem hI.keys hq
      simp only at hl hq
      have hpre : SubInv n addr start { dfa := d, map := m, stack := rest }
          (fun T c => T ∈ rest ∨ (T = S ∧ c ∈ List.range cSizeOfByte)) := by
        refine ⟨hI.keys, hI.len, hI.good, hI.state, hI.inj, hI.start, fun T hT => hI.stack T (.tail _ hT),
          hnd.2, fun T p hm c hc => ?_⟩
        obtain ⟨t1, t2⟩ := hI.trans T p hm c hc
        constructor
        · rintro (h | ⟨rfl, _⟩)
          · exact t1 (.tail _ h)
          · exact t1 (.head _)
        · intro hp
          refine t2 fun h => ?_
          rcases List.mem_cons.mp h with rfl | h
          · exact hp (.inr ⟨rfl, List.mem_range.mpr hc⟩)
          · exact hp (.inl h)
      obtain ⟨st', P', b1, b2, b3, b4, b5, b6, b7, b8⟩ := subsetBytes_inv hwf hinj (q := q)
        (List.range cSizeOfByte) List.nodup_range (fun c hc => List.mem_range.mp hc)
        { dfa := d, map := m, stack := rest } (fun T => T ∈ rest) hq (fun T h => h)
        (fun T hT => by
          obtain ⟨p, hp⟩ := hI.stack T (.tail _ hT)
          exact List.mem_map.mpr ⟨_, hp, rfl⟩) hnd.1 hpre
      have hP : (fun (T : StateSet) (_ : Nat) => P' T) = fun T _ => T ∈ st'.stack := by
        funext T c
        apply propext
        constructor
        · intro h
          rcases b5 T h with h | h
          · exact b6 T h
          · exact h
        · exact b2 T
      rw [hP] at b8
      simp only [subsetLoop, hl, Option.bind_some, b1]
      refine ih st' b8 ?_
      simp only [List.length_cons] at hk b7
      omega

theorem nfaToDfa_inv {n : Nfa} (hwf : n.WF) (hroot : n.root < n.states.length) {addr : Nat → Nat}
    (hinj : ∀ a b, addr a = addr b → a = b) :
    ∃ (start : StateSet) (st : SubsetState), epsilonClosure n addr n.root = some start ∧
      nfaToDfa n addr = some { states := st.dfa } ∧ SubInv n addr start st (fun _ _ => False) := by
  obtain ⟨start, hs⟩ := epsilonClosure_total n hinj n.root
  have hg : GoodSet n addr start := by
    refine ⟨sorted_epsilonClosure hinj hs, fun q hq => reach_lt hwf ((mem_epsilonClosure hinj hs q).mp hq) hroot, ?_⟩
    intro h
    have := (mem_epsilonClosure hinj hs n.root).mpr (.refl _)
    rw [h] at this; cases this
  let st0 : SubsetState := (SubsetState.create n { dfa := [], map := [], stack := [] } start).1
  have h0 : SubInv n addr start st0 (fun T _ => T ∈ st0.stack) := by
    constructor
    · simp [st0, SubsetState.create]
    · simp [st0, SubsetState.create]
    · intro S q h; simp [st0, SubsetState.create] at h; rw [h.1]; exact hg
    · intro S q h; simp [st0, SubsetState.create] at h; obtain ⟨rfl, rfl⟩ := h
      exact ⟨{ ids := acceptIds n S }, by simp [st0, SubsetState.create], rfl⟩
    · intro S S' q h h'; simp [st0, SubsetState.create] at h h'; rw [h.1, h'.1]
    · simp [st0, SubsetState.create]
    · intro S h; simp [st0, SubsetState.create] at h ⊢; exact h
    · simp [st0, SubsetState.create]
    · intro S q h c hc; simp [st0, SubsetState.create] at h; obtain ⟨rfl, rfl⟩ := h
      constructor
      · intro _ d hd; simp [st0, SubsetState.create] at hd; subst hd; rfl
      · intro hp; exact absurd (by simp [st0, SubsetState.create]) hp
  obtain ⟨st, h1, h2⟩ := subsetLoop_inv hwf hinj (2 ^ n.states.length) st0 h0 (by simp [st0, SubsetState.create])
  exact ⟨start, st, hs, by unfold nfaToDfa; rw [hs]; simp only [Option.bind_some]; rw [h1]; rfl, h2⟩

theorem Dfa.run_snoc (d : Dfa) (q : Nat) (w : List Nat) (c : Nat) :
    d.run q (w ++ [c]) = (d.run q w).bind fun p => d.next p c := by
  induction w generalizing q with
  | nil => simp [Dfa.run]
  | cons a w ih =>
    simp only [List.cons_append, Dfa.run]
    cases d.next q a with
    | none => rfl
    | some p => simpa using ih p

theorem Dfa.run_append (d : Dfa) (q : Nat) (w x : List Nat) :
    d.run q (w ++ x) = (d.run q w).bind fun p => d.run p x := by
  induction w generalizing q with
  | nil => simp [Dfa.run]
  | cons a w ih =>
    simp only [List.cons_append, Dfa.run]
    cases d.next q a with
    | none => rfl
    | some p => simpa using ih p

/-- The state of the constructed DFA after `w` represents exactly the NFA states reachable by `w`. -/
theorem dfa_run_spec {n : Nfa} (hwf : n.WF) (hroot : n.root < n.states.length) {addr : Nat → Nat}
    (hinj : ∀ a b, addr a = addr b → a = b) :
    ∃ d, nfaToDfa n addr = some d ∧ ∀ w, AllBytes w →
      ((∃ q S, d.run 0 w = some q ∧ q < d.states.length ∧ d.ids q = acceptIds n S ∧ SortedBy addr S ∧ S ≠ [] ∧
        ∀ y, y ∈ S ↔ n.ReachBy w y) ∨ (d.run 0 w = none ∧ ∀ y, ¬ n.ReachBy w y)) := by
  obtain ⟨start, st, hs, hd, hI⟩ := nfaToDfa_inv hwf hroot hinj
  refine ⟨_, hd, ?_⟩
  have key : ∀ w, AllBytes w →
      ((∃ q S, ({ states := st.dfa } : Dfa).run 0 w = some q ∧ (S, q) ∈ st.map ∧ ∀ y, y ∈ S ↔ n.ReachBy w y) ∨
       (({ states := st.dfa } : Dfa).run 0 w = none ∧ ∀ y, ¬ n.ReachBy w y)) := by
    intro w
    induction w using List.reverseRecOn with
    | nil =>
      intro _
      exact .inl ⟨0, start, rfl, hI.start, fun y => by
        rw [mem_epsilonClosure hinj hs, reachBy_nil]⟩
    | append_singleton w c ih =>
      intro hb
      have hc : c < cSizeOfByte := hb c (by simp)
      rw [Dfa.run_snoc]
      rcases ih (fun x hx => hb x (List.mem_append_left _ hx)) with ⟨q, S, h1, h2, h3⟩ | ⟨h1, h2⟩
      · rw [h1]
        obtain ⟨T, hT, _, hTm⟩ := moveSet_spec n hinj S c
        obtain ⟨dq, hdq, _⟩ := hI.state S q h2
        have hmem : ∀ y, y ∈ T ↔ n.ReachBy (w ++ [c]) y := by
          intro y
          rw [hTm, reachBy_snoc]
          simp only [h3]
        have hnext : ({ states := st.dfa } : Dfa).next q c = dq.next c := by
          simp [Dfa.next, hdq]
        simp only [Option.bind_some, hnext]
        rcases (hI.trans S q h2 c hc).2 (fun h => h) dq hdq T hT with ⟨rfl, h⟩ | ⟨q', hq', h⟩
        · exact .inr ⟨h, fun y hy => by have := (hmem y).mpr hy; cases this⟩
        · exact .inl ⟨q', T, h, hq', hmem⟩
      · rw [h1]
        refine .inr ⟨rfl, fun y hy => ?_⟩
        obtain ⟨q, hq, _⟩ := reachBy_snoc.mp hy
        exact h2 q hq
  intro w hw
  rcases key w hw with ⟨q, S, h1, h2, h3⟩ | h
  · obtain ⟨dq, hdq, hids⟩ := hI.state S q h2
    have hg := hI.good S q h2
    exact .inl ⟨q, S, h1, (List.getElem?_eq_some_iff.mp hdq).1, by simp [Dfa.ids, hdq, hids], hg.sorted, hg.ne, h3⟩
  · exact .inr h

end LogSurgeon
