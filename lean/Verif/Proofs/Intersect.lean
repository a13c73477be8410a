import Verif.Spec.Automata
import Verif.Proofs.Subset
import Mathlib.Data.Finset.Prod
/- Exactness of `getIntersect`. -/
namespace LogSurgeon

theorem mem_insertNew {α} [DecidableEq α] {x y : α} {l : List α} : y ∈ insertNew x l ↔ y = x ∨ y ∈ l := by
  unfold insertNew
  split
  · constructor
    · exact .inr
    · rintro (rfl | h) <;> assumption
  · simp

theorem nodup_insertNew {α} [DecidableEq α] {x : α} {l : List α} (h : l.Nodup) : (insertNew x l).Nodup := by
  unfold insertNew
  split
  · exact h
  · exact List.nodup_cons.mpr ⟨‹_›, h⟩

theorem mem_foldl_insertNew {α} [DecidableEq α] (xs : List α) : ∀ {l : List α} {y : α},
    y ∈ xs.foldl (fun u x => insertNew x u) l ↔ y ∈ xs ∨ y ∈ l := by
  induction xs with
  | nil => simp
  | cons x xs ih =>
    intro l y
    simp only [List.foldl_cons, ih, mem_insertNew, List.mem_cons]
    constructor
    · rintro (h | h | h) <;> simp [h]
    · rintro ((h | h) | h) <;> simp [h]

theorem nodup_foldl_insertNew {α} [DecidableEq α] (xs : List α) : ∀ {l : List α}, l.Nodup →
    (xs.foldl (fun u x => insertNew x u) l).Nodup := by
  induction xs with
  | nil => exact fun h => h
  | cons x xs ih => exact fun h => ih (nodup_insertNew h)

theorem mem_reachablePairs {d1 d2 : Dfa} {p x : Nat × Nat} {vis : List (Nat × Nat)} :
    x ∈ reachablePairs d1 d2 p vis ↔ x ∉ vis ∧ ∃ i, i < cSizeOfByte ∧ d1.next p.1 i = some x.1 ∧
      d2.next p.2 i = some x.2 := by
  unfold reachablePairs
  simp only [List.mem_filterMap, List.mem_range]
  constructor
  · rintro ⟨i, hi, h⟩
    split at h
    · rename_i a b ha hb
      split at h
      · cases h
      · cases h; exact ⟨‹_›, i, hi, ha, hb⟩
    · cases h
  · rintro ⟨hv, i, hi, h1, h2⟩
    refine ⟨i, hi, ?_⟩
    simp only [h1, h2]
    rw [if_neg hv]

theorem pairs_bound (l : List (Nat × Nat)) (a b : Nat) (hn : l.Nodup) (h : ∀ p ∈ l, p.1 < a ∧ p.2 < b) :
    l.length ≤ a * b := by
  rw [← List.toFinset_card_of_nodup hn]
  calc l.toFinset.card ≤ (Finset.range a ×ˢ Finset.range b).card := by
        apply Finset.card_le_card
        intro p hp
        simp only [Finset.mem_product, Finset.mem_range]
        exact h p (by simpa using hp)
    _ = a * b := by simp

/-- Pairs of states reached by a common byte string. -/
def BothReach (d1 d2 : Dfa) (p : Nat × Nat) : Prop :=
  ∃ w, AllBytes w ∧ d1.run 0 w = some p.1 ∧ d2.run 0 w = some p.2

structure InterInv (d1 d2 : Dfa) (unv vis : List (Nat × Nat)) (types : List Nat) : Prop where
  reach : ∀ p, p ∈ unv ∨ p ∈ vis → BothReach d1 d2 p
  nu : unv.Nodup
  nv : vis.Nodup
  disj : ∀ p ∈ unv, p ∉ vis
  root : (0, 0) ∈ unv ∨ (0, 0) ∈ vis
  closed : ∀ p ∈ vis, ∀ i a b, i < cSizeOfByte → d1.next p.1 i = some a → d2.next p.2 i = some b →
    (a, b) ∈ unv ∨ (a, b) ∈ vis
  tmem : ∀ v, v ∈ types ↔ ∃ p ∈ vis, v ∈ d1.ids p.1 ∧ d2.ids p.2 ≠ []
  tnodup : types.Nodup

theorem allBytes_snoc {w : List Nat} {c : Nat} (h : AllBytes w) (hc : c < cSizeOfByte) : AllBytes (w ++ [c]) := by
  intro x hx
  rcases List.mem_append.mp hx with hx | hx
  · exact h x hx
  · simp at hx; subst hx; exact hc

theorem interInv_step {d1 d2 : Dfa} {unv vis types} (h : InterInv d1 d2 unv vis types) {p} (hp : p ∈ unv) :
    InterInv d1 d2
      (((reachablePairs d1 d2 p (insertNew p vis)).foldl (fun u x => insertNew x u) unv).filter (· ≠ p))
      (insertNew p vis)
      (if d1.isAccepting p.1 && d2.isAccepting p.2 then
        (d1.ids p.1).foldl (fun t i => insertNew i t) types else types) := by
  have hpr := h.reach p (.inl hp)
  have hmem : ∀ x, x ∈ ((reachablePairs d1 d2 p (insertNew p vis)).foldl (fun u x => insertNew x u) unv).filter (· ≠ p) ↔
      (x ∈ reachablePairs d1 d2 p (insertNew p vis) ∨ x ∈ unv) ∧ x ≠ p := by
    intro x
    simp [List.mem_filter, mem_foldl_insertNew]
  constructor
  · intro x hx
    rw [hmem, mem_insertNew] at hx
    rcases hx with ⟨hx | hx, _⟩ | rfl | hx
    · obtain ⟨_, i, hi, h1, h2⟩ := mem_reachablePairs.mp hx
      obtain ⟨w, hw, ha, hb⟩ := hpr
      exact ⟨w ++ [i], allBytes_snoc hw hi, by simp [Dfa.run_snoc, ha, h1], by simp [Dfa.run_snoc, hb, h2]⟩
    · exact h.reach x (.inl hx)
    · exact hpr
    · exact h.reach x (.inr hx)
  · exact (nodup_foldl_insertNew _ h.nu).filter _
  · exact nodup_insertNew h.nv
  · intro x hx hv
    rw [hmem] at hx
    obtain ⟨hx | hx, hne⟩ := hx
    · exact (mem_reachablePairs.mp hx).1 hv
    · rw [mem_insertNew] at hv
      exact h.disj x hx (hv.resolve_left hne)
  · by_cases h0 : ((0, 0) : Nat × Nat) = p
    · right; rw [mem_insertNew]; exact .inl h0
    · rcases h.root with hr | hr
      · left; rw [hmem]; exact ⟨.inr hr, h0⟩
      · right; rw [mem_insertNew]; exact .inr hr
  · intro x hx i a b hi ha hb
    rw [hmem]
    by_cases hv : (a, b) ∈ insertNew p vis
    · exact .inr hv
    · left
      have hne : (a, b) ≠ p := fun e => hv (mem_insertNew.mpr (.inl e))
      refine ⟨?_, hne⟩
      rcases mem_insertNew.mp hx with rfl | hx
      · exact .inl (mem_reachablePairs.mpr ⟨hv, i, hi, ha, hb⟩)
      · rcases h.closed x hx i a b hi ha hb with h1 | h1
        · exact .inr h1
        · exact absurd (mem_insertNew.mpr (.inr h1)) hv
  · intro v
    have hT : ∀ v, v ∈ (if d1.isAccepting p.1 && d2.isAccepting p.2 then
        (d1.ids p.1).foldl (fun t i => insertNew i t) types else types) ↔
        (v ∈ d1.ids p.1 ∧ d2.ids p.2 ≠ []) ∨ v ∈ types := by
      intro v
      unfold Dfa.isAccepting
      by_cases h1 : d1.ids p.1 = []
      · simp [h1]
      · by_cases h2 : d2.ids p.2 = []
        · simp [h2]
        · simp [h1, h2, mem_foldl_insertNew]
    rw [hT, h.tmem]
    constructor
    · rintro (hh | ⟨x, hx, hh⟩)
      · exact ⟨p, mem_insertNew.mpr (.inl rfl), hh⟩
      · exact ⟨x, mem_insertNew.mpr (.inr hx), hh⟩
    · rintro ⟨x, hx, hh⟩
      rcases mem_insertNew.mp hx with rfl | hx
      · exact .inl hh
      · exact .inr ⟨x, hx, hh⟩
  · split
    · exact nodup_foldl_insertNew _ h.tnodup
    · exact h.tnodup

theorem interInv_done {d1 d2 : Dfa} {vis types} (h : InterInv d1 d2 [] vis types) (v : Nat) :
    v ∈ types ↔ ∃ w, AllBytes w ∧ v ∈ d1.idsOn w ∧ d2.idsOn w ≠ [] := by
  have all : ∀ w p, AllBytes w → d1.run 0 w = some p.1 → d2.run 0 w = some p.2 → p ∈ vis := by
    intro w
    induction w using List.reverseRecOn with
    | nil =>
      intro p _ h1 h2
      obtain ⟨a, b⟩ := p
      simp only [Dfa.run, Option.some.injEq] at h1 h2
      subst h1; subst h2
      rcases h.root with hr | hr
      · cases hr
      · exact hr
    | append_singleton w c ih =>
      intro p hb h1 h2
      rw [Dfa.run_snoc, Option.bind_eq_some_iff] at h1 h2
      obtain ⟨a, ha, h1⟩ := h1
      obtain ⟨b, hb', h2⟩ := h2
      have hv := ih (a, b) (fun x hx => hb x (List.mem_append_left _ hx)) ha hb'
      rcases h.closed (a, b) hv c p.1 p.2 (hb c (by simp)) h1 h2 with h3 | h3
      · cases h3
      · exact h3
  rw [h.tmem]
  constructor
  · rintro ⟨p, hp, h1, h2⟩
    obtain ⟨w, hw, ha, hb⟩ := h.reach p (.inr hp)
    exact ⟨w, hw, by simpa [Dfa.idsOn, ha] using h1, by simpa [Dfa.idsOn, hb] using h2⟩
  · rintro ⟨w, hw, h1, h2⟩
    unfold Dfa.idsOn at h1 h2
    cases ha : d1.run 0 w with
    | none => simp [ha] at h1
    | some a =>
      cases hb : d2.run 0 w with
      | none => simp [hb] at h2
      | some b =>
        simp only [ha, hb, Option.map_some, Option.getD_some] at h1 h2
        exact ⟨(a, b), all w (a, b) hw ha hb, h1, h2⟩

theorem getD_mod_mem {α} (x : α) (xs : List α) (k : Nat) :
    (x :: xs).getD (k % (x :: xs).length) x ∈ x :: xs := by
  have h : k % (x :: xs).length < (x :: xs).length := Nat.mod_lt _ (by simp)
  rw [List.getD_eq_getElem?_getD, List.getElem?_eq_getElem h, Option.getD_some]
  exact List.getElem_mem h

theorem intersectLoop_spec {d1 d2 : Dfa} (pick : List (Nat × Nat) → Nat)
    (hr1 : ∀ w q, AllBytes w → d1.run 0 w = some q → q < d1.states.length)
    (hr2 : ∀ w q, AllBytes w → d2.run 0 w = some q → q < d2.states.length) :
    ∀ (k : Nat) (unv vis : List (Nat × Nat)) (types : List Nat), InterInv d1 d2 unv vis types →
    d1.states.length * d2.states.length ≤ k + vis.length →
    ∃ types', intersectLoop d1 d2 pick k unv vis types = some types' ∧ types'.Nodup ∧
      ∀ v, v ∈ types' ↔ ∃ w, AllBytes w ∧ v ∈ d1.idsOn w ∧ d2.idsOn w ≠ [] := by
  intro k
  induction k with
  | zero =>
    intro unv vis types h hf
    cases unv with
    | nil => exact ⟨types, by simp [intersectLoop], h.tnodup, interInv_done h⟩
    | cons p ps =>
      exfalso
      have hn : (p :: vis).Nodup := List.nodup_cons.mpr ⟨h.disj p (.head _), h.nv⟩
      have hb : (p :: vis).length ≤ d1.states.length * d2.states.length := by
        refine pairs_bound _ _ _ hn fun x hx => ?_
        have : BothReach d1 d2 x := by
          cases hx with
          | head => exact h.reach _ (.inl (.head _))
          | tail _ hx => exact h.reach _ (.inr hx)
        obtain ⟨w, hw, h1, h2⟩ := this
        exact ⟨hr1 w _ hw h1, hr2 w _ hw h2⟩
      simp only [List.length_cons] at hb
      omega
  | succ k ih =>
    intro unv vis types h hf
    cases unv with
    | nil => exact ⟨types, by simp [intersectLoop], h.tnodup, interInv_done h⟩
    | cons p0 ps =>
      simp only [intersectLoop]
      have hp := getD_mod_mem p0 ps (pick (p0 :: ps))
      refine ih _ _ _ (interInv_step h hp) ?_
      have hv := h.disj _ hp
      have : (insertNew ((p0 :: ps).getD (pick (p0 :: ps) % (p0 :: ps).length) p0) vis).length = vis.length + 1 := by
        unfold insertNew; rw [if_neg hv]; rfl
      omega

theorem getIntersect_spec {d1 d2 : Dfa} (pick : List (Nat × Nat) → Nat)
    (hr1 : ∀ w q, AllBytes w → d1.run 0 w = some q → q < d1.states.length)
    (hr2 : ∀ w q, AllBytes w → d2.run 0 w = some q → q < d2.states.length) :
    ∃ types, getIntersect d1 d2 pick = some types ∧ types.Nodup ∧
      ∀ v, v ∈ types ↔ ∃ w, AllBytes w ∧ v ∈ d1.idsOn w ∧ d2.idsOn w ≠ [] := by
  refine intersectLoop_spec pick hr1 hr2 _ _ _ _ ?_ (by simp)
  constructor
  · intro p hp
    simp only [List.mem_singleton, List.not_mem_nil, or_false] at hp
    subst hp
    exact ⟨[], by simp [AllBytes], rfl, rfl⟩
  · simp
  · simp
  · simp
  · simp
  · simp
  · simp
  · simp

end LogSurgeon
