import Verif.Model.Dfa
/- The worklist loop computes reachability and has enough fuel; sorted sets. -/
namespace LogSurgeon

/-- Reflexive transitive closure of a successor function. -/
inductive Reach (succ : Nat → List Nat) : Nat → Nat → Prop
  | refl (x) : Reach succ x x
  | step {x y z} : y ∈ succ x → Reach succ y z → Reach succ x z

theorem Reach.trans {succ x y z} (h : Reach succ x y) (h' : Reach succ y z) : Reach succ x z := by
  induction h with
  | refl => exact h'
  | step e _ ih => exact .step e (ih h')

theorem dfs_spec {succ : Nat → List Nat} {ins : Nat → StateSet → StateSet}
    (hins : ∀ x y vis, y ∈ ins x vis ↔ y = x ∨ y ∈ vis) :
    ∀ (k : Nat) (st : List Nat) (vis R : StateSet), dfs succ ins k st vis = some R →
    (∀ x ∈ vis, ∀ y ∈ succ x, y ∈ vis ∨ y ∈ st) →
    (∀ y ∈ vis, y ∈ R) ∧ (∀ y ∈ st, y ∈ R) ∧ (∀ x ∈ R, ∀ y ∈ succ x, y ∈ R) ∧
    (∀ y ∈ R, y ∈ vis ∨ ∃ x ∈ st, Reach succ x y) := by
  intro k
  induction k with
  | zero =>
    intro st vis R h hinv
    cases st with
    | nil =>
      simp only [dfs, Option.some.injEq] at h; subst h
      exact ⟨fun _ h => h, by simp, fun x hx y hy => by simpa using hinv x hx y hy, fun y hy => .inl hy⟩
    | cons x st => simp [dfs] at h
  | succ k ih =>
    intro st vis R h hinv
    cases st with
    | nil =>
      simp only [dfs, Option.some.injEq] at h; subst h
      exact ⟨fun _ h => h, by simp, fun x hx y hy => by simpa using hinv x hx y hy, fun y hy => .inl hy⟩
    | cons x st =>
      simp only [dfs] at h
      split at h
      · rename_i hx
        obtain ⟨h1, h2, h3, h4⟩ := ih st vis R h (fun a ha b hb => by
          rcases hinv a ha b hb with h | h
          · exact .inl h
          · rcases List.mem_cons.mp h with rfl | h
            · exact .inl hx
            · exact .inr h)
        refine ⟨h1, ?_, h3, ?_⟩
        · intro y hy
          rcases List.mem_cons.mp hy with rfl | hy
          · exact h1 _ hx
          · exact h2 y hy
        · intro y hy
          rcases h4 y hy with h | ⟨a, ha, hr⟩
          · exact .inl h
          · exact .inr ⟨a, .tail _ ha, hr⟩
      · obtain ⟨h1, h2, h3, h4⟩ := ih _ _ R h (fun a ha b hb => by
          rcases (hins _ _ _).mp ha with rfl | ha
          · exact .inr (List.mem_append_left _ (List.mem_reverse.mpr hb))
          · rcases hinv a ha b hb with h | h
            · exact .inl ((hins _ _ _).mpr (.inr h))
            · rcases List.mem_cons.mp h with rfl | h
              · exact .inl ((hins _ _ _).mpr (.inl rfl))
              · exact .inr (List.mem_append_right _ h))
        refine ⟨fun y hy => h1 y ((hins _ _ _).mpr (.inr hy)), ?_, h3, ?_⟩
        · intro y hy
          rcases List.mem_cons.mp hy with rfl | hy
          · exact h1 _ ((hins _ _ _).mpr (.inl rfl))
          · exact h2 y (List.mem_append_right _ hy)
        · intro y hy
          rcases h4 y hy with h | ⟨a, ha, hr⟩
          · rcases (hins _ _ _).mp h with rfl | h
            · exact .inr ⟨_, .head _, .refl _⟩
            · exact .inl h
          · rcases List.mem_append.mp ha with ha | ha
            · exact .inr ⟨x, .head _, .step (List.mem_reverse.mp ha) hr⟩
            · exact .inr ⟨a, .tail _ ha, hr⟩

/-- From an empty visited set, the loop returns exactly the reachable nodes. -/
theorem dfs_reach {succ : Nat → List Nat} {ins : Nat → StateSet → StateSet}
    (hins : ∀ x y vis, y ∈ ins x vis ↔ y = x ∨ y ∈ vis) {k : Nat} {q : Nat} {R : StateSet}
    (h : dfs succ ins k [q] [] = some R) (y : Nat) : y ∈ R ↔ Reach succ q y := by
  obtain ⟨_, h2, h3, h4⟩ := dfs_spec hins k [q] [] R h (by simp)
  constructor
  · intro hy
    rcases h4 y hy with h | ⟨a, ha, hr⟩
    · cases h
    · simp at ha; subst ha; exact hr
  · intro hr
    have hq : q ∈ R := h2 q (by simp)
    clear h h2 h4
    induction hr with
    | refl => exact hq
    | step e _ ih => exact ih (h3 _ hq _ e)

/-- Total out-degree of the unvisited nodes among the first `N`. -/
def weight (succ : Nat → List Nat) (l : List Nat) (vis : StateSet) : Nat :=
  (l.map fun x => if x ∈ vis then 0 else (succ x).length).sum

theorem weight_ins {succ : Nat → List Nat} {ins : Nat → StateSet → StateSet}
    (hins : ∀ x y vis, y ∈ ins x vis ↔ y = x ∨ y ∈ vis) (l : List Nat) (hl : l.Nodup)
    (vis : StateSet) (x : Nat) (hx : x ∉ vis) :
    weight succ l (ins x vis) + (if x ∈ l then (succ x).length else 0) ≤ weight succ l vis := by
  induction l with
  | nil => simp [weight]
  | cons a l ih =>
    have hl' := List.nodup_cons.mp hl
    have := ih hl'.2
    simp only [weight, List.map_cons, List.sum_cons] at this ⊢
    by_cases hax : a = x
    · subst hax
      have h1 : a ∈ ins a vis := (hins _ _ _).mpr (.inl rfl)
      simp only [h1, if_true, hx, if_false, List.mem_cons, true_or]
      simp only [hl'.1, if_false] at this
      omega
    · have h2 : (a ∈ ins x vis) ↔ a ∈ vis := by rw [hins]; simp [hax]
      have h3 : (x ∈ a :: l) ↔ x ∈ l := by simp [Ne.symm hax]
      simp only [h2, h3]
      omega

theorem dfs_fuel {succ : Nat → List Nat} {ins : Nat → StateSet → StateSet}
    (hins : ∀ x y vis, y ∈ ins x vis ↔ y = x ∨ y ∈ vis) (l : List Nat) (hl : l.Nodup)
    (hout : ∀ x, x ∉ l → succ x = []) :
    ∀ (k : Nat) (st : List Nat) (vis : StateSet), st.length + weight succ l vis ≤ k →
    ∃ R, dfs succ ins k st vis = some R := by
  intro k
  induction k with
  | zero =>
    intro st vis h
    cases st with
    | nil => exact ⟨vis, rfl⟩
    | cons x st => simp at h
  | succ k ih =>
    intro st vis h
    cases st with
    | nil => exact ⟨vis, rfl⟩
    | cons x st =>
      simp only [dfs]
      simp only [List.length_cons] at h
      split
      · exact ih st vis (by omega)
      · rename_i hx
        refine ih _ _ ?_
        have := weight_ins hins l hl vis x hx (succ := succ)
        simp only [List.length_append, List.length_reverse]
        by_cases hxl : x ∈ l
        · simp only [hxl, if_true] at this; omega
        · rw [hout x hxl]
          simp only [hxl, if_false] at this
          simp; omega

/-! #### Sets ordered by address -/

def SortedBy (addr : Nat → Nat) (s : StateSet) : Prop := s.Pairwise (fun a b => addr a < addr b)

theorem mem_setInsert {addr : Nat → Nat} (hinj : ∀ a b, addr a = addr b → a = b) (x y : Nat)
    (s : StateSet) : y ∈ setInsert addr x s ↔ y = x ∨ y ∈ s := by
  induction s with
  | nil => simp [setInsert]
  | cons z zs ih =>
    unfold setInsert
    split
    · simp
    · split
      · simp only [List.mem_cons, ih]
        constructor
        · rintro (h | h | h) <;> simp [h]
        · rintro (h | h | h) <;> simp [h]
      · have : x = z := hinj _ _ (by omega)
        subst this; simp

theorem sorted_setInsert {addr : Nat → Nat} (hinj : ∀ a b, addr a = addr b → a = b) (x : Nat)
    (s : StateSet) (h : SortedBy addr s) : SortedBy addr (setInsert addr x s) := by
  induction s with
  | nil => simp [setInsert, SortedBy]
  | cons z zs ih =>
    have h' := List.pairwise_cons.mp h
    unfold setInsert
    split
    · rename_i hlt
      refine List.pairwise_cons.mpr ⟨fun a ha => ?_, h⟩
      rcases List.mem_cons.mp ha with rfl | ha
      · exact hlt
      · have := h'.1 a ha; omega
    · split
      · refine List.pairwise_cons.mpr ⟨fun a ha => ?_, ih h'.2⟩
        rcases (mem_setInsert hinj x a zs).mp ha with rfl | ha
        · omega
        · exact h'.1 a ha
      · exact h

theorem mem_setInsertAll {addr : Nat → Nat} (hinj : ∀ a b, addr a = addr b → a = b) (xs : List Nat)
    (y : Nat) : ∀ (s : StateSet), y ∈ setInsertAll addr xs s ↔ y ∈ xs ∨ y ∈ s := by
  unfold setInsertAll
  induction xs with
  | nil => simp
  | cons x xs ih =>
    intro s
    simp only [List.foldl_cons, ih, mem_setInsert hinj, List.mem_cons]
    constructor
    · rintro (h | h | h) <;> simp [h]
    · rintro ((h | h) | h) <;> simp [h]

theorem sorted_setInsertAll {addr : Nat → Nat} (hinj : ∀ a b, addr a = addr b → a = b)
    (xs : List Nat) : ∀ (s : StateSet), SortedBy addr s → SortedBy addr (setInsertAll addr xs s) := by
  unfold setInsertAll
  induction xs with
  | nil => simp
  | cons x xs ih => intro s h; exact ih _ (sorted_setInsert hinj x s h)

theorem sortedBy_ext {addr : Nat → Nat} : ∀ {s t : StateSet},
    SortedBy addr s → SortedBy addr t → (∀ x, x ∈ s ↔ x ∈ t) → s = t := by
  intro s
  induction s with
  | nil =>
    intro t _ _ h
    cases t with
    | nil => rfl
    | cons x xs => have := (h x).mpr (.head _); cases this
  | cons a s ih =>
    intro t hs ht h
    cases t with
    | nil => have := (h a).mp (.head _); cases this
    | cons b t =>
      have hs' := List.pairwise_cons.mp hs
      have ht' := List.pairwise_cons.mp ht
      have hab : a = b := by
        rcases List.mem_cons.mp ((h a).mp (.head _)) with h1 | h1
        · exact h1
        · rcases List.mem_cons.mp ((h b).mpr (.head _)) with h2 | h2
          · exact h2.symm
          · have := ht'.1 a h1; have := hs'.1 b h2; omega
      subst hab
      congr 1
      refine ih hs'.2 ht'.2 fun x => ?_
      constructor
      · intro hx
        rcases List.mem_cons.mp ((h x).mp (.tail _ hx)) with rfl | h1
        · have := hs'.1 _ hx; omega
        · exact h1
      · intro hx
        rcases List.mem_cons.mp ((h x).mpr (.tail _ hx)) with rfl | h1
        · have := ht'.1 _ hx; omega
        · exact h1

theorem dfs_sorted {succ : Nat → List Nat} {addr : Nat → Nat} (hinj : ∀ a b, addr a = addr b → a = b) :
    ∀ (k : Nat) (st : List Nat) (vis R : StateSet), dfs succ (setInsert addr) k st vis = some R →
    SortedBy addr vis → SortedBy addr R := by
  intro k
  induction k with
  | zero =>
    intro st vis R h hs
    cases st with
    | nil => simp only [dfs, Option.some.injEq] at h; subst h; exact hs
    | cons x st => simp [dfs] at h
  | succ k ih =>
    intro st vis R h hs
    cases st with
    | nil => simp only [dfs, Option.some.injEq] at h; subst h; exact hs
    | cons x st =>
      simp only [dfs] at h
      split at h
      · exact ih _ _ _ h hs
      · exact ih _ _ _ h (sorted_setInsert hinj _ _ hs)

/-! #### ε-closure -/

theorem sum_map_zero_le {l : List Nat} {f : Nat → Nat} {p : Nat → Prop} [DecidablePred p] :
    (l.map fun x => if p x then 0 else f x).sum ≤ (l.map f).sum := by
  induction l with
  | nil => simp
  | cons a l ih => simp only [List.map_cons, List.sum_cons]; split <;> omega

theorem epsilonClosure_total (n : Nfa) {addr : Nat → Nat} (hinj : ∀ a b, addr a = addr b → a = b)
    (q : Nat) : ∃ R, epsilonClosure n addr q = some R := by
  unfold epsilonClosure
  refine dfs_fuel (fun x y vis => mem_setInsert hinj x y vis) (List.range n.states.length)
    List.nodup_range ?_ _ _ _ ?_
  · intro x hx
    simp only [List.mem_range, Nat.not_lt] at hx
    simp [Nfa.spontaneous, List.getElem?_eq_none hx]
  · unfold Nfa.closureFuel weight
    have h1 : ((List.range n.states.length).map fun x => if x ∈ ([] : StateSet) then 0
        else (n.spontaneous x).length) = n.states.map (fun s => s.spontaneous.length) := by
      apply List.ext_getElem (by simp)
      intro i h1 h2
      simp at h1
      simp [Nfa.spontaneous, h1]
    rw [h1]; simp

theorem mem_epsilonClosure {n : Nfa} {addr : Nat → Nat} (hinj : ∀ a b, addr a = addr b → a = b)
    {q : Nat} {R : StateSet} (h : epsilonClosure n addr q = some R) (y : Nat) :
    y ∈ R ↔ Reach n.spontaneous q y :=
  dfs_reach (fun x y vis => mem_setInsert hinj x y vis) h y

theorem sorted_epsilonClosure {n : Nfa} {addr : Nat → Nat} (hinj : ∀ a b, addr a = addr b → a = b)
    {q : Nat} {R : StateSet} (h : epsilonClosure n addr q = some R) : SortedBy addr R :=
  dfs_sorted hinj _ _ _ _ h (by simp [SortedBy])

theorem closures_spec {n : Nfa} {addr : Nat → Nat} (hinj : ∀ a b, addr a = addr b → a = b)
    (qs : List Nat) : ∀ (acc : StateSet), SortedBy addr acc →
    ∃ R, closures n addr qs acc = some R ∧ SortedBy addr R ∧
      ∀ y, y ∈ R ↔ y ∈ acc ∨ ∃ q ∈ qs, Reach n.spontaneous q y := by
  induction qs with
  | nil => intro acc h; exact ⟨acc, rfl, h, by simp⟩
  | cons q qs ih =>
    intro acc h
    obtain ⟨C, hC⟩ := epsilonClosure_total n hinj q
    obtain ⟨R, h1, h2, h3⟩ := ih (setInsertAll addr C acc) (sorted_setInsertAll hinj _ _ h)
    refine ⟨R, by simp [closures, hC, h1], h2, fun y => ?_⟩
    rw [h3, mem_setInsertAll hinj, mem_epsilonClosure hinj hC]
    constructor
    · rintro ((h | h) | ⟨a, ha, h⟩)
      · exact .inr ⟨q, .head _, h⟩
      · exact .inl h
      · exact .inr ⟨a, .tail _ ha, h⟩
    · rintro (h | ⟨a, ha, h⟩)
      · exact .inl (.inr h)
      · rcases List.mem_cons.mp ha with rfl | ha
        · exact .inl (.inl h)
        · exact .inr ⟨a, ha, h⟩

theorem moveSet_spec (n : Nfa) {addr : Nat → Nat} (hinj : ∀ a b, addr a = addr b → a = b)
    (S : StateSet) (c : Nat) : ∃ R, moveSet n addr S c = some R ∧ SortedBy addr R ∧
      ∀ y, y ∈ R ↔ ∃ q ∈ S, ∃ s, n.states[q]? = some s ∧ ∃ q1 ∈ s.byteTransitions c,
        Reach n.spontaneous q1 y := by
  obtain ⟨R, h1, h2, h3⟩ := closures_spec (n := n) hinj
    (S.flatMap fun q => ((n.states[q]?).map (·.byteTransitions c)).getD []) [] (by simp [SortedBy])
  refine ⟨R, h1, h2, fun y => ?_⟩
  rw [h3]
  simp only [List.not_mem_nil, false_or, List.mem_flatMap]
  constructor
  · rintro ⟨q1, ⟨q, hq, h⟩, hr⟩
    cases hs : n.states[q]? with
    | none => simp [hs] at h
    | some s => simp [hs] at h; exact ⟨q, hq, s, hs, q1, h, hr⟩
  · rintro ⟨q, hq, s, hs, q1, h, hr⟩
    exact ⟨q1, ⟨q, hq, by simpa [hs] using h⟩, hr⟩

end LogSurgeon
