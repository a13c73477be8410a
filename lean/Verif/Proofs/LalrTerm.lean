import Verif.Proofs.LalrTables
import Mathlib.Data.Finset.Powerset
import Mathlib.Data.Finset.Card
/-
The generation of the tables of a grammar ends.
-/
namespace LogSurgeon

theorem filter_lt {α} {p q : α → Bool} : ∀ {l : List α}, (∀ x ∈ l, q x = true → p x = true) → (∃ x ∈ l, p x = true ∧ q x = false) →
    (l.filter q).length < (l.filter p).length
  | [], _, ⟨_, h, _⟩ => by cases h
  | x :: l, h, hx => by
    have hle : (l.filter q).length ≤ (l.filter p).length := by
      rw [← List.countP_eq_length_filter, ← List.countP_eq_length_filter]
      exact List.countP_mono_left fun y hy => h y (by simp [hy])
    by_cases hr : ∃ y ∈ l, p y = true ∧ q y = false
    · have := filter_lt (fun y hy => h y (by simp [hy])) hr
      have h1 := h x (by simp)
      rw [List.filter_cons, List.filter_cons]
      split
      · rename_i hq
        rw [if_pos (h1 hq)]; simpa using this
      · split
        · simp; omega
        · exact this
    · obtain ⟨y, hy, h1, h2⟩ := hx
      rcases List.mem_cons.mp hy with rfl | hy
      · rw [List.filter_cons_of_pos h1, List.filter_cons_of_neg (by simp [h2])]
        simp; omega
      · exact absurd ⟨y, hy, h1, h2⟩ hr

namespace Grammar
variable {g : Grammar}

/-- With enough steps the result is always the same, and it is not that the steps were not enough. -/
def Settles {α : Type} (F : Nat → Except Fail α) : Prop := ∃ n r, r ≠ .error .diverge ∧ ∀ k, n ≤ k → F k = r

/-! ### Closures -/

theorem closureLoop_settles {next : Item → List Item} {U : List Item} (hU : ∀ it ∈ U, ∀ x ∈ next it, x ∈ U) :
    ∀ (m : Nat) (q clo : List Item), (U.filter (fun x => decide (x ∉ clo))).length ≤ m → (∀ x ∈ q, x ∈ U) →
    Settles (fun k => g.closureLoop next k q clo) := by
  intro m
  induction m with
  | zero =>
    intro q clo hm hq
    induction q with
    | nil => exact ⟨0, .ok clo, by simp, fun k _ => by cases k <;> rfl⟩
    | cons it q ih =>
      have hmem : it ∈ clo := by
        refine Decidable.byContradiction fun hn => ?_
        have : it ∈ U.filter (fun x => decide (x ∉ clo)) := List.mem_filter.mpr ⟨hq it (by simp), by simpa using hn⟩
        rw [List.length_eq_zero_iff.mp (Nat.le_zero.mp hm)] at this
        cases this
      obtain ⟨n, r, h1, h2⟩ := ih (fun x hx => hq x (by simp [hx]))
      refine ⟨n + 1, r, h1, fun k hk => ?_⟩
      obtain ⟨k, rfl⟩ : ∃ k', k = k' + 1 := ⟨k - 1, by omega⟩
      simp only [closureLoop]
      rw [if_pos hmem]
      exact h2 k (by omega)
  | succ m ihm =>
    intro q clo hm hq
    induction q with
    | nil => exact ⟨0, .ok clo, by simp, fun k _ => by cases k <;> rfl⟩
    | cons it q ih =>
      by_cases hmem : it ∈ clo
      · obtain ⟨n, r, h1, h2⟩ := ih (fun x hx => hq x (by simp [hx]))
        refine ⟨n + 1, r, h1, fun k hk => ?_⟩
        obtain ⟨k, rfl⟩ : ∃ k', k = k' + 1 := ⟨k - 1, by omega⟩
        simp only [closureLoop]
        rw [if_pos hmem]
        exact h2 k (by omega)
      · have hlt : (U.filter (fun x => decide (x ∉ sInsert Item.lt it clo))).length < (U.filter (fun x => decide (x ∉ clo))).length := by
          refine filter_lt ?_ ⟨it, hq it (by simp), by simpa using hmem, by simp [mem_insertItem]⟩
          intro x _ hx
          simp only [decide_eq_true_eq, mem_insertItem, not_or] at hx ⊢
          exact hx.2
        have hq' : ∀ x ∈ q, x ∈ U := fun x hx => hq x (by simp [hx])
        obtain ⟨n1, r1, a1, a2⟩ := ihm q (sInsert Item.lt it clo) (by omega) hq'
        obtain ⟨n2, r2, b1, b2⟩ := ihm ((next it).reverse ++ q) (sInsert Item.lt it clo) (by omega) (by
          intro x hx
          rcases List.mem_append.mp hx with hx | hx
          · exact hU it (hq it (by simp)) x (by simpa using hx)
          · exact hq' x hx)
        have key : ∀ (F : Nat → Except Fail (List Item)), (∃ r, r ≠ .error .diverge ∧ ∀ k, n1 + n2 + 1 ≤ k → F k = r) → Settles F :=
          fun F ⟨r, h1, h2⟩ => ⟨n1 + n2 + 1, r, h1, h2⟩
        refine key _ ?_
        have hstep : ∀ k, n1 + n2 + 1 ≤ k → ∃ k', k = k' + 1 ∧ n1 + n2 ≤ k' := fun k hk => ⟨k - 1, by omega, by omega⟩
        cases hb : (g.body it.prod)[it.dot]? with
        | none =>
          refine ⟨r1, a1, fun k hk => ?_⟩
          obtain ⟨k, rfl, hk⟩ := hstep k hk
          simp only [closureLoop, if_neg hmem, hb]
          exact a2 k (by omega)
        | some s =>
          by_cases ht : g.isToken s = true
          · refine ⟨r1, a1, fun k hk => ?_⟩
            obtain ⟨k, rfl, hk⟩ := hstep k hk
            simp only [closureLoop, if_neg hmem, hb, ht, if_true]
            exact a2 k (by omega)
          · by_cases hp : (g.prodsOf s).isEmpty = true
            · refine ⟨.error .throws, by simp, fun k hk => ?_⟩
              obtain ⟨k, rfl, hk⟩ := hstep k hk
              simp only [closureLoop, if_neg hmem, hb, ht, hp, if_true, if_false, Bool.false_eq_true]
            · refine ⟨r2, b1, fun k hk => ?_⟩
              obtain ⟨k, rfl, hk⟩ := hstep k hk
              simp only [closureLoop, if_neg hmem, hb, ht, hp, if_false, Bool.false_eq_true]
              exact b2 k (by omega)

theorem prodsOf_lt {s i : Nat} (h : i ∈ g.prodsOf s) : i < g.prods.length := by
  obtain ⟨p, h1, _⟩ := mem_prodsOf.mp h
  exact (List.getElem?_eq_some_iff.mp h1).1

/-- All items with the dot at the start and one of the lookaheads. -/
def startItems (g : Grammar) (las : List Nat) : List Item := (List.range g.prods.length).flatMap fun p => las.map fun l => ⟨p, 0, l⟩

theorem mem_startItems {las : List Nat} {x : Item} : x ∈ g.startItems las ↔ x.prod < g.prods.length ∧ x.dot = 0 ∧ x.la ∈ las := by
  unfold startItems
  simp only [List.mem_flatMap, List.mem_range, List.mem_map]
  constructor
  · rintro ⟨p, hp, l, hl, rfl⟩; exact ⟨hp, rfl, hl⟩
  · rintro ⟨h1, h2, h3⟩
    refine ⟨x.prod, h1, x.la, h3, ?_⟩
    cases x; simp at h2; subst h2; rfl

theorem lr0Closure_settles (ker : List Item) : Settles (fun k => g.lr0Closure k ker) := by
  refine closureLoop_settles (U := ker ++ g.startItems [cNullSymbol]) ?_ _ ker.reverse [] (Nat.le_refl _) (fun x hx => by simp at hx; simp [hx])
  intro it _ x hx
  obtain ⟨s, hs, hp, h0, hl⟩ := mem_freshItems.mp hx
  exact List.mem_append_right _ (mem_startItems.mpr ⟨prodsOf_lt hp, h0, hl⟩)

theorem mem_of_mget {α} [DecidableEq α] {m : List (α × List Nat)} {k : α} {a : Nat} (h : a ∈ mget m k) : a ∈ m.flatMap (·.2) := by
  unfold mget at h
  cases hl : m.lookup k with
  | none => rw [hl] at h; cases h
  | some v =>
    rw [hl] at h
    exact List.mem_flatMap.mpr ⟨_, lookup_mem hl, h⟩

theorem lr1Closure_settles (f : Firsts) (ker : List Item) : Settles (fun k => g.lr1Closure f k ker) := by
  refine closureLoop_settles (U := ker ++ g.startItems (f.firsts.flatMap (·.2) ++ ker.map (·.la))) ?_ _ ker.reverse [] (Nat.le_refl _)
    (fun x hx => by simp at hx; simp [hx])
  intro it hit x hx
  obtain ⟨s, hs, hp, h0, hl⟩ := mem_freshItems.mp hx
  refine List.mem_append_right _ (mem_startItems.mpr ⟨prodsOf_lt hp, h0, ?_⟩)
  rcases mem_lookaheadsAfter.mp hl with ⟨_, s', _, _, _, h⟩ | ⟨_, h⟩
  · exact List.mem_append_left _ (mem_of_mget h)
  · rw [h]
    rcases List.mem_append.mp hit with h | h
    · exact List.mem_append_right _ (List.mem_map.mpr ⟨it, h, rfl⟩)
    · exact (mem_startItems.mp h).2.2

/-! ### LR(0) item sets -/

/-- The kernels. -/
def LR0.kernels (t : LR0) : List (List Item) := t.sets.map (·.1)

/-- The items of the kernels but the first one. -/
def kernelItems (g : Grammar) : List Item :=
  (List.range g.prods.length).flatMap fun p => (List.range ((g.body p).length + 1)).map fun d => ⟨p, d, cNullSymbol⟩

theorem mem_kernelItems {x : Item} (h1 : x.prod < g.prods.length) (h2 : x.dot ≤ (g.body x.prod).length) (h3 : x.la = cNullSymbol) :
    x ∈ g.kernelItems := by
  unfold kernelItems
  simp only [List.mem_flatMap, List.mem_range, List.mem_map]
  exact ⟨x.prod, h1, x.dot, by omega, by cases x; simp at h3; subst h3; rfl⟩

/-- How many kernels are still possible. -/
def missing (g : Grammar) (t : LR0) : Nat :=
  ((g.kernelItems.toFinset.powerset) \ (t.kernels.map List.toFinset).toFinset).card

/-- The kernels are sorted. -/
def KernelsOk (t : LR0) : Prop := ∀ k ∈ t.kernels, Sorted k ∧ ∀ it ∈ k, it.la = cNullSymbol

theorem goTo_missing {t : LR0} (hk : KernelsOk t) {i sym : Nat} {clo : List Item} (hclo : ∀ it ∈ clo, it.la = cNullSymbol) :
    KernelsOk (g.goTo t i clo sym).1 ∧
    (((g.goTo t i clo sym).1.kernels = t.kernels ∧ (g.goTo t i clo sym).2 = []) ∨ g.missing (g.goTo t i clo sym).1 < g.missing t) := by
  unfold goTo
  simp only
  split
  · exact ⟨hk, .inl ⟨rfl, rfl⟩⟩
  · split
    · exact ⟨hk, .inl ⟨rfl, rfl⟩⟩
    · rename_i hnone
      have hnew : g.advance clo sym ∉ t.kernels := by
        intro h
        obtain ⟨x, hx, he⟩ := List.mem_map.mp h
        have := List.findIdx?_eq_none_iff.mp hnone x hx
        simp [he] at this
      have hla : ∀ it ∈ g.advance clo sym, it.la = cNullSymbol := by
        intro it hit
        obtain ⟨y, hy, _, rfl⟩ := mem_advance.mp hit
        exact hclo y hy
      have hin : (g.advance clo sym).toFinset ∈ g.kernelItems.toFinset.powerset := by
        rw [Finset.mem_powerset]
        intro x hx
        rw [List.mem_toFinset] at hx ⊢
        obtain ⟨y, hy, hs, rfl⟩ := mem_advance.mp hx
        have hlt := (List.getElem?_eq_some_iff.mp hs).1
        refine mem_kernelItems ?_ ?_ (hclo y hy)
        · refine Decidable.byContradiction fun hn => ?_
          have : g.body y.prod = [] := by simp [body, List.getElem?_eq_none (by simpa using hn)]
          rw [this] at hlt; simp at hlt
        · exact hlt
      have hks : LR0.kernels { sets := t.sets ++ [(g.advance clo sym, [])], goTo := ((i, sym), t.sets.length) :: t.goTo }
          = t.kernels ++ [g.advance clo sym] := by simp [LR0.kernels]
      refine ⟨?_, .inr ?_⟩
      · intro k hkm
        rw [hks] at hkm
        rcases List.mem_append.mp hkm with h | h
        · exact hk k h
        · rw [List.mem_singleton.mp h]
          exact ⟨sorted_advance, hla⟩
      · unfold missing
        rw [hks]
        apply Finset.card_lt_card
        refine ⟨?_, ?_⟩
        · intro x hx
          simp only [Finset.mem_sdiff, List.map_append, List.mem_toFinset, List.mem_append, not_or] at hx ⊢
          exact ⟨hx.1, hx.2.1⟩
        · intro hsub
          have : (g.advance clo sym).toFinset ∈ g.kernelItems.toFinset.powerset \ (t.kernels.map List.toFinset).toFinset := by
            rw [Finset.mem_sdiff]
            refine ⟨hin, fun h => ?_⟩
            rw [List.mem_toFinset] at h
            obtain ⟨k, hkm, he⟩ := List.mem_map.mp h
            have : k = g.advance clo sym := (hk k hkm).1.ext sorted_advance fun x => by
              rw [← List.mem_toFinset, he, List.mem_toFinset]
            exact hnew (this ▸ hkm)
          have := hsub this
          simp at this

theorem goToAll_missing {i : Nat} {clo : List Item} (hclo : ∀ it ∈ clo, it.la = cNullSymbol) : ∀ (ss : List Nat) (t : LR0) (q : List Nat), KernelsOk t →
    KernelsOk (g.goToAll i clo ss t q).1 ∧
    (((g.goToAll i clo ss t q).1.kernels = t.kernels ∧ (g.goToAll i clo ss t q).2 = q) ∨ g.missing (g.goToAll i clo ss t q).1 < g.missing t)
  | [], t, q, h => ⟨h, .inl ⟨rfl, rfl⟩⟩
  | s :: ss, t, q, h => by
    rw [goToAll]
    obtain ⟨h1, h2⟩ := goTo_missing (g := g) h (i := i) (sym := s) hclo
    obtain ⟨h3, h4⟩ := goToAll_missing hclo ss (g.goTo t i clo s).1 ((g.goTo t i clo s).2 ++ q) h1
    refine ⟨h3, ?_⟩
    rcases h2 with ⟨h2, h2'⟩ | h2
    · have hm : g.missing (g.goTo t i clo s).1 = g.missing t := by simp [missing, h2]
      rcases h4 with ⟨h4, h4'⟩ | h4
      · exact .inl ⟨h4.trans h2, by rw [h4', h2']; rfl⟩
      · exact .inr (by omega)
    · rcases h4 with ⟨h4, _⟩ | h4
      · have hm : g.missing (g.goToAll i clo ss (g.goTo t i clo s).1 ((g.goTo t i clo s).2 ++ q)).1 = g.missing (g.goTo t i clo s).1 := by
          simp [missing, h4]
        exact .inr (by omega)
      · exact .inr (by omega)

theorem set_kernels {t : LR0} {i : Nat} {clo : List Item} :
    LR0.kernels { t with sets := t.sets.set i ((t.sets[i]?.map (·.1)).getD [], clo) } = t.kernels := by
  unfold LR0.kernels
  simp only [List.map_set]
  by_cases hi : i < t.sets.length
  · apply List.ext_getElem?
    intro j
    by_cases hj : i = j
    · subst hj
      rw [List.getElem?_set_self (by simpa using hi)]
      simp [hi]
    · rw [List.getElem?_set_ne hj]
  · rw [List.set_eq_of_length_le (by simp; omega)]

theorem lr0Loop_settles (syms : List Nat) : ∀ (m : Nat) (q : List Nat) (t : LR0), g.missing t ≤ m → KernelsOk t →
    ∃ n r, r ≠ .error .diverge ∧ ∀ cf, n ≤ cf → ∀ k, n ≤ k → g.lr0Loop syms cf k q t = r := by
  have nil : ∀ t : LR0, ∃ n r, r ≠ .error .diverge ∧ ∀ cf, n ≤ cf → ∀ k, n ≤ k → g.lr0Loop syms cf k [] t = r :=
    fun t => ⟨0, .ok t, by simp, fun cf _ k _ => by cases k <;> rfl⟩
  have step : ∀ (i : Nat) (q : List Nat) (t : LR0), KernelsOk t → (∀ t' q', KernelsOk t' → (g.missing t' = g.missing t ∧ q' = q) ∨ g.missing t' < g.missing t →
      ∃ n r, r ≠ .error .diverge ∧ ∀ cf, n ≤ cf → ∀ k, n ≤ k → g.lr0Loop syms cf k q' t' = r) →
      ∃ n r, r ≠ .error .diverge ∧ ∀ cf, n ≤ cf → ∀ k, n ≤ k → g.lr0Loop syms cf k (i :: q) t = r := by
    intro i q t hk ih
    obtain ⟨n1, r1, a1, a2⟩ := lr0Closure_settles (g := g) ((t.sets[i]?.map (·.1)).getD [])
    simp only at a2
    cases r1 with
    | error e =>
      refine ⟨n1 + 1, .error e, fun h => a1 (by cases h; rfl), fun cf hcf k hkk => ?_⟩
      obtain ⟨k, rfl⟩ : ∃ k', k = k' + 1 := ⟨k - 1, by omega⟩
      simp only [lr0Loop]
      rw [a2 cf (by omega)]
    | ok clo =>
      have hclo : ∀ it ∈ clo, it.la = cNullSymbol := by
        have := a2 n1 (Nat.le_refl _)
        obtain ⟨_, _, h3, _⟩ := closureLoop_spec this
        refine h3 (fun it => it.la = cNullSymbol) (by simp) ?_ ?_
        · intro it hit
          rw [List.mem_reverse] at hit
          cases hs : t.sets[i]? with
          | none => rw [hs] at hit; cases hit
          | some x =>
            rw [hs] at hit
            exact (hk x.1 (List.mem_map.mpr ⟨x, List.mem_of_getElem? hs, rfl⟩)).2 it hit
        · intro it _ x hx
          obtain ⟨s, hs, hp, h0, hl⟩ := mem_freshItems.mp hx
          simpa using hl
      have hk' : KernelsOk { t with sets := t.sets.set i ((t.sets[i]?.map (·.1)).getD [], clo) } := by
        intro k hkm; rw [set_kernels] at hkm; exact hk k hkm
      have hm' : g.missing { t with sets := t.sets.set i ((t.sets[i]?.map (·.1)).getD [], clo) } = g.missing t := by
        unfold missing; rw [set_kernels]
      obtain ⟨h1, h2⟩ := goToAll_missing (g := g) (i := i) hclo syms _ q hk'
      obtain ⟨n2, r2, b1, b2⟩ := ih _ _ h1 (by
        rcases h2 with ⟨h2, h2'⟩ | h2
        · exact .inl ⟨by rw [← hm']; unfold missing; rw [h2], h2'⟩
        · exact .inr (by omega))
      refine ⟨n1 + n2 + 1, r2, b1, fun cf hcf k hkk => ?_⟩
      obtain ⟨k, rfl⟩ : ∃ k', k = k' + 1 := ⟨k - 1, by omega⟩
      simp only [lr0Loop]
      rw [a2 cf (by omega)]
      exact b2 cf (by omega) k (by omega)
  intro m
  induction m with
  | zero =>
    intro q
    induction q with
    | nil => intro t _ _; exact nil t
    | cons i q ih =>
      intro t hm hk
      refine step i q t hk fun t' q' hk' h => ?_
      rcases h with ⟨h1, rfl⟩ | h1
      · exact ih t' (by omega) hk'
      · omega
  | succ m ihm =>
    intro q
    induction q with
    | nil => intro t _ _; exact nil t
    | cons i q ih =>
      intro t hm hk
      refine step i q t hk fun t' q' hk' h => ?_
      rcases h with ⟨h1, rfl⟩ | h1
      · exact ih t' (by omega) hk'
      · exact ihm q' t' (by omega) hk'

theorem lr0Sets_settles (o : Orders) : Settles (fun k => g.lr0Sets o k) := by
  obtain ⟨n, r, h1, h2⟩ := lr0Loop_settles (g := g) (g.terminals ++ o.nts) _ [0] { sets := [([⟨g.root, 0, cNullSymbol⟩], [])] } (Nat.le_refl _) (by
    intro k hk
    have : k = [⟨g.root, 0, cNullSymbol⟩] := by simpa [LR0.kernels] using hk
    subst this
    exact ⟨by simp [Sorted], by simp⟩)
  exact ⟨n, r, h1, fun k hk => h2 k hk k hk⟩

/-! ### Sorted lists of symbols -/

/-- Ascending. -/
def Asc (l : List Nat) : Prop := l.Pairwise (· < ·)

theorem Asc.insert {x : Nat} : ∀ {l : List Nat}, Asc l → Asc (sInsert natLt x l) ∧ (x ∈ l → sInsert natLt x l = l)
  | [], _ => ⟨by simp [sInsert, Asc], by simp⟩
  | y :: l, h => by
    obtain ⟨h1, h2⟩ := List.pairwise_cons.mp h
    obtain ⟨i1, i2⟩ := Asc.insert (x := x) h2
    simp only [sInsert]
    split
    · rename_i hlt
      have hlt : x < y := by simpa [natLt] using hlt
      refine ⟨List.pairwise_cons.mpr ⟨fun z hz => ?_, h⟩, fun hx => ?_⟩
      · rcases List.mem_cons.mp hz with rfl | hz
        · exact hlt
        · exact Nat.lt_trans hlt (h1 z hz)
      · rcases List.mem_cons.mp hx with rfl | hx
        · omega
        · have := h1 x hx; omega
    · split
      · rename_i hlt
        have hlt : y < x := by simpa [natLt] using hlt
        refine ⟨List.pairwise_cons.mpr ⟨fun z hz => ?_, i1⟩, fun hx => ?_⟩
        · rcases mem_insertNat.mp hz with rfl | hz
          · exact hlt
          · exact h1 z hz
        · rcases List.mem_cons.mp hx with rfl | hx
          · omega
          · rw [i2 hx]
      · exact ⟨h, fun _ => rfl⟩

theorem Asc.union {a : List Nat} (ha : Asc a) : ∀ (b : List Nat), Asc (sUnion a b) ∧ ((∀ x ∈ b, x ∈ a) → sUnion a b = a) := by
  intro b
  unfold sUnion
  induction b generalizing a with
  | nil => exact ⟨ha, fun _ => rfl⟩
  | cons y b ih =>
    simp only [List.foldl_cons]
    obtain ⟨h1, h2⟩ := ha.insert (x := y)
    refine ⟨(ih h1).1, fun h => ?_⟩
    rw [h2 (h y (by simp))]
    exact (ih ha).2 fun x hx => h x (by simp [hx])

/-- A longer union has a new member. -/
theorem Asc.new {a b : List Nat} (ha : Asc a) (h : (sUnion a b).length ≠ a.length) : ∃ x ∈ b, x ∉ a := by
  refine Decidable.byContradiction fun hn => h ?_
  rw [(ha.union b).2 fun x hx => Decidable.byContradiction fun hx' => hn ⟨x, hx, hx'⟩]

/-! ### FIRST sets -/

/-- All FIRST sets are ascending lists of terminals. -/
def FirstsOk (T : List Nat) (f : Firsts) : Prop := ∀ s, Asc (mget f.firsts s) ∧ ∀ a ∈ mget f.firsts s, a ∈ T

/-- Something new about a head. -/
def FirstsNew (H T : List Nat) (f f' : Firsts) : Prop :=
  (∃ s ∈ H, ∃ a ∈ T, a ∈ mget f'.firsts s ∧ a ∉ mget f.firsts s) ∨ ∃ s ∈ H, s ∈ f'.nullable ∧ s ∉ f.nullable

theorem ofBody_ok {T : List Nat} {h : Nat} : ∀ (ss : List Nat) (f : Firsts), FirstsOk T f →
    FirstsOk T (f.ofBody h ss).1 ∧
    ((mget (f.ofBody h ss).1.firsts h).length ≠ (mget f.firsts h).length → ∃ a ∈ T, a ∈ mget (f.ofBody h ss).1.firsts h ∧ a ∉ mget f.firsts h) := by
  intro ss
  induction ss with
  | nil => intro f hf; exact ⟨hf, fun h => absurd rfl h⟩
  | cons s ss ih =>
    intro f hf
    let f1 : Firsts := { f with firsts := mput f.firsts h (sUnion (mget f.firsts h) (mget f.firsts s)) }
    have hm : ∀ x, mget f1.firsts x = if x = h then sUnion (mget f.firsts h) (mget f.firsts s) else mget f.firsts x := fun x => mget_mput _ _ _ _
    have h1 : FirstsOk T f1 := by
      intro x
      rw [hm]
      split
      · refine ⟨((hf h).1.union _).1, fun a ha => ?_⟩
        rcases mem_sUnion.mp ha with ha | ha
        · exact (hf h).2 a ha
        · exact (hf s).2 a ha
      · exact hf x
    have hnew : (mget f1.firsts h).length ≠ (mget f.firsts h).length → ∃ a ∈ T, a ∈ mget f1.firsts h ∧ a ∉ mget f.firsts h := by
      intro hl
      rw [hm, if_pos rfl] at hl ⊢
      obtain ⟨x, hx1, hx2⟩ := (hf h).1.new hl
      exact ⟨x, (hf s).2 x hx1, mem_sUnion.mpr (.inr hx1), hx2⟩
    show FirstsOk T (if s ∈ f1.nullable then f1.ofBody h ss else (f1, false)).1 ∧
      ((mget (if s ∈ f1.nullable then f1.ofBody h ss else (f1, false)).1.firsts h).length ≠ (mget f.firsts h).length →
        ∃ a ∈ T, a ∈ mget (if s ∈ f1.nullable then f1.ofBody h ss else (f1, false)).1.firsts h ∧ a ∉ mget f.firsts h)
    split
    · obtain ⟨i1, i2⟩ := ih f1 h1
      refine ⟨i1, fun hl => ?_⟩
      have hle : ∀ a ∈ mget f1.firsts h, a ∈ mget (f1.ofBody h ss).1.firsts h := (Firsts.ofBody_spec (h := h) (ss := ss) (f := f1)).2.2.1.first h
      have hle0 : ∀ a ∈ mget f.firsts h, a ∈ mget f1.firsts h := by
        intro a ha; rw [hm, if_pos rfl]; exact mem_sUnion.mpr (.inl ha)
      by_cases hl1 : (mget f1.firsts h).length = (mget f.firsts h).length
      · obtain ⟨a, a1, a2, a3⟩ := i2 (by rw [hl1]; exact hl)
        exact ⟨a, a1, a2, fun h => a3 (hle0 a h)⟩
      · obtain ⟨a, a1, a2, a3⟩ := hnew hl1
        exact ⟨a, a1, hle a a2, a3⟩
    · exact ⟨h1, hnew⟩

theorem addNullable_new {f : Firsts} {s : Nat} (h1 : f.changed = false) (h2 : (f.addNullable s).changed = true) :
    s ∈ (f.addNullable s).nullable ∧ s ∉ f.nullable := by
  unfold Firsts.addNullable at h2 ⊢
  rw [if_neg (by simp [h1])] at h2 ⊢
  split at h2
  · rw [h1] at h2; cases h2
  · rename_i hn
    rw [if_neg hn]
    exact ⟨mem_insertNat.mpr (.inl rfl), hn⟩

theorem step_new {H T : List Nat} {f : Firsts} {p : Production} (hp : p.head ∈ H) (hf : FirstsOk T f) :
    FirstsOk T (f.step p) ∧ (f.changed = false → (f.step p).changed = true → FirstsNew H T f (f.step p)) := by
  have had : ∀ (f : Firsts) (s : Nat), (f.addNullable s).firsts = f.firsts := fun f s => Firsts.addNullable_spec.2.1
  unfold Firsts.step
  split
  · refine ⟨fun s => by rw [had]; exact hf s, fun h1 h2 => .inr ⟨p.head, hp, addNullable_new h1 h2⟩⟩
  · obtain ⟨a1, a2⟩ := ofBody_ok (h := p.head) p.body f hf
    obtain ⟨i1, i2, i3, i4, i5, i6, i7, i8⟩ := Firsts.ofBody_spec (h := p.head) (ss := p.body) (f := f)
    obtain ⟨fb, hfb⟩ : ∃ fb, fb = f.ofBody p.head p.body := ⟨_, rfl⟩
    rw [← hfb] at a1 a2 i1 i2 ⊢
    obtain ⟨f1, all⟩ := fb
    simp only at a1 a2 i1 i2 ⊢
    have hfirst : (if all = true then f1.addNullable p.head else f1).firsts = f1.firsts := by
      split
      · exact had _ _
      · rfl
    refine ⟨fun s => by simp only [hfirst]; exact a1 s, fun h1 h2 => ?_⟩
    simp only [hfirst, Bool.or_eq_true, bne_iff_ne, ne_eq] at h2
    by_cases hl : (mget f1.firsts p.head).length = (mget f.firsts p.head).length
    · have h2 := h2.resolve_right (fun h => h hl)
      split at h2
      · rename_i hall
        obtain ⟨b1, b2⟩ := addNullable_new (by rw [i2]; exact h1) h2
        refine .inr ⟨p.head, hp, ?_, by rw [← i1]; exact b2⟩
        simp only [hall, if_true]
        exact b1
      · rw [i2, h1] at h2; cases h2
    · obtain ⟨a, b1, b2, b3⟩ := a2 hl
      exact .inl ⟨p.head, hp, a, b1, by simp only [hfirst]; exact b2, b3⟩

theorem steps_new {H T : List Nat} : ∀ (ps : List Production) (f : Firsts), (∀ p ∈ ps, p.head ∈ H) → FirstsOk T f →
    FirstsOk T (ps.foldl Firsts.step f) ∧
    (f.changed = false → (ps.foldl Firsts.step f).changed = true → FirstsNew H T f (ps.foldl Firsts.step f)) := by
  intro ps
  induction ps with
  | nil => intro f _ hf; exact ⟨hf, fun h1 h2 => by rw [List.foldl_nil, h1] at h2; cases h2⟩
  | cons p ps ih =>
    intro f hp hf
    simp only [List.foldl_cons]
    obtain ⟨a1, a2⟩ := step_new (hp p (by simp)) hf
    obtain ⟨b1, b2⟩ := ih (f.step p) (fun q hq => hp q (by simp [hq])) a1
    refine ⟨b1, fun h1 h2 => ?_⟩
    have hle1 := (Firsts.step_spec (f := f) (p := p)).1
    have hle2 := (Firsts.steps_spec (ps := ps) (f := f.step p)).1
    cases hc : (f.step p).changed with
    | true =>
      rcases a2 h1 hc with ⟨s, c1, a, c2, c3, c4⟩ | ⟨s, c1, c2, c3⟩
      · exact .inl ⟨s, c1, a, c2, hle2.first s a c3, c4⟩
      · exact .inr ⟨s, c1, hle2.null s c2, c3⟩
    | false =>
      rcases b2 hc h2 with ⟨s, c1, a, c2, c3, c4⟩ | ⟨s, c1, c2, c3⟩
      · exact .inl ⟨s, c1, a, c2, c3, fun h => c4 (hle1.first s a h)⟩
      · exact .inr ⟨s, c1, c2, fun h => c3 (hle1.null s h)⟩

/-- How much can still be found out. -/
def unknown (H T : List Nat) (f : Firsts) : Nat :=
  ((H.product T).filter fun x => decide (x.2 ∉ mget f.firsts x.1)).length + (H.filter fun s => decide (s ∉ f.nullable)).length

theorem unknown_lt {H T : List Nat} {f f' : Firsts} (hle : Firsts.Le f f') (hn : FirstsNew H T f f') : unknown H T f' < unknown H T f := by
  have e1 : ((H.product T).filter fun x => decide (x.2 ∉ mget f'.firsts x.1)).length ≤ ((H.product T).filter fun x => decide (x.2 ∉ mget f.firsts x.1)).length := by
    rw [← List.countP_eq_length_filter, ← List.countP_eq_length_filter]
    refine List.countP_mono_left fun y _ hy => ?_
    simp only [decide_eq_true_eq] at hy ⊢
    exact fun h => hy (hle.first _ _ h)
  have e2 : (H.filter fun s => decide (s ∉ f'.nullable)).length ≤ (H.filter fun s => decide (s ∉ f.nullable)).length := by
    rw [← List.countP_eq_length_filter, ← List.countP_eq_length_filter]
    refine List.countP_mono_left fun y _ hy => ?_
    simp only [decide_eq_true_eq] at hy ⊢
    exact fun h => hy (hle.null _ h)
  unfold unknown
  rcases hn with ⟨s, h1, a, h2, h3, h4⟩ | ⟨s, h1, h2, h3⟩
  · have : ((H.product T).filter fun x => decide (x.2 ∉ mget f'.firsts x.1)).length < ((H.product T).filter fun x => decide (x.2 ∉ mget f.firsts x.1)).length := by
      refine filter_lt (fun y _ hy => ?_) ⟨(s, a), List.mem_product.mpr ⟨h1, h2⟩, by simpa using h4, by simpa using h3⟩
      simp only [decide_eq_true_eq] at hy ⊢
      exact fun h => hy (hle.first _ _ h)
    omega
  · have : (H.filter fun s => decide (s ∉ f'.nullable)).length < (H.filter fun s => decide (s ∉ f.nullable)).length := by
      refine filter_lt (fun y _ hy => ?_) ⟨s, h1, by simpa using h3, by simpa using h2⟩
      simp only [decide_eq_true_eq] at hy ⊢
      exact fun h => hy (hle.null _ h)
    omega

theorem firsts_loop_settles {T : List Nat} (ps : List Production) : ∀ (m : Nat) (f : Firsts), unknown (ps.map (·.head)) T f ≤ m → FirstsOk T f →
    ∃ n r, ∀ k, n ≤ k → Firsts.loop ps k f = .ok r := by
  intro m
  induction m with
  | zero =>
    intro f hm hf
    obtain ⟨a1, a2⟩ := steps_new (H := ps.map (·.head)) ps { f with changed := false } (fun p hp => List.mem_map.mpr ⟨p, hp, rfl⟩) hf
    refine ⟨1, ps.foldl Firsts.step { f with changed := false }, fun k hk => ?_⟩
    obtain ⟨k, rfl⟩ : ∃ k', k = k' + 1 := ⟨k - 1, by omega⟩
    simp only [Firsts.loop]
    rw [if_neg]
    intro hc
    have := unknown_lt (Firsts.steps_spec (ps := ps) (f := { f with changed := false })).1 (a2 rfl hc)
    have h0 : unknown (ps.map (·.head)) T { f with changed := false } = unknown (ps.map (·.head)) T f := rfl
    omega
  | succ m ih =>
    intro f hm hf
    obtain ⟨a1, a2⟩ := steps_new (H := ps.map (·.head)) ps { f with changed := false } (fun p hp => List.mem_map.mpr ⟨p, hp, rfl⟩) hf
    cases hc : (ps.foldl Firsts.step { f with changed := false }).changed with
    | false =>
      refine ⟨1, ps.foldl Firsts.step { f with changed := false }, fun k hk => ?_⟩
      obtain ⟨k, rfl⟩ : ∃ k', k = k' + 1 := ⟨k - 1, by omega⟩
      simp only [Firsts.loop]
      rw [if_neg (by rw [hc]; simp)]
    | true =>
      have := unknown_lt (Firsts.steps_spec (ps := ps) (f := { f with changed := false })).1 (a2 rfl hc)
      have h0 : unknown (ps.map (·.head)) T { f with changed := false } = unknown (ps.map (·.head)) T f := rfl
      obtain ⟨n, r, h⟩ := ih (ps.foldl Firsts.step { f with changed := false }) (by omega) a1
      refine ⟨n + 1, r, fun k hk => ?_⟩
      obtain ⟨k, rfl⟩ : ∃ k', k = k' + 1 := ⟨k - 1, by omega⟩
      simp only [Firsts.loop]
      rw [if_pos hc]
      exact h k (by omega)

theorem firstSets_settles : ∃ n f, ∀ k, n ≤ k → g.firstSets k = .ok f := by
  refine firsts_loop_settles (T := g.terminals) g.prods _ _ (Nat.le_refl _) ?_
  intro s
  unfold mget
  simp only
  cases hl : (g.terminals.map fun t => (t, [t])).lookup s with
  | none => exact ⟨List.Pairwise.nil, fun a ha => by cases ha⟩
  | some l =>
    obtain ⟨t, ht, e⟩ := List.mem_map.mp (lookup_mem hl)
    cases e
    exact ⟨List.pairwise_singleton _ _, fun a ha => by rw [List.mem_singleton.mp ha]; exact ht⟩

/-! ### Lookaheads -/

theorem laMaps_settles (f : Firsts) : ∀ (its : List Item) (m : LaMaps), Settles (fun k => g.laMaps f k its m)
  | [], m => ⟨0, .ok m, by simp, fun _ _ => rfl⟩
  | it :: its, m => by
    obtain ⟨n1, r1, a1, a2⟩ := lr1Closure_settles (g := g) f [it]
    simp only at a2
    cases r1 with
    | error e =>
      refine ⟨n1, .error e, fun h => a1 (by cases h; rfl), fun k hk => ?_⟩
      simp only [laMaps, a2 k hk]
    | ok clo =>
      obtain ⟨n2, r2, b1, b2⟩ := laMaps_settles f its (clo.foldl (LaMaps.note g it) m)
      refine ⟨n1 + n2, r2, b1, fun k hk => ?_⟩
      simp only [laMaps, a2 k (by omega)]
      exact b2 k (by omega)

/-- All lookahead sets are ascending lists of the values. -/
def LasOk (V : List Nat) (l : List (Item × List Nat)) : Prop := ∀ i, Asc (mget l i) ∧ ∀ a ∈ mget l i, a ∈ V

/-- A new lookahead. -/
def LasNew (I : List Item) (V : List Nat) (l l' : Las) : Prop := ∃ i ∈ I, ∃ a ∈ V, a ∈ mget l'.las i ∧ a ∉ mget l.las i

theorem propagate_new {I : List Item} {V : List Nat} {from' tgt : Item} {l : Las} (hto : tgt ∈ I) (h : LasOk V l.las) :
    LasOk V (Las.propagate from' l tgt).las ∧ (l.changed = false → (Las.propagate from' l tgt).changed = true → LasNew I V l (Las.propagate from' l tgt)) := by
  have hm : ∀ x, mget (Las.propagate from' l tgt).las x = if x = tgt then sUnion (mget l.las tgt) (mget l.las from') else mget l.las x :=
    fun x => mget_mput _ _ _ _
  refine ⟨fun x => ?_, fun h1 h2 => ?_⟩
  · rw [hm]
    split
    · refine ⟨((h tgt).1.union _).1, fun a ha => ?_⟩
      rcases mem_sUnion.mp ha with ha | ha
      · exact (h tgt).2 a ha
      · exact (h from').2 a ha
    · exact h x
  · have h2 : (l.changed || decide ((sUnion (mget l.las tgt) (mget l.las from')).length > (mget l.las tgt).length)) = true := h2
    rw [h1] at h2
    simp only [Bool.false_or, decide_eq_true_eq] at h2
    obtain ⟨x, hx1, hx2⟩ := (h tgt).1.new (b := mget l.las from') (by omega)
    exact ⟨tgt, hto, x, (h from').2 x hx1, by rw [hm, if_pos rfl]; exact mem_sUnion.mpr (.inr hx1), hx2⟩

theorem LasNew.mono {I : List Item} {V : List Nat} {a b c d : Las} (h1 : ∀ i, ∀ x ∈ mget a.las i, x ∈ mget b.las i) (h : LasNew I V b c)
    (h2 : ∀ i, ∀ x ∈ mget c.las i, x ∈ mget d.las i) : LasNew I V a d := by
  obtain ⟨i, e1, x, e2, e3, e4⟩ := h
  exact ⟨i, e1, x, e2, h2 i x e3, fun h => e4 (h1 i x h)⟩

theorem propagates_new {I : List Item} {V : List Nat} {from' : Item} : ∀ (tos : List Item) (l : Las), (∀ tgt ∈ tos, tgt ∈ I) → LasOk V l.las →
    LasOk V (tos.foldl (Las.propagate from') l).las ∧
    (l.changed = false → (tos.foldl (Las.propagate from') l).changed = true → LasNew I V l (tos.foldl (Las.propagate from') l)) := by
  intro tos
  induction tos with
  | nil => intro l _ h; exact ⟨h, fun h1 h2 => by rw [List.foldl_nil, h1] at h2; cases h2⟩
  | cons tgt tos ih =>
    intro l hI h
    simp only [List.foldl_cons]
    obtain ⟨a1, a2⟩ := propagate_new (from' := from') (hI tgt (by simp)) h
    obtain ⟨b1, b2⟩ := ih _ (fun x hx => hI x (by simp [hx])) a1
    refine ⟨b1, fun h1 h2 => ?_⟩
    cases hc : (Las.propagate from' l tgt).changed with
    | true => exact (a2 h1 hc).mono (fun _ _ h => h) propagates_spec.1
    | false => exact (b2 hc h2).mono propagate_spec.1 (fun _ _ h => h)

theorem rounds_new {I : List Item} {V : List Nat} {m : LaMaps} (hm : ∀ i, ∀ x ∈ mget m.prop i, x ∈ I) : ∀ (froms : List Item) (l : Las), LasOk V l.las →
    LasOk V (froms.foldl (fun l from' => (mget m.prop from').foldl (Las.propagate from') l) l).las ∧
    (l.changed = false → (froms.foldl (fun l from' => (mget m.prop from').foldl (Las.propagate from') l) l).changed = true →
      LasNew I V l (froms.foldl (fun l from' => (mget m.prop from').foldl (Las.propagate from') l) l)) := by
  intro froms
  induction froms with
  | nil => intro l h; exact ⟨h, fun h1 h2 => by rw [List.foldl_nil, h1] at h2; cases h2⟩
  | cons from' froms ih =>
    intro l h
    simp only [List.foldl_cons]
    obtain ⟨a1, a2⟩ := propagates_new (from' := from') (mget m.prop from') l (hm from') h
    obtain ⟨b1, b2⟩ := ih _ a1
    refine ⟨b1, fun h1 h2 => ?_⟩
    cases hc : ((mget m.prop from').foldl (Las.propagate from') l).changed with
    | true => exact (a2 h1 hc).mono (fun _ _ h => h) rounds_spec.1
    | false => exact (b2 hc h2).mono propagates_spec.1 (fun _ _ h => h)

/-- How many lookaheads can still be added. -/
def lacking (I : List Item) (V : List Nat) (l : Las) : Nat := ((I.product V).filter fun x => decide (x.2 ∉ mget l.las x.1)).length

theorem lacking_lt {I : List Item} {V : List Nat} {l l' : Las} (hle : ∀ i, ∀ a ∈ mget l.las i, a ∈ mget l'.las i) (hn : LasNew I V l l') :
    lacking I V l' < lacking I V l := by
  obtain ⟨i, h1, a, h2, h3, h4⟩ := hn
  refine filter_lt (fun y _ hy => ?_) ⟨(i, a), List.mem_product.mpr ⟨h1, h2⟩, by simpa using h4, by simpa using h3⟩
  simp only [decide_eq_true_eq] at hy ⊢
  exact fun h => hy (hle _ _ h)

theorem las_loop_settles {I : List Item} {V : List Nat} {m : LaMaps} (hm : ∀ i, ∀ x ∈ mget m.prop i, x ∈ I) : ∀ (N : Nat) (l : Las), lacking I V l ≤ N →
    LasOk V l.las → ∃ n r, ∀ k, n ≤ k → Las.loop m k l = .ok r := by
  intro N
  induction N with
  | zero =>
    intro l hN hl
    obtain ⟨_, a2⟩ := rounds_new hm (m.prop.map (·.1)) { l with changed := false } hl
    refine ⟨1, Las.round m { l with changed := false }, fun k hk => ?_⟩
    obtain ⟨k, rfl⟩ : ∃ k', k = k' + 1 := ⟨k - 1, by omega⟩
    simp only [Las.loop]
    rw [if_neg]
    intro hc
    have := lacking_lt (rounds_spec (m := m) (froms := m.prop.map (·.1)) (l := { l with changed := false })).1 (a2 rfl hc)
    have h0 : lacking I V { l with changed := false } = lacking I V l := rfl
    omega
  | succ N ih =>
    intro l hN hl
    obtain ⟨a1, a2⟩ := rounds_new hm (m.prop.map (·.1)) { l with changed := false } hl
    cases hc : (Las.round m { l with changed := false }).changed with
    | false =>
      refine ⟨1, Las.round m { l with changed := false }, fun k hk => ?_⟩
      obtain ⟨k, rfl⟩ : ∃ k', k = k' + 1 := ⟨k - 1, by omega⟩
      simp only [Las.loop]
      rw [if_neg (by rw [hc]; simp)]
    | true =>
      have := lacking_lt (rounds_spec (m := m) (froms := m.prop.map (·.1)) (l := { l with changed := false })).1 (a2 rfl hc)
      have h0 : lacking I V { l with changed := false } = lacking I V l := rfl
      obtain ⟨n, r, h⟩ := ih (Las.round m { l with changed := false }) (by unfold Las.round; omega) a1
      refine ⟨n + 1, r, fun k hk => ?_⟩
      obtain ⟨k, rfl⟩ : ∃ k', k = k' + 1 := ⟨k - 1, by omega⟩
      simp only [Las.loop]
      rw [if_pos hc]
      exact h k (by omega)

theorem initLas_ok {V : List Nat} {m : LaMaps} (hV : ∀ p, ∀ a ∈ mget m.spont p, a ∈ V) (he : tokenEnd ∈ V) : ∀ (its : List Item) (l : List (Item × List Nat)),
    LasOk V l → LasOk V (its.foldl (initLas g m) l) := by
  intro its
  induction its with
  | nil => intro l h; exact h
  | cons it its ih =>
    intro l h
    refine ih _ fun i => ?_
    unfold initLas
    simp only [mget_mput]
    split
    · have hu := (h it).1.union (mget m.spont it.prod)
      have hv : ∀ a ∈ sUnion (mget l it) (mget m.spont it.prod), a ∈ V := by
        intro a ha
        rcases mem_sUnion.mp ha with ha | ha
        · exact (h it).2 a ha
        · exact hV _ a ha
      split
      · refine ⟨hu.1.insert.1, fun a ha => ?_⟩
        rcases mem_insertNat.mp ha with rfl | ha
        · exact he
        · exact hv a ha
      · exact ⟨hu.1, hv⟩
    · exact h i

theorem lr1Sets_settles (f : Firsts) (t : LR0) (las : List (Item × List Nat)) : ∀ (order : List Nat) (acc : List LR1Set),
    Settles (fun k => g.lr1Sets f k t las order acc)
  | [], acc => ⟨0, .ok acc, by simp, fun _ _ => rfl⟩
  | i :: is, acc => by
    obtain ⟨n1, r1, a1, a2⟩ := lr1Closure_settles (g := g) f (lr1Kernel las ((t.sets[i]?.map (·.1)).getD []))
    simp only at a2
    cases r1 with
    | error e =>
      refine ⟨n1, .error e, fun h => a1 (by cases h; rfl), fun k hk => ?_⟩
      simp only [lr1Sets, a2 k hk]
    | ok clo =>
      obtain ⟨n2, r2, b1, b2⟩ := lr1Sets_settles f t las is
        (⟨i, lr1Kernel las ((t.sets[i]?.map (·.1)).getD []), clo⟩ :: acc.filter (fun s => s.kernel != lr1Kernel las ((t.sets[i]?.map (·.1)).getD [])))
      refine ⟨n1 + n2, r2, b1, fun k hk => ?_⟩
      simp only [lr1Sets, a2 k (by omega)]
      exact b2 k (by omega)

/-! ### Everything -/

theorem setAction_ends {next : Nat → Option Nat} {acts : List Action} {it : Item} : g.setAction next acts it ≠ .error .diverge := by
  unfold setAction
  repeat' split
  all_goals (intro h; cases h)

theorem setActions_ends {next : Nat → Option Nat} : ∀ (its : List Item) (acts : List Action), g.setActions next its acts ≠ .error .diverge
  | [], acts => by simp [setActions]
  | it :: its, acts => by
    rw [setActions]
    split
    · rename_i e he
      intro h
      cases h
      exact setAction_ends he
    · exact setActions_ends its _

theorem actionTable_ends {t : LR0} {sets : List LR1Set} : ∀ (ss : List LR1Set), g.actionTable t sets ss ≠ .error .diverge
  | [] => by simp [actionTable]
  | s :: ss => by
    rw [actionTable]
    split
    · rename_i e he
      intro h
      cases h
      exact setActions_ends _ _ he
    · split
      · rename_i e he
        intro h
        cases h
        exact actionTable_ends ss he
      · intro h; cases h

/-- Generating the tables ends, for every grammar. -/
theorem generate_settles (o : Orders) : Settles (fun k => g.generate o k) := by
  by_cases he : g.prods.isEmpty = true
  · exact ⟨0, .error .throws, by simp, fun k _ => by simp [generate, he]⟩
  obtain ⟨n1, r1, a1, a2⟩ := lr0Sets_settles (g := g) o
  simp only at a2
  cases r1 with
  | error e =>
    exact ⟨n1, .error e, fun h => a1 (by cases h; rfl), fun k hk => by simp only [generate, if_neg he, a2 k hk]⟩
  | ok t =>
    obtain ⟨n2, f, b2⟩ := firstSets_settles (g := g)
    obtain ⟨n3, r3, c1, c2⟩ := laMaps_settles (g := g) f ((o.sets (t.sets.map (·.1))).flatMap fun i => (t.sets[i]?.map (·.1)).getD []) {}
    simp only at c2
    cases r3 with
    | error e =>
      exact ⟨n1 + n2 + n3, .error e, fun h => c1 (by cases h; rfl), fun k hk => by
        simp only [generate, if_neg he, a2 k (by omega), b2 k (by omega), c2 k (by omega)]⟩
    | ok m =>
      obtain ⟨n4, l, d2⟩ := las_loop_settles (I := m.prop.flatMap (·.2)) (V := tokenEnd :: m.spont.flatMap (·.2)) (m := m) (by
          intro i x hx
          unfold mget at hx
          cases hl : m.prop.lookup i with
          | none => rw [hl] at hx; cases hx
          | some v =>
            rw [hl] at hx
            exact List.mem_flatMap.mpr ⟨_, lookup_mem hl, hx⟩) _
        { las := (((o.sets (t.sets.map (·.1))).flatMap fun i => (t.sets[i]?.map (·.1)).getD [])).foldl (initLas g m) [] } (Nat.le_refl _)
        (initLas_ok (fun p a ha => List.mem_cons_of_mem _ (mem_of_mget ha)) (by simp) _ [] (fun i => ⟨List.Pairwise.nil, fun a ha => by cases ha⟩))
      obtain ⟨n5, r5, e1, e2⟩ := lr1Sets_settles (g := g) f t l.las (o.sets (t.sets.map (·.1))) []
      simp only at e2
      cases r5 with
      | error e =>
        exact ⟨n1 + n2 + n3 + n4 + n5, .error e, fun h => e1 (by cases h; rfl), fun k hk => by
          simp only [generate, if_neg he, a2 k (by omega), b2 k (by omega), c2 k (by omega), d2 k (by omega), e2 k (by omega)]⟩
      | ok sets =>
        have hend := actionTable_ends (g := g) (t := t) (sets := sets) sets
        cases hact : g.actionTable t sets sets with
        | error e =>
          rw [hact] at hend
          exact ⟨n1 + n2 + n3 + n4 + n5, .error e, fun h => hend (by cases h; rfl), fun k hk => by
            simp only [generate, if_neg he, a2 k (by omega), b2 k (by omega), c2 k (by omega), d2 k (by omega), e2 k (by omega), hact]⟩
        | ok acts =>
          exact ⟨n1 + n2 + n3 + n4 + n5, .ok { root := g.rootSet t (o.sets (t.sets.map (·.1))), actions := acts }, by simp, fun k hk => by
            simp only [generate, if_neg he, a2 k (by omega), b2 k (by omega), c2 k (by omega), d2 k (by omega), e2 k (by omega), hact]⟩

end Grammar
end LogSurgeon
