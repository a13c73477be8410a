import Verif.Proofs.Conflict
import Verif.Proofs.LalrTotal
import Verif.Proofs.LalrTerm
/-
Generation with messages always ends, with tables or with a message.
-/
namespace LogSurgeon
namespace Grammar
variable {g : Grammar}

/-- Every symbol in a body is a terminal or has productions. -/
def Whole (g : Grammar) : Prop := ∀ P ∈ g.prods, ∀ s ∈ P.body, g.isToken s = true ∨ (g.prodsOf s).isEmpty = false

theorem body_has {p k s : Nat} (h : (g.body p)[k]? = some s) : ∃ P ∈ g.prods, s ∈ P.body := by
  unfold body at h
  cases hp : g.prods[p]? with
  | none => simp [hp] at h
  | some P =>
    simp only [hp, Option.map_some, Option.getD_some] at h
    exact ⟨P, List.mem_of_getElem? hp, List.mem_of_getElem? h⟩

theorem closureLoop_whole (hw : Whole g) {next : Item → List Item} : ∀ (k : Nat) (q clo : List Item),
    g.closureLoop next k q clo = .error .diverge ∨ ∃ R, g.closureLoop next k q clo = .ok R := by
  intro k
  induction k with
  | zero => intro q clo; cases q <;> simp [closureLoop]
  | succ k ih =>
    intro q clo
    cases q with
    | nil => simp [closureLoop]
    | cons it q =>
      simp only [closureLoop]
      split
      · exact ih _ _
      · split
        · exact ih _ _
        · rename_i s hs
          obtain ⟨P, hP, hb⟩ := body_has hs
          split
          · exact ih _ _
          · rename_i ht
            rw [if_neg (by rw [(hw P hP s hb).resolve_left ht]; simp)]
            exact ih _ _

theorem lr0Loop_whole (hw : Whole g) {syms : List Nat} {cf : Nat} : ∀ (k : Nat) (q : List Nat) (t : LR0),
    g.lr0Loop syms cf k q t = .error .diverge ∨ ∃ t', g.lr0Loop syms cf k q t = .ok t' := by
  intro k
  induction k with
  | zero => intro q t; cases q <;> simp [lr0Loop]
  | succ k ih =>
    intro q t
    cases q with
    | nil => simp [lr0Loop]
    | cons i q =>
      simp only [lr0Loop]
      rcases closureLoop_whole hw (next := fun it => g.freshItems it [cNullSymbol]) cf ((t.sets[i]?.map (·.1)).getD []).reverse [] with e | ⟨clo, e⟩
      · have : g.lr0Closure cf ((t.sets[i]?.map (·.1)).getD []) = .error .diverge := e
        simp [this]
      · have : g.lr0Closure cf ((t.sets[i]?.map (·.1)).getD []) = .ok clo := e
        simp only [this]
        exact ih _ _

theorem laMaps_whole (hw : Whole g) {f : Firsts} {fuel : Nat} : ∀ (its : List Item) (m : LaMaps),
    g.laMaps f fuel its m = .error .diverge ∨ ∃ m', g.laMaps f fuel its m = .ok m' := by
  intro its
  induction its with
  | nil => intro m; exact .inr ⟨m, rfl⟩
  | cons it its ih =>
    intro m
    simp only [laMaps]
    rcases closureLoop_whole hw (next := fun it => g.freshItems it (lookaheadsAfter f it.la ((g.body it.prod).drop (it.dot + 1)))) fuel
        [it].reverse [] with e | ⟨clo, e⟩
    · have : g.lr1Closure f fuel [it] = .error .diverge := e
      simp [this]
    · have : g.lr1Closure f fuel [it] = .ok clo := e
      simp only [this]
      exact ih _

theorem lr1Sets_whole (hw : Whole g) {f : Firsts} {fuel : Nat} {t : LR0} {las : List (Item × List Nat)} : ∀ (order : List Nat) (acc : List LR1Set),
    lr1Sets g f fuel t las order acc = .error .diverge ∨ ∃ sets, lr1Sets g f fuel t las order acc = .ok sets := by
  intro order
  induction order with
  | nil => intro acc; exact .inr ⟨acc, rfl⟩
  | cons i order ih =>
    intro acc
    simp only [lr1Sets]
    rcases closureLoop_whole hw (next := fun it => g.freshItems it (lookaheadsAfter f it.la ((g.body it.prod).drop (it.dot + 1)))) fuel
        (lr1Kernel las ((t.sets[i]?.map (·.1)).getD [])).reverse [] with e | ⟨clo, e⟩
    · have : g.lr1Closure f fuel (lr1Kernel las ((t.sets[i]?.map (·.1)).getD [])) = .error .diverge := e
      simp [this]
    · have : g.lr1Closure f fuel (lr1Kernel las ((t.sets[i]?.map (·.1)).getD [])) = .ok clo := e
      simp only [this]
      exact ih _

theorem follows_term {T : List String} {ps : List (String × List String)} {x a : String} (h : LogSurgeon.Follows T ps x a) : a ∈ T ∨ a = "$end" := by
  have hb : ∀ {x a : String}, Begins T ps x a → a ∈ T := by
    intro x a h
    induction h with
    | term h => exact h
    | prod _ _ _ ih => exact ih
  induction h with
  | whole => exact .inr rfl
  | next _ _ h => exact .inl (hb h)
  | last _ _ _ ih => exact ih

/-- The lookaheads are symbols of the grammar. -/
theorem las_bounded (hsep : Separate g) (hnull : cNullSymbol ∉ g.terminals) (hlt : ∀ a ∈ g.terminals, a < g.symbolId.length)
    (hend : tokenEnd ∈ g.terminals) (hroot : g.root < g.prods.length) {f : Firsts} {fuel : Nat} (hf : g.firstSets fuel = .ok f)
    {items : List Item} (hi : ∀ it ∈ items, it.la = cNullSymbol) {m : LaMaps} (hm : g.laMaps f fuel items {} = .ok m) {l : Las}
    (hl : Las.loop m fuel { las := items.foldl (initLas g m) [] } = .ok l) {ker clo : List Item}
    (hc : g.lr1Closure f fuel (lr1Kernel l.las ker) = .ok clo) : ∀ it ∈ clo, it.la < g.symbolId.length := by
  obtain ⟨nm, hnm⟩ : ∃ nm : Nat → String, nm = fun a => if a = g.head g.root then "$START_PRIME" else if a = tokenEnd then "$end" else
    if a < g.symbolId.length then "x" else "y" := ⟨_, rfl⟩
  have hhead : g.head g.root ∉ g.terminals := by
    have := hsep (g.prods[g.root]) (List.getElem_mem hroot)
    simpa [head, List.getElem?_eq_getElem hroot] using this
  have hne : tokenEnd ≠ g.head g.root := fun e => hhead (e ▸ hend)
  have e1 : nm (g.head g.root) = "$START_PRIME" := by rw [hnm]; simp
  have e2 : nm tokenEnd = "$end" := by rw [hnm]; simp [hne]
  have hN : Named g nm (g.terminals.map nm) (g.prods.map fun p => (nm p.head, p.body.map nm)) :=
    ⟨fun p hp => List.mem_map.mpr ⟨p, hp, rfl⟩, fun a ha => List.mem_map.mpr ⟨a, ha, rfl⟩⟩
  have hft := firstSets_true hN hf
  have hmt := laMaps_true hN hnull hft (firstSets_sub hf) hm hi ⟨fun p a ha => by simp [mget] at ha, fun x y hy => by simp [mget] at hy⟩
  have hlt' := las_loop_true hmt hl (initLas_true hmt e1 e2 (fun i a ha => by simp [mget] at ha))
  have hF := closure_las hN hft (Good := fun x a => LogSurgeon.Follows (g.terminals.map nm) (g.prods.map fun p => (nm p.head, p.body.map nm)) (nm x) (nm a))
    (fun _ _ _ _ h => h) (fun _ _ _ h h' => h _ h') hc (fun it hit => by
      obtain ⟨k, hk, a, ha, rfl⟩ := mem_lr1Kernel.mp hit
      exact hlt' k a ha)
  intro it hit
  have hy : nm it.la ≠ "y" ∧ nm it.la ≠ "$START_PRIME" := by
    rcases follows_term (hF it hit) with h | h
    · obtain ⟨a, ha, e⟩ := List.mem_map.mp h
      rw [← e, hnm]
      have : a ≠ g.head g.root := fun h => hhead (h ▸ ha)
      simp only [if_neg this]
      split
      · decide
      · rw [if_pos (hlt a ha)]; decide
    · rw [h]; decide
  rw [hnm] at hy
  simp only at hy
  by_cases h1 : it.la = g.head g.root
  · rw [if_pos h1] at hy; exact absurd rfl hy.2
  · rw [if_neg h1] at hy
    by_cases h2 : it.la = tokenEnd
    · rw [h2]; exact hlt _ hend
    · rw [if_neg h2] at hy
      by_cases h3 : it.la < g.symbolId.length
      · exact h3
      · rw [if_neg h3] at hy; exact absurd rfl hy.1

/-- One item set: actions or a message. -/
theorem setActionsM_total {next : Nat → Option Nat} {n : Nat} (h0 : tokenEnd < n) : ∀ {its : List Item} {acts : List Action}, acts.length = n →
    (∀ (s : Nat) x, acts[s]? = some (.shift x) → ∃ j, x = some j) →
    (∀ it ∈ its, it.la < n ∧ ∀ s, (g.body it.prod)[it.dot]? = some s → s < n ∧ ∃ j, next s = some j) →
    (∃ r, g.setActionsM next its acts = .ok r) ∨ ∃ msg, g.setActionsM next its acts = .error (.conflict msg) := by
  intro its
  induction its with
  | nil => intro acts _ _ _; exact .inl ⟨acts, rfl⟩
  | cons it its ih =>
    intro acts hlen hsh hit
    have hset : ∀ (k : Nat) (a : Action), (∀ x, a = .shift x → ∃ j, x = some j) →
        (∃ r, g.setActionsM next its (acts.set k a) = .ok r) ∨ ∃ msg, g.setActionsM next its (acts.set k a) = .error (.conflict msg) := by
      intro k a ha
      refine ih (by simpa using hlen) ?_ (fun x hx => hit x (by simp [hx]))
      intro s x hx
      by_cases e : s = k
      · subst e
        rw [List.getElem?_set] at hx
        simp only [if_true] at hx
        split at hx
        · injection hx with hx; exact ha x hx
        · cases hx
      · rw [List.getElem?_set_ne (Ne.symm e)] at hx
        exact hsh s x hx
    obtain ⟨hla, hnext⟩ := hit it (by simp)
    simp only [setActionsM]
    unfold setActionM
    cases hb : (g.body it.prod)[it.dot]? with
    | some s =>
      obtain ⟨hs, j, hj⟩ := hnext s hb
      simp only
      by_cases hh : (!g.isToken s && (g.prodsOf s).isEmpty) = true
      · simp only [if_pos hh]
        exact ih hlen hsh (fun x hx => hit x (by simp [hx]))
      · simp only [if_neg hh]
        cases ha : acts[s]? with
        | none => rw [List.getElem?_eq_none_iff] at ha; omega
        | some a =>
          cases a with
          | flag b => simp only [hj]; exact hset s _ (fun x hx => ⟨j, by cases hx; rfl⟩)
          | shift x =>
            obtain ⟨k, rfl⟩ := hsh s x ha
            simp only [hj]
            by_cases e : some k = some j
            · simp only [if_pos e]
              exact ih hlen hsh (fun x hx => hit x (by simp [hx]))
            · simp only [if_neg e]
              exact .inr ⟨_, rfl⟩
          | reduce p => simp only [hj]; exact .inr ⟨_, rfl⟩
    | none =>
      simp only
      by_cases hr : it.prod = g.root
      · simp only [if_pos hr, hlen, if_pos h0]
        exact hset tokenEnd _ (fun x hx => by cases hx)
      · simp only [if_neg hr]
        cases ha : acts[it.la]? with
        | none => rw [List.getElem?_eq_none_iff] at ha; omega
        | some a =>
          cases a with
          | flag b => simp only; exact hset it.la _ (fun x hx => by cases hx)
          | shift x =>
            obtain ⟨k, rfl⟩ := hsh it.la x ha
            simp only
            exact .inr ⟨_, rfl⟩
          | reduce p => simp only; exact .inr ⟨_, rfl⟩

theorem actionTableM_total {t : LR0} {sets : List LR1Set} : ∀ {ss : List LR1Set}, (∀ s ∈ ss,
      (∃ r, g.setActionsM (nextSet t sets s.index) s.closure (List.replicate g.symbolId.length (.flag false)) = .ok r) ∨
      ∃ msg, g.setActionsM (nextSet t sets s.index) s.closure (List.replicate g.symbolId.length (.flag false)) = .error (.conflict msg)) →
    (∃ r, g.actionTableM t sets ss = .ok r) ∨ ∃ msg, g.actionTableM t sets ss = .error (.conflict msg) := by
  intro ss
  induction ss with
  | nil => intro _; exact .inl ⟨[], rfl⟩
  | cons s ss ih =>
    intro h
    simp only [actionTableM]
    rcases h s (by simp) with ⟨r, e⟩ | ⟨msg, e⟩
    · simp only [e]
      rcases ih (fun x hx => h x (by simp [hx])) with ⟨r', e'⟩ | ⟨msg, e'⟩
      · simp only [e']; exact .inl ⟨_, rfl⟩
      · simp only [e']; exact .inr ⟨_, rfl⟩
    · simp only [e]; exact .inr ⟨_, rfl⟩

/-- Generation ends, with tables or with a message about a conflict. -/
theorem generateM_outcome (hw : Whole g) {o : Orders} (ho : o.Ok g) (hsep : Separate g) (hnull : cNullSymbol ∉ g.terminals)
    (hlive : ∀ f, (∀ a ∈ g.terminals, a ∈ mget f.firsts a) → (∀ p ∈ g.prods, f.Closed p) → ∀ p ∈ g.prods, ∀ s ∈ p.body, Live f s)
    (hlt : ∀ a ∈ g.terminals, a < g.symbolId.length) (hblt : ∀ p ∈ g.prods, ∀ s ∈ p.body, s < g.symbolId.length)
    (hend : tokenEnd ∈ g.terminals) (hroot : g.root < g.prods.length) {visit : List LR1Set → List LR1Set} (hv : ∀ l, ∀ s ∈ visit l, s ∈ l) :
    ∃ n r, (∀ fuel, n ≤ fuel → g.generateM o visit fuel = r) ∧ ((∃ tb, r = .ok tb) ∨ ∃ msg, r = .error (.conflict msg)) := by
  have he : ¬ g.prods.isEmpty = true := by
    intro h
    have h : g.prods = [] := by simpa using h
    rw [h] at hroot; simp at hroot
  obtain ⟨n1, r1, a1, a2⟩ := lr0Sets_settles (g := g) o
  simp only at a2
  obtain ⟨t, rfl⟩ : ∃ t, r1 = .ok t := by
    rcases lr0Loop_whole hw (syms := g.terminals ++ o.nts) (cf := n1) n1 [0] { sets := [([⟨g.root, 0, cNullSymbol⟩], [])] } with e | ⟨t, e⟩
    · exact absurd ((a2 n1 (Nat.le_refl _)).symm.trans e) a1
    · exact ⟨t, (a2 n1 (Nat.le_refl _)).symm.trans e⟩
  obtain ⟨n2, f, b2⟩ := firstSets_settles (g := g)
  obtain ⟨items, hitems⟩ : ∃ items, items = (o.sets (t.sets.map (·.1))).flatMap fun i => (t.sets[i]?.map (·.1)).getD [] := ⟨_, rfl⟩
  obtain ⟨n3, r3, c1, c2⟩ := laMaps_settles (g := g) f items {}
  simp only at c2
  obtain ⟨m, rfl⟩ : ∃ m, r3 = .ok m := by
    rcases laMaps_whole hw (f := f) (fuel := n3) items {} with e | ⟨m, e⟩
    · exact absurd ((c2 n3 (Nat.le_refl _)).symm.trans e) c1
    · exact ⟨m, (c2 n3 (Nat.le_refl _)).symm.trans e⟩
  obtain ⟨n4, l, d2⟩ := las_loop_settles (I := m.prop.flatMap (·.2)) (V := tokenEnd :: m.spont.flatMap (·.2)) (m := m) (by
      intro i x hx
      unfold mget at hx
      cases hl : m.prop.lookup i with
      | none => rw [hl] at hx; cases hx
      | some v =>
        rw [hl] at hx
        exact List.mem_flatMap.mpr ⟨_, lookup_mem hl, hx⟩) _
    { las := items.foldl (initLas g m) [] } (Nat.le_refl _)
    (initLas_ok (fun p a ha => List.mem_cons_of_mem _ (mem_of_mget ha)) (by simp) _ [] (fun i => ⟨List.Pairwise.nil, fun a ha => by cases ha⟩))
  obtain ⟨n5, r5, e1, e2⟩ := lr1Sets_settles (g := g) f t l.las (o.sets (t.sets.map (·.1))) []
  simp only at e2
  obtain ⟨sets, rfl⟩ : ∃ sets, r5 = .ok sets := by
    rcases lr1Sets_whole hw (f := f) (fuel := n5) (t := t) (las := l.las) (o.sets (t.sets.map (·.1))) [] with e | ⟨m, e⟩
    · exact absurd ((e2 n5 (Nat.le_refl _)).symm.trans e) e1
    · exact ⟨m, (e2 n5 (Nat.le_refl _)).symm.trans e⟩
  obtain ⟨N, hN⟩ : ∃ N, N = n1 + n2 + n3 + n4 + n5 := ⟨_, rfl⟩
  have ht0 := a2 N (by omega)
  have hf := b2 N (by omega)
  have hm := c2 N (by omega)
  have hl := d2 N (by omega)
  have hsets := e2 N (by omega)
  obtain ⟨order, horder⟩ : ∃ order, order = o.sets (t.sets.map (·.1)) := ⟨_, rfl⟩
  have hord : ∀ i, i ∈ order ↔ i < t.sets.length := by
    intro i; rw [horder, ho.sets]; simp
  have hin : ∀ i < t.sets.length, ∀ k ∈ t.kernel i, k ∈ items := by
    intro i hi k hk
    rw [hitems, ← horder]
    exact List.mem_flatMap.mpr ⟨i, (hord i).mpr hi, hk⟩
  have S := stages ht0 hf hin hm hl
  have hlive := hlive f S.self S.closed
  rw [← horder] at hsets
  have hC : ∀ i < t.sets.length, ∃ C1, g.lr1Closure f N (lr1Kernel l.las (t.kernel i)) = .ok C1 :=
    fun i hi => lr1Sets_closures hsets i ((hord i).mpr hi)
  have hne : ∀ i < t.sets.length, ∀ k ∈ t.kernel i, ∃ x, x ∈ mget l.las k :=
    fun i hi => S.las_ne hsep hnull hlive hC (i + 1) i (by omega) hi
  have hall : ∀ i < t.sets.length, ∃ s ∈ sets, s.index = i := by
    intro i hi
    exact lr1Sets_complete (N := t.sets.length) (fun i hi j hj h => S.kernel_inj hne hi hj h) hsets
      (fun i hi => (hord i).mp hi) (by simp) i (.inl ((hord i).mpr hi))
  have hspec : ∀ s ∈ sets, s.index < t.sets.length ∧ g.lr1Closure f N (lr1Kernel l.las (t.kernel s.index)) = .ok s.closure := by
    intro s hs
    obtain ⟨h1, h2, h3⟩ := (lr1Sets_spec hsets s hs).resolve_left (by simp)
    rw [h2] at h3
    exact ⟨(hord _).mp h1, h3⟩
  have hnext : ∀ i < t.sets.length, ∀ C1, g.lr1Closure f N (lr1Kernel l.las (t.kernel i)) = .ok C1 → ∀ x ∈ C1, ∀ X,
      (g.body x.prod)[x.dot]? = some X → ∃ j, nextSet t sets i X = some j := by
    intro i hi C1 hC1 x hx X hX
    obtain ⟨⟨c, hc, hxc⟩, hla⟩ := S.carry hsep hnull hi hC1 hx
    have hsym : g.isToken X = true ∨ g.prodsOf X ≠ [] := by
      cases e : g.isToken X with
      | true => exact .inl rfl
      | false => exact .inr ((lr1Closure_spec hC1).2.2 x hx X hX e).1
    have hXs : X ∈ g.terminals ++ o.nts := by
      rcases hsym with e | e
      · exact List.mem_append_left _ (by simpa [isToken] using e)
      · obtain ⟨p, hp⟩ := List.exists_mem_of_ne_nil _ e
        obtain ⟨q, hq, rfl⟩ := mem_prodsOf.mp hp
        exact List.mem_append_right _ (ho.nts q (List.mem_of_getElem? hq))
    have hadv : (⟨x.prod, x.dot + 1, cNullSymbol⟩ : Item) ∈ g.advance c X := mem_advance.mpr ⟨_, hxc, hX, rfl⟩
    obtain ⟨j0, hj0⟩ := S.total i _ c hc (by simp) X hXs (List.ne_nil_of_mem hadv)
    have hlk : ∃ j, t.goTo.lookup (i, X) = some j := by
      cases e : t.goTo.lookup (i, X) with
      | some j => exact ⟨j, rfl⟩
      | none =>
        exfalso
        rw [List.lookup_eq_none_iff] at e
        have := e _ hj0
        simp at this
    obtain ⟨j, hj⟩ := hlk
    obtain ⟨_, ker, c1, c2, g1, g2⟩ := S.lr0.goes i X j (lookup_mem hj)
    have hjlen : j < t.sets.length := (List.getElem?_eq_some_iff.mp g2).1
    refine ⟨j, ?_⟩
    unfold nextSet
    rw [hj]
    simp only
    rw [if_pos]
    obtain ⟨s, hs, e⟩ := hall j hjlen
    exact List.any_eq_true.mpr ⟨s, hs, by simp [e]⟩
  have hblank : ∀ it ∈ items, it.la = cNullSymbol := by
    intro it hit
    rw [hitems] at hit
    obtain ⟨i, -, hi⟩ := List.mem_flatMap.mp hit
    have hi : it ∈ t.kernel i := hi
    obtain ⟨cl, hcl⟩ := LR0.kernel_of_mem hi
    exact (S.lr0.valid i _ _ hcl it hi).2
  have key := actionTableM_total (g := g) (t := t) (sets := sets) (ss := visit sets) (by
    intro s hs
    obtain ⟨h1, h2⟩ := hspec s (hv _ s hs)
    refine setActionsM_total (n := g.symbolId.length) (hlt _ hend) (by simp) ?_ ?_
    · intro k x hx
      rw [List.getElem?_replicate] at hx
      split at hx <;> cases hx
    · intro it hit
      refine ⟨las_bounded hsep hnull hlt hend hroot hf hblank hm hl h2 it hit, fun x hx => ?_⟩
      obtain ⟨P, hP, hb⟩ := body_has hx
      exact ⟨hblt P hP x hb, hnext _ h1 _ h2 it hit x hx⟩)
  subst hitems
  have final : ∀ k, N ≤ k → g.generateM o visit k = (match g.actionTableM t sets (visit sets) with
      | .error e => .error e
      | .ok acts => .ok { root := g.rootSet t (o.sets (t.sets.map (·.1))), actions := acts }) := by
    intro k hk
    simp only [generateM, if_neg he, a2 k (by omega), b2 k (by omega), c2 k (by omega), d2 k (by omega), e2 k (by omega)]
    rfl
  rcases key with ⟨r, e⟩ | ⟨msg, e⟩
  · rw [e] at final; exact ⟨N, _, final, .inl ⟨_, rfl⟩⟩
  · rw [e] at final; exact ⟨N, _, final, .inr ⟨_, rfl⟩⟩

end Grammar
end LogSurgeon
