import Verif.Proofs.Follow
import Verif.Proofs.Expected
import Verif.Proofs.LalrCert
/-
The messages about conflicts: what they mean.
-/
namespace LogSurgeon
namespace Grammar
variable {g : Grammar}

/-! ### The two models of generation -/

theorem setActionM_spec {next : Nat → Option Nat} {acts : List Action} {it : Item} :
    (∀ r, g.setActionM next acts it = .ok r ↔ g.setAction next acts it = .ok r) ∧
    (∀ msg, g.setActionM next acts it = .error (.conflict msg) → g.setAction next acts it = .error .throws) := by
  unfold setActionM setAction
  cases h0 : (g.body it.prod)[it.dot]? with
  | some s =>
    simp only
    split
    · simp
    · cases h1 : acts[s]? with
      | none => simp
      | some a =>
        cases a with
        | flag b => simp
        | shift x =>
          simp only
          split
          · simp
          · cases next s <;> cases x <;> simp
        | reduce p => simp only; cases next s <;> simp
  | none =>
    simp only
    split
    · split <;> simp
    · cases h1 : acts[it.la]? with
      | none => simp
      | some a =>
        cases a with
        | flag b => simp
        | shift x => cases x <;> simp
        | reduce p => simp

theorem setActionsM_spec {next : Nat → Option Nat} : ∀ {its : List Item} {acts : List Action},
    (∀ r, g.setActionsM next its acts = .ok r ↔ g.setActions next its acts = .ok r) ∧
    (∀ msg, g.setActionsM next its acts = .error (.conflict msg) → g.setActions next its acts = .error .throws ∧
      ∃ pre it post acts', its = pre ++ it :: post ∧ g.setActions next pre acts = .ok acts' ∧
        g.setActionM next acts' it = .error (.conflict msg)) := by
  intro its
  induction its with
  | nil => intro acts; simp [setActionsM, setActions]
  | cons it its ih =>
    intro acts
    obtain ⟨h1, h2⟩ := setActionM_spec (g := g) (next := next) (acts := acts) (it := it)
    simp only [setActionsM, setActions]
    cases hM : g.setActionM next acts it with
    | ok r =>
      rw [(h1 r).mp hM]
      simp only
      obtain ⟨k1, k2⟩ := ih (acts := r)
      refine ⟨k1, fun msg h => ?_⟩
      obtain ⟨e, pre, it', post, acts', e1, e2, e3⟩ := k2 msg h
      refine ⟨e, it :: pre, it', post, acts', by rw [e1]; rfl, ?_, e3⟩
      simp only [setActions, (h1 r).mp hM]
      exact e2
    | error e =>
      have hne : ∀ r, g.setAction next acts it ≠ .ok r := fun r hr => by rw [(h1 r).mpr hr] at hM; cases hM
      cases hA : g.setAction next acts it with
      | ok r => exact absurd hA (hne r)
      | error e' =>
        simp only
        refine ⟨by simp, fun msg h => ?_⟩
        injection h with h
        subst h
        rw [h2 msg hM] at hA
        injection hA with hA
        subst hA
        exact ⟨rfl, [], it, its, acts, rfl, rfl, hM⟩

theorem actionTableM_spec {t : LR0} {sets : List LR1Set} : ∀ {ss : List LR1Set},
    (∀ r, g.actionTableM t sets ss = .ok r ↔ g.actionTable t sets ss = .ok r) ∧
    (∀ msg, g.actionTableM t sets ss = .error (.conflict msg) → g.actionTable t sets ss = .error .throws ∧
      ∃ s ∈ ss, g.setActionsM (nextSet t sets s.index) s.closure (List.replicate g.symbolId.length (.flag false)) =
        .error (.conflict msg)) := by
  intro ss
  induction ss with
  | nil => simp [actionTableM, actionTable]
  | cons s ss ih =>
    obtain ⟨h1, h2⟩ := setActionsM_spec (g := g) (next := nextSet t sets s.index) (its := s.closure)
      (acts := List.replicate g.symbolId.length (.flag false))
    obtain ⟨k1, k2⟩ := ih
    simp only [actionTableM, actionTable]
    cases hM : g.setActionsM (nextSet t sets s.index) s.closure (List.replicate g.symbolId.length (.flag false)) with
    | ok r =>
      rw [(h1 r).mp hM]
      simp only
      cases hT : g.actionTableM t sets ss with
      | ok rest => rw [(k1 rest).mp hT]; simp
      | error e =>
        cases hA : g.actionTable t sets ss with
        | ok rest => rw [(k1 rest).mpr hA] at hT; cases hT
        | error e' =>
          simp only
          refine ⟨by simp, fun msg h => ?_⟩
          injection h with h
          subst h
          obtain ⟨e1, s', hs', e2⟩ := k2 msg hT
          rw [e1] at hA
          injection hA with hA
          subst hA
          exact ⟨rfl, s', by simp [hs'], e2⟩
    | error e =>
      cases hA : g.setActions (nextSet t sets s.index) s.closure (List.replicate g.symbolId.length (.flag false)) with
      | ok r => rw [(h1 r).mpr hA] at hM; cases hM
      | error e' =>
        simp only
        refine ⟨by simp, fun msg h => ?_⟩
        injection h with h
        subst h
        have := (h2 msg hM).1
        rw [this] at hA
        injection hA with hA
        subst hA
        exact ⟨rfl, s, by simp, hM⟩

/-- What is known when generation ends with a message about a conflict. -/
structure Conflicted (g : Grammar) (fuel : Nat) (msg : String) (t : LR0) (f : Firsts) (m : LaMaps) (l : Las)
    (items : List Item) (sets : List LR1Set) (s : LR1Set) : Prop where
  lr0 : LR0Inv g fuel [] t
  first : g.firstSets fuel = .ok f
  blank : ∀ it ∈ items, it.la = cNullSymbol
  maps : g.laMaps f fuel items {} = .ok m
  las : Las.loop m fuel { las := items.foldl (initLas g m) [] } = .ok l
  kernel : s.kernel = lr1Kernel l.las (t.kernel s.index)
  closure : g.lr1Closure f fuel s.kernel = .ok s.closure
  msg : g.setActionsM (nextSet t sets s.index) s.closure (List.replicate g.symbolId.length (.flag false)) = .error (.conflict msg)

theorem actionTable_some {t : LR0} {sets : List LR1Set} {e : Fail} : ∀ {ss : List LR1Set}, ∀ s ∈ ss,
    g.setActions (nextSet t sets s.index) s.closure (List.replicate g.symbolId.length (.flag false)) = .error e →
    ∀ r, g.actionTable t sets ss ≠ .ok r := by
  intro ss
  induction ss with
  | nil => intro s hs; cases hs
  | cons x ss ih =>
    intro s hs he r h
    simp only [actionTable] at h
    rcases List.mem_cons.mp hs with rfl | hs
    · rw [he] at h; cases h
    · split at h
      · cases h
      · split at h
        · cases h
        · rename_i rest hrest
          exact ih s hs he rest hrest

theorem generateM_spec {o : Orders} {visit : List LR1Set → List LR1Set} {fuel : Nat} :
    (visit = id → ∀ tb, g.generateM o visit fuel = .ok tb ↔ g.generate o fuel = .ok tb) ∧
    ((∀ l, ∀ s ∈ visit l, s ∈ l) → ∀ msg, g.generateM o visit fuel = .error (.conflict msg) →
      (∀ tb, g.generate o fuel ≠ .ok tb) ∧
      ∃ t f m l items sets s, Conflicted g fuel msg t f m l items sets s) := by
  unfold generateM generate
  split
  · simp
  · cases h1 : g.lr0Sets o fuel with
    | error e => simp
    | ok t =>
      simp only
      cases h2 : g.firstSets fuel with
      | error e => simp
      | ok f =>
        simp only
        cases h3 : g.laMaps f fuel ((o.sets (t.sets.map (·.1))).flatMap fun i => (t.sets[i]?.map (·.1)).getD []) {} with
        | error e => simp
        | ok m =>
          simp only
          cases h4 : Las.loop m fuel { las :=
              ((o.sets (t.sets.map (·.1))).flatMap fun i => (t.sets[i]?.map (·.1)).getD []).foldl (initLas g m) [] } with
          | error e => simp
          | ok l =>
            simp only
            cases h5 : lr1Sets g f fuel t l.las (o.sets (t.sets.map (·.1))) [] with
            | error e => simp
            | ok sets =>
              simp only
              obtain ⟨k1, k2⟩ := actionTableM_spec (g := g) (t := t) (sets := sets) (ss := visit sets)
              refine ⟨?_, fun hv msg hT => ?_⟩
              · rintro rfl tb
                simp only [id] at k1 ⊢
                cases hT : g.actionTableM t sets sets with
                | ok r => rw [(k1 r).mp hT]; simp
                | error e =>
                  cases hA : g.actionTable t sets sets with
                  | ok r => rw [(k1 r).mpr hA] at hT; cases hT
                  | error e' => simp
              · cases hT' : g.actionTableM t sets (visit sets) with
                | ok r => rw [hT'] at hT; cases hT
                | error e =>
                  rw [hT'] at hT
                  injection hT with hT
                  subst hT
                  obtain ⟨e1, s, hs, e2⟩ := k2 msg hT'
                  have hs := hv _ s hs
                  have inv := (lr0Sets_spec h1).1
                  rcases lr1Sets_spec h5 s hs with hs' | ⟨_, hk, hc⟩
                  · cases hs'
                  · refine ⟨fun tb htb => ?_, t, f, m, l, _, sets, s, ⟨inv, h2, ?_, h3, h4, hk, hc, e2⟩⟩
                    · have hA := actionTable_some (ss := sets) s hs ((setActionsM_spec (g := g)).2 msg e2).1
                      cases hA' : g.actionTable t sets sets with
                      | ok r => exact hA r hA'
                      | error e => rw [hA'] at htb; cases htb
                    · intro it hit
                      obtain ⟨i, _, hi⟩ := List.mem_flatMap.mp hit
                      have hi : it ∈ t.kernel i := hi
                      obtain ⟨c, hc⟩ := LR0.kernel_of_mem hi
                      exact (inv.valid i _ c hc it hi).2

/-! ### The items in conflict -/

/-- What the message says, in terms of the items and of the grammar's own names. -/
inductive ItemConflict (g : Grammar) (clo : List Item) : String → Prop
  | shiftReduce {it it' s} (n : Nat) : it ∈ clo → it' ∈ clo → (g.body it.prod)[it.dot]? = some s → (g.body it'.prod)[it'.dot]? = none →
      it'.prod ≠ g.root → it'.la = s → ItemConflict g clo ("For symbol " ++ g.symName s ++ ", adding shift to " ++ toString n ++ " causes shift-reduce conflict with reduction " ++ g.prodText it'.prod ++ "\n")
  | reduceShift {it it' s} (n : Nat) : it ∈ clo → it' ∈ clo → (g.body it.prod)[it.dot]? = some s → (g.body it'.prod)[it'.dot]? = none →
      it'.prod ≠ g.root → it'.la = s → ItemConflict g clo ("For symbol " ++ g.symName s ++ ", adding reduction " ++ g.prodText it'.prod ++ " causes shift-reduce conflict with shift to " ++ toString n ++ "\n")
  | reduceReduce {it it'} : it ∈ clo → it' ∈ clo → it ≠ it' → (g.body it.prod)[it.dot]? = none → (g.body it'.prod)[it'.dot]? = none →
      it.la = it'.la → ItemConflict g clo ("For symbol " ++ g.symName it.la ++ ", adding reduction " ++ g.prodText it.prod ++ " causes reduce-reduce conflict with reduction " ++ g.prodText it'.prod ++ "\n")

theorem setActionsM_conflict {next : Nat → Option Nat} {clo : List Item} {n : Nat} {msg : String} (hnd : clo.Nodup)
    (h : g.setActionsM next clo (List.replicate n (.flag false)) = .error (.conflict msg)) : ItemConflict g clo msg := by
  obtain ⟨_, pre, it, post, acts, e, h1, h2⟩ := (setActionsM_spec (g := g) (next := next)).2 msg h
  have hj := setActions_spec (all := pre) h1 (fun _ h => h) (by
    intro s a ha
    rw [List.getElem?_replicate] at ha
    split at ha
    · cases ha; trivial
    · cases ha)
  have hit : it ∈ clo := by rw [e]; simp
  have hpre : ∀ x ∈ pre, x ∈ clo := fun x hx => by rw [e]; simp [hx]
  unfold setActionM at h2
  cases h0 : (g.body it.prod)[it.dot]? with
  | some s =>
    simp only [h0] at h2
    split at h2
    · cases h2
    · cases ha : acts[s]? with
      | none => simp only [ha] at h2; cases h2
      | some a =>
        cases a with
        | flag b => simp only [ha] at h2; cases h2
        | shift x =>
          simp only [ha] at h2
          obtain ⟨ex, _⟩ := hj s _ ha
          rw [if_pos ex] at h2
          cases h2
        | reduce p =>
          simp only [ha] at h2
          obtain ⟨hr, it', hit', rfl, hla, hb⟩ := hj s _ ha
          cases hn : next s with
          | none => simp only [hn] at h2; cases h2
          | some k =>
            simp only [hn, Except.error.injEq, Halt.conflict.injEq] at h2
            rw [← h2]
            exact .shiftReduce k hit (hpre it' hit') h0 hb hr hla
  | none =>
    simp only [h0] at h2
    split at h2
    · split at h2 <;> cases h2
    · rename_i hr
      cases ha : acts[it.la]? with
      | none => simp only [ha] at h2; cases h2
      | some a =>
        cases a with
        | flag b => simp only [ha] at h2; cases h2
        | shift x =>
          obtain ⟨_, it', hit', hb⟩ := hj it.la _ ha
          cases x with
          | none => simp only [ha] at h2; cases h2
          | some k =>
            simp only [ha, Except.error.injEq, Halt.conflict.injEq] at h2
            rw [← h2]
            exact .reduceShift k (hpre it' hit') hit hb h0 hr rfl
        | reduce p =>
          simp only [ha, Except.error.injEq, Halt.conflict.injEq] at h2
          obtain ⟨_, it', hit', rfl, hla, hb⟩ := hj it.la _ ha
          rw [← h2]
          refine .reduceReduce hit (hpre it' hit') ?_ h0 hb hla.symm
          rintro rfl
          rw [e] at hnd
          exact (List.nodup_append.mp hnd).2.2 _ hit' _ (by simp) rfl

/-! ### Names -/

theorem symName_of {P : String → Prop} (hD : Dense P g) {n : String} {id : Nat} (h : g.symbolId.lookup n = some id) : g.symName id = n := by
  have hm := lookup_mem h
  unfold symName
  cases hf : g.symbolId.find? (fun p => p.2 == id) with
  | none => simpa using List.find?_eq_none.mp hf _ hm
  | some p =>
    have h1 := List.mem_of_find?_eq_some hf
    have h2 := List.find?_some hf
    simp only [beq_iff_eq] at h2
    simp only [Option.map_some, Option.getD_some]
    subst h2
    exact hD.unique h1 hm

theorem decls_nodup {terms : List String} {ds : List (String × List String)} : (build terms ds).decls.Nodup := by
  have add : ∀ (g : Grammar) hd bd, g.decls.Nodup → (g.addProd hd bd).decls.Nodup := by
    intro g hd bd h
    have hi : ∀ (g : Grammar) n, (g.intern n).1.decls = g.decls := by
      intro g n; unfold intern; split <;> rfl
    have hall : ∀ (ns : List String) (g : Grammar), (g.internAll ns).1.decls = g.decls := by
      intro ns
      induction ns with
      | nil => intro g; rfl
      | cons n ns ih => intro g; simp only [internAll]; rw [ih, hi]
    unfold addProd
    simp only
    split
    · rw [hi]; exact h
    · rename_i hm
      simp only [hall, hi] at hm ⊢
      rw [List.nodup_append]
      refine ⟨h, by simp, ?_⟩
      intro a ha b hb e
      rw [List.mem_singleton.mp hb] at e
      exact hm (e ▸ ha)
  unfold build
  have hterm : ∀ (ts : List String) (g : Grammar), (ts.foldl addTerminal g).decls = g.decls := by
    intro ts
    induction ts with
    | nil => intro g; rfl
    | cons n ts ih =>
      intro g
      simp only [List.foldl_cons, ih]
      have hi : ∀ (g : Grammar) n, (g.intern n).1.decls = g.decls := by
        intro g n; unfold intern; split <;> rfl
      exact hi g n
  have : ∀ (ds : List (String × List String)) (g : Grammar), g.decls.Nodup →
      (ds.foldl (fun g d => g.addProduction d.1 d.2) g).decls.Nodup := by
    intro ds
    induction ds with
    | nil => intro g h; exact h
    | cons d ds ih =>
      intro g h
      refine ih _ ?_
      unfold addProduction
      simp only
      split
      · exact add _ _ _ (add _ _ _ h)
      · exact add _ _ _ h
  exact this ds _ (by rw [hterm]; exact List.nodup_nil)

/-- The grammar that was declared: names and productions agree with the ones of the generator. -/
theorem named_build {terms : List String} {start : String} {bd : List String} {ds : List (String × List String)} {g : Grammar}
    (hg : g = build terms ((start, bd) :: ds)) (hp : NoPrime ((start, bd) :: ds)) :
    Named g g.symName (reservedNames ++ terms) (("$START_PRIME", [start]) :: (start, bd) :: ds) ∧
    (∀ (i : Nat) p, g.prods[i]? = some p → g.decls[i]? = some (g.declOf g.symName i)) ∧
    g.declOf g.symName g.root = ("$START_PRIME", [start]) ∧ g.symName tokenEnd = "$end" := by
  have hB := build_ok (terms := terms) hp
  rw [← hg] at hB
  have hD : Dense (fun _ => True) g := by rw [hg]; exact dense_build (by simp) trivial (by simp) (by simp)
  have hat : ∀ (i : Nat) p, g.prods[i]? = some p → g.decls[i]? = some (g.declOf g.symName i) := by
    intro i p hi
    have hlen := hB.names.prods.length_eq
    have hlt : i < g.decls.length := by
      rw [← hlen]; exact (List.getElem?_eq_some_iff.mp hi).1
    have hr := hB.names.prods.get (i := i) (by omega) hlt
    obtain ⟨h1, h2⟩ := hr
    have e : g.prods.get ⟨i, by omega⟩ = p := by
      have := (List.getElem?_eq_some_iff.mp hi).2; simpa using this
    rw [e] at h1 h2
    rw [List.getElem?_eq_getElem hlt]
    simp only [declOf, head, body, hi, Option.map_some, Option.getD_some, Option.some.injEq]
    have e1 := symName_of hD h1
    have e2 : p.body.map g.symName = (g.decls.get ⟨i, hlt⟩).2 := by
      clear h1 e1
      generalize (g.decls.get ⟨i, hlt⟩).2 = ns at h2
      generalize p.body = b at h2
      induction h2 with
      | nil => rfl
      | cons hx _ ih => simp only [List.map_cons, ih, symName_of hD hx]
    rw [e1, e2]
    rfl
  refine ⟨⟨fun p hp' => ?_, fun a ha => ?_⟩, hat, ?_, ?_⟩
  · obtain ⟨i, hi⟩ := List.getElem?_of_mem hp'
    have h1 := hat i p hi
    have h2 : g.declOf g.symName i = (g.symName p.head, p.body.map g.symName) := by simp [declOf, head, body, hi]
    rw [h2] at h1
    by_cases hi1 : i = 1
    · subst hi1
      rw [hB.prime] at h1
      injection h1 with h1
      rw [← h1]; simp
    · exact List.mem_cons_of_mem _ (hB.decls i _ h1 hi1)
  · obtain ⟨n, hn, hl⟩ := hB.names.terms a ha
    rw [symName_of hD hl]; exact hn
  · have hlen := hB.names.prods.length_eq
    have h1 : 1 < g.decls.length := (List.getElem?_eq_some_iff.mp hB.prime).1
    obtain ⟨p, hp1⟩ : ∃ p, g.prods[1]? = some p := ⟨g.prods[1]'(by omega), List.getElem?_eq_getElem (by omega)⟩
    have h2 := hat 1 p hp1
    rw [hB.prime] at h2
    injection h2 with h2
    rw [hB.root, ← h2]
  · have h1 := (build_has (terms := terms) (all := (start, bd) :: ds)).2.2 "$end" tokenEnd rfl
    rw [← hg] at h1
    exact symName_of hD h1

/-- A reduce entry: the symbol may follow the head of the production. -/
theorem reduce_follows {terms : List String} {start : String} {bd : List String} {ds : List (String × List String)} {g : Grammar}
    (hg : g = build terms ((start, bd) :: ds)) (hp : NoPrime ((start, bd) :: ds)) (hsmall : g.symbolId.length ≤ cNullSymbol)
    {o : Orders} {fuel : Nat} {tb : Table} (h : g.generate o fuel = .ok tb) : ∀ q acts, tb.actions.lookup q = some acts →
    ∀ (i p : Nat), acts[i]? = some (.reduce p) → ∀ d n, g.decls[p]? = some d → (n, i) ∈ g.symbolId →
    LogSurgeon.Follows (reservedNames ++ terms) (("$START_PRIME", [start]) :: (start, bd) :: ds) d.1 n := by
  obtain ⟨hN, hat, hroot, hend⟩ := named_build hg hp
  have hB := build_ok (terms := terms) hp
  rw [← hg] at hB
  have hD : Dense (fun _ => True) g := by rw [hg]; exact dense_build (by simp) trivial (by simp) (by simp)
  have hnull : cNullSymbol ∉ g.terminals := by
    intro hm
    obtain ⟨n, _, hl⟩ := hB.names.terms _ hm
    have := hB.names.lt n _ hl
    omega
  unfold generate at h
  split at h
  · cases h
  split at h
  · cases h
  rename_i t ht
  split at h
  · cases h
  rename_i f hf0
  simp only at h
  split at h
  · cases h
  rename_i m hm0
  split at h
  · cases h
  rename_i l hl0
  split at h
  · cases h
  rename_i sets hsets
  split at h
  · cases h
  rename_i tab htab
  cases h
  intro q acts ha i p hi d n hd hn
  have inv := (lr0Sets_spec ht).1
  obtain ⟨s, hs, rfl, hset⟩ := (actionTable_eq htab).1 q acts (lookup_mem ha)
  rcases lr1Sets_spec hsets s hs with hs' | ⟨_, hk, hc⟩
  · cases hs'
  have hf := firstSets_true hN hf0
  have hm := laMaps_true hN hnull hf (firstSets_sub hf0) hm0 (by
    intro it hit
    obtain ⟨i, _, hi⟩ := List.mem_flatMap.mp hit
    have hi : it ∈ t.kernel i := hi
    obtain ⟨c, hc⟩ := LR0.kernel_of_mem hi
    exact (inv.valid i _ c hc it hi).2) ⟨fun p a ha => by simp [mget] at ha, fun x y hy => by simp [mget] at hy⟩
  have hl := las_loop_true hm hl0 (initLas_true hm (by have := congrArg Prod.fst hroot; exact this) hend
    (fun i a ha => by simp [mget] at ha))
  have hker : ∀ it ∈ s.kernel,
      LogSurgeon.Follows (reservedNames ++ terms) (("$START_PRIME", [start]) :: (start, bd) :: ds) (g.symName (g.head it.prod)) (g.symName it.la) := by
    intro it hit
    rw [hk] at hit
    obtain ⟨k, hk, a, ha, rfl⟩ := mem_lr1Kernel.mp hit
    exact hl k a ha
  have hF := closure_las hN hf (Good := fun x a =>
      LogSurgeon.Follows (reservedNames ++ terms) (("$START_PRIME", [start]) :: (start, bd) :: ds) (g.symName x) (g.symName a))
    (fun _ _ _ _ h => h) (fun _ _ _ h h' => h _ h') hc hker
  have hj := setActions_spec hset (fun _ h => h) (fun s a h => by
    have := (List.getElem?_eq_some_iff.mp h).2
    simp only [List.getElem_replicate] at this
    subst this
    trivial) i _ hi
  obtain ⟨_, it, hit, rfl, rfl, _⟩ := hj
  have hlt : it.prod < g.prods.length := by
    rw [hB.names.prods.length_eq]; exact (List.getElem?_eq_some_iff.mp hd).1
  have e1 := hat it.prod _ (List.getElem?_eq_getElem hlt)
  rw [hd] at e1
  injection e1 with e1
  have e2 : g.symName it.la = n := by
    unfold symName
    cases hf : g.symbolId.find? (fun p => p.2 == it.la) with
    | none =>
      rw [List.find?_eq_none] at hf
      exact absurd (beq_self_eq_true it.la) (hf (n, it.la) hn)
    | some x =>
      have h1 := List.mem_of_find?_eq_some hf
      have h2 := List.find?_some hf
      simp only [beq_iff_eq] at h2
      simp only [Option.map_some, Option.getD_some]
      exact hD.unique (i := it.la) (by rw [← h2]; exact h1) hn
  have := hF it hit
  rw [e2] at this
  rw [e1]
  exact this

end Grammar
end LogSurgeon
