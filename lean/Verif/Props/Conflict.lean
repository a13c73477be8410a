import Verif.Proofs.ConflictTotal
/-
C60: the messages about conflicts.
-/
namespace LogSurgeon
namespace Grammar

theorem joined (g : Grammar) : ∀ (l : List Nat) (acc : String), l.foldl (fun acc s => acc ++ (g.symName s ++ ",")) acc =
    acc ++ String.join ((l.map g.symName).map (· ++ ",")) := by
  intro l
  induction l with
  | nil => intro acc; simp
  | cons s l ih => intro acc; simp only [List.foldl_cons, ih, List.map_cons, String.join_cons, String.append_assoc]

theorem prodText_eq (g : Grammar) (p : Nat) : g.prodText p = productionText (g.declOf g.symName p) := by
  simp only [prodText, productionText, declOf, joined, String.empty_append]

/-- C60: when the generator ends with a message about a conflict, the message names a symbol and productions of the grammar for which the
conflict exists: after the same symbols, with the named symbol next, the named production may be complete and its head may be followed by that
symbol, while the symbol may be shifted, or another production (the other one named) may be complete in the same way.  In particular there are no shift-shift
conflicts.  Order of the containers, fuel and conflicts elsewhere make no difference. -/
theorem C60_message {terms : List String} {start : String} {bd : List String} {ds : List (String × List String)} {g : Grammar}
    (hg : g = build terms ((start, bd) :: ds)) (hp : NoPrime ((start, bd) :: ds)) (hsmall : g.symbolId.length ≤ cNullSymbol)
    {o : Orders} {visit : List LR1Set → List LR1Set} (hv : ∀ l, ∀ s ∈ visit l, s ∈ l) {fuel : Nat} {msg : String}
    (h : g.generateM o visit fuel = .error (.conflict msg)) :
    ConflictMessage (reservedNames ++ terms) (("$START_PRIME", [start]) :: (start, bd) :: ds) start msg := by
  obtain ⟨hN, hat, hroot, hend⟩ := named_build hg hp
  have hB := build_ok (terms := terms) hp
  rw [← hg] at hB
  have hnull : cNullSymbol ∉ g.terminals := by
    intro hm
    obtain ⟨n, _, hl⟩ := hB.names.terms _ hm
    have := hB.names.lt n _ hl
    omega
  have hnd : g.decls.Nodup := by rw [hg]; exact decls_nodup
  obtain ⟨_, t, f, m, l, items, sets, s, C⟩ := generateM_spec.2 hv msg h
  have hf := firstSets_true hN C.first
  have hm := laMaps_true hN hnull hf (firstSets_sub C.first) C.maps C.blank ⟨fun p a ha => by simp [mget] at ha, fun x y hy => by simp [mget] at hy⟩
  have hl := las_loop_true hm C.las (initLas_true hm (by have := congrArg Prod.fst hroot; exact this) hend
    (fun i a ha => by simp [mget] at ha))
  obtain ⟨γ, hγ⟩ := lr0_underWay hN hroot C.lr0 s.index
  have hker : ∀ it ∈ s.kernel, UnderWay (("$START_PRIME", [start]) :: (start, bd) :: ds) start γ (g.declOf g.symName it.prod) it.dot ∧
      LogSurgeon.Follows (reservedNames ++ terms) (("$START_PRIME", [start]) :: (start, bd) :: ds) (g.symName (g.head it.prod)) (g.symName it.la) := by
    intro it hit
    rw [C.kernel] at hit
    obtain ⟨k, hk, a, ha, rfl⟩ := mem_lr1Kernel.mp hit
    exact ⟨hγ k hk, hl k a ha⟩
  have hu := closure_underWay hN C.closure (fun it hit => (hker it hit).1)
  have hF := closure_las hN hf (Good := fun x a =>
      LogSurgeon.Follows (reservedNames ++ terms) (("$START_PRIME", [start]) :: (start, bd) :: ds) (g.symName x) (g.symName a))
    (fun _ _ _ _ h => h) (fun _ _ _ h h' => h _ h') C.closure (fun it hit => (hker it hit).2)
  -- items that are complete are of productions of the grammar, at their ends
  have hdone : ∀ it ∈ s.closure, (g.body it.prod)[it.dot]? = none → it.dot = (g.body it.prod).length := by
    intro it hit hb
    have h1 := underWay_le (hu it hit)
    simp only [declOf, List.length_map] at h1
    have h2 := List.getElem?_eq_none_iff.mp hb
    omega
  have hvalid : ∀ it ∈ s.closure, it.prod < g.prods.length := by
    have h3 := (closureLoop_spec C.closure).2.2.1
    refine h3 (fun it => it.prod < g.prods.length) (by simp) ?_ ?_
    · intro it hit
      have hit : it ∈ s.kernel := by simpa using hit
      rw [C.kernel] at hit
      obtain ⟨k, hk, a, ha, rfl⟩ := mem_lr1Kernel.mp hit
      show k.prod < g.prods.length
      obtain ⟨c, hc⟩ := LR0.kernel_of_mem hk
      rcases C.lr0.pos _ _ c hc with e | hpos
      · obtain ⟨c', hc'⟩ := C.lr0.zero
        rw [e, LR0.kernel_eq hc', List.mem_singleton] at hk
        subst hk
        have h1 : 1 < g.decls.length := (List.getElem?_eq_some_iff.mp hB.prime).1
        rw [← hB.names.prods.length_eq] at h1
        rw [show (Item.mk g.root 0 cNullSymbol).prod = g.root from rfl, hB.root]; exact h1
      · have h1 := hpos k hk
        have h2 := (C.lr0.valid _ _ c hc k hk).1
        by_contra hge
        rw [show g.body k.prod = [] by simp [body, List.getElem?_eq_none (Nat.le_of_not_lt hge)]] at h2
        simp only [List.length_nil] at h2
        omega
    · intro it _ x hx
      obtain ⟨s', _, hp', _, _⟩ := mem_freshItems.mp hx
      obtain ⟨q, hq, _⟩ := mem_prodsOf.mp hp'
      exact (List.getElem?_eq_some_iff.mp hq).1
  have hred : ∀ it ∈ s.closure, (g.body it.prod)[it.dot]? = none →
      MayReduce (reservedNames ++ terms) (("$START_PRIME", [start]) :: (start, bd) :: ds) start γ (g.declOf g.symName it.prod) (g.symName it.la) := by
    intro it hit hb
    have h1 := hu it hit
    rw [hdone it hit hb] at h1
    have hv := hvalid it hit
    refine ⟨?_, by simpa [declOf] using h1, hF it hit⟩
    have := hN.prods (g.prods[it.prod]) (List.getElem_mem hv)
    simpa [declOf, head, body, List.getElem?_eq_getElem hv] using this
  have hshift : ∀ it ∈ s.closure, ∀ x, (g.body it.prod)[it.dot]? = some x →
      MayShift (("$START_PRIME", [start]) :: (start, bd) :: ds) start γ (g.symName x) := by
    intro it hit x hx
    exact ⟨_, _, hu it hit, by simp [declOf, hx]⟩
  have hnc : s.closure.Nodup := (Hom.closureLoop_sorted C.closure (by simp [Sorted])).nodup
  have key := setActionsM_conflict hnc C.msg
  cases key with
  | @shiftReduce it it' x n h1 h2 h3 h4 h5 h6 =>
    subst h6
    have := ConflictMessage.shiftReduce n (hshift it h1 _ h3) (hred it' h2 h4)
    simpa only [prodText_eq, String.append_assoc] using this
  | @reduceShift it it' x n h1 h2 h3 h4 h5 h6 =>
    subst h6
    have := ConflictMessage.reduceShift n (hshift it h1 _ h3) (hred it' h2 h4)
    simpa only [prodText_eq, String.append_assoc] using this
  | @reduceReduce it it' h1 h2 h3 h4 h5 h6 =>
    have hr := hred it' h2 h5
    rw [← h6] at hr
    have hne : g.declOf g.symName it.prod ≠ g.declOf g.symName it'.prod := by
      intro e
      have hv := hvalid it h1
      have hv' := hvalid it' h2
      have a1 := hat it.prod _ (List.getElem?_eq_getElem hv)
      have a2 := hat it'.prod _ (List.getElem?_eq_getElem hv')
      have hlt := (List.getElem?_eq_some_iff.mp a1).1
      have : it.prod = it'.prod := (List.getElem?_inj hlt hnd).mp (a1.trans ((congrArg some e).trans a2.symm))
      apply h3
      have d1 := hdone it h1 h4
      have d2 := hdone it' h2 h5
      rw [this] at d1
      cases it; cases it'
      simp only at this d1 d2 h6
      subst this h6
      rw [d1, d2]
    have := ConflictMessage.reduceReduce (hred it h1 h4) hr hne
    simpa only [prodText_eq, String.append_assoc] using this

/-- C60: apart from the text, generation is the one of C34-C45; in whatever order the item sets are visited, a message about a conflict is given only if
that generation fails. -/
theorem C60_same_tables (g : Grammar) (o : Orders) (fuel : Nat) :
    (∀ tb, g.generateM o id fuel = .ok tb ↔ g.generate o fuel = .ok tb) ∧
    (∀ (visit : List LR1Set → List LR1Set) msg, (∀ l, ∀ s ∈ visit l, s ∈ l) → g.generateM o visit fuel = .error (.conflict msg) →
      ∀ tb, g.generate o fuel ≠ .ok tb) :=
  ⟨generateM_spec.1 rfl, fun _ msg hv h => (generateM_spec.2 hv msg h).1⟩

/-- C60: a grammar for which no production may be complete where a symbol of its FOLLOW set may be shifted or another production may be
complete (an SLR(1) grammar) is never rejected for a conflict. -/
theorem C60_no_conflict {terms : List String} {start : String} {bd : List String} {ds : List (String × List String)} {g : Grammar}
    (hg : g = build terms ((start, bd) :: ds)) (hp : NoPrime ((start, bd) :: ds)) (hsmall : g.symbolId.length ≤ cNullSymbol)
    (hshift : ∀ γ x d, MayShift (("$START_PRIME", [start]) :: (start, bd) :: ds) start γ x →
      ¬ MayReduce (reservedNames ++ terms) (("$START_PRIME", [start]) :: (start, bd) :: ds) start γ d x)
    (hreduce : ∀ γ x d d', MayReduce (reservedNames ++ terms) (("$START_PRIME", [start]) :: (start, bd) :: ds) start γ d x →
      MayReduce (reservedNames ++ terms) (("$START_PRIME", [start]) :: (start, bd) :: ds) start γ d' x → d = d')
    {o : Orders} {visit : List LR1Set → List LR1Set} (hv : ∀ l, ∀ s ∈ visit l, s ∈ l) {fuel : Nat} (msg : String) :
    g.generateM o visit fuel ≠ .error (.conflict msg) := by
  intro h
  cases C60_message hg hp hsmall hv h with
  | shiftReduce n h1 h2 => exact hshift _ _ _ h1 h2
  | reduceShift n h1 h2 => exact hshift _ _ _ h1 h2
  | reduceReduce h1 h2 h3 => exact h3 (hreduce _ _ _ _ h1 h2)

/-- C60: for the grammars of C42 and C45 (nonterminals are not terminals; every symbol derives something) generation always ends, and there are only two outcomes: tables, or
a message about a conflict, which exists.  No null pointer is followed when the message is made. -/
theorem C60_tables_or_message {terms : List String} {start : String} {bd : List String} {ds : List (String × List String)} {g : Grammar}
    (hg : g = build terms ((start, bd) :: ds)) (hp : NoPrime ((start, bd) :: ds)) (hpt : "$START_PRIME" ∉ terms)
    (hsep : ∀ d ∈ (start, bd) :: ds, d.1 ∉ reservedNames ++ terms)
    (hpr : ∀ d ∈ (start, bd) :: ds, ∀ s ∈ d.2, Productive (reservedNames ++ terms) ((start, bd) :: ds) s)
    (hsize : g.symbolId.length ≤ cNullSymbol) {o : Orders} (ho : o.Ok g) {visit : List LR1Set → List LR1Set} (hv : ∀ l, ∀ s ∈ visit l, s ∈ l) :
    ∃ n r, (∀ fuel, n ≤ fuel → g.generateM o visit fuel = r) ∧ ((∃ tb, r = .ok tb) ∨ ∃ msg, r = .error (.conflict msg) ∧
      ConflictMessage (reservedNames ++ terms) (("$START_PRIME", [start]) :: (start, bd) :: ds) start msg) := by
  have hB := build_ok (terms := terms) hp
  obtain ⟨hall, hT, hle⟩ := build_has (terms := terms) (all := (start, bd) :: ds)
  rw [← hg] at hB hall hT hle
  have hlt : ∀ ty ∈ g.terminals, ty < g.symbolId.length := by
    intro ty hty
    obtain ⟨n, _, e⟩ := hB.names.terms ty hty
    exact hB.names.lt _ _ e
  have hnt : ∀ n id, g.symbolId.lookup n = some id → n ∉ reservedNames ++ terms → id ∉ g.terminals := by
    intro n id hn hm hid
    obtain ⟨m, hm', e⟩ := hB.names.terms id hid
    rw [hB.names.inj _ _ _ hn e] at hm
    exact hm hm'
  have hpr' : "$START_PRIME" ∉ reservedNames ++ terms := by
    simp only [List.mem_append, not_or]
    exact ⟨by decide, hpt⟩
  have hS : Separate g := by
    intro p hm
    obtain ⟨i, hi⟩ := List.getElem?_of_mem hm
    obtain ⟨d, hd, hh, _⟩ := hB.names.decl hi
    refine hnt _ _ hh ?_
    by_cases hi1 : i = 1
    · subst hi1
      have := hd.symm.trans hB.prime
      simp only [Option.some.injEq] at this
      rw [this]; exact hpr'
    · exact hsep d (hB.decls i d hd hi1)
  have hE : g.symbolId.lookup "$end" = some tokenEnd := hle "$end" tokenEnd (by decide)
  have hend : tokenEnd ∈ g.terminals := by
    obtain ⟨id, h1, h2⟩ := hT "$end" (by simp [reservedNames, reserved])
    rw [hE] at h2
    cases h2
    exact h1
  have hnull : cNullSymbol ∉ g.terminals := fun h => by have := hlt _ h; omega
  -- the symbols of the bodies, by name
  have hbody : ∀ p ∈ g.prods, ∀ s ∈ p.body, ∃ n, g.symbolId.lookup n = some s ∧ Productive (reservedNames ++ terms) ((start, bd) :: ds) n := by
    intro p hm s hsm
    obtain ⟨i, hi⟩ := List.getElem?_of_mem hm
    obtain ⟨d, hd, hh, hf⟩ := hB.names.decl hi
    obtain ⟨k, hk⟩ := List.getElem?_of_mem hsm
    obtain ⟨n, hn, e⟩ := forall₂_getElem?' hf hk
    refine ⟨n, e, ?_⟩
    have hnm := List.mem_of_getElem? hn
    by_cases hi1 : i = 1
    · subst hi1
      have := hd.symm.trans hB.prime
      simp only [Option.some.injEq] at this
      rw [this] at hnm
      simp only [List.mem_singleton] at hnm
      rw [hnm]
      exact .prod (body := bd) (by simp) (hpr (start, bd) (by simp))
    · exact hpr d (hB.decls i d hd hi1) n hnm
  have hlive : ∀ f : Firsts, (∀ a ∈ g.terminals, a ∈ mget f.firsts a) → (∀ p ∈ g.prods, f.Closed p) → ∀ p ∈ g.prods, ∀ s ∈ p.body, Live f s := by
    intro f hself hcl p hm s hsm
    obtain ⟨n, e, hn⟩ := hbody p hm s hsm
    exact productive_live hB.names hT hall hself hcl hn e
  have hwhole : Whole g := by
    intro p hm s hsm
    obtain ⟨n, e, hn⟩ := hbody p hm s hsm
    cases hn with
    | term hn =>
      obtain ⟨id, h1, h2⟩ := hT n hn
      rw [e] at h2
      cases h2
      exact .inl (by simpa [isToken] using h1)
    | @prod _ body hmem _ =>
      right
      obtain ⟨i, hi⟩ := List.getElem?_of_mem (hall _ hmem)
      have hlen := hB.names.prods.length_eq
      have hi' : i < g.prods.length := by rw [hlen]; exact (List.getElem?_eq_some_iff.mp hi).1
      obtain ⟨d, hd, hh, _⟩ := hB.names.decl (List.getElem?_eq_getElem hi')
      rw [hi] at hd
      cases hd
      have : i ∈ g.prodsOf s := mem_prodsOf.mpr ⟨_, List.getElem?_eq_getElem hi', by
        simp only at hh
        rw [e] at hh
        injection hh with hh
        exact hh.symm⟩
      cases hpo : g.prodsOf s with
      | nil => rw [hpo] at this; cases this
      | cons => rfl
  have hroot : g.root < g.prods.length := by
    rw [hB.root, hB.names.prods.length_eq]
    exact (List.getElem?_eq_some_iff.mp hB.prime).1
  obtain ⟨n, r, h1, h2⟩ := generateM_outcome hwhole ho hS hnull hlive hlt (fun p hm s hsm => by
    obtain ⟨n, e, _⟩ := hbody p hm s hsm
    exact hB.names.lt _ _ e) hend hroot hv
  refine ⟨n, r, h1, ?_⟩
  rcases h2 with h2 | ⟨msg, h2⟩
  · exact .inl h2
  · exact .inr ⟨msg, h2, C60_message hg hp hsize hv ((h1 n (Nat.le_refl _)).trans h2)⟩

/-! Examples: a shift-reduce conflict met by a reduction and by a shift, a reduce-reduce conflict, and a grammar without conflicts. -/

def clashG : Grammar := build ["a", "u"] [("S", ["S", "S", "a"]), ("S", ["U"]), ("U", ["U", "u"]), ("U", [])]

def clashO : Orders := { nts := [10, 11, 12], sets := fun ks => List.range ks.length }

set_option maxRecDepth 100000 in
example : clashG.generateM clashO id 100 =
    .error (.conflict "For symbol a, adding reduction U-> {} causes shift-reduce conflict with shift to 5\n") := by decide +kernel

example : ConflictMessage (reservedNames ++ ["a", "u"]) [("$START_PRIME", ["S"]), ("S", ["S", "S", "a"]), ("S", ["U"]), ("U", ["U", "u"]), ("U", [])] "S"
    "For symbol a, adding reduction U-> {} causes shift-reduce conflict with shift to 5\n" :=
  C60_message (terms := ["a", "u"]) (g := clashG) rfl (by unfold NoPrime; decide) (by decide) (o := clashO) (visit := id) (fun _ _ h => h) (fuel := 100)
    (by set_option maxRecDepth 100000 in decide +kernel)

/-- The conditions of `C60_tables_or_message` hold for this grammar. -/
theorem clash_decided (visit : List LR1Set → List LR1Set) (hv : ∀ l, ∀ s ∈ visit l, s ∈ l) :
    ∃ n r, (∀ fuel, n ≤ fuel → clashG.generateM clashO visit fuel = r) ∧ ((∃ tb, r = .ok tb) ∨ ∃ msg, r = .error (.conflict msg) ∧
      ConflictMessage (reservedNames ++ ["a", "u"]) [("$START_PRIME", ["S"]), ("S", ["S", "S", "a"]), ("S", ["U"]), ("U", ["U", "u"]), ("U", [])] "S" msg) := by
  have hU : Productive (reservedNames ++ ["a", "u"]) [("S", ["S", "S", "a"]), ("S", ["U"]), ("U", ["U", "u"]), ("U", [])] "U" :=
    .prod (body := []) (by simp) (by simp)
  have hS : Productive (reservedNames ++ ["a", "u"]) [("S", ["S", "S", "a"]), ("S", ["U"]), ("U", ["U", "u"]), ("U", [])] "S" :=
    .prod (body := ["U"]) (by simp) (by simpa using hU)
  refine C60_tables_or_message (terms := ["a", "u"]) (g := clashG) rfl (by unfold NoPrime; decide) (by decide) (by decide) ?_ (by decide) ?_ hv
  · intro d hd s hs
    simp only [List.mem_cons, List.not_mem_nil, or_false] at hd
    rcases hd with rfl | rfl | rfl | rfl <;> simp only [List.mem_cons, List.not_mem_nil, or_false] at hs
    · rcases hs with rfl | rfl | rfl
      · exact hS
      · exact hS
      · exact .term (by decide)
    · subst hs; exact hU
    · rcases hs with rfl | rfl
      · exact hU
      · exact .term (by decide)
  · exact ⟨by decide, fun ks i => by simp [clashO]⟩

def clashO2 : Orders := { nts := [9, 10, 11, 12], sets := fun ks => List.range ks.length }

set_option maxRecDepth 100000 in
example : (build ["a"] [("S", ["A"]), ("S", ["B"]), ("A", ["a"]), ("B", ["a"])]).generateM clashO2 id 100 =
    .error (.conflict "For symbol $end, adding reduction B-> {a,} causes reduce-reduce conflict with reduction A-> {a,}\n") := by
  decide +kernel

set_option maxRecDepth 100000 in
example : (build ["a"] [("S", ["S", "S"]), ("S", ["a"])]).generateM clashO2 id 100 =
    .error (.conflict "For symbol a, adding shift to 1 causes shift-reduce conflict with reduction S-> {S,S,}\n") := by
  decide +kernel

theorem calm_underWay {γ d k} (h : UnderWay [("$START_PRIME", ["S"]), ("S", ["a"])] "S" γ d k) :
    γ = [] ∧ (d = ("$START_PRIME", ["S"]) ∨ d = ("S", ["a"])) ∧ k = 0 ∨ γ = ["S"] ∧ d = ("$START_PRIME", ["S"]) ∧ k = 1 ∨
    γ = ["a"] ∧ d = ("S", ["a"]) ∧ k = 1 := by
  induction h with
  | start => simp
  | @inner γ d k x body _ hx hm ih =>
    rcases ih with ⟨rfl, hd, rfl⟩ | ⟨rfl, rfl, rfl⟩ | ⟨rfl, rfl, rfl⟩
    · left; exact ⟨rfl, by simpa using hm, rfl⟩
    · simp at hx
    · simp at hx
  | @step γ d k x _ hx ih =>
    rcases ih with ⟨rfl, rfl | rfl, rfl⟩ | ⟨rfl, rfl, rfl⟩ | ⟨rfl, rfl, rfl⟩
    · right; left; simp at hx; simp [hx]
    · right; right; simp at hx; simp [hx]
    · simp at hx
    · simp at hx

example (o : Orders) (fuel : Nat) (msg : String) : (build ["a"] [("S", ["a"])]).generateM o id fuel ≠ .error (.conflict msg) := by
  refine C60_no_conflict (terms := ["a"]) rfl (by unfold NoPrime; decide) (by decide) ?_ ?_ (fun _ _ h => h) msg
  · rintro γ x d ⟨d', k, h1, h2⟩ ⟨_, h3, _⟩
    rcases calm_underWay h1 with ⟨rfl, hd, rfl⟩ | ⟨rfl, rfl, rfl⟩ | ⟨rfl, rfl, rfl⟩
    · rcases calm_underWay h3 with ⟨_, rfl | rfl, h⟩ | ⟨h, _⟩ | ⟨h, _⟩ <;> simp at h
    · simp at h2
    · simp at h2
  · rintro γ x d d' ⟨_, h1, _⟩ ⟨_, h2, _⟩
    rcases calm_underWay h1 with ⟨rfl, rfl | rfl, h⟩ | ⟨rfl, rfl, h⟩ | ⟨rfl, rfl, h⟩
    · simp at h
    · simp at h
    · rcases calm_underWay h2 with ⟨h, _⟩ | ⟨_, rfl, _⟩ | ⟨h, _⟩
      · simp at h
      · rfl
      · simp at h
    · rcases calm_underWay h2 with ⟨h, _⟩ | ⟨h, _⟩ | ⟨_, rfl, _⟩
      · simp at h
      · simp at h
      · rfl

end Grammar
end LogSurgeon
