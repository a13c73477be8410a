import Verif.Proofs.LalrComplete
/-
Completeness of the LALR(1) parser, in terms of the names of the symbols.
-/
namespace LogSurgeon

theorem forall₂_getElem? {α β} {R : α → β → Prop} {l : List α} {l' : List β} (h : List.Forall₂ R l l') : ∀ {i : Nat} {b : β},
    l'[i]? = some b → ∃ a, l[i]? = some a ∧ R a b := by
  induction h with
  | nil => intro i b hb; simp at hb
  | cons hr _ ih =>
    intro i b hb
    cases i with
    | zero => simp at hb; subst hb; exact ⟨_, rfl, hr⟩
    | succ i => exact ih (by simpa using hb)

theorem forall₂_getElem?' {α β} {R : α → β → Prop} {l : List α} {l' : List β} (h : List.Forall₂ R l l') : ∀ {i : Nat} {a : α},
    l[i]? = some a → ∃ b, l'[i]? = some b ∧ R a b := by
  induction h with
  | nil => intro i b hb; simp at hb
  | cons hr _ ih =>
    intro i b hb
    cases i with
    | zero => simp at hb; subst hb; exact ⟨_, rfl, hr⟩
    | succ i => exact ih (by simpa using hb)

namespace Grammar
variable {g : Grammar}

/-! ### The width of the table -/

theorem setAction_length {next : Nat → Option Nat} {acts acts' : List Action} {it : Item} (h : g.setAction next acts it = .ok acts') :
    acts'.length = acts.length := by
  unfold setAction at h
  split at h
  · split at h
    · cases h; rfl
    · split at h
      · cases h
      · cases h; simp
      · split at h
        · cases h; rfl
        · cases h
      · cases h
  · split at h
    · split at h
      · cases h; simp
      · cases h
    · split at h
      · cases h
      · cases h; simp
      · cases h

theorem setActions_length {next : Nat → Option Nat} : ∀ {its : List Item} {acts acts' : List Action},
    g.setActions next its acts = .ok acts' → acts'.length = acts.length := by
  intro its
  induction its with
  | nil => intro acts acts' h; simp only [setActions, Except.ok.injEq] at h; rw [h]
  | cons it its ih =>
    intro acts acts' h
    simp only [setActions] at h
    split at h
    · cases h
    · rename_i a1 h1
      rw [ih h, setAction_length h1]

theorem generate_wide {o : Orders} {fuel : Nat} {tb : Table} (h : g.generate o fuel = .ok tb)
    (hlt : ∀ ty ∈ g.terminals, ty < g.symbolId.length) : Wide g tb := by
  unfold generate at h
  split at h
  · cases h
  split at h
  · cases h
  split at h
  · cases h
  simp only at h
  split at h
  · cases h
  split at h
  · cases h
  split at h
  · cases h
  split at h
  · cases h
  rename_i acts hacts
  cases h
  intro r hr ty hty
  obtain ⟨s, _, _, hset⟩ := (actionTable_eq hacts).1 r.1 r.2 hr
  have := setActions_length hset
  simp only [List.length_replicate] at this
  exact ⟨_, List.getElem?_eq_getElem (by rw [this]; exact hlt ty hty)⟩

/-! ### What `build` contains -/

theorem intern_terminals (n : String) : (g.intern n).1.terminals = g.terminals := by
  unfold intern; split <;> rfl

theorem internAll_terminals : ∀ {ns : List String} {g : Grammar}, (g.internAll ns).1.terminals = g.terminals := by
  intro ns
  induction ns with
  | nil => intro g; rfl
  | cons n ns ih => intro g; simp only [internAll]; rw [ih, intern_terminals]

theorem addProd_terminals (hd : String) (bd : List String) : (g.addProd hd bd).terminals = g.terminals := by
  unfold addProd
  simp only
  split
  · exact intern_terminals _
  · simp only [internAll_terminals, intern_terminals]

theorem addProduction_terminals (hd : String) (bd : List String) : (g.addProduction hd bd).terminals = g.terminals := by
  unfold addProduction
  simp only
  split
  · simp only [addProd_terminals]
  · exact addProd_terminals _ _

theorem addProductions_terminals : ∀ {ds : List (String × List String)} {g : Grammar},
    (ds.foldl (fun g d => g.addProduction d.1 d.2) g).terminals = g.terminals := by
  intro ds
  induction ds with
  | nil => intro g; rfl
  | cons d ds ih => intro g; simp only [List.foldl_cons]; rw [ih, addProduction_terminals]

/-- Names are kept. -/
theorem addProduction_le {terms : List String} (h : NamesOk terms g) (hd : String) (bd : List String) :
    NamesOk terms (g.addProduction hd bd) ∧ NamesLe g (g.addProduction hd bd) ∧ (∀ d ∈ g.decls, d ∈ (g.addProduction hd bd).decls) ∧
    (hd, bd) ∈ (g.addProduction hd bd).decls := by
  obtain ⟨k1, k2, _, _, hc⟩ := addProd_spec h hd bd
  have hsub : ∀ d ∈ g.decls, d ∈ (g.addProd hd bd).decls := by
    intro d hd'
    rcases hc with ⟨_, e, _⟩ | ⟨_, e, _⟩ <;> rw [e]
    · exact hd'
    · exact List.mem_append_left _ hd'
  have hin : (hd, bd) ∈ (g.addProd hd bd).decls := by
    rcases hc with ⟨hm, e, _⟩ | ⟨_, e, _⟩ <;> rw [e]
    · exact hm
    · simp
  unfold addProduction
  simp only
  split
  · obtain ⟨l1, l2, _, _, hc'⟩ := addProd_spec k1 "$START_PRIME" [hd]
    have hsub' : ∀ d ∈ (g.addProd hd bd).decls, d ∈ ((g.addProd hd bd).addProd "$START_PRIME" [hd]).decls := by
      intro d hd'
      rcases hc' with ⟨_, e, _⟩ | ⟨_, e, _⟩ <;> rw [e]
      · exact hd'
      · exact List.mem_append_left _ hd'
    exact ⟨⟨l1.lt, l1.inj, l1.prods, l1.terms⟩, fun n id hn => l2 _ _ (k2 _ _ hn), fun d hd' => hsub' d (hsub d hd'), hsub' _ hin⟩
  · exact ⟨k1, k2, hsub, hin⟩

theorem addProductions_le {terms : List String} : ∀ {ds : List (String × List String)} {g : Grammar}, NamesOk terms g →
    NamesLe g (ds.foldl (fun g d => g.addProduction d.1 d.2) g) ∧
    (∀ d ∈ g.decls, d ∈ (ds.foldl (fun g d => g.addProduction d.1 d.2) g).decls) ∧
    (∀ d ∈ ds, d ∈ (ds.foldl (fun g d => g.addProduction d.1 d.2) g).decls) := by
  intro ds
  induction ds with
  | nil => intro g _; exact ⟨fun _ _ h => h, fun _ h => h, by simp⟩
  | cons d ds ih =>
    intro g h
    obtain ⟨k1, k2, k3, k4⟩ := addProduction_le h d.1 d.2
    obtain ⟨l1, l2, l3⟩ := ih k1
    simp only [List.foldl_cons]
    refine ⟨fun n id hn => l1 _ _ (k2 _ _ hn), fun x hx => l2 _ (k3 _ hx), fun x hx => ?_⟩
    rcases List.mem_cons.mp hx with rfl | hx
    · exact l2 _ k4
    · exact l3 _ hx

/-- The named terminals are there. -/
def HasTerms (ns : List String) (g : Grammar) : Prop := ∀ n ∈ ns, ∃ id ∈ g.terminals, g.symbolId.lookup n = some id

theorem terminals_has {all : List String} : ∀ {ts ns : List String} {g : Grammar}, NamesOk all g → (∀ n ∈ ts, n ∈ all) → HasTerms ns g →
    HasTerms (ns ++ ts) (ts.foldl addTerminal g) := by
  intro ts
  induction ts with
  | nil => intro ns g _ _ h; simpa using h
  | cons t ts ih =>
    intro ns g hN hs h
    have hN' := (addTerminal_spec hN (hs t (by simp))).1
    obtain ⟨i1, i2, i3, _⟩ := intern_spec hN t
    have hk : HasTerms (ns ++ [t]) (g.addTerminal t) := by
      intro n hn
      rcases List.mem_append.mp hn with hn | hn
      · obtain ⟨id, hid, e⟩ := h n hn
        exact ⟨id, mem_insertNat.mpr (.inr ((intern_terminals (g := g) t).symm ▸ hid)), i2 _ _ e⟩
      · rw [List.mem_singleton.mp hn]
        exact ⟨_, mem_insertNat.mpr (.inl rfl), i3⟩
    have := ih hN' (fun n hn => hs n (by simp [hn])) hk
    simpa using this

theorem terminals_le {all : List String} : ∀ {ts : List String} {g : Grammar}, NamesOk all g → (∀ n ∈ ts, n ∈ all) →
    NamesLe g (ts.foldl addTerminal g) := by
  intro ts
  induction ts with
  | nil => intro g _ _ n id h; exact h
  | cons t ts ih =>
    intro g hN hs n id h
    exact ih (addTerminal_spec hN (hs t (by simp))).1 (fun n hn => hs n (by simp [hn])) n id ((intern_spec hN t).2.1 _ _ h)

theorem init_has : HasTerms reservedNames {} := by
  have key : ∀ n ∈ reservedNames, ∃ id ∈ [0, 1, 2, 3, 4, 5, 6, 7], reserved.lookup n = some id := by decide
  exact key

theorem build_has {terms : List String} {all : List (String × List String)} :
    (∀ d ∈ all, d ∈ (build terms all).decls) ∧ HasTerms (reservedNames ++ terms) (build terms all) ∧
    NamesLe {} (build terms all) := by
  obtain ⟨h1, h2⟩ := terminals_ok (ts := terms) (init_ok (terms := terms)) (fun n hn => List.mem_append_right _ hn)
  have h3 := terminals_has (ts := terms) (init_ok (terms := terms)) (fun n hn => List.mem_append_right _ hn) init_has
  obtain ⟨l1, _, l3⟩ := addProductions_le (ds := all) h1
  have h4 := terminals_le (ts := terms) (init_ok (terms := terms)) (fun n hn => List.mem_append_right _ hn)
  refine ⟨l3, fun n hn => ?_, fun n id h => l1 _ _ (h4 _ _ h)⟩
  obtain ⟨id, hid, e⟩ := h3 n hn
  refine ⟨id, ?_, l1 _ _ e⟩
  show id ∈ (List.foldl (fun g d => g.addProduction d.1 d.2) (terms.foldl addTerminal {}) all).terminals
  rw [addProductions_terminals]; exact hid

/-! ### From names to ids -/

theorem Forest.of_names {terms : List String} (hN : NamesOk terms g) {ns : List String} {ts : List Tree} {w : List Token}
    (h : Derivation g.decls (g.IsTok terms) ns ts w) :
    ∀ {ss : List Nat}, List.Forall₂ (fun id n => g.symbolId.lookup n = some id) ss ns → Forest g ss ts w := by
  induction h with
  | nil => intro ss hss; cases hss; exact .nil
  | tok ht _ ih =>
    intro ss hss
    cases hss with
    | cons hn hns =>
      obtain ⟨_, id, tys, e, h1, h2⟩ := ht
      rw [e] at hn
      cases hn
      exact .tok h1 h2 (ih hns)
  | @prod i head body cs ns ts w w' hd _ _ ih1 ih2 =>
    intro ss hss
    cases hss with
    | cons hn hns =>
      obtain ⟨p, hp, hh, hb⟩ := forall₂_getElem? hN.prods hd
      rw [hh] at hn
      cases hn
      exact .prod hp (ih1 hb) (ih2 hns)

/-- The body of a production and its declaration. -/
theorem NamesOk.decl {terms : List String} (hN : NamesOk terms g) {i : Nat} {p : Production} (hp : g.prods[i]? = some p) :
    ∃ d, g.decls[i]? = some d ∧ g.symbolId.lookup d.1 = some p.head ∧
      List.Forall₂ (fun id n => g.symbolId.lookup n = some id) p.body d.2 := forall₂_getElem?' hN.prods hp

theorem productive_live {terms : List String} (hN : NamesOk terms g) {T : List String} (hT : HasTerms T g) {all : List (String × List String)}
    (hall : ∀ d ∈ all, d ∈ g.decls) {f : Firsts} (hself : ∀ a ∈ g.terminals, a ∈ mget f.firsts a) (hcl : ∀ p ∈ g.prods, f.Closed p)
    {n : String} (h : Productive T all n) : ∀ {id : Nat}, g.symbolId.lookup n = some id → Live f id := by
  induction h with
  | term hn =>
    intro id hid
    obtain ⟨id', hm, e⟩ := hT _ hn
    rw [hid] at e
    cases e
    exact .inr (List.ne_nil_of_mem (hself id hm))
  | @prod s body hd _ ih =>
    intro id hid
    obtain ⟨i, hi⟩ := List.getElem?_of_mem (hall _ hd)
    obtain ⟨p, hp, hh, hb⟩ := forall₂_getElem? hN.prods hi
    simp only at hh hb
    rw [hid] at hh
    cases hh
    have hc := hcl p (List.mem_of_getElem? hp)
    have hlive : ∀ x ∈ p.body, Live f x := by
      intro x hx
      obtain ⟨k, hk⟩ := List.getElem?_of_mem hx
      obtain ⟨m, hm, e⟩ := forall₂_getElem?' hb hk
      exact ih m (List.mem_of_getElem? hm) e
    have key : ∀ pre post, p.body = pre ++ post → (∀ x ∈ pre, x ∈ f.nullable) → Live f p.head := by
      intro pre post
      induction post generalizing pre with
      | nil => intro e h; exact .inl (hc.null (by rw [e]; simpa using h))
      | cons x post ihp =>
        intro e h
        rcases hlive x (by rw [e]; simp) with hx | hx
        · refine ihp (pre ++ [x]) (by rw [e]; simp) ?_
          intro y hy
          rcases List.mem_append.mp hy with hy | hy
          · exact h y hy
          · rw [List.mem_singleton.mp hy]; exact hx
        · obtain ⟨a, ha⟩ := List.exists_mem_of_ne_nil _ hx
          exact .inr (List.ne_nil_of_mem (hc.first pre x post e h a ha))
    exact key [] p.body rfl (by simp)

/-! ### The end of the input -/

theorem _root_.LogSurgeon.BehindStart.used {all : List (String × List String)} {start n : String} (h : BehindStart all start n) :
    ∃ d ∈ all, n ∈ d.2 := by
  cases h with
  | here h => exact ⟨_, h, by simp⟩
  | left _ h => exact ⟨_, h, by simp⟩

theorem Ahead.names {terms : List String} {start : String} {all : List (String × List String)} (hB : BuildOk terms start all g) (hp : NoPrime all)
    {sid : Nat} (hsid : g.symbolId.lookup start = some sid) {X : Nat} (h : Ahead g sid X) :
    ∀ {n : String}, g.symbolId.lookup n = some X → BehindStart all start n := by
  induction h with
  | @here p X r hm hb =>
    intro n hn
    obtain ⟨i, hi⟩ := List.getElem?_of_mem hm
    obtain ⟨d, hd, hh, hf⟩ := hB.names.decl hi
    rw [hb] at hf
    obtain ⟨dh, db⟩ := d
    simp only at hh hf
    cases hf with
    | cons e1 hf =>
      cases hf with
      | cons e2 hf =>
        cases hB.names.inj _ _ _ e1 hsid
        cases hB.names.inj _ _ _ e2 hn
        have hi1 : i ≠ 1 := by
          rintro rfl
          have := hd.symm.trans hB.prime
          simp at this
        exact .here (hB.decls i _ hd hi1)
  | @left p X r _ hm hb ih =>
    intro n hn
    obtain ⟨i, hi⟩ := List.getElem?_of_mem hm
    obtain ⟨d, hd, hh, hf⟩ := hB.names.decl hi
    rw [hb] at hf
    obtain ⟨dh, db⟩ := d
    simp only at hh hf
    have hbeh := ih hh
    cases hf with
    | cons e1 hf =>
      cases hB.names.inj _ _ _ e1 hn
      have hi1 : i ≠ 1 := by
        rintro rfl
        have := hd.symm.trans hB.prime
        simp only [Option.some.injEq, Prod.mk.injEq] at this
        obtain ⟨d', hd', hmem⟩ := hbeh.used
        rw [this.1] at hmem
        exact (hp d' hd').2 hmem
      exact .left hbeh (hB.decls i _ hd hi1)

theorem no_clash {terms : List String} {start : String} {all : List (String × List String)} (hB : BuildOk terms start all g) (hp : NoPrime all)
    {sid : Nat} (hsid : g.symbolId.lookup start = some sid) (h : EndsCleanly all start) : ¬ Clash g sid := by
  rintro (⟨p, hm, hb, ha⟩ | ⟨i, p, hi, hr, hb⟩)
  · obtain ⟨i, hi⟩ := List.getElem?_of_mem hm
    obtain ⟨d, hd, hh, hf⟩ := hB.names.decl hi
    rw [hb] at hf
    obtain ⟨dh, db⟩ := d
    simp only at hh hf
    cases hf
    have hi1 : i ≠ 1 := by
      rintro rfl
      have := hd.symm.trans hB.prime
      simp at this
    exact h.2 _ (hB.decls i _ hd hi1) rfl (ha.names hB hp hsid hh)
  · obtain ⟨d, hd, hh, hf⟩ := hB.names.decl hi
    rw [hb] at hf
    obtain ⟨dh, db⟩ := d
    simp only at hh hf
    cases hf with
    | cons e1 hf =>
      cases hf
      cases hB.names.inj _ _ _ e1 hsid
      exact h.1 _ (hB.decls i _ hd (by rw [← hB.root]; exact hr)) rfl

theorem body_no_end {terms : List String} {start : String} {all : List (String × List String)} (hB : BuildOk terms start all g)
    {sid : Nat} (hsid : g.symbolId.lookup start = some sid) (hE : g.symbolId.lookup "$end" = some tokenEnd) (hne : sid ≠ tokenEnd)
    (h : ∀ d ∈ all, "$end" ∉ d.2) : ∀ p ∈ g.prods, tokenEnd ∉ p.body := by
  intro p hm hmem
  obtain ⟨i, hi⟩ := List.getElem?_of_mem hm
  obtain ⟨d, hd, hh, hf⟩ := hB.names.decl hi
  obtain ⟨k, hk⟩ := List.getElem?_of_mem hmem
  obtain ⟨n, hn, e⟩ := forall₂_getElem?' hf hk
  cases hB.names.inj _ _ _ e hE
  have hmem' := List.mem_of_getElem? hn
  by_cases hi1 : i = 1
  · subst hi1
    have := hd.symm.trans hB.prime
    simp only [Option.some.injEq] at this
    rw [this] at hmem'
    simp only [List.mem_singleton] at hmem'
    rw [← hmem'] at hsid
    rw [hE] at hsid
    cases hsid
    exact hne rfl
  · exact h d (hB.decls i d hd hi1) hmem'

/-! ### Completeness -/

/-- Completeness; `hacc`: the table accepts somewhere, or it is clear from the grammar that it does. -/
theorem complete_names {terms : List String} {start : String} {bd : List String} {ds : List (String × List String)}
    (hg : g = build terms ((start, bd) :: ds)) (hp : NoPrime ((start, bd) :: ds))
    (hsep : ∀ d ∈ (start, bd) :: ds, d.1 ∉ reservedNames ++ terms) (hpt : "$START_PRIME" ∉ terms)
    (hpr : ∀ d ∈ (start, bd) :: ds, ∀ s ∈ d.2, Productive (reservedNames ++ terms) ((start, bd) :: ds) s)
    (hsize : g.symbolId.length ≤ cNullSymbol) {o : Orders} (ho : o.Ok g) {fuel : Nat} {tb : Table} (hgen : g.generate o fuel = .ok tb)
    (hacc : (∃ i acts, (i, acts) ∈ tb.actions ∧ acts[tokenEnd]? = some (.flag true)) ∨
      EndsCleanly ((start, bd) :: ds) start ∧ ∀ d ∈ (start, bd) :: ds, "$end" ∉ d.2)
    {resets : Nat → Bool} {tree : Tree} {w : List Token} (hd : Derivation g.decls (g.IsTok (reservedNames ++ terms)) [start] [tree] w)
    (hw : ∀ x ∈ w, g.Clear tb x) {kids kids' : Nat} (hk : tree.counter resets kids = some kids') {e : Token} (he : e.types = some [tokenEnd])
    (rest : List Token) :
    ∃ n tree' k', (∀ fuel, n ≤ fuel → g.parse tb resets fuel kids (w ++ e :: rest) = .ok (tree', rest, k')) ∧
      (EndsCleanly ((start, bd) :: ds) start → tree' = tree ∧ k' = kids') := by
  have hB := build_ok (terms := terms) hp
  obtain ⟨hall, hT, hle⟩ := build_has (terms := terms) (all := (start, bd) :: ds)
  rw [← hg] at hB hall hT hle
  obtain ⟨sid, hsid, hR⟩ := rootOk_build hB hp (hp (start, bd) (by simp)).1
  have hlt : ∀ ty ∈ g.terminals, ty < g.symbolId.length := by
    intro ty hty
    obtain ⟨n, _, e⟩ := hB.names.terms ty hty
    exact hB.names.lt _ _ e
  have hnt : ∀ n id, g.symbolId.lookup n = some id → n ∉ reservedNames ++ terms → id ∉ g.terminals := by
    intro n id hn hm hid
    obtain ⟨m, hm', e⟩ := hB.names.terms id hid
    rw [hB.names.inj _ _ _ hn e] at hm
    exact hm hm'
  have hpr' : "$START_PRIME" ∉ reservedNames ++ terms := by
    simp only [List.mem_append, not_or]
    exact ⟨by decide, hpt⟩
  have hS : Separate g := by
    intro p hm
    obtain ⟨i, hi⟩ := List.getElem?_of_mem hm
    obtain ⟨d, hd, hh, _⟩ := hB.names.decl hi
    refine hnt _ _ hh ?_
    by_cases hi1 : i = 1
    · subst hi1
      have := hd.symm.trans hB.prime
      simp only [Option.some.injEq] at this
      rw [this]; exact hpr'
    · exact hsep d (hB.decls i d hd hi1)
  have hE : g.symbolId.lookup "$end" = some tokenEnd := hle "$end" tokenEnd (by decide)
  have hend : tokenEnd ∈ g.terminals := by
    obtain ⟨id, h1, h2⟩ := hT "$end" (by simp [reservedNames, reserved])
    rw [hE] at h2
    cases h2
    exact h1
  have hs : sid ∉ g.terminals := hnt _ _ hsid (hsep (start, bd) (by simp))
  have hnull : cNullSymbol ∉ g.terminals := fun h => by have := hlt _ h; omega
  have hlive : ∀ f : Firsts, (∀ a ∈ g.terminals, a ∈ mget f.firsts a) → (∀ p ∈ g.prods, f.Closed p) → ∀ p ∈ g.prods, ∀ s ∈ p.body, Live f s := by
    intro f hself hcl p hm s hsm
    obtain ⟨i, hi⟩ := List.getElem?_of_mem hm
    obtain ⟨d, hd, hh, hf⟩ := hB.names.decl hi
    obtain ⟨k, hk⟩ := List.getElem?_of_mem hsm
    obtain ⟨n, hn, e⟩ := forall₂_getElem?' hf hk
    refine productive_live hB.names hT hall hself hcl (n := n) ?_ e
    have hnm := List.mem_of_getElem? hn
    by_cases hi1 : i = 1
    · subst hi1
      have := hd.symm.trans hB.prime
      simp only [Option.some.injEq] at this
      rw [this] at hnm
      simp only [List.mem_singleton] at hnm
      rw [hnm]
      exact .prod (body := bd) (by simp) (hpr (start, bd) (by simp))
    · exact hpr d (hB.decls i d hd hi1) n hnm
  have hacc' : (∃ i acts, (i, acts) ∈ tb.actions ∧ acts[tokenEnd]? = some (.flag true)) ∨
      ¬ Clash g sid ∧ ∀ p ∈ g.prods, tokenEnd ∉ p.body := by
    rcases hacc with h | ⟨h1, h2⟩
    · exact .inl h
    · exact .inr ⟨no_clash hB hp hsid h1, body_no_end hB hsid hE (fun h => hs (h ▸ hend)) h2⟩
  obtain ⟨f, V, hF⟩ := generate_full hgen ho hS hnull hR hlive hacc'
  have hbody : g.body g.root ≠ [] := by
    obtain ⟨hh, e, _⟩ := hR.prod
    simp [body, e]
  obtain ⟨t, _, hTab⟩ := generate_ok hgen hbody
  obtain ⟨n, tree', k', h1, h2⟩ := parse_complete (resets := resets) hTab hR hs hend hS (generate_wide hgen hlt) hF
    (Forest.of_names hB.names hd (.cons hsid .nil)) hw hk he rest
  exact ⟨n, tree', k', h1, fun h => h2 (no_clash hB hp hsid h)⟩

end Grammar
end LogSurgeon
