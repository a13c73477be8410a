import Verif.Proofs.LalrFirst
import Verif.Spec.Grammar
/-
Completeness of the LALR(1) tables, part 2: the item sets are closed and the actions are what the items ask for.
-/
namespace LogSurgeon
namespace Grammar
variable {g : Grammar}

/-- No name is both a terminal and the head of a production. -/
def Separate (g : Grammar) : Prop := ∀ p ∈ g.prods, p.head ∉ g.terminals

theorem Separate.not_token (h : Separate g) {s p : Nat} (hp : p ∈ g.prodsOf s) : g.isToken s = false := by
  obtain ⟨q, hq, rfl⟩ := mem_prodsOf.mp hp
  cases e : g.isToken q.head with
  | false => rfl
  | true => exact absurd (by simpa [isToken] using e) (h q (List.mem_of_getElem? hq))

theorem take_drop_of_get {α} {l : List α} {n : Nat} {a : α} (h : l[n]? = some a) : l.drop n = a :: l.drop (n + 1) := by
  obtain ⟨h1, rfl⟩ := List.getElem?_eq_some_iff.mp h
  exact List.drop_eq_getElem_cons h1

/-- Where the items of an LR(1) item set come from. -/
theorem lr1_items (hsep : Separate g) (hnull : cNullSymbol ∉ g.terminals) {f : Firsts} {fuel fuel' : Nat} {las : List (Item × List Nat)}
    {K c C1 : List Item} (hsub : ∀ s, ∀ a ∈ mget f.firsts s, a ∈ g.terminals) (hK : ∀ k ∈ K, k.la = cNullSymbol)
    (h0 : g.lr0Closure fuel' K = .ok c) (h1 : g.lr1Closure f fuel (lr1Kernel las K) = .ok C1)
    (hk : ∀ k ∈ K, ∃ clo, g.lr1Closure f fuel [k] = .ok clo) :
    ∀ x ∈ C1, ⟨x.prod, x.dot, cNullSymbol⟩ ∈ c ∧ ∃ k ∈ K, ∃ clo, g.lr1Closure f fuel [k] = .ok clo ∧ ∃ y ∈ clo,
      y.prod = x.prod ∧ y.dot = x.dot ∧ (y.la = x.la ∧ y.la ≠ cNullSymbol ∨ y.la = cNullSymbol ∧ x.la ∈ mget las k) := by
  obtain ⟨_, _, h3, _⟩ := closureLoop_spec h1
  obtain ⟨c1, _, c3⟩ := lr0Closure_spec h0
  refine h3 _ (by simp) ?_ ?_
  · intro x hx
    obtain ⟨k, hkK, l, hl, rfl⟩ := mem_lr1Kernel.mp (by simpa using hx)
    have hkn := hK k hkK
    have hkeq : (⟨k.prod, k.dot, cNullSymbol⟩ : Item) = k := by rw [← hkn]
    refine ⟨by simp only [hkeq]; exact c1 k hkK, k, hkK, ?_⟩
    obtain ⟨clo, hclo⟩ := hk k hkK
    exact ⟨clo, hclo, k, (lr1Closure_spec hclo).1 k (by simp), rfl, rfl, .inr ⟨hkn, hl⟩⟩
  · intro x ⟨hc, k, hkK, clo, hclo, y, hy, e1, e2, e3⟩ x' hx'
    obtain ⟨s, hs, hp, hd, hla⟩ := mem_freshItems.mp hx'
    have hnt := hsep.not_token hp
    refine ⟨?_, k, hkK, clo, hclo, ?_⟩
    · have := (c3 _ hc s hs hnt).2 ⟨x'.prod, 0, cNullSymbol⟩ (mem_freshItems.mpr ⟨s, hs, hp, rfl, by simp⟩)
      rw [hd]; exact this
    · have hyc := (lr1Closure_spec hclo).2.2 y hy s (by rw [e1, e2]; exact hs) hnt
      simp only [e1, e2] at hyc
      rcases mem_lookaheadsAfter.mp hla with ⟨pre, s', post, a1, a2, a3⟩ | ⟨a1, a2⟩
      · refine ⟨⟨x'.prod, 0, x'.la⟩, hyc.2 _ (mem_freshItems.mpr ⟨s, by rw [e1, e2]; exact hs, hp, rfl, ?_⟩), rfl, hd.symm, .inl ⟨rfl, ?_⟩⟩
        · exact mem_lookaheadsAfter.mpr (.inl ⟨pre, s', post, a1, a2, a3⟩)
        · intro e
          simp only at e
          exact hnull (e ▸ hsub _ _ a3)
      · refine ⟨⟨x'.prod, 0, y.la⟩, hyc.2 _ (mem_freshItems.mpr ⟨s, by rw [e1, e2]; exact hs, hp, rfl, ?_⟩), rfl, hd.symm, ?_⟩
        · exact mem_lookaheadsAfter.mpr (.inr ⟨a1, rfl⟩)
        · rw [a2]; exact e3

/-- The results of the stages of `generate` before the LR(1) item sets. -/
structure Stages (g : Grammar) (o : Orders) (fuel : Nat) (t : LR0) (f : Firsts) (las : List (Item × List Nat)) : Prop where
  lr0 : LR0Inv g fuel [] t
  total : Total g (g.terminals ++ o.nts) [] t
  self : ∀ a ∈ g.terminals, a ∈ mget f.firsts a
  closed : ∀ p ∈ g.prods, f.Closed p
  sub : ∀ s, ∀ a ∈ mget f.firsts s, a ∈ g.terminals
  clos : ∀ i < t.sets.length, ∀ k ∈ t.kernel i, ∃ clo, g.lr1Closure f fuel [k] = .ok clo
  root : ∀ i < t.sets.length, ∀ k ∈ t.kernel i, k.prod = g.root → tokenEnd ∈ mget las k
  /-- lookaheads pass from a kernel item to the items behind the items of its closure -/
  pass : ∀ i < t.sets.length, ∀ k ∈ t.kernel i, ∀ clo, g.lr1Closure f fuel [k] = .ok clo → ∀ y ∈ clo, ∀ j < t.sets.length,
    ⟨y.prod, y.dot + 1, cNullSymbol⟩ ∈ t.kernel j → ∀ l, (y.la = l ∧ y.la ≠ cNullSymbol ∨ y.la = cNullSymbol ∧ l ∈ mget las k) →
    l ∈ mget las ⟨y.prod, y.dot + 1, cNullSymbol⟩

theorem stages {o : Orders} {fuel : Nat} {t : LR0} {f : Firsts} {m : LaMaps} {l : Las} (ht : g.lr0Sets o fuel = .ok t)
    (hf : g.firstSets fuel = .ok f) {items : List Item} (hitems : ∀ i < t.sets.length, ∀ k ∈ t.kernel i, k ∈ items)
    (hm : g.laMaps f fuel items {} = .ok m) (hl : Las.loop m fuel { las := items.foldl (initLas g m) [] } = .ok l) :
    Stages g o fuel t f l.las := by
  obtain ⟨a1, a2⟩ := lr0Sets_spec ht
  obtain ⟨b1, b2⟩ := firstSets_spec hf
  obtain ⟨_, _, c3⟩ := laMaps_spec hm
  obtain ⟨d1, d2⟩ := las_loop_spec hl
  obtain ⟨_, e2⟩ := initLas_spec (g := g) (m := m) (its := items) (l := [])
  refine ⟨a1, a2, b1, b2, firstSets_sub hf, ?_, ?_, ?_⟩
  · intro i hi k hk
    obtain ⟨clo, h, _⟩ := c3 k (hitems i hi k hk)
    exact ⟨clo, h⟩
  · intro i hi k hk hr
    exact d1 _ _ ((e2 k (hitems i hi k hk)).2 hr)
  · intro i hi k hk clo hclo y hy j hj hyk x hx
    obtain ⟨clo', hclo', hn⟩ := c3 k (hitems i hi k hk)
    rw [hclo] at hclo'
    cases hclo'
    have hlen : y.dot < (g.body y.prod).length := by
      obtain ⟨c, hc⟩ := LR0.kernel_of_mem hyk
      have := (a1.valid j _ c hc _ hyk).1
      simp only at this
      omega
    rcases hx with ⟨rfl, hne⟩ | ⟨he, hx⟩
    · exact d1 _ _ ((e2 _ (hitems j hj _ hyk)).1 _ ((hn y hy).1 hne))
    · exact d2 _ _ ((hn y hy).2 he hlen) _ hx

/-- A symbol that can be followed by something in a derivation: it is nullable or has a FIRST set. -/
def Live (f : Firsts) (s : Nat) : Prop := s ∈ f.nullable ∨ mget f.firsts s ≠ []

theorem lookaheadsAfter_ne {f : Firsts} {la : Nat} : ∀ {ss : List Nat}, (∀ s ∈ ss, Live f s) → ∃ x, x ∈ lookaheadsAfter f la ss := by
  intro ss
  induction ss with
  | nil => intro _; exact ⟨la, by simp [lookaheadsAfter]⟩
  | cons s ss ih =>
    intro h
    rcases h s (by simp) with hn | hn
    · obtain ⟨x, hx⟩ := ih (fun y hy => h y (by simp [hy]))
      exact ⟨x, by simp only [lookaheadsAfter, if_pos hn]; exact List.mem_append_right _ hx⟩
    · obtain ⟨x, hx⟩ := List.exists_mem_of_ne_nil _ hn
      exact ⟨x, by simp only [lookaheadsAfter]; exact List.mem_append_left _ hx⟩

variable {o : Orders} {fuel : Nat} {t : LR0} {f : Firsts} {las : List (Item × List Nat)}

theorem LR0Inv.get (h : LR0Inv g fuel [] t) {i : Nat} (hi : i < t.sets.length) :
    ∃ c, t.sets[i]? = some (t.kernel i, c) ∧ g.lr0Closure fuel (t.kernel i) = .ok c := by
  obtain ⟨⟨ker, c⟩, hk⟩ : ∃ x, t.sets[i]? = some x := ⟨_, List.getElem?_eq_getElem hi⟩
  rw [LR0.kernel_eq hk]
  exact ⟨c, hk, h.clo i ker c hk (by simp)⟩

/-- The lookaheads of the items of an LR(1) item set are there behind the next symbol. -/
theorem Stages.carry (S : Stages g o fuel t f las) (hsep : Separate g) (hnull : cNullSymbol ∉ g.terminals) {i : Nat} (hi : i < t.sets.length)
    {C1 : List Item} (hC : g.lr1Closure f fuel (lr1Kernel las (t.kernel i)) = .ok C1) {x : Item} (hx : x ∈ C1) :
    (∃ c, t.sets[i]? = some (t.kernel i, c) ∧ ⟨x.prod, x.dot, cNullSymbol⟩ ∈ c) ∧
    (∀ j < t.sets.length, ⟨x.prod, x.dot + 1, cNullSymbol⟩ ∈ t.kernel j → x.la ∈ mget las ⟨x.prod, x.dot + 1, cNullSymbol⟩) := by
  obtain ⟨c, hc, hclo⟩ := S.lr0.get hi
  obtain ⟨h1, k, hk, clo, h2, y, hy, e1, e2, e3⟩ := lr1_items hsep hnull S.sub (fun k hk => (S.lr0.valid i _ c hc k hk).2) hclo hC
    (S.clos i hi) x hx
  refine ⟨⟨c, hc, h1⟩, fun j hj hxj => ?_⟩
  have := S.pass i hi k hk clo h2 y hy j hj (by rw [e1, e2]; exact hxj) x.la e3
  rw [e1, e2] at this; exact this

/-- Every kernel item has a lookahead. -/
theorem Stages.las_ne (S : Stages g o fuel t f las) (hsep : Separate g) (hnull : cNullSymbol ∉ g.terminals)
    (hlive : ∀ p ∈ g.prods, ∀ s ∈ p.body, Live f s)
    (hC : ∀ i < t.sets.length, ∃ C1, g.lr1Closure f fuel (lr1Kernel las (t.kernel i)) = .ok C1) :
    ∀ n i, i < n → i < t.sets.length → ∀ k ∈ t.kernel i, ∃ l, l ∈ mget las k := by
  have hbody : ∀ q, ∀ s ∈ g.body q, Live f s := by
    intro q s hs
    unfold body at hs
    cases hq : g.prods[q]? with
    | none => rw [hq] at hs; cases hs
    | some p =>
      rw [hq] at hs
      exact hlive p (List.mem_of_getElem? hq) s hs
  intro n
  induction n with
  | zero => intro i hi; omega
  | succ n ih =>
    intro i hin hi k hk
    rcases Nat.eq_zero_or_pos i with h0 | h0
    · subst h0
      obtain ⟨c, hc⟩ := S.lr0.zero
      have hk' := hk
      rw [LR0.kernel_eq hc] at hk'
      simp only [List.mem_singleton] at hk'
      exact ⟨tokenEnd, S.root 0 hi k hk (by rw [hk'])⟩
    · obtain ⟨i', s, hlt, hgo⟩ := S.lr0.reach i h0 hi
      obtain ⟨_, ker, c, c', hi', hki⟩ := S.lr0.goes i' s i hgo
      have hi'len : i' < t.sets.length := (List.getElem?_eq_some_iff.mp hi').1
      rw [LR0.kernel_eq hki] at hk
      obtain ⟨y, hy, hb, rfl⟩ := mem_advance.mp hk
      obtain ⟨C1, hC1⟩ := hC i' hi'len
      have hclo := S.lr0.clo i' ker c hi' (by simp)
      obtain ⟨_, _, h3, _⟩ := closureLoop_spec hclo
      have hval := lr0Closure_valid hclo (S.lr0.valid i' ker c hi')
      have key : ∀ y ∈ c, ∃ la, (⟨y.prod, y.dot, la⟩ : Item) ∈ C1 := by
        refine h3 (fun y => ∃ la, (⟨y.prod, y.dot, la⟩ : Item) ∈ C1) (by simp) ?_ ?_
        · intro z hz
          have hz : z ∈ t.kernel i' := by rw [LR0.kernel_eq hi']; simpa using hz
          obtain ⟨l, hl⟩ := ih i' (by omega) hi'len z hz
          exact ⟨l, (lr1Closure_spec hC1).1 _ (mem_lr1Kernel.mpr ⟨z, hz, l, hl, rfl⟩)⟩
        · intro z ⟨la, hz⟩ x hx
          obtain ⟨B, hB, hp, hd, _⟩ := mem_freshItems.mp hx
          obtain ⟨l, hl⟩ := lookaheadsAfter_ne (f := f) (la := la) (ss := (g.body z.prod).drop (z.dot + 1))
            (fun s hs => hbody z.prod s (List.mem_of_mem_drop hs))
          have := ((lr1Closure_spec hC1).2.2 _ hz B hB (hsep.not_token hp)).2 ⟨x.prod, 0, l⟩
            (mem_freshItems.mpr ⟨B, hB, hp, rfl, hl⟩)
          exact ⟨l, by rw [hd]; exact this⟩
      obtain ⟨la, hla⟩ := key y hy
      have hyl := (hval y hy).2
      refine ⟨la, ?_⟩
      have := (S.carry hsep hnull hi'len hC1 hla).2 i hi (by
        rw [LR0.kernel_eq hki, ← hyl]; exact hk)
      rw [hyl]; exact this

/-- Different LR(0) item sets become different LR(1) item sets. -/
theorem Stages.kernel_inj (S : Stages g o fuel t f las) (hne : ∀ i < t.sets.length, ∀ k ∈ t.kernel i, ∃ l, l ∈ mget las k)
    {i j : Nat} (hi : i < t.sets.length) (hj : j < t.sets.length)
    (h : lr1Kernel las (t.kernel i) = lr1Kernel las (t.kernel j)) : i = j := by
  obtain ⟨c, hc, _⟩ := S.lr0.get hi
  obtain ⟨c', hc', _⟩ := S.lr0.get hj
  have half : ∀ {i j : Nat}, i < t.sets.length → j < t.sets.length → lr1Kernel las (t.kernel i) = lr1Kernel las (t.kernel j) →
      ∀ x, x ∈ t.kernel i → x ∈ t.kernel j := by
    intro i j hi hj h x hx
    obtain ⟨c, hc, _⟩ := S.lr0.get hi
    obtain ⟨c', hc', _⟩ := S.lr0.get hj
    obtain ⟨l, hl⟩ := hne i hi x hx
    have : (⟨x.prod, x.dot, l⟩ : Item) ∈ lr1Kernel las (t.kernel j) := by
      rw [← h]; exact mem_lr1Kernel.mpr ⟨x, hx, l, hl, rfl⟩
    obtain ⟨y, hy, l', _, e⟩ := mem_lr1Kernel.mp this
    simp only [Item.mk.injEq] at e
    have h1 := (S.lr0.valid i _ c hc x hx).2
    have h2 := (S.lr0.valid j _ c' hc' y hy).2
    have : x = y := by
      cases x; cases y; simp only at e h1 h2
      simp [e.1, e.2.1, h1, h2]
    rw [this]; exact hy
  have : t.kernel i = t.kernel j :=
    (S.lr0.sorted i _ c hc).ext (S.lr0.sorted j _ c' hc') fun x => ⟨half hi hj h x, half hj hi h.symm x⟩
  rw [← this] at hc'
  exact S.lr0.inj i j _ c c' hc hc'

theorem lr1Sets_closures {order : List Nat} : ∀ {acc sets : List LR1Set}, lr1Sets g f fuel t las order acc = .ok sets →
    ∀ i ∈ order, ∃ C1, g.lr1Closure f fuel (lr1Kernel las (t.kernel i)) = .ok C1 := by
  induction order with
  | nil => intro acc sets _ i hi; cases hi
  | cons j order ih =>
    intro acc sets h i hi
    simp only [lr1Sets] at h
    split at h
    · cases h
    · rename_i clo hclo
      rcases List.mem_cons.mp hi with rfl | hi
      · exact ⟨clo, hclo⟩
      · exact ih h i hi

theorem lr1Sets_complete {N : Nat} (hinj : ∀ i < N, ∀ j < N, lr1Kernel las (t.kernel i) = lr1Kernel las (t.kernel j) → i = j)
    {order : List Nat} : ∀ {acc sets : List LR1Set}, lr1Sets g f fuel t las order acc = .ok sets → (∀ i ∈ order, i < N) →
    (∀ s ∈ acc, s.index < N ∧ s.kernel = lr1Kernel las (t.kernel s.index)) →
    ∀ i, (i ∈ order ∨ ∃ s ∈ acc, s.index = i) → ∃ s ∈ sets, s.index = i := by
  induction order with
  | nil =>
    intro acc sets h _ _ i hi
    simp only [lr1Sets, Except.ok.injEq] at h
    subst h
    exact hi.resolve_left (by simp)
  | cons j order ih =>
    intro acc sets h hN hacc i hi
    simp only [lr1Sets] at h
    split at h
    · cases h
    · rename_i clo hclo
      refine ih h (fun i hi => hN i (by simp [hi])) ?_ i ?_
      · intro s hs
        rcases List.mem_cons.mp hs with rfl | hs
        · exact ⟨hN j (by simp), rfl⟩
        · exact hacc s (List.mem_filter.mp hs).1
      · rcases hi with hi | ⟨s, hs, rfl⟩
        · rcases List.mem_cons.mp hi with rfl | hi
          · exact .inr ⟨_, List.mem_cons_self, rfl⟩
          · exact .inl hi
        · right
          by_cases he : s.index = j
          · exact ⟨_, List.mem_cons_self, he.symm⟩
          · refine ⟨s, List.mem_cons_of_mem _ (List.mem_filter.mpr ⟨hs, ?_⟩), rfl⟩
            simp only [bne_iff_ne, ne_eq]
            intro e
            obtain ⟨h1, h2⟩ := hacc s hs
            rw [h2] at e
            exact he (hinj _ h1 j (hN j (by simp)) e)

/-! ### Actions -/

/-- The item of the extra production is complete in this item set. -/
def RootEnd (g : Grammar) (its : List Item) : Prop := ∃ z ∈ its, z.prod = g.root ∧ (g.body z.prod)[z.dot]? = none

/-- The entry is there, or the accepting entry may have replaced it. -/
def Holds (g : Grammar) (all : List Item) (acts : List Action) (k : Nat) (a : Action) : Prop :=
  acts[k]? = some a ∨ (k = tokenEnd ∧ RootEnd g all)

theorem setAction_keeps {next : Nat → Option Nat} {acts acts' : List Action} {it : Item} {all : List Item} (hit : it ∈ all)
    (h : g.setAction next acts it = .ok acts') {k : Nat} {a : Action} (ha : ∀ b, a ≠ .flag b) (hk : Holds g all acts k a) :
    Holds g all acts' k a := by
  rcases hk with hk | hk
  rotate_left
  · exact .inr hk
  unfold setAction at h
  split at h
  · rename_i s0 hb
    split at h
    · cases h; exact .inl hk
    · split at h
      · cases h
      · rename_i b hs0
        cases h
        left
        have : s0 ≠ k := by rintro rfl; rw [hk] at hs0; cases hs0; exact ha b rfl
        rw [List.getElem?_set_ne this]; exact hk
      · split at h
        · cases h; exact .inl hk
        · cases h
      · cases h
  · rename_i hb
    split at h
    · rename_i hr
      split at h
      · cases h
        by_cases he : k = tokenEnd
        · exact .inr ⟨he, it, hit, hr, hb⟩
        · left; rw [List.getElem?_set_ne (Ne.symm he)]; exact hk
      · cases h
    · split at h
      · cases h
      · rename_i b hs0
        cases h
        left
        have : it.la ≠ k := by rintro rfl; rw [hk] at hs0; cases hs0; exact ha b rfl
        rw [List.getElem?_set_ne this]; exact hk
      · cases h

theorem setActions_keeps {next : Nat → Option Nat} {all : List Item} : ∀ {its : List Item} {acts acts' : List Action},
    (∀ it ∈ its, it ∈ all) → g.setActions next its acts = .ok acts' → ∀ {k : Nat} {a : Action}, (∀ b, a ≠ .flag b) →
    Holds g all acts k a → Holds g all acts' k a := by
  intro its
  induction its with
  | nil => intro acts acts' _ h k a _ hk; simp only [setActions, Except.ok.injEq] at h; subst h; exact hk
  | cons it its ih =>
    intro acts acts' hs h k a ha hk
    simp only [setActions] at h
    split at h
    · cases h
    · rename_i acts1 h1
      exact ih (fun x hx => hs x (by simp [hx])) h ha (setAction_keeps (hs it (by simp)) h1 ha hk)

theorem setAction_sets {next : Nat → Option Nat} {acts acts' : List Action} {it : Item} (h : g.setAction next acts it = .ok acts') :
    (∀ s, (g.body it.prod)[it.dot]? = some s → g.isToken s = true ∨ g.prodsOf s ≠ [] → acts'[s]? = some (.shift (next s))) ∧
    ((g.body it.prod)[it.dot]? = none → it.prod ≠ g.root → acts'[it.la]? = some (.reduce it.prod)) := by
  have put : ∀ (k : Nat) (x y : Action), acts[k]? = some y → (acts.set k x)[k]? = some x := by
    intro k x y hy
    exact List.getElem?_set_self (List.getElem?_eq_some_iff.mp hy).1
  unfold setAction at h
  split at h
  · rename_i s0 hb
    refine ⟨fun s hs hsym => ?_, fun hn => by rw [hb] at hn; cases hn⟩
    rw [hb] at hs
    cases hs
    split at h
    · rename_i hno
      exfalso
      simp only [Bool.and_eq_true, Bool.not_eq_true', List.isEmpty_iff] at hno
      rcases hsym with h' | h'
      · rw [h'] at hno; cases hno.1
      · exact h' hno.2
    · split at h
      · cases h
      · rename_i hy; cases h; exact put _ _ _ hy
      · rename_i x hy
        split at h
        · rename_i e; cases h; rw [hy, e]
        · cases h
      · cases h
  · rename_i hb
    refine ⟨fun s hs => (by rw [hb] at hs; cases hs), fun _ hr => ?_⟩
    rw [if_neg hr] at h
    split at h
    · cases h
    · rename_i hy; cases h; exact put _ _ _ hy
    · cases h

theorem setActions_sets {next : Nat → Option Nat} {all : List Item} : ∀ {its : List Item} {acts acts' : List Action},
    (∀ it ∈ its, it ∈ all) → g.setActions next its acts = .ok acts' → ∀ it ∈ its,
    (∀ s, (g.body it.prod)[it.dot]? = some s → g.isToken s = true ∨ g.prodsOf s ≠ [] → Holds g all acts' s (.shift (next s))) ∧
    ((g.body it.prod)[it.dot]? = none → it.prod ≠ g.root → Holds g all acts' it.la (.reduce it.prod)) := by
  intro its
  induction its with
  | nil => intro acts acts' _ _ it hit; cases hit
  | cons it its ih =>
    intro acts acts' hs h x hx
    simp only [setActions] at h
    split at h
    · cases h
    · rename_i acts1 h1
      have hs' : ∀ y ∈ its, y ∈ all := fun y hy => hs y (by simp [hy])
      rcases List.mem_cons.mp hx with rfl | hx
      · obtain ⟨a, b⟩ := setAction_sets h1
        exact ⟨fun s hb hsym => setActions_keeps hs' h (by simp) (.inl (a s hb hsym)),
          fun hb hr => setActions_keeps hs' h (by simp) (.inl (b hb hr))⟩
      · exact ih hs' h x hx

theorem actionTable_eq {sets : List LR1Set} : ∀ {ss : List LR1Set} {tab : List (Nat × List Action)},
    g.actionTable t sets ss = .ok tab →
    (∀ i acts, (i, acts) ∈ tab → ∃ s ∈ ss, s.index = i ∧
      g.setActions (nextSet t sets i) s.closure (List.replicate g.symbolId.length (.flag false)) = .ok acts) ∧
    (∀ s ∈ ss, ∃ acts, tab.lookup s.index = some acts) := by
  intro ss
  induction ss with
  | nil =>
    intro tab h
    simp only [actionTable, Except.ok.injEq] at h
    subst h
    exact ⟨(fun i acts hm => by cases hm), (fun s hs => by cases hs)⟩
  | cons s ss ih =>
    intro tab h
    simp only [actionTable] at h
    split at h
    · cases h
    · rename_i acts1 h1
      split at h
      · cases h
      · rename_i rest hr
        cases h
        obtain ⟨i1, i2⟩ := ih hr
        refine ⟨fun i acts hm => ?_, fun x hx => ?_⟩
        · rcases List.mem_cons.mp hm with hm | hm
          · cases hm
            exact ⟨s, by simp, rfl, h1⟩
          · obtain ⟨s', hs', e⟩ := i1 i acts hm
            exact ⟨s', by simp [hs'], e⟩
        · simp only [List.lookup]
          split
          · exact ⟨_, rfl⟩
          · rename_i hne
            rcases List.mem_cons.mp hx with rfl | hx
            · simp at hne
            · exact i2 x hx

/-- Without a reduction or a shift at the end of the input the accepting entry stays. -/
theorem setActions_flag {next : Nat → Option Nat} : ∀ {its : List Item} {acts acts' : List Action},
    (∀ it ∈ its, (g.body it.prod)[it.dot]? ≠ some tokenEnd) →
    (∀ it ∈ its, (g.body it.prod)[it.dot]? = none → it.prod ≠ g.root → it.la ≠ tokenEnd) →
    g.setActions next its acts = .ok acts' → (acts[tokenEnd]? = some (.flag true) ∨ RootEnd g its) →
    acts'[tokenEnd]? = some (.flag true) := by
  intro its
  induction its with
  | nil =>
    intro acts acts' _ _ h hf
    simp only [setActions, Except.ok.injEq] at h
    subst h
    rcases hf with h | ⟨z, hz, _⟩
    · exact h
    · cases hz
  | cons it its ih =>
    intro acts acts' hs hr h hf
    simp only [setActions] at h
    split at h
    · cases h
    rename_i acts1 h1
    refine ih (fun x hx => hs x (by simp [hx])) (fun x hx => hr x (by simp [hx])) h ?_
    have keep : acts[tokenEnd]? = some (.flag true) → acts1[tokenEnd]? = some (.flag true) := by
      intro hk
      unfold setAction at h1
      split at h1
      · rename_i s0 hb
        have hne : s0 ≠ tokenEnd := fun e => hs it (by simp) (by rw [hb, e])
        split at h1
        · cases h1; exact hk
        · split at h1
          · cases h1
          · cases h1; rw [List.getElem?_set_ne hne]; exact hk
          · split at h1
            · cases h1; exact hk
            · cases h1
          · cases h1
      · rename_i hb
        split at h1
        · split at h1
          · rename_i hlen
            cases h1; exact List.getElem?_set_self hlen
          · cases h1
        · rename_i hroot
          have hne := hr it (by simp) hb hroot
          split at h1
          · cases h1
          · cases h1; rw [List.getElem?_set_ne hne]; exact hk
          · cases h1
    rcases hf with hf | ⟨z, hz, hzr, hzn⟩
    · exact .inl (keep hf)
    · rcases List.mem_cons.mp hz with rfl | hz
      · left
        unfold setAction at h1
        rw [hzn] at h1
        simp only [if_pos hzr] at h1
        split at h1
        · rename_i hlen
          cases h1; exact List.getElem?_set_self hlen
        · cases h1
      · exact .inr ⟨z, hz, hzr, hzn⟩

/-- The symbols a sequence behind the start symbol can begin with. -/
inductive Ahead (g : Grammar) (start : Nat) : Nat → Prop
  | here {p X r} : p ∈ g.prods → p.body = start :: X :: r → Ahead g start X
  | left {p X r} : Ahead g start p.head → p ∈ g.prods → p.body = X :: r → Ahead g start X

/-- The grammars for which a reduction can stand beside the accepting entry. -/
def Clash (g : Grammar) (start : Nat) : Prop :=
  (∃ p ∈ g.prods, p.body = [] ∧ Ahead g start p.head) ∨ ∃ i p, g.prods[i]? = some p ∧ i ≠ g.root ∧ p.body = [start]

/-- What completeness needs to know about the generated tables; `V i x`: the LR(1) item `x` is in the item set `i`. -/
structure Full (g : Grammar) (start : Nat) (tb : Table) (f : Firsts) (V : Nat → Item → Prop) : Prop where
  root : ∃ r, tb.root = some r ∧ V r ⟨g.root, 0, tokenEnd⟩
  self : ∀ a ∈ g.terminals, a ∈ mget f.firsts a
  closed : ∀ p ∈ g.prods, f.Closed p
  clo : ∀ i x, V i x → ∀ B, (g.body x.prod)[x.dot]? = some B → ∀ p ∈ g.prodsOf B,
    ∀ b ∈ lookaheadsAfter f x.la ((g.body x.prod).drop (x.dot + 1)), V i ⟨p, 0, b⟩
  next : ∀ i x, V i x → ∀ X, (g.body x.prod)[x.dot]? = some X → ∃ acts j, tb.actions.lookup i = some acts ∧
    (acts[X]? = some (.shift (some j)) ∨ X = tokenEnd) ∧ V j ⟨x.prod, x.dot + 1, x.la⟩
  red : ∀ i x, V i x → (g.body x.prod)[x.dot]? = none → x.prod ≠ g.root → ∃ acts, tb.actions.lookup i = some acts ∧
    (acts[x.la]? = some (.reduce x.prod) ∨ x.la = tokenEnd ∧ acts[x.la]? = some (.flag true) ∧ Clash g start)
  acc : ∀ i x, V i x → (g.body x.prod)[x.dot]? = none → x.prod = g.root → ∃ acts, tb.actions.lookup i = some acts ∧
    acts[tokenEnd]? = some (.flag true)

theorem generate_full {tb : Table} (h : g.generate o fuel = .ok tb) (ho : o.Ok g) (hsep : Separate g) (hnull : cNullSymbol ∉ g.terminals)
    {start : Nat} (hR : RootOk g start)
    (hlive : ∀ f, (∀ a ∈ g.terminals, a ∈ mget f.firsts a) → (∀ p ∈ g.prods, f.Closed p) → ∀ p ∈ g.prods, ∀ s ∈ p.body, Live f s)
    (hacc : (∃ i acts, (i, acts) ∈ tb.actions ∧ acts[tokenEnd]? = some (.flag true)) ∨
      ¬ Clash g start ∧ ∀ p ∈ g.prods, tokenEnd ∉ p.body) :
    ∃ f V, Full g start tb f V := by
  unfold generate at h
  split at h
  · cases h
  split at h
  · cases h
  rename_i t ht
  split at h
  · cases h
  rename_i f hf
  simp only at h
  split at h
  · cases h
  rename_i m hm
  split at h
  · cases h
  rename_i l hl
  split at h
  · cases h
  rename_i sets hsets
  split at h
  · cases h
  rename_i acts hacts
  cases h
  obtain ⟨order, horder⟩ : ∃ order, order = o.sets (t.sets.map (·.1)) := ⟨_, rfl⟩
  rw [← horder] at hm hl hsets
  have hord : ∀ i, i ∈ order ↔ i < t.sets.length := by
    intro i; rw [horder, ho.sets]; simp
  have hker : ∀ i, (t.sets[i]?.map (·.1)).getD [] = t.kernel i := fun _ => rfl
  have hitems : ∀ i < t.sets.length, ∀ k ∈ t.kernel i, k ∈ order.flatMap fun i => (t.sets[i]?.map (·.1)).getD [] := by
    intro i hi k hk
    exact List.mem_flatMap.mpr ⟨i, (hord i).mpr hi, hk⟩
  have S := stages ht hf hitems hm hl
  have hlive := hlive f S.self S.closed
  have hC : ∀ i < t.sets.length, ∃ C1, g.lr1Closure f fuel (lr1Kernel l.las (t.kernel i)) = .ok C1 :=
    fun i hi => lr1Sets_closures hsets i ((hord i).mpr hi)
  have hne : ∀ i < t.sets.length, ∀ k ∈ t.kernel i, ∃ x, x ∈ mget l.las k :=
    fun i hi => S.las_ne hsep hnull hlive hC (i + 1) i (by omega) hi
  have hall : ∀ i < t.sets.length, ∃ s ∈ sets, s.index = i := by
    intro i hi
    exact lr1Sets_complete (N := t.sets.length) (fun i hi j hj h => S.kernel_inj hne hi hj h) hsets
      (fun i hi => (hord i).mp hi) (by simp) i (.inl ((hord i).mpr hi))
  have hspec : ∀ s ∈ sets, s.index < t.sets.length ∧ g.lr1Closure f fuel (lr1Kernel l.las (t.kernel s.index)) = .ok s.closure := by
    intro s hs
    obtain ⟨h1, h2, h3⟩ := (lr1Sets_spec hsets s hs).resolve_left (by simp)
    rw [h2] at h3
    exact ⟨(hord _).mp h1, h3⟩
  obtain ⟨T1, T2⟩ := actionTable_eq hacts
  -- the table entry of an item set
  have hact : ∀ i < t.sets.length, ∀ C1, g.lr1Closure f fuel (lr1Kernel l.las (t.kernel i)) = .ok C1 →
      (∃ as, acts.lookup i = some as) ∧
      ∀ as, (i, as) ∈ acts → g.setActions (nextSet t sets i) C1 (List.replicate g.symbolId.length (.flag false)) = .ok as := by
    intro i hi C1 hC1
    refine ⟨?_, ?_⟩
    · obtain ⟨s, hs, rfl⟩ := hall i hi
      exact T2 s hs
    · intro as has
      obtain ⟨s, hs, e, hset⟩ := T1 i as has
      have := (hspec s hs).2
      rw [e, hC1] at this
      cases this
      exact hset
  -- there is one accepting item set
  have hprodR := hR.prod
  obtain ⟨h0, hprod, hocc⟩ := hprodR
  have hbody : g.body g.root = [start] := by simp [body, hprod]
  have hend : ∀ i < t.sets.length, ∀ C1, g.lr1Closure f fuel (lr1Kernel l.las (t.kernel i)) = .ok C1 → RootEnd g C1 →
      ∃ c0 k0, t.sets[0]? = some (k0, c0) ∧ t.kernel i = g.advance c0 start := by
    intro i hi C1 hC1 ⟨z, hz, hzr, hzn⟩
    obtain ⟨c, hc, hzc⟩ := (S.carry hsep hnull hi hC1 hz).1
    have hclo := S.lr0.clo i _ c hc (by simp)
    have hd1 : 1 ≤ z.dot := by
      rw [hzr, hbody] at hzn
      have := List.getElem?_eq_none_iff.mp hzn
      simpa using this
    have hzk : (⟨z.prod, z.dot, cNullSymbol⟩ : Item) ∈ t.kernel i := by
      rcases (lr0Closure_spec hclo).2.1 _ hzc with hk | ⟨h0, _⟩
      · exact hk
      · simp only at h0; omega
    have hi0 : 0 < i := by
      rcases Nat.eq_zero_or_pos i with e | e
      · subst e
        obtain ⟨c', hc'⟩ := S.lr0.zero
        rw [LR0.kernel_eq hc'] at hzk
        simp at hzk; omega
      · exact e
    obtain ⟨i', s, _, hgo⟩ := S.lr0.reach i hi0 hi
    obtain ⟨_, ker, c1, c2, g1, g2⟩ := S.lr0.goes i' s i hgo
    have hkeq := LR0.kernel_eq g2
    rw [hkeq] at hzk
    obtain ⟨y, hy, hyb, e⟩ := mem_advance.mp hzk
    simp only [Item.mk.injEq] at e
    have hyr : y.prod = g.root := by rw [← e.1, hzr]
    rw [hyr, hbody] at hyb
    have hyd : y.dot = 0 := by
      have := (List.getElem?_eq_some_iff.mp hyb).1
      simpa using this
    have hys : s = start := by
      rw [hyd] at hyb; simpa using hyb.symm
    have hyk : y ∈ ker := by
      rcases (lr0Closure_spec (S.lr0.clo i' ker c1 g1 (by simp))).2.1 y hy with hk | ⟨_, p, B, hB, hpi⟩
      · exact hk
      · exfalso
        rw [hyr] at hpi
        obtain ⟨p', hp', hh⟩ := mem_prodsOf.mp hpi
        rw [hprod] at hp'
        cases hp'
        subst hh
        unfold body at hB
        cases hgp : g.prods[p]? with
        | none => rw [hgp] at hB; cases hB
        | some pr =>
          rw [hgp] at hB
          exact hocc pr (List.mem_of_getElem? hgp) hB
    have hi'0 : i' = 0 := by
      rcases S.lr0.pos i' ker c1 g1 with h | h
      · exact h
      · have := h y hyk; omega
    subst hi'0
    exact ⟨c1, ker, g1, by rw [hkeq, hys]⟩
  have hclash : ∀ i < t.sets.length, ∀ C1, g.lr1Closure f fuel (lr1Kernel l.las (t.kernel i)) = .ok C1 → RootEnd g C1 →
      ∀ x ∈ C1, (g.body x.prod)[x.dot]? = none → x.prod ≠ g.root → Clash g start := by
    intro i hi C1 hC1 hre x hx hxn hxr
    obtain ⟨c0, k0, hc0, hki⟩ := hend i hi C1 hC1 hre
    obtain ⟨⟨c, hc, hxc⟩, _⟩ := S.carry hsep hnull hi hC1 hx
    have hlen := List.getElem?_eq_none_iff.mp hxn
    have hclo := S.lr0.clo i _ c hc (by simp)
    have hget : g.body x.prod ≠ [] ∨ (∃ B, x.prod ∈ g.prodsOf B) → ∃ p, g.prods[x.prod]? = some p ∧ g.body x.prod = p.body := by
      intro h
      cases hp : g.prods[x.prod]? with
      | some p => exact ⟨p, rfl, by simp [body, hp]⟩
      | none =>
        rcases h with h | ⟨B, h⟩
        · exact absurd (by simp [body, hp]) h
        · obtain ⟨p, hp', _⟩ := mem_prodsOf.mp h
          rw [hp] at hp'; cases hp'
    have hone : ∀ z ∈ t.kernel i, z.dot = 1 ∧ (g.body z.prod)[0]? = some start := by
      intro z hk
      rw [hki] at hk
      obtain ⟨y, hy, hyb, e⟩ := mem_advance.mp hk
      obtain ⟨z1, z2, z3⟩ := z
      simp only [Item.mk.injEq] at e
      have hyd : y.dot = 0 := by
        have hk0 : k0 = [⟨g.root, 0, cNullSymbol⟩] := by
          obtain ⟨c', hc'⟩ := S.lr0.zero
          rw [hc0] at hc'; cases hc'; rfl
        rcases (lr0Closure_spec (S.lr0.clo 0 k0 c0 hc0 (by simp))).2.1 y hy with h | h
        · rw [hk0] at h; simp only [List.mem_singleton] at h; rw [h]
        · exact h.1
      rw [← e.1, hyd] at hyb
      exact ⟨by simp only; omega, hyb⟩
    have hmemp : ∀ q B (n : Nat), (g.body q)[n]? = some B → ∃ p ∈ g.prods, p.body = g.body q := by
      intro q B n hB
      unfold body at hB ⊢
      cases hgp : g.prods[q]? with
      | none => rw [hgp] at hB; simp at hB
      | some pr => exact ⟨pr, List.mem_of_getElem? hgp, rfl⟩
    have hahead : ∀ z ∈ c, z ∈ t.kernel i ∨ z.dot = 0 ∧ ∃ B, Ahead g start B ∧ z.prod ∈ g.prodsOf B := by
      obtain ⟨_, _, h3, _⟩ := closureLoop_spec hclo
      refine h3 _ (by simp) (fun z hz => .inl (by simpa using hz)) ?_
      intro z hz z' hz'
      obtain ⟨s, hs, hp, h0, _⟩ := mem_freshItems.mp hz'
      refine .inr ⟨h0, s, ?_, hp⟩
      rcases hz with hz | ⟨hd, B, hB, hpB⟩
      · obtain ⟨hd1, hst⟩ := hone z hz
        rw [hd1] at hs
        obtain ⟨p, hpm, hpb⟩ := hmemp _ _ _ hs
        rw [← hpb] at hs hst
        match hb : p.body, hs, hst with
        | a :: b :: r, hs, hst =>
          simp at hs hst
          subst hs; subst hst
          exact .here hpm hb
      · rw [hd] at hs
        obtain ⟨p, hp', hh⟩ := mem_prodsOf.mp hpB
        have hbb : g.body z.prod = p.body := by simp [body, hp']
        rw [hbb] at hs
        match hb : p.body, hs with
        | a :: r, hs =>
          simp at hs
          subst hs
          subst hh
          exact .left hB (List.mem_of_getElem? hp') hb
    rcases hahead _ hxc with hk | ⟨hd, B, hB, hpi⟩
    · obtain ⟨hd1, hyb⟩ := hone _ hk
      simp only at hd1 hyb
      obtain ⟨b1, b2⟩ := List.getElem?_eq_some_iff.mp hyb
      obtain ⟨p, hp, hpb⟩ := hget (.inl (by intro h; rw [h] at b1; simp at b1))
      refine .inr ⟨x.prod, p, hp, hxr, ?_⟩
      rw [← hpb]
      match hb : g.body x.prod, hlen, hyb with
      | [a], _, hyb => simpa using hyb
      | a :: b :: _, hlen, _ => rw [hd1] at hlen; simp at hlen
    · simp only at hd hpi
      obtain ⟨p, hp, hpb⟩ := hget (.inr ⟨B, hpi⟩)
      have hpB : p.head = B := by
        obtain ⟨p', hp', hh⟩ := mem_prodsOf.mp hpi
        rw [hp] at hp'; cases hp'; exact hh
      refine .inl ⟨p, List.mem_of_getElem? hp, ?_, by rw [hpB]; exact hB⟩
      rw [← hpb]
      rw [hd] at hlen
      exact List.length_eq_zero_iff.mp (by omega)
  have haccept : ∀ i < t.sets.length, ∀ C1, g.lr1Closure f fuel (lr1Kernel l.las (t.kernel i)) = .ok C1 → RootEnd g C1 →
      ∀ as, acts.lookup i = some as → as[tokenEnd]? = some (.flag true) := by
    intro i hi C1 hC1 hre as has
    rcases hacc with hacc | ⟨hno, hbe⟩
    rotate_left
    · refine setActions_flag ?_ ?_ ((hact i hi C1 hC1).2 as (lookup_mem has)) (.inr hre)
      · intro it _ hb
        have := List.mem_of_getElem? hb
        unfold body at this
        cases hp : g.prods[it.prod]? with
        | none => rw [hp] at this; cases this
        | some p => rw [hp] at this; exact hbe p (List.mem_of_getElem? hp) this
      · intro it hit hn hr _
        exact hno (hclash i hi C1 hC1 hre it hit hn hr)
    obtain ⟨i2, as2, hm2, hflag⟩ := hacc
    obtain ⟨s2, hs2, e2, hset2⟩ := T1 i2 as2 hm2
    obtain ⟨hi2, hC2⟩ := hspec s2 hs2
    rw [e2] at hi2 hC2
    have hj := setActions_spec hset2 (fun it h => h) (by
      intro k a ha
      have : a = .flag false := by
        rw [List.getElem?_replicate] at ha
        split at ha
        · cases ha; rfl
        · cases ha
      subst this; trivial) tokenEnd _ hflag
    obtain ⟨_, z, hz, hzr, hzn⟩ := hj
    obtain ⟨c0, k0, hc0, hk1⟩ := hend i hi C1 hC1 hre
    obtain ⟨c0', k0', hc0', hk2⟩ := hend i2 hi2 _ hC2 ⟨z, hz, hzr, hzn⟩
    rw [hc0] at hc0'
    cases hc0'
    obtain ⟨d, hd, _⟩ := S.lr0.get hi
    obtain ⟨d', hd', _⟩ := S.lr0.get hi2
    rw [hk1] at hd
    rw [hk2] at hd'
    have := S.lr0.inj i i2 _ d d' hd hd'
    subst this
    have h1 := (hact i hi C1 hC1).2 as (lookup_mem has)
    have h2 := (hact i hi C1 hC1).2 as2 hm2
    rw [h1] at h2
    cases h2
    exact hflag
  refine ⟨f, fun i x => i < t.sets.length ∧ ∃ C1, g.lr1Closure f fuel (lr1Kernel l.las (t.kernel i)) = .ok C1 ∧ x ∈ C1,
    ?_, S.self, S.closed, ?_, ?_, ?_, ?_⟩
  · -- the root
    obtain ⟨c, hc⟩ := S.lr0.zero
    have hlen : 0 < t.sets.length := (List.getElem?_eq_some_iff.mp hc).1
    have hk0 := LR0.kernel_eq hc
    cases hroot : g.rootSet t order with
    | none =>
      exfalso
      unfold rootSet at hroot
      rw [List.getLast?_eq_none_iff, List.filter_eq_nil_iff] at hroot
      refine hroot 0 ((hord 0).mpr hlen) ?_
      rw [hker, hk0]
      simp
    | some r =>
      have hr := hroot
      unfold rootSet at hr
      have := List.mem_of_getLast? hr
      simp only [List.mem_filter, List.any_eq_true, Bool.and_eq_true, beq_iff_eq, hker] at this
      obtain ⟨h1, it, h2, h3, h4⟩ := this
      obtain ⟨d, hd⟩ := LR0.kernel_of_mem h2
      have hr0 : r = 0 := by
        rcases S.lr0.pos r _ d hd with h | h
        · exact h
        · have := h it h2; omega
      subst hr0
      obtain ⟨C1, hC1⟩ := hC 0 hlen
      refine ⟨0, ?_, hlen, C1, hC1, (lr1Closure_spec hC1).1 _ (mem_lr1Kernel.mpr ⟨⟨g.root, 0, cNullSymbol⟩, by rw [hk0]; simp, tokenEnd, ?_, rfl⟩)⟩
      · show g.rootSet t (o.sets (t.sets.map (·.1))) = some 0
        rw [← horder]; exact hroot
      · exact S.root 0 hlen _ (by rw [hk0]; simp) rfl
  · -- closure
    intro i x ⟨hi, C1, hC1, hx⟩ B hB p hp b hb
    refine ⟨hi, C1, hC1, ?_⟩
    exact ((lr1Closure_spec hC1).2.2 x hx B hB (hsep.not_token hp)).2 _ (mem_freshItems.mpr ⟨B, hB, hp, rfl, hb⟩)
  · -- transitions
    intro i x ⟨hi, C1, hC1, hx⟩ X hX
    obtain ⟨⟨c, hc, hxc⟩, hla⟩ := S.carry hsep hnull hi hC1 hx
    have hsym : g.isToken X = true ∨ g.prodsOf X ≠ [] := by
      cases e : g.isToken X with
      | true => exact .inl rfl
      | false => exact .inr ((lr1Closure_spec hC1).2.2 x hx X hX e).1
    have hXs : X ∈ g.terminals ++ o.nts := by
      rcases hsym with e | e
      · exact List.mem_append_left _ (by simpa [isToken] using e)
      · obtain ⟨p, hp⟩ := List.exists_mem_of_ne_nil _ e
        obtain ⟨q, hq, rfl⟩ := mem_prodsOf.mp hp
        exact List.mem_append_right _ (ho.nts q (List.mem_of_getElem? hq))
    have hadv : (⟨x.prod, x.dot + 1, cNullSymbol⟩ : Item) ∈ g.advance c X := mem_advance.mpr ⟨_, hxc, hX, rfl⟩
    obtain ⟨j0, hj0⟩ := S.total i _ c hc (by simp) X hXs (List.ne_nil_of_mem hadv)
    have hlk : ∃ j, t.goTo.lookup (i, X) = some j := by
      cases e : t.goTo.lookup (i, X) with
      | some j => exact ⟨j, rfl⟩
      | none =>
        exfalso
        rw [List.lookup_eq_none_iff] at e
        have := e _ hj0
        simp at this
    obtain ⟨j, hj⟩ := hlk
    obtain ⟨_, ker, c1, c2, g1, g2⟩ := S.lr0.goes i X j (lookup_mem hj)
    rw [hc] at g1
    cases g1
    have hjlen : j < t.sets.length := (List.getElem?_eq_some_iff.mp g2).1
    have hkj := LR0.kernel_eq g2
    have hxj : (⟨x.prod, x.dot + 1, cNullSymbol⟩ : Item) ∈ t.kernel j := by rw [hkj]; exact hadv
    obtain ⟨C2, hC2⟩ := hC j hjlen
    obtain ⟨⟨as, has⟩, hset⟩ := hact i hi C1 hC1
    refine ⟨as, j, has, ?_, hjlen, C2, hC2, (lr1Closure_spec hC2).1 _ (mem_lr1Kernel.mpr ⟨_, hxj, x.la, hla j hjlen hxj, rfl⟩)⟩
    have hnext : nextSet t sets i X = some j := by
      unfold nextSet
      rw [hj]
      simp only
      rw [if_pos]
      obtain ⟨s, hs, e⟩ := hall j hjlen
      exact List.any_eq_true.mpr ⟨s, hs, by simp [e]⟩
    rcases (setActions_sets (fun it h => h) (hset as (lookup_mem has)) x hx).1 X hX hsym with hh | hh
    · rw [hnext] at hh; exact .inl hh
    · exact .inr hh.1
  · -- reductions
    intro i x ⟨hi, C1, hC1, hx⟩ hn hr
    obtain ⟨⟨as, has⟩, hset⟩ := hact i hi C1 hC1
    refine ⟨as, has, ?_⟩
    rcases (setActions_sets (fun it h => h) (hset as (lookup_mem has)) x hx).2 hn hr with hh | hh
    · exact .inl hh
    · refine .inr ⟨hh.1, ?_, hclash i hi C1 hC1 hh.2 x hx hn hr⟩
      rw [hh.1]
      exact haccept i hi C1 hC1 hh.2 as has
  · -- accept
    intro i x ⟨hi, C1, hC1, hx⟩ hn hr
    obtain ⟨⟨as, has⟩, hset⟩ := hact i hi C1 hC1
    exact ⟨as, has, haccept i hi C1 hC1 ⟨x, hx, hr, hn⟩ as has⟩

end Grammar
end LogSurgeon
