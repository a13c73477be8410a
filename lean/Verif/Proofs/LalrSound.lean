import Verif.Proofs.Lalr
/-
Soundness of the LALR(1) parser: actions, stacks, derivation trees.
-/
namespace LogSurgeon
namespace Grammar
variable {g : Grammar}

/-! ### LR(1) item sets and actions -/

theorem mem_lr1Kernel {las : List (Item × List Nat)} {ker : List Item} {x : Item} :
    x ∈ lr1Kernel las ker ↔ ∃ it ∈ ker, ∃ l ∈ mget las it, x = ⟨it.prod, it.dot, l⟩ := by
  have inner : ∀ (it : Item) (ls : List Nat) (k : List Item),
      x ∈ ls.foldl (fun k l => sInsert Item.lt ⟨it.prod, it.dot, l⟩ k) k ↔ x ∈ k ∨ ∃ l ∈ ls, x = ⟨it.prod, it.dot, l⟩ := by
    intro it ls
    induction ls with
    | nil => simp
    | cons l ls ih => intro k; simp only [List.foldl_cons, ih, mem_insertItem, List.mem_cons, exists_eq_or_imp]; tauto
  have outer : ∀ (its k : List Item),
      x ∈ its.foldl (fun k it => (mget las it).foldl (fun k l => sInsert Item.lt ⟨it.prod, it.dot, l⟩ k) k) k ↔
      x ∈ k ∨ ∃ it ∈ its, ∃ l ∈ mget las it, x = ⟨it.prod, it.dot, l⟩ := by
    intro its
    induction its with
    | nil => simp
    | cons it its ih => intro k; simp only [List.foldl_cons, ih, inner, List.mem_cons, exists_eq_or_imp, or_assoc]
  rw [lr1Kernel, outer]; simp

/-- Kernel of the `i`-th LR(0) item set. -/
def LR0.kernel (t : LR0) (i : Nat) : List Item := (t.sets[i]?.map (·.1)).getD []

theorem LR0.kernel_eq {t : LR0} {i : Nat} {ker c} (h : t.sets[i]? = some (ker, c)) : t.kernel i = ker := by
  simp [LR0.kernel, h]

theorem LR0.kernel_of_mem {t : LR0} {i : Nat} {it : Item} (h : it ∈ t.kernel i) : ∃ c, t.sets[i]? = some (t.kernel i, c) := by
  unfold LR0.kernel at h ⊢
  cases hs : t.sets[i]? with
  | none => rw [hs] at h; cases h
  | some x => exact ⟨x.2, rfl⟩

/-- What `lr1Sets` makes. -/
theorem lr1Sets_spec {f : Firsts} {fuel : Nat} {t : LR0} {las : List (Item × List Nat)} :
    ∀ {order : List Nat} {acc sets : List LR1Set}, lr1Sets g f fuel t las order acc = .ok sets →
    ∀ s ∈ sets, s ∈ acc ∨ s.index ∈ order ∧ s.kernel = lr1Kernel las (t.kernel s.index) ∧
      g.lr1Closure f fuel s.kernel = .ok s.closure := by
  intro order
  induction order with
  | nil => intro acc sets h s hs; simp only [lr1Sets, Except.ok.injEq] at h; subst h; exact .inl hs
  | cons i order ih =>
    intro acc sets h s hs
    simp only [lr1Sets] at h
    split at h
    · cases h
    · rename_i clo hclo
      rcases ih h s hs with hs | ⟨h1, h2, h3⟩
      · rcases List.mem_cons.mp hs with rfl | hs
        · exact .inr ⟨by simp, rfl, hclo⟩
        · exact .inl (List.mem_filter.mp hs).1
      · exact .inr ⟨by simp [h1], h2, h3⟩

/-- Why an action is in the table. -/
def Justified (g : Grammar) (next : Nat → Option Nat) (its : List Item) (s : Nat) : Action → Prop
  | .flag false => True
  | .flag true => s = tokenEnd ∧ ∃ it ∈ its, it.prod = g.root ∧ (g.body it.prod)[it.dot]? = none
  | .shift x => x = next s ∧ ∃ it ∈ its, (g.body it.prod)[it.dot]? = some s
  | .reduce p => p ≠ g.root ∧ ∃ it ∈ its, it.prod = p ∧ it.la = s ∧ (g.body it.prod)[it.dot]? = none

theorem Justified.mono {next its its'} {s : Nat} {a : Action} (h : g.Justified next its s a)
    (hs : ∀ it ∈ its, it ∈ its') : g.Justified next its' s a := by
  cases a with
  | flag b =>
    cases b with
    | false => trivial
    | true => obtain ⟨h1, it, h2, h3⟩ := h; exact ⟨h1, it, hs it h2, h3⟩
  | shift x => obtain ⟨h1, it, h2, h3⟩ := h; exact ⟨h1, it, hs it h2, h3⟩
  | reduce p => obtain ⟨h1, it, h2, h3⟩ := h; exact ⟨h1, it, hs it h2, h3⟩

theorem setAction_spec {next : Nat → Option Nat} {acts acts' : List Action} {it : Item} {its : List Item}
    (h : g.setAction next acts it = .ok acts') (hit : it ∈ its)
    (hj : ∀ (s : Nat) a, acts[s]? = some a → g.Justified next its s a) :
    ∀ (s : Nat) a, acts'[s]? = some a → g.Justified next its s a := by
  have put : ∀ (k : Nat) (x : Action), g.Justified next its k x →
      ∀ (s : Nat) a, (acts.set k x)[s]? = some a → g.Justified next its s a := by
    intro k x hx s a ha
    by_cases hs : s = k
    · subst hs
      rw [List.getElem?_set] at ha
      simp only [if_true] at ha
      split at ha
      · cases ha; exact hx
      · cases ha
    · rw [List.getElem?_set_ne (Ne.symm hs)] at ha
      exact hj s a ha
  unfold setAction at h
  split at h
  · rename_i s0 hb
    split at h
    · cases h; exact hj
    · split at h
      · cases h
      · cases h; exact put s0 _ ⟨rfl, it, hit, hb⟩
      · split at h
        · cases h; exact hj
        · cases h
      · cases h
  · rename_i hb
    split at h
    · rename_i hr
      split at h
      · cases h; exact put tokenEnd _ ⟨rfl, it, hit, hr, hb⟩
      · cases h
    · rename_i hr
      split at h
      · cases h
      · cases h; exact put it.la _ ⟨hr, it, hit, rfl, rfl, hb⟩
      · cases h

theorem setActions_spec {next : Nat → Option Nat} {all : List Item} : ∀ {its : List Item} {acts acts' : List Action},
    g.setActions next its acts = .ok acts' → (∀ it ∈ its, it ∈ all) →
    (∀ (s : Nat) a, acts[s]? = some a → g.Justified next all s a) →
    ∀ (s : Nat) a, acts'[s]? = some a → g.Justified next all s a := by
  intro its
  induction its with
  | nil => intro acts acts' h _ hj; simp only [setActions, Except.ok.injEq] at h; subst h; exact hj
  | cons it its ih =>
    intro acts acts' h hs hj
    simp only [setActions] at h
    split at h
    · cases h
    · rename_i acts1 h1
      exact ih h (fun x hx => hs x (by simp [hx])) (setAction_spec h1 (hs it (by simp)) hj)

theorem actionTable_spec {t : LR0} {sets : List LR1Set} : ∀ {ss : List LR1Set} {tab : List (Nat × List Action)},
    g.actionTable t sets ss = .ok tab → ∀ i acts, (i, acts) ∈ tab →
    ∃ s ∈ ss, s.index = i ∧ ∀ (k : Nat) a, acts[k]? = some a → g.Justified (nextSet t sets i) s.closure k a := by
  intro ss
  induction ss with
  | nil => intro tab h i acts hm; simp only [actionTable, Except.ok.injEq] at h; subst h; cases hm
  | cons s ss ih =>
    intro tab h i acts hm
    simp only [actionTable] at h
    split at h
    · cases h
    · rename_i acts1 h1
      split at h
      · cases h
      · rename_i rest hr
        cases h
        rcases List.mem_cons.mp hm with hm | hm
        · cases hm
          refine ⟨s, by simp, rfl, setActions_spec h1 (fun it h => h) ?_⟩
          intro k a ha
          have : a = .flag false := by
            rw [List.getElem?_replicate] at ha
            split at ha
            · cases ha; rfl
            · cases ha
          subst this; trivial
        · obtain ⟨s', hs', e⟩ := ih hr i acts hm
          exact ⟨s', by simp [hs'], e⟩

theorem lookup_mem {α β} [BEq α] [LawfulBEq α] {l : List (α × β)} {k : α} {v : β} (h : l.lookup k = some v) : (k, v) ∈ l := by
  induction l with
  | nil => cases h
  | cons p l ih =>
    obtain ⟨a, b⟩ := p
    simp only [List.lookup] at h
    split at h
    · rename_i he
      cases h
      rw [eq_of_beq he]; simp
    · exact List.mem_cons_of_mem _ (ih h)

/-- What soundness needs to know about the generated tables. -/
structure TableOk (g : Grammar) (t : LR0) (tb : Table) : Prop where
  lr0 : ∃ fuel, LR0Inv g fuel [] t
  root : ∀ r, tb.root = some r → ∃ it ∈ t.kernel r, it.prod = g.root ∧ it.dot = 0
  acts : ∀ i acts, tb.actions.lookup i = some acts → ∀ (s : Nat) a, acts[s]? = some a →
    match a with
    | .flag false => True
    | .flag true => s = tokenEnd ∧ ∃ it ∈ t.kernel i, it.prod = g.root ∧ (g.body it.prod).length ≤ it.dot
    | .shift x => ∀ j, x = some j → t.goTo.lookup (i, s) = some j
    | .reduce p => p < g.prods.length ∧ (g.body p = [] ∨ ∃ it ∈ t.kernel i, it.prod = p ∧ (g.body p).length ≤ it.dot)

theorem generate_ok {o : Orders} {fuel : Nat} {tb : Table} (h : g.generate o fuel = .ok tb)
    (hroot : g.body g.root ≠ []) : ∃ t, g.lr0Sets o fuel = .ok t ∧ TableOk g t tb := by
  unfold generate at h
  split at h
  · cases h
  split at h
  · cases h
  rename_i t ht
  split at h
  · cases h
  rename_i f hf
  simp only at h
  split at h
  · cases h
  rename_i m hm
  split at h
  · cases h
  rename_i l hl
  split at h
  · cases h
  rename_i sets hsets
  split at h
  · cases h
  rename_i acts hacts
  cases h
  refine ⟨t, ht, ⟨fuel, (lr0Sets_spec ht).1⟩, ?_, ?_⟩
  · intro r hr
    have := List.mem_of_getLast? hr
    simp only [List.mem_filter, List.any_eq_true, Bool.and_eq_true, beq_iff_eq] at this
    obtain ⟨_, it, h1, h2⟩ := this
    exact ⟨it, h1, h2⟩
  · intro i as hlk s a ha
    obtain ⟨st, hst, hi, hj⟩ := actionTable_spec hacts i as (lookup_mem hlk)
    have hj := hj s a ha
    obtain ⟨h1, h2, h3⟩ := (lr1Sets_spec hsets st hst).resolve_left (by simp)
    obtain ⟨c1, c2, _⟩ := lr1Closure_spec h3
    subst hi
    have core : ∀ it ∈ st.closure, 1 ≤ it.dot → ∃ x ∈ t.kernel st.index, x.prod = it.prod ∧ x.dot = it.dot := by
      intro it hit hd
      rcases c2 it hit with hk | ⟨h0, _⟩
      · rw [h2] at hk
        obtain ⟨x, hx, l, _, rfl⟩ := mem_lr1Kernel.mp hk
        exact ⟨x, hx, rfl, rfl⟩
      · omega
    have fin : ∀ it ∈ st.closure, (g.body it.prod)[it.dot]? = none →
        g.body it.prod = [] ∨ ∃ x ∈ t.kernel st.index, x.prod = it.prod ∧ (g.body it.prod).length ≤ x.dot := by
      intro it hit hn
      have hle := List.getElem?_eq_none_iff.mp hn
      rcases Nat.eq_zero_or_pos it.dot with h0 | h0
      · exact .inl (List.length_eq_zero_iff.mp (by omega))
      · obtain ⟨x, hx, e1, e2⟩ := core it hit h0
        exact .inr ⟨x, hx, e1, by omega⟩
    cases a with
    | flag b =>
      cases b with
      | false => trivial
      | true =>
        obtain ⟨e, it, hit, hp, hn⟩ := hj
        refine ⟨e, ?_⟩
        rcases fin it hit hn with h0 | ⟨x, hx, e1, e2⟩
        · rw [hp] at h0; exact absurd h0 hroot
        · exact ⟨x, hx, e1.trans hp, by rw [e1]; exact e2⟩
    | shift x =>
      intro j hxj
      simp only [Justified] at hj
      rw [hj.1] at hxj
      unfold nextSet at hxj
      split at hxj
      · cases hxj
      · rename_i j' hlk'
        split at hxj
        · cases hxj; exact hlk'
        · cases hxj
    | reduce p =>
      obtain ⟨hroot', it, hit, hp, _, hn⟩ := hj
      subst hp
      refine ⟨?_, ?_⟩
      · rcases c2 it hit with hk | ⟨_, q, s', _, hpi⟩
        · rw [h2] at hk
          obtain ⟨x, hx, l, _, rfl⟩ := mem_lr1Kernel.mp hk
          have hI := (lr0Sets_spec ht).1
          obtain ⟨c, hc⟩ := LR0.kernel_of_mem hx
          rcases hI.pos _ _ c hc with h0 | h0
          · obtain ⟨c0, hc0⟩ := hI.zero
            rw [h0, LR0.kernel_eq hc0] at hx
            simp only [List.mem_singleton] at hx
            subst hx
            exact absurd rfl hroot'
          · have v1 := h0 x hx
            have v2 := (hI.valid _ _ c hc x hx).1
            show x.prod < g.prods.length
            refine Decidable.byContradiction fun hlt => ?_
            have : g.body x.prod = [] := by simp [body, List.getElem?_eq_none (Nat.le_of_not_lt hlt)]
            rw [this] at v2
            simp at v2
            omega
        · obtain ⟨p', hp', _⟩ := mem_prodsOf.mp hpi
          exact (List.getElem?_eq_some_iff.mp hp').1
      rcases fin it hit hn with h0 | ⟨x, hx, e1, e2⟩
      · exact .inl h0
      · exact .inr ⟨x, hx, e1, e2⟩

/-! ### The stacks -/

/-- The symbols the states on the stack stand for (tops first). -/
inductive StackOk (t : LR0) (r : Nat) : List (Option Nat) → List Nat → Prop
  | root : StackOk t r [some r] []
  | push {q qs xs s j} : StackOk t r (some q :: qs) xs → t.goTo.lookup (q, s) = some j →
      StackOk t r (some j :: some q :: qs) (s :: xs)
  | null {q qs xs s} : StackOk t r (some q :: qs) xs → StackOk t r (none :: some q :: qs) (s :: xs)

/-- What is before the dot lies on top of the stack. -/
theorem StackOk.items {t : LR0} {fuel : Nat} (hI : LR0Inv g fuel [] t) {r : Nat} {it0 : Item} (hr : it0 ∈ t.kernel r) (hd : it0.dot = 0) :
    ∀ {qs xs}, StackOk t r qs xs → ∀ q qs', qs = some q :: qs' → ∀ it ∈ t.kernel q,
      ((g.body it.prod).take it.dot).reverse <+: xs := by
  have hr0 : r = 0 := by
    obtain ⟨c, hc⟩ := LR0.kernel_of_mem hr
    rcases hI.pos r _ c hc with h | h
    · exact h
    · have := h it0 hr; omega
  have clo_pre : ∀ {q : Nat} {ker c : List Item} {xs : List Nat}, t.sets[q]? = some (ker, c) →
      (∀ it ∈ t.kernel q, ((g.body it.prod).take it.dot).reverse <+: xs) →
      ∀ it ∈ c, ((g.body it.prod).take it.dot).reverse <+: xs := by
    intro q ker c xs hq hk it hit
    rcases (lr0Closure_spec (hI.clo q ker c hq (by simp))).2.1 it hit with h | ⟨h, _⟩
    · exact hk it (by rw [LR0.kernel_eq hq]; exact h)
    · rw [h]; simp
  intro qs xs h
  induction h with
  | root =>
    intro q qs' he it hit
    cases he
    subst hr0
    obtain ⟨c, hc⟩ := hI.zero
    rw [LR0.kernel_eq hc] at hit
    simp only [List.mem_singleton] at hit
    subst hit
    simp
  | @push q qs xs s j h hlk ih =>
    intro q' qs' he it hit
    cases he
    obtain ⟨_, ker, c, c', h1, h2⟩ := hI.goes q s j (lookup_mem hlk)
    rw [LR0.kernel_eq h2] at hit
    obtain ⟨x, hx, hb, rfl⟩ := mem_advance.mp hit
    obtain ⟨hlen, hget⟩ := List.getElem?_eq_some_iff.mp hb
    simp only
    rw [List.take_add_one, hb, List.reverse_append]
    simp only [Option.toList_some, List.reverse_singleton, List.singleton_append]
    exact List.cons_prefix_cons.mpr ⟨rfl, clo_pre h1 (ih q qs rfl) x hx⟩
  | null h ih => intro q qs' he; cases he

theorem StackOk.drop {t : LR0} {r : Nat} : ∀ {n : Nat} {qs xs}, StackOk t r qs xs → n ≤ xs.length →
    (∀ q qs', qs = some q :: qs' → StackOk t r (qs.drop n) (xs.drop n) ∧ ∃ q qs', qs.drop n = some q :: qs') := by
  intro n
  induction n with
  | zero => intro qs xs h _ q qs' he; exact ⟨h, q, qs', he⟩
  | succ n ih =>
    intro qs xs h hn q qs' he
    cases h with
    | root => simp at hn
    | @push q1 qs1 xs1 s j h hlk =>
      simp only [List.length_cons] at hn
      obtain ⟨h1, h2⟩ := ih h (by omega) q1 qs1 rfl
      exact ⟨h1, h2⟩
    | null h => cases he

theorem StackOk.length {t : LR0} {r : Nat} {qs xs} (h : StackOk t r qs xs) : qs.length = xs.length + 1 := by
  induction h with
  | root => rfl
  | push _ _ ih => simpa using ih
  | null _ ih => simpa using ih

/-! ### Trees -/

/-- Derivations with symbol ids. -/
inductive Forest (g : Grammar) : List Nat → List Tree → List Token → Prop
  | nil : Forest g [] [] []
  | tok {t s ss ts w tys} : t.types = some tys → s ∈ tys → Forest g ss ts w → Forest g (s :: ss) (.leaf t :: ts) (t :: w)
  | prod {i p cs ss ts w w'} : g.prods[i]? = some p → Forest g p.body cs w → Forest g ss ts w' →
      Forest g (p.head :: ss) (.node i cs :: ts) (w ++ w')

theorem Forest.append {ss ss' ts ts' w w'} (h : Forest g ss ts w) (h' : Forest g ss' ts' w') :
    Forest g (ss ++ ss') (ts ++ ts') (w ++ w') := by
  induction h with
  | nil => exact h'
  | tok a b _ ih => exact .tok a b ih
  | prod a b _ _ ih => rw [List.append_assoc]; exact .prod a b ih

theorem Forest.length {ss ts w} (h : Forest g ss ts w) : ss.length = ts.length := by
  induction h with
  | nil => rfl
  | tok _ _ _ ih => simpa using ih
  | prod _ _ _ _ ih => simpa using ih

theorem Forest.split {n : Nat} : ∀ {ss ts w}, Forest g ss ts w → ∃ w1 w2, w = w1 ++ w2 ∧ Forest g (ss.take n) (ts.take n) w1 ∧
    Forest g (ss.drop n) (ts.drop n) w2 := by
  induction n with
  | zero => intro ss ts w h; exact ⟨[], w, rfl, .nil, h⟩
  | succ n ih =>
    intro ss ts w h
    cases h with
    | nil => exact ⟨[], [], rfl, .nil, .nil⟩
    | tok a b h =>
      obtain ⟨w1, w2, rfl, h1, h2⟩ := ih h
      exact ⟨_ :: w1, w2, rfl, .tok a b h1, h2⟩
    | prod a b h =>
      obtain ⟨w1, w2, rfl, h1, h2⟩ := ih h
      exact ⟨_ ++ w1, w2, by simp, .prod a b h1, h2⟩

/-- The parser's state in the middle of an input: the matched trees are a forest over the tokens consumed so far. -/
structure ParseInv (g : Grammar) (t : LR0) (r : Nat) (used : List Token) (s : PState) : Prop where
  stacks : ∃ xs, StackOk t r s.states xs ∧ Forest g xs.reverse s.matched.reverse used

theorem reduce_spec {t : LR0} {tb : Table} (hT : TableOk g t tb) {r : Nat} (hr : tb.root = some r) {resets : Nat → Bool} {used : List Token}
    {s s' : PState} (h : ParseInv g t r used s) {tok : Token} {p q : Nat} {qs : List (Option Nat)} (hq : s.states = some q :: qs)
    (hp : g.body p = [] ∨ ∃ it ∈ t.kernel q, it.prod = p ∧ (g.body p).length ≤ it.dot) (hpp : p < g.prods.length)
    (he : g.reduce tb resets s tok p = .ok s') : ParseInv g t r used s' ∧ s'.next = some tok := by
  obtain ⟨fuel, hI⟩ := hT.lr0
  obtain ⟨it0, hit0, _, hd0⟩ := hT.root r hr
  obtain ⟨xs, hst, hfo⟩ := h.stacks
  -- the body is on top of the stack
  have hpre : (g.body p).reverse <+: xs := by
    rcases hp with h0 | ⟨it, hit, rfl, hle⟩
    · rw [h0]; simp
    · have := hst.items hI hit0 hd0 q qs hq it hit
      rwa [List.take_of_length_le hle] at this
  obtain ⟨xs', hxs⟩ := hpre
  unfold reduce at he
  simp only at he
  split at he
  · cases he
  rename_i hlen
  have hn : (g.body p).length ≤ xs.length := by rw [← hxs]; simp
  obtain ⟨hdrop, q1, qs1, hdq⟩ := hst.drop hn q qs hq
  rw [hdq] at he
  simp only at he
  split at he
  · cases he
  rename_i acts hacts
  split at he
  · cases he
  · rename_i q' hq'
    cases he
    have hsh := hT.acts q1 acts hacts _ _ hq'
    simp only at hsh
    refine ⟨⟨g.head p :: xs.drop (g.body p).length, ?_, ?_⟩, rfl⟩
    · rw [hdq] at hdrop
      cases q' with
      | none => exact .null hdrop
      | some j => exact .push hdrop (hsh j rfl)
    · have hml : s.matched.length = xs.length := by have := hfo.length; simpa using this.symm
      obtain ⟨w1, w2, rfl, f1, f2⟩ := hfo.split (n := xs.length - (g.body p).length)
      have e1 : xs.reverse.take (xs.length - (g.body p).length) = (xs.drop (g.body p).length).reverse := by
        rw [List.reverse_drop]
      have e2 : s.matched.reverse.take (xs.length - (g.body p).length) = (s.matched.drop (g.body p).length).reverse := by
        rw [List.reverse_drop, hml]
      have e3 : xs.reverse.drop (xs.length - (g.body p).length) = g.body p := by
        rw [← hxs]; simp
      have e4 : s.matched.reverse.drop (xs.length - (g.body p).length) = (s.matched.take (g.body p).length).reverse := by
        rw [List.reverse_take, hml]
      rw [e1, e2] at f1
      rw [e3, e4] at f2
      have hget : g.prods[p]? = some g.prods[p] := List.getElem?_eq_getElem hpp
      have hb : g.body p = g.prods[p].body := by simp [body, hget]
      have hh : g.head p = g.prods[p].head := by simp [head, hget]
      simp only [List.reverse_cons]
      refine f1.append ?_
      have := Forest.prod hget (by rw [← hb]; exact f2) .nil
      rw [hh]
      simpa using this
  · cases he

/-- The start symbol's production has a head that occurs nowhere else. -/
structure RootOk (g : Grammar) (start : Nat) : Prop where
  prod : ∃ h, g.prods[g.root]? = some ⟨h, [start]⟩ ∧ (∀ p ∈ g.prods, h ∉ p.body)

theorem accept_spec {t : LR0} {tb : Table} (hT : TableOk g t tb) {r start : Nat} (hr : tb.root = some r) (hR : RootOk g start)
    {qs xs} (h : StackOk t r qs xs) {q : Nat} {qs' : List (Option Nat)} (hq : qs = some q :: qs')
    (hi : ∃ it ∈ t.kernel q, it.prod = g.root ∧ (g.body it.prod).length ≤ it.dot) : xs = [start] := by
  obtain ⟨fuel, hI⟩ := hT.lr0
  obtain ⟨it0, hit0, _, hd0⟩ := hT.root r hr
  obtain ⟨h0, hprod, hocc⟩ := hR.prod
  have hbody : g.body g.root = [start] := by simp [body, hprod]
  have hr0 : r = 0 := by
    obtain ⟨c, hc⟩ := LR0.kernel_of_mem hit0
    rcases hI.pos r _ c hc with h | h
    · exact h
    · have := h it0 hit0; omega
  obtain ⟨it, hit, hp, hle⟩ := hi
  have hpre := h.items hI hit0 hd0 q qs' hq it hit
  rw [List.take_of_length_le hle, hp, hbody] at hpre
  cases h with
  | root => simp at hpre
  | null h => cases hq
  | @push q1 qs1 xs1 s j h hlk =>
    cases hq
    simp only [List.reverse_singleton, List.cons_prefix_cons, List.nil_prefix, and_true] at hpre
    subst hpre
    -- the item before the transition
    obtain ⟨_, ker, c, c', h1, h2⟩ := hI.goes q1 start q (lookup_mem hlk)
    rw [LR0.kernel_eq h2] at hit
    obtain ⟨x, hx, hb, rfl⟩ := mem_advance.mp hit
    simp only at hp hle
    have hxd : x.dot = 0 := by
      rw [hp, hbody] at hb
      have := (List.getElem?_eq_some_iff.mp hb).1
      simpa using this
    -- it is in a kernel
    have hxk : x ∈ ker := by
      rcases (lr0Closure_spec (hI.clo q1 ker c h1 (by simp))).2.1 x hx with hk | ⟨_, p, i, hi, hpi⟩
      · exact hk
      · exfalso
        rw [hp] at hpi
        obtain ⟨p', hp', hh⟩ := mem_prodsOf.mp hpi
        rw [hprod] at hp'
        cases hp'
        subst hh
        unfold body at hi
        cases hgp : g.prods[p]? with
        | none => rw [hgp] at hi; cases hi
        | some pr =>
          rw [hgp] at hi
          exact hocc pr (List.mem_of_getElem? hgp) hi
    have hq0 : q1 = 0 := by
      rcases hI.pos q1 ker c h1 with h | h
      · exact h
      · have := h x hxk; omega
    subst hq0
    cases h with
    | root => rfl
    | @push q2 qs2 xs2 s2 j2 h' hlk' =>
      exfalso
      obtain ⟨_, ker2, c2, c2', g1, g2⟩ := hI.goes q2 s2 0 (lookup_mem hlk')
      rw [h1] at g2
      cases g2
      obtain ⟨y, _, _, rfl⟩ := mem_advance.mp hxk
      simp at hxd

/-- What a single step does. -/
theorem parseAdvance_spec {t : LR0} {tb : Table} (hT : TableOk g t tb) {r start : Nat} (hr : tb.root = some r) (hR : RootOk g start)
    {resets : Nat → Bool} {used : List Token} {s : PState} (h : ParseInv g t r used s) {tok : Token} {all : List Nat}
    (hty : tok.types = some all) : ∀ {tys : List Nat} {res : Sym}, (∀ ty ∈ tys, ty ∈ all) →
    g.parseAdvance tb resets s tok tys = .ok res →
    match res with
    | .no => True
    | .accepted => tokenEnd ∈ all ∧ ∀ xs, StackOk t r s.states xs → xs = [start]
    | .moved s' => (s'.next = s.next ∧ ParseInv g t r (used ++ [tok]) s') ∨ (s'.next = some tok ∧ ParseInv g t r used s') := by
  intro tys
  induction tys with
  | nil => intro res _ he; simp only [parseAdvance, Except.ok.injEq] at he; subst he; trivial
  | cons ty tys ih =>
    intro res hs he
    simp only [parseAdvance] at he
    cases hps : g.parseSymbol tb resets s tok ty with
    | error e => rw [hps] at he; cases he
    | ok r0 =>
      rw [hps] at he
      unfold parseSymbol at hps
      split at hps
      · rename_i q qs hq
        split at hps
        · cases hps
        rename_i acts hacts
        split at hps
        · cases hps
        · cases hps
          exact ih (fun x hx => hs x (by simp [hx])) he
        · rename_i ha
          cases hps
          cases he
          have hj := hT.acts q acts hacts ty _ ha
          exact ⟨hj.1 ▸ hs ty (by simp), fun xs hst => accept_spec hT hr hR hst hq hj.2⟩
        · rename_i q' ha
          cases hps
          cases he
          left
          refine ⟨rfl, ?_⟩
          obtain ⟨xs, hst, hfo⟩ := h.stacks
          have hj := hT.acts q acts hacts ty _ ha
          rw [hq] at hst
          refine ⟨ty :: xs, ?_, ?_⟩
          · show StackOk t r (q' :: s.states) (ty :: xs)
            rw [hq]
            cases q' with
            | none => exact .null hst
            | some j => exact .push hst (hj j rfl)
          · simp only [List.reverse_cons]
            exact hfo.append (.tok hty (hs ty (by simp)) .nil)
        · rename_i p ha
          split at hps
          · cases hps
          · rename_i s1 hs1
            cases hps
            cases he
            right
            have := reduce_spec hT hr h hq (hT.acts q acts hacts ty _ ha).2 (hT.acts q acts hacts ty _ ha).1 hs1
            exact ⟨this.2, this.1⟩
      · cases hps

theorem counters_append {resets : Nat → Bool} : ∀ (a b : List Tree) (k : Nat),
    Tree.counter.counters resets (a ++ b) k = (Tree.counter.counters resets a k).bind (Tree.counter.counters resets b)
  | [], b, k => by simp [Tree.counter.counters]
  | t :: a, b, k => by
    simp only [List.cons_append, Tree.counter.counters]
    cases t.counter resets k with
    | none => rfl
    | some k1 => exact counters_append a b k1

theorem resetKids_eq (resets : Nat → Bool) (p k : Nat) : resetKids resets p k = if resets p = true ∧ 5000 < k then 0 else k := by
  unfold resetKids
  have : (resets p && decide (k > cSizeOfAllChildren / 2)) = true ↔ resets p = true ∧ 5000 < k := by
    rw [Bool.and_eq_true, decide_eq_true_eq]; rfl
  by_cases h : resets p = true ∧ 5000 < k
  · rw [if_pos h, if_pos (this.mpr h)]
  · rw [if_neg h, if_neg (fun h' => h (this.mp h'))]

/-- A step keeps the counter of children in line with the trees on the stack. -/
theorem parseAdvance_counter {tb : Table} {resets : Nat → Bool} {s : PState} {tok : Token} {k0 : Nat}
    (h : Tree.counter.counters resets s.matched.reverse k0 = some s.kids) : ∀ {tys : List Nat} {s' : PState},
    g.parseAdvance tb resets s tok tys = .ok (.moved s') → Tree.counter.counters resets s'.matched.reverse k0 = some s'.kids := by
  intro tys
  induction tys with
  | nil => intro s' he; simp [parseAdvance] at he
  | cons ty tys ih =>
    intro s' he
    simp only [parseAdvance] at he
    cases hps : g.parseSymbol tb resets s tok ty with
    | error e => rw [hps] at he; cases he
    | ok r0 =>
      rw [hps] at he
      cases r0 with
      | no => exact ih he
      | accepted => cases he
      | moved s1 =>
        cases he
        unfold parseSymbol at hps
        split at hps
        · split at hps
          · cases hps
          split at hps
          · cases hps
          · cases hps
          · cases hps
          · cases hps
            simp only [List.reverse_cons, counters_append, h]
            simp [Tree.counter.counters, Tree.counter]
          · rename_i p ha
            split at hps
            · cases hps
            · rename_i s1 hs1
              cases hps
              unfold reduce at hs1
              simp only at hs1
              split at hs1
              · cases hs1
              rename_i hc
              simp only [Bool.or_eq_true, decide_eq_true_eq, not_or, Nat.not_lt] at hc
              obtain ⟨⟨c1, c2⟩, c3⟩ := hc
              split at hs1
              · split at hs1
                · cases hs1
                split at hs1
                · cases hs1
                · cases hs1
                  have e : s.matched.reverse = (s.matched.drop (g.body p).length).reverse ++ (s.matched.take (g.body p).length).reverse := by
                    rw [← List.reverse_append, List.take_append_drop]
                  rw [e, counters_append] at h
                  simp only [List.reverse_cons, counters_append]
                  cases hk : Tree.counter.counters resets (s.matched.drop (g.body p).length).reverse k0 with
                  | none => rw [hk] at h; cases h
                  | some k1 =>
                    rw [hk] at h
                    simp only [Option.bind_some] at h ⊢
                    have hl : (s.matched.take (g.body p).length).reverse.length = (g.body p).length := by simp [c2]
                    have c4 : ¬ (0 < (g.body p).length ∧ 10000 < s.kids + (g.body p).length) := c3
                    simp only [Tree.counter.counters, Tree.counter, h, hl, resetKids_eq]
                    rw [if_neg c4]
                · cases hs1
              · cases hs1
        · cases hps

theorem parseLoop_spec {t : LR0} {tb : Table} (hT : TableOk g t tb) {r start : Nat} (hr : tb.root = some r) (hR : RootOk g start)
    {resets : Nat → Bool} : ∀ {k : Nat} {used : List Token} {s : PState} {input : List Token} {tree rest kids}, ParseInv g t r used s →
    g.parseLoop tb resets k s input = .ok (tree, rest, kids) →
    ∃ used' e tys, s.next.toList ++ input = used' ++ e :: rest ∧ e.types = some tys ∧ tokenEnd ∈ tys ∧
      Forest g [start] [tree] (used ++ used') ∧
      ∀ k0, Tree.counter.counters resets s.matched.reverse k0 = some s.kids → tree.counter resets k0 = some kids := by
  intro k
  induction k with
  | zero => intro used s input tree rest kids _ he; simp [parseLoop] at he
  | succ k ih =>
    intro used s input tree rest kids h he
    simp only [parseLoop] at he
    split at he
    · cases he
    rename_i tok input' hnext
    have hin : s.next.toList ++ input = tok :: input' := by
      cases hn : s.next with
      | some t => rw [hn] at hnext; simp at hnext; simp [hnext]
      | none =>
        rw [hn] at hnext
        cases input with
        | nil => simp at hnext
        | cons a b => simp at hnext; simp [hnext]
    split at he
    · cases he
    rename_i tys hty
    have h' : ParseInv g t r used { s with next := none } := ⟨h.stacks⟩
    cases hadv : g.parseAdvance tb resets { s with next := none } tok tys with
    | error e => rw [hadv] at he; cases he
    | ok res =>
      have hsp := parseAdvance_spec hT hr hR h' hty (fun _ h => h) hadv
      rw [hadv] at he
      cases res with
      | no => cases he
      | accepted =>
        obtain ⟨hend, hall⟩ := hsp
        obtain ⟨xs, hst, hfo⟩ := h.stacks
        have hxx := hall xs hst
        subst hxx
        simp only at he
        split at he
        · cases he
        · cases he
        · rename_i t' ts _ hm
          cases he
          have hm' := hm
          refine ⟨[], tok, tys, hin, hty, hend, ?_⟩
          have hl := hfo.length
          rw [hm] at hl hfo
          simp only [List.reverse_cons, List.length_append, List.reverse_nil, List.nil_append, List.length_reverse] at hl hfo
          have : ts = [] := by simpa using hl
          subst this
          refine ⟨by simpa using hfo, fun k0 hk0 => ?_⟩
          rw [hm'] at hk0
          simp only [List.reverse_singleton, Tree.counter.counters] at hk0
          split at hk0
          · cases hk0
          · rename_i k1 e1
            rw [e1]; exact hk0
      | moved s1 =>
        simp only at he
        rcases hsp with ⟨hn, hinv⟩ | ⟨hn, hinv⟩
        · obtain ⟨used', e, tys', e1, e2, e3, e4, e5⟩ := ih hinv he
          refine ⟨tok :: used', e, tys', ?_, e2, e3, by simpa using e4, fun k0 hk0 => e5 k0 (parseAdvance_counter (by exact hk0) hadv)⟩
          simp only [hn, Option.toList_none, List.nil_append] at e1
          rw [hin, e1]; rfl
        · obtain ⟨used', e, tys', e1, e2, e3, e4, e5⟩ := ih hinv he
          refine ⟨used', e, tys', ?_, e2, e3, e4, fun k0 hk0 => e5 k0 (parseAdvance_counter (by exact hk0) hadv)⟩
          rw [hin, ← e1, hn]; rfl

end Grammar
end LogSurgeon
