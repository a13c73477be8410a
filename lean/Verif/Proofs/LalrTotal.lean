import Verif.Proofs.LalrFull
/-
The LALR(1) parser cannot get stuck: after a reduction there is a state to go to, and the number of steps is
bounded by the number of tokens if the productions lose weight.
-/
namespace LogSurgeon
namespace Grammar
variable {g : Grammar} {o : Orders} {fuel : Nat} {t : LR0} {f : Firsts} {las : List (Item × List Nat)}

/-- Every item of an LR(0) item set is in the LR(1) item set with some lookahead. -/
theorem Stages.core (S : Stages g o fuel t f las) (hsep : Separate g) (hlive : ∀ p ∈ g.prods, ∀ s ∈ p.body, Live f s)
    {i : Nat} {ker c : List Item} (hi : t.sets[i]? = some (ker, c)) (hne : ∀ k ∈ t.kernel i, ∃ l, l ∈ mget las k)
    {C1 : List Item} (hC1 : g.lr1Closure f fuel (lr1Kernel las (t.kernel i)) = .ok C1) :
    ∀ y ∈ c, ∃ la, (⟨y.prod, y.dot, la⟩ : Item) ∈ C1 := by
  have hbody : ∀ q, ∀ s ∈ g.body q, Live f s := by
    intro q s hs
    unfold body at hs
    cases hq : g.prods[q]? with
    | none => rw [hq] at hs; cases hs
    | some p =>
      rw [hq] at hs
      exact hlive p (List.mem_of_getElem? hq) s hs
  have hclo := S.lr0.clo i ker c hi (by simp)
  obtain ⟨_, _, h3, _⟩ := closureLoop_spec hclo
  refine h3 (fun y => ∃ la, (⟨y.prod, y.dot, la⟩ : Item) ∈ C1) (by simp) ?_ ?_
  · intro z hz
    have hz : z ∈ t.kernel i := by rw [LR0.kernel_eq hi]; simpa using hz
    obtain ⟨l, hl⟩ := hne z hz
    exact ⟨l, (lr1Closure_spec hC1).1 _ (mem_lr1Kernel.mpr ⟨z, hz, l, hl, rfl⟩)⟩
  · intro z ⟨la, hz⟩ x hx
    obtain ⟨B, hB, hp, hd, _⟩ := mem_freshItems.mp hx
    obtain ⟨l, hl⟩ := lookaheadsAfter_ne (f := f) (la := la) (ss := (g.body z.prod).drop (z.dot + 1))
      (fun s hs => hbody z.prod s (List.mem_of_mem_drop hs))
    have := ((lr1Closure_spec hC1).2.2 _ hz B hB (hsep.not_token hp)).2 ⟨x.prod, 0, l⟩
      (mem_freshItems.mpr ⟨B, hB, hp, rfl, hl⟩)
    exact ⟨l, by rw [hd]; exact this⟩

/-- What the parser needs to find in the tables. -/
structure Firm (g : Grammar) (t : LR0) (tb : Table) : Prop where
  root : ∃ r, tb.root = some r
  rows : ∀ i < t.sets.length, ∃ acts, tb.actions.lookup i = some acts
  shift : ∀ i acts, tb.actions.lookup i = some acts → ∀ (s : Nat) x, acts[s]? = some (.shift x) → ∃ j, x = some j
  item : ∀ i acts, tb.actions.lookup i = some acts → ∀ (s : Nat) j, acts[s]? = some (.shift (some j)) →
    ∃ ker c it, t.sets[i]? = some (ker, c) ∧ it ∈ c ∧ (g.body it.prod)[it.dot]? = some s
  next : ∀ (i : Nat) ker c, t.sets[i]? = some (ker, c) → ∀ x ∈ c, ∀ X, (g.body x.prod)[x.dot]? = some X → X ≠ tokenEnd →
    ∃ acts j, tb.actions.lookup i = some acts ∧ acts[X]? = some (.shift (some j))
  red : ∀ i acts, tb.actions.lookup i = some acts → ∀ (s : Nat) p, acts[s]? = some (.reduce p) → p ≠ g.root ∧
    ∃ ker c, t.sets[i]? = some (ker, c) ∧ ⟨p, (g.body p).length, cNullSymbol⟩ ∈ c

theorem generate_firm {tb : Table} (h : g.generate o fuel = .ok tb) (ho : o.Ok g) (hsep : Separate g) (hnull : cNullSymbol ∉ g.terminals)
    (hlive : ∀ f, (∀ a ∈ g.terminals, a ∈ mget f.firsts a) → (∀ p ∈ g.prods, f.Closed p) → ∀ p ∈ g.prods, ∀ s ∈ p.body, Live f s)
    (ht0 : g.lr0Sets o fuel = .ok t) : Firm g t tb := by
  unfold generate at h
  split at h
  · cases h
  rw [ht0] at h
  simp only at h
  split at h
  · cases h
  rename_i f hf
  split at h
  · cases h
  rename_i m hm
  split at h
  · cases h
  rename_i l hl
  split at h
  · cases h
  rename_i sets hsets
  split at h
  · cases h
  rename_i acts hacts
  cases h
  obtain ⟨order, horder⟩ : ∃ order, order = o.sets (t.sets.map (·.1)) := ⟨_, rfl⟩
  rw [← horder] at hm hl hsets
  have hord : ∀ i, i ∈ order ↔ i < t.sets.length := by
    intro i; rw [horder, ho.sets]; simp
  have hker : ∀ i, (t.sets[i]?.map (·.1)).getD [] = t.kernel i := fun _ => rfl
  have hitems : ∀ i < t.sets.length, ∀ k ∈ t.kernel i, k ∈ order.flatMap fun i => (t.sets[i]?.map (·.1)).getD [] := by
    intro i hi k hk
    exact List.mem_flatMap.mpr ⟨i, (hord i).mpr hi, hk⟩
  have S := stages ht0 hf hitems hm hl
  have hlive := hlive f S.self S.closed
  have hC : ∀ i < t.sets.length, ∃ C1, g.lr1Closure f fuel (lr1Kernel l.las (t.kernel i)) = .ok C1 :=
    fun i hi => lr1Sets_closures hsets i ((hord i).mpr hi)
  have hne : ∀ i < t.sets.length, ∀ k ∈ t.kernel i, ∃ x, x ∈ mget l.las k :=
    fun i hi => S.las_ne hsep hnull hlive hC (i + 1) i (by omega) hi
  have hall : ∀ i < t.sets.length, ∃ s ∈ sets, s.index = i := by
    intro i hi
    exact lr1Sets_complete (N := t.sets.length) (fun i hi j hj h => S.kernel_inj hne hi hj h) hsets
      (fun i hi => (hord i).mp hi) (by simp) i (.inl ((hord i).mpr hi))
  have hspec : ∀ s ∈ sets, s.index < t.sets.length ∧ g.lr1Closure f fuel (lr1Kernel l.las (t.kernel s.index)) = .ok s.closure := by
    intro s hs
    obtain ⟨h1, h2, h3⟩ := (lr1Sets_spec hsets s hs).resolve_left (by simp)
    rw [h2] at h3
    exact ⟨(hord _).mp h1, h3⟩
  obtain ⟨T1, T2⟩ := actionTable_eq hacts
  -- the target of a transition
  have hnext : ∀ i < t.sets.length, ∀ C1, g.lr1Closure f fuel (lr1Kernel l.las (t.kernel i)) = .ok C1 → ∀ x ∈ C1, ∀ X,
      (g.body x.prod)[x.dot]? = some X → (g.isToken X = true ∨ g.prodsOf X ≠ []) ∧ ∃ j, nextSet t sets i X = some j := by
    intro i hi C1 hC1 x hx X hX
    obtain ⟨⟨c, hc, hxc⟩, hla⟩ := S.carry hsep hnull hi hC1 hx
    have hsym : g.isToken X = true ∨ g.prodsOf X ≠ [] := by
      cases e : g.isToken X with
      | true => exact .inl rfl
      | false => exact .inr ((lr1Closure_spec hC1).2.2 x hx X hX e).1
    have hXs : X ∈ g.terminals ++ o.nts := by
      rcases hsym with e | e
      · exact List.mem_append_left _ (by simpa [isToken] using e)
      · obtain ⟨p, hp⟩ := List.exists_mem_of_ne_nil _ e
        obtain ⟨q, hq, rfl⟩ := mem_prodsOf.mp hp
        exact List.mem_append_right _ (ho.nts q (List.mem_of_getElem? hq))
    have hadv : (⟨x.prod, x.dot + 1, cNullSymbol⟩ : Item) ∈ g.advance c X := mem_advance.mpr ⟨_, hxc, hX, rfl⟩
    obtain ⟨j0, hj0⟩ := S.total i _ c hc (by simp) X hXs (List.ne_nil_of_mem hadv)
    have hlk : ∃ j, t.goTo.lookup (i, X) = some j := by
      cases e : t.goTo.lookup (i, X) with
      | some j => exact ⟨j, rfl⟩
      | none =>
        exfalso
        rw [List.lookup_eq_none_iff] at e
        have := e _ hj0
        simp at this
    obtain ⟨j, hj⟩ := hlk
    obtain ⟨_, ker, c1, c2, g1, g2⟩ := S.lr0.goes i X j (lookup_mem hj)
    have hjlen : j < t.sets.length := (List.getElem?_eq_some_iff.mp g2).1
    refine ⟨hsym, j, ?_⟩
    unfold nextSet
    rw [hj]
    simp only
    rw [if_pos]
    obtain ⟨s, hs, e⟩ := hall j hjlen
    exact List.any_eq_true.mpr ⟨s, hs, by simp [e]⟩
  -- why an entry is in the table
  have hjust : ∀ i as, acts.lookup i = some as → ∃ C1, i < t.sets.length ∧
      g.lr1Closure f fuel (lr1Kernel l.las (t.kernel i)) = .ok C1 ∧
      g.setActions (nextSet t sets i) C1 (List.replicate g.symbolId.length (.flag false)) = .ok as ∧
      ∀ (s : Nat) a, as[s]? = some a → g.Justified (nextSet t sets i) C1 s a := by
    intro i as has
    obtain ⟨s, hs, e, hset⟩ := T1 i as (lookup_mem has)
    obtain ⟨h1, h2⟩ := hspec s hs
    rw [e] at h1 h2
    refine ⟨s.closure, h1, h2, hset, setActions_spec hset (fun it h => h) ?_⟩
    intro k a ha
    have : a = .flag false := by
      rw [List.getElem?_replicate] at ha
      split at ha
      · cases ha; rfl
      · cases ha
    subst this; trivial
  refine ⟨?_, ?_, ?_, ?_, ?_, ?_⟩
  · obtain ⟨c, hc⟩ := S.lr0.zero
    have hlen : 0 < t.sets.length := (List.getElem?_eq_some_iff.mp hc).1
    have hk0 := LR0.kernel_eq hc
    show ∃ r, g.rootSet t (o.sets (t.sets.map (·.1))) = some r
    rw [← horder]
    cases hroot : g.rootSet t order with
    | some r => exact ⟨r, rfl⟩
    | none =>
      exfalso
      unfold rootSet at hroot
      rw [List.getLast?_eq_none_iff, List.filter_eq_nil_iff] at hroot
      refine hroot 0 ((hord 0).mpr hlen) ?_
      rw [hker, hk0]
      simp
  · intro i hi
    obtain ⟨s, hs, rfl⟩ := hall i hi
    exact T2 s hs
  · intro i as has s x hx
    obtain ⟨C1, h1, h2, _, h4⟩ := hjust i as has
    obtain ⟨e, it, hit, hb⟩ := h4 s _ hx
    obtain ⟨_, j, hj⟩ := hnext i h1 C1 h2 it hit s hb
    exact ⟨j, by rw [e, hj]⟩
  · intro i as has s j hx
    obtain ⟨C1, h1, h2, _, h4⟩ := hjust i as has
    obtain ⟨_, it, hit, hb⟩ := h4 s _ hx
    obtain ⟨c, hc, hm⟩ := (S.carry hsep hnull h1 h2 hit).1
    exact ⟨_, c, _, hc, hm, hb⟩
  · intro i ker c hi x hx X hX hne0
    have hil : i < t.sets.length := (List.getElem?_eq_some_iff.mp hi).1
    obtain ⟨s, hs, hsi⟩ := hall i hil
    obtain ⟨as, has⟩ := T2 s hs
    rw [hsi] at has
    obtain ⟨C1, h1, h2, h3, _⟩ := hjust i as has
    obtain ⟨la, hla⟩ := S.core hsep hlive hi (hne i hil) h2 x hx
    obtain ⟨hsym, j, hj⟩ := hnext i h1 C1 h2 _ hla X hX
    refine ⟨as, j, has, ?_⟩
    rcases (setActions_sets (fun it h => h) h3 _ hla).1 X hX hsym with hh | hh
    · rw [hj] at hh; exact hh
    · exact absurd hh.1 hne0
  · intro i as has s p hp
    obtain ⟨C1, h1, h2, _, h4⟩ := hjust i as has
    obtain ⟨hr, it, hit, rfl, _, hn⟩ := h4 s _ hp
    obtain ⟨c, hc, hm⟩ := (S.carry hsep hnull h1 h2 hit).1
    have hle := (lr0Closure_valid (S.lr0.clo i _ c hc (by simp)) (S.lr0.valid i _ c hc) _ hm).1
    have hge := List.getElem?_eq_none_iff.mp hn
    simp only at hle
    have hd : it.dot = (g.body it.prod).length := by omega
    exact ⟨hr, _, c, hc, by rw [← hd]; exact hm⟩

/-! ### Reductions -/

theorem StackOk.set {r : Nat} (hI : LR0Inv g fuel [] t) (hr : r = 0) {qs xs} (h : StackOk t r qs xs) {q : Nat} {qs' : List (Option Nat)}
    (hq : qs = some q :: qs') : q < t.sets.length := by
  cases h with
  | root =>
    cases hq
    obtain ⟨c, hc⟩ := hI.zero
    rw [hr]
    exact (List.getElem?_eq_some_iff.mp hc).1
  | push _ hlk =>
    cases hq
    obtain ⟨_, _, _, _, _, h2⟩ := hI.goes _ _ _ (lookup_mem hlk)
    exact (List.getElem?_eq_some_iff.mp h2).1
  | null _ => cases hq

/-- Below what is before the dot lies a state with the item at its beginning. -/
theorem StackOk.under {r : Nat} (hI : LR0Inv g fuel [] t) (hr : r = 0) : ∀ (d : Nat) {qs xs}, StackOk t r qs xs →
    ∀ q qs', qs = some q :: qs' → ∀ ker c, t.sets[q]? = some (ker, c) → ∀ p l, ⟨p, d, l⟩ ∈ c →
    ((g.body p).take d).reverse = xs.take d ∧ d ≤ xs.length ∧
    ∃ q1 qs1 ker1 c1, qs.drop d = some q1 :: qs1 ∧ StackOk t r (qs.drop d) (xs.drop d) ∧ t.sets[q1]? = some (ker1, c1) ∧ ⟨p, 0, l⟩ ∈ c1 := by
  intro d
  induction d with
  | zero => intro qs xs h q qs' hq ker c hc p l hm; exact ⟨by simp, by simp, q, qs', ker, c, hq, h, hc, hm⟩
  | succ d ih =>
    intro qs xs h q qs' hq ker c hc p l hm
    have hk : (⟨p, d + 1, l⟩ : Item) ∈ ker := by
      rcases (lr0Closure_spec (hI.clo q ker c hc (by simp))).2.1 _ hm with h | ⟨h, _⟩
      · exact h
      · simp at h
    cases h with
    | root =>
      cases hq
      exfalso
      obtain ⟨c0, hc0⟩ := hI.zero
      rw [hr, hc0] at hc
      cases hc
      simp at hk
    | null h => cases hq
    | @push q0 qs0 xs0 s j h hlk =>
      cases hq
      obtain ⟨_, ker0, c0, c', h1, h2⟩ := hI.goes q0 s q (lookup_mem hlk)
      rw [hc] at h2
      cases h2
      obtain ⟨x, hx, hb, e⟩ := mem_advance.mp hk
      obtain ⟨x1, x2, x3⟩ := x
      simp only [Item.mk.injEq, Nat.add_right_cancel_iff] at e
      obtain ⟨rfl, rfl, rfl⟩ := e
      have hx3 := (lr0Closure_valid (hI.clo q0 ker0 c0 h1 (by simp)) (hI.valid q0 ker0 c0 h1) _ hx).2
      simp only at hx3
      subst hx3
      obtain ⟨a1, a2, q1, qs1, ker1, c1, a3, a4, a5, a6⟩ := ih h q0 qs0 rfl ker0 c0 h1 _ _ hx
      refine ⟨?_, by simp; omega, q1, qs1, ker1, c1, by simpa using a3, by simpa using a4, a5, a6⟩
      simp only at hb
      rw [List.take_add_one, hb, List.reverse_append]
      simp [a1]

/-- An item at its beginning is the root or the next symbol of another item. -/
theorem LR0Inv.origin (hsep : Separate g) (hI : LR0Inv g fuel [] t) {i : Nat} {ker c : List Item} (hi : t.sets[i]? = some (ker, c)) :
    ∀ x ∈ c, x.dot = 0 → x.prod = g.root ∨ ∃ y ∈ c, (g.body y.prod)[y.dot]? = some (g.head x.prod) ∧ x.prod ∈ g.prodsOf (g.head x.prod) := by
  have hclo := hI.clo i ker c hi (by simp)
  obtain ⟨_, _, h3, _⟩ := closureLoop_spec hclo
  have key := h3 (fun x => x ∈ c ∧ (x ∈ ker ∨ ∃ y ∈ c, (g.body y.prod)[y.dot]? = some (g.head x.prod) ∧ x.prod ∈ g.prodsOf (g.head x.prod))) (by simp)
    (fun x hx => by
      have hx : x ∈ ker := by simpa using hx
      exact ⟨(lr0Closure_spec hclo).1 x hx, .inl hx⟩)
    (fun z hz x hx => by
      obtain ⟨B, hB, hp, hd, _⟩ := mem_freshItems.mp hx
      obtain ⟨pr, hpr, hh⟩ := mem_prodsOf.mp hp
      have hhd : g.head x.prod = B := by simp [head, hpr, hh]
      refine ⟨?_, .inr ⟨z, hz.1, by rw [hhd]; exact hB, by rw [hhd]; exact hp⟩⟩
      cases hB' : g.isToken B with
      | false => exact ((lr0Closure_spec hclo).2.2 z hz.1 B hB hB').2 x hx
      | true => exact absurd hB' (by
          rw [hsep.not_token hp]; simp))
  intro x hx h0
  rcases (key x hx).2 with hk | hk
  · rcases hI.pos i ker c hi with hi0 | hpos
    · subst hi0
      obtain ⟨c0, hc0⟩ := hI.zero
      rw [hi] at hc0
      cases hc0
      simp only [List.mem_singleton] at hk
      left; rw [hk]
    · have := hpos x hk; omega
  · exact .inr hk

/-- The symbols with which a sequence behind `x` can begin. -/
inductive Follows (g : Grammar) (x : Nat) : Nat → Prop
  | here {p pre y r} : p ∈ g.prods → p.body = pre ++ x :: y :: r → Follows g x y
  | left {p y r} : Follows g x p.head → p ∈ g.prods → p.body = y :: r → Follows g x y

theorem body_mem {q : Nat} {B : Nat} {n : Nat} (hB : (g.body q)[n]? = some B) : ∃ p ∈ g.prods, p.body = g.body q := by
  unfold body at hB ⊢
  cases hgp : g.prods[q]? with
  | none => rw [hgp] at hB; simp at hB
  | some pr => exact ⟨pr, List.mem_of_getElem? hgp, rfl⟩

theorem get_two {l : List Nat} {n : Nat} {a b : Nat} (h1 : l[n]? = some a) (h2 : l[n + 1]? = some b) :
    l = l.take n ++ a :: b :: l.drop (n + 2) := by
  have e1 := take_drop_of_get h1
  have e2 := take_drop_of_get h2
  rw [← e2, ← e1, List.take_append_drop]

theorem StackOk.follows {r : Nat} (hI : LR0Inv g fuel [] t) {q : Nat} {qs : List (Option Nat)} {x : Nat} {xs : List Nat}
    (h : StackOk t r (some q :: qs) (x :: xs)) {ker c : List Item} (hc : t.sets[q]? = some (ker, c)) {it : Item} (hit : it ∈ c) {y : Nat}
    (hy : (g.body it.prod)[it.dot]? = some y) : Follows g x y := by
  cases h with
  | @push q0 qs0 _ _ _ h hlk =>
    obtain ⟨_, ker0, c0, c', h1, h2⟩ := hI.goes q0 x q (lookup_mem hlk)
    rw [hc] at h2
    cases h2
    have hclo := hI.clo q _ c hc (by simp)
    obtain ⟨_, _, h3, _⟩ := closureLoop_spec hclo
    have key := h3 (fun z => ∀ y, (g.body z.prod)[z.dot]? = some y → Follows g x y) (by simp)
      (fun z hz y hy => by
        have hz : z ∈ g.advance c0 x := by simpa using hz
        obtain ⟨u, hu, hb, rfl⟩ := mem_advance.mp hz
        simp only at hy
        obtain ⟨p, hp, e⟩ := body_mem hb
        rw [← e] at hb hy
        exact .here hp (get_two hb hy))
      (fun z hz w hw y hy => by
        obtain ⟨B, hB, hp, hd, _⟩ := mem_freshItems.mp hw
        obtain ⟨pr, hpr, hh⟩ := mem_prodsOf.mp hp
        have hbody : g.body w.prod = pr.body := by simp [body, hpr]
        rw [hbody, hd] at hy
        have hf := hz B hB
        rw [← hh] at hf
        match hb : pr.body, hy with
        | a :: rest, hy =>
          simp at hy
          subst hy
          exact .left hf (List.mem_of_getElem? hpr) hb)
    exact key it hit y hy

/-- A symbol that may be put on the stack. -/
def Fits (g : Grammar) (xs : List Nat) (y : Nat) : Prop := ∀ x xs', xs = x :: xs' → Follows g x y

theorem StackOk.fits {r : Nat} (hI : LR0Inv g fuel [] t) {q : Nat} {qs : List (Option Nat)} {xs : List Nat}
    (h : StackOk t r (some q :: qs) xs) {ker c : List Item} (hc : t.sets[q]? = some (ker, c)) {it : Item} (hit : it ∈ c) {y : Nat}
    (hy : (g.body it.prod)[it.dot]? = some y) : Fits g xs y := by
  rintro x xs' rfl
  exact h.follows hI hc hit hy

/-- The trees on the stack: the leaves stand for terminals. -/
def Lab (g : Grammar) (x : Nat) (tr : Tree) : Prop := ∀ tk, tr = .leaf tk → x ∈ g.terminals

theorem forall₂_drop {α β} {R : α → β → Prop} : ∀ {n : Nat} {l : List α} {l' : List β}, List.Forall₂ R l l' → List.Forall₂ R (l.drop n) (l'.drop n)
  | 0, _, _, h => h
  | _ + 1, _, _, .nil => .nil
  | n + 1, _ :: _, _ :: _, .cons _ h => forall₂_drop (n := n) h

/-- A reduction succeeds if there is room for the children. -/
theorem reduce_total {tb : Table} (hT : TableOk g t tb) (hF : Firm g t tb) (hsep : Separate g) (hend : tokenEnd ∈ g.terminals) {r : Nat}
    (hI : LR0Inv g fuel [] t) (hr : r = 0) {resets : Nat → Bool} {s : PState} {xs : List Nat} (hst : StackOk t r s.states xs)
    (hlab : List.Forall₂ (Lab g) xs s.matched) {q : Nat} {qs : List (Option Nat)} (hq : s.states = some q :: qs) {acts : List Action}
    (hacts : tb.actions.lookup q = some acts) {ty p : Nat} (hty : acts[ty]? = some (.reduce p)) (tok : Token) :
    ∃ pr xs', g.prods[p]? = some pr ∧ p ≠ g.root ∧ xs = pr.body.reverse ++ xs' ∧ Fits g xs' pr.head ∧
      ((0 < pr.body.length ∧ 10000 < s.kids + pr.body.length ∧ g.reduce tb resets s tok p = .error .ub) ∨
        ∃ s' j qs1, g.reduce tb resets s tok p = .ok s' ∧ s'.states = some j :: qs1 ∧ s'.kids ≤ s.kids + pr.body.length ∧ s'.next = some tok ∧
          StackOk t r s'.states (pr.head :: xs') ∧ List.Forall₂ (Lab g) (pr.head :: xs') s'.matched) := by
  obtain ⟨hroot, ker, c, hc, hm⟩ := hF.red q acts hacts ty p hty
  obtain ⟨e1, e2, q1, qs1, ker1, c1, e3, e4, e5, e6⟩ := hst.under hI hr _ q qs hq ker c hc p _ hm
  rw [List.take_of_length_le (Nat.le_refl _)] at e1
  have hlen := hlab.length_eq
  obtain ⟨y, hy, hyb, hyp⟩ := (hI.origin hsep e5 _ e6 rfl).resolve_left hroot
  simp only at hyb hyp
  obtain ⟨pr, hpr, _⟩ := mem_prodsOf.mp hyp
  have hb : g.body p = pr.body := by simp [body, hpr]
  have hh : g.head p = pr.head := by simp [head, hpr]
  rw [hb] at e1 e2 e3 e4
  rw [hh] at hyb
  have hne : pr.head ≠ tokenEnd := fun e => hsep pr (List.mem_of_getElem? hpr) (e ▸ hend)
  obtain ⟨acts1, j, ha1, ha2⟩ := hF.next q1 ker1 c1 e5 y hy _ hyb hne
  rw [e3] at e4
  refine ⟨pr, xs.drop pr.body.length, hpr, hroot, by rw [e1, List.take_append_drop], e4.fits hI e5 hy hyb, ?_⟩
  have hsl := hst.length
  by_cases hk : 0 < pr.body.length ∧ 10000 < s.kids + pr.body.length
  · left
    refine ⟨hk.1, hk.2, ?_⟩
    unfold reduce
    simp only [hb]
    rw [if_pos]
    simp only [Bool.or_eq_true, decide_eq_true_eq]
    exact .inr hk
  · right
    have hj := hT.acts q1 acts1 ha1 _ _ ha2
    simp only at hj
    refine ⟨⟨some j :: some q1 :: qs1, .node p (s.matched.take pr.body.length).reverse :: s.matched.drop pr.body.length, some tok,
      resetKids resets p (s.kids + pr.body.length)⟩, j, some q1 :: qs1, ?_, rfl, ?_, rfl, .push e4 (hj j rfl), ?_⟩
    · unfold reduce
      simp only [hb, hh]
      rw [if_neg]
      · rw [e3]
        simp only [ha1, ha2]
      · simp only [Bool.or_eq_true, decide_eq_true_eq, not_or, Nat.not_lt]
        refine ⟨⟨by omega, by omega⟩, hk⟩
    · simp only
      unfold resetKids
      split <;> omega
    · exact .cons (fun tk h => by cases h) (forall₂_drop hlab)

/-- What a step can do. -/
inductive Step (g : Grammar) (t : LR0) (r start : Nat) (s : PState) (xs : List Nat) (tok : Token) : Except Fail Sym → Prop
  | no : Step g t r start s xs tok (.ok .no)
  | accepted : xs = [start] → Step g t r start s xs tok (.ok .accepted)
  | shift {ty j tys} : tok.types = some tys → ty ∈ tys → ty ∈ g.terminals → (∃ p ∈ g.prods, ty ∈ p.body) → StackOk t r (some j :: s.states) (ty :: xs) → Fits g xs ty →
      Step g t r start s xs tok (.ok (.moved { s with states := some j :: s.states, matched := .leaf tok :: s.matched }))
  | full {p pr xs'} : g.prods[p]? = some pr → p ≠ g.root → xs = pr.body.reverse ++ xs' → 0 < pr.body.length → 10000 < s.kids + pr.body.length →
      Step g t r start s xs tok (.error .ub)
  | reduce {p pr xs' s' j qs1} : g.prods[p]? = some pr → p ≠ g.root → xs = pr.body.reverse ++ xs' → Fits g xs' pr.head →
      s'.states = some j :: qs1 → s'.kids ≤ s.kids + pr.body.length → s'.next = some tok → StackOk t r s'.states (pr.head :: xs') →
      List.Forall₂ (Lab g) (pr.head :: xs') s'.matched → Step g t r start s xs tok (.ok (.moved s'))

theorem advance_total {tb : Table} (hT : TableOk g t tb) (hF : Firm g t tb) (hW : Wide g tb) (hsep : Separate g) (hend : tokenEnd ∈ g.terminals)
    {r start : Nat} (hroot : tb.root = some r) (hR : RootOk g start) (hI : LR0Inv g fuel [] t) (hr : r = 0) {resets : Nat → Bool} {s : PState}
    {xs : List Nat} (hst : StackOk t r s.states xs) (hlab : List.Forall₂ (Lab g) xs s.matched) {q : Nat} {qs : List (Option Nat)}
    (hq : s.states = some q :: qs) (tok : Token) {all : List Nat} (hall : tok.types = some all) : ∀ {tys : List Nat},
    (∀ ty ∈ tys, ty ∈ all) → (∀ ty ∈ tys, ty ∈ g.terminals) →
    Step g t r start s xs tok (g.parseAdvance tb resets s tok tys) := by
  intro tys
  induction tys with
  | nil => intro _ _; exact .no
  | cons ty tys ih =>
    intro hsub htys
    have ih := ih (fun x hx => hsub x (by simp [hx])) (fun x hx => htys x (by simp [hx]))
    have hty := htys ty (by simp)
    obtain ⟨acts, hacts⟩ := hF.rows q (hst.set hI hr hq)
    obtain ⟨a, ha⟩ := hW _ (lookup_mem hacts) ty hty
    simp only at ha
    cases a with
    | flag b =>
      cases b with
      | false =>
        have hps : g.parseSymbol tb resets s tok ty = .ok .no := by
          unfold parseSymbol; simp only [hq, hacts, ha]
        simp only [parseAdvance, hps]
        exact ih
      | true =>
        have hps : g.parseSymbol tb resets s tok ty = .ok .accepted := by
          unfold parseSymbol; simp only [hq, hacts, ha]
        simp only [parseAdvance, hps]
        have hj := hT.acts q acts hacts ty _ ha
        exact .accepted (accept_spec hT hroot hR hst hq hj.2)
    | shift q' =>
      obtain ⟨j, rfl⟩ := hF.shift q acts hacts ty q' ha
      have hj := hT.acts q acts hacts ty _ ha j rfl
      have hps : g.parseSymbol tb resets s tok ty =
          .ok (.moved { s with states := some j :: s.states, matched := .leaf tok :: s.matched }) := by
        unfold parseSymbol; simp only [hq, hacts, ha]
      simp only [parseAdvance, hps]
      rw [hq] at hst
      obtain ⟨ker, c, it, hc, hit, hb⟩ := hF.item q acts hacts ty j ha
      obtain ⟨p, hp, e⟩ := body_mem hb
      refine .shift (j := j) hall (hsub ty (by simp)) hty ⟨p, hp, by rw [e]; exact List.mem_of_getElem? hb⟩ ?_ (hst.fits hI hc hit hb)
      rw [hq]
      exact .push hst hj
    | reduce p =>
      obtain ⟨pr, xs', h1, h2, h3, h4, h5⟩ := reduce_total (resets := resets) hT hF hsep hend hI hr hst hlab hq hacts ha tok
      rcases h5 with ⟨h5, h6, h7⟩ | ⟨s', j, qs1, h5, h6, h7, h8, h9, h10⟩
      · have hps : g.parseSymbol tb resets s tok ty = .error .ub := by
          unfold parseSymbol; simp only [hq, hacts, ha, h7]
        simp only [parseAdvance, hps]
        exact .full h1 h2 h3 h5 h6
      · have hps : g.parseSymbol tb resets s tok ty = .ok (.moved s') := by
          unfold parseSymbol; simp only [hq, hacts, ha, h5]
        simp only [parseAdvance, hps]
        exact .reduce h1 h2 h3 h4 h6 h7 h8 h9 h10

/-! ### The loop -/

/-- The tokens that are still to be read. -/
def remaining (s : PState) (inp : List Token) : List Token := s.next.toList ++ inp

theorem pull_some {nx : Option Token} {inp : List Token} {tok : Token} {R : List Token} (h : pull nx inp = some (tok, R)) :
    nx.toList ++ inp = tok :: R := by
  cases nx with
  | some t => simp [pull] at h; simp [h]
  | none =>
    cases inp with
    | nil => simp [pull] at h
    | cons a l => simp [pull] at h; simp [h]

/-- Nothing is left of the array bounds if each token brings enough for the children of the nodes above it. -/
theorem parseLoop_no_ub {tb : Table} (hT : TableOk g t tb) (hF : Firm g t tb) (hW : Wide g tb) (hsep : Separate g) (hend : tokenEnd ∈ g.terminals)
    {r start : Nat} (hroot : tb.root = some r) (hR : RootOk g start) (hs : start ∉ g.terminals) (hI : LR0Inv g fuel [] t) (hr : r = 0)
    {resets : Nat → Bool} {sl : Nat → Nat} {cost : Token → Nat}
    (hprod : ∀ (i : Nat) p, g.prods[i]? = some p → i ≠ g.root → sl p.head + p.body.length ≤ (p.body.map sl).sum)
    (hcost : ∀ tok tys, tok.types = some tys → ∀ ty ∈ tys, ty ∈ g.terminals → (∃ p ∈ g.prods, ty ∈ p.body) → sl ty ≤ cost tok) :
    ∀ {k : Nat} {s : PState} {inp : List Token} {xs : List Nat} {q : Nat} {qs : List (Option Nat)}, StackOk t r s.states xs →
    List.Forall₂ (Lab g) xs s.matched → s.states = some q :: qs → (∀ x ∈ remaining s inp, Typed g x) →
    s.kids + (xs.map sl).sum + ((remaining s inp).map cost).sum ≤ 10000 → g.parseLoop tb resets k s inp ≠ .error .ub := by
  intro k
  induction k with
  | zero => intro s inp xs q qs _ _ _ _ _ h; simp [parseLoop] at h
  | succ k ih =>
    intro s inp xs q qs hst hlab hq htyped hsum
    rw [parseLoop_succ]
    cases hpull : pull s.next inp with
    | none => simp
    | some x =>
      obtain ⟨tok, inp'⟩ := x
      have hrem : remaining s inp = tok :: inp' := pull_some hpull
      rw [hrem] at htyped hsum
      obtain ⟨tys, hty, htt⟩ := htyped tok (by simp)
      simp only [hty]
      have hstep := advance_total (s := { s with next := none }) (resets := resets) hT hF hW hsep hend hroot hR hI hr hst hlab hq tok hty (fun _ h => h) htt
      simp only [List.map_cons, List.sum_cons] at hsum
      generalize g.parseAdvance tb resets { s with next := none } tok tys = res at hstep
      cases hstep with
      | no => simp
      | accepted hx =>
        subst hx
        simp only
        cases hm : s.matched with
        | nil => rw [hm] at hlab; cases hlab
        | cons tr ms =>
          rw [hm] at hlab
          cases hlab with
          | cons hl _ =>
            cases tr with
            | leaf tk => exact absurd (hl tk rfl) hs
            | node p cs => simp
      | shift h1 h2 h3 h4 h5 h6 =>
        simp only
        refine ih (xs := _ :: xs) (q := _) (qs := _) h5 (.cons (fun _ _ => h3) hlab) rfl (fun x hx => htyped x (by simp [remaining] at hx; simp [hx])) ?_
        have := hcost tok _ h1 _ h2 h3 h4
        simp only [remaining, List.map_cons, List.sum_cons, Option.toList_none, List.nil_append]
        omega
      | full h1 h2 h3 h4 h5 =>
        exfalso
        have := hprod _ _ h1 h2
        rw [h3] at hsum
        simp only [List.map_append, List.map_reverse, List.sum_append, List.sum_reverse] at hsum h5
        omega
      | @reduce p pr xs' s' j qs1 h1 h2 h3 h4 h5 h6 h7 h8 h9 =>
        simp only
        have := hprod _ _ h1 h2
        rw [h3] at hsum
        simp only [List.map_append, List.map_reverse, List.sum_append, List.sum_reverse] at hsum h6
        refine ih (xs := pr.head :: xs') h8 h9 h5 (fun x hx => htyped x (by simpa [remaining, h7] using hx)) ?_
        simp only [remaining, h7, List.map_cons, List.sum_cons, Option.toList_some, List.cons_append, List.nil_append]
        omega

/-- The symbols on the stack may follow one another. -/
def Fitted (g : Grammar) : List Nat → Prop
  | [] => True
  | y :: xs => Fits g xs y ∧ Fitted g xs

theorem Fitted.drop {xs ys : List Nat} (h : Fitted g (xs ++ ys)) : Fitted g ys := by
  induction xs with
  | nil => exact h
  | cons x xs ih => exact ih h.2

theorem Fitted.low {w : Nat → Int} (hadj : ∀ x y, w x < 0 → Follows g x y → 0 ≤ w x + w y) : ∀ {xs : List Nat}, Fitted g xs →
    0 ≤ (xs.map w).sum ∨ ∃ x xs', xs = x :: xs' ∧ w x ≤ (xs.map w).sum
  | [], _ => .inl (by simp)
  | y :: xs, ⟨h1, h2⟩ => by
    simp only [List.map_cons, List.sum_cons]
    rcases Fitted.low hadj h2 with h | ⟨x, xs', rfl, h⟩
    · exact .inr ⟨y, xs, rfl, by omega⟩
    · by_cases hx : w x < 0
      · have := hadj x y hx (h1 x xs' rfl)
        left; omega
      · exact .inr ⟨y, _, rfl, by omega⟩

/-- The number of steps is bounded by the number of tokens if each production loses weight. -/
theorem parseLoop_terminates {tb : Table} (hT : TableOk g t tb) (hF : Firm g t tb) (hW : Wide g tb) (hsep : Separate g) (hend : tokenEnd ∈ g.terminals)
    {r start : Nat} (hroot : tb.root = some r) (hR : RootOk g start) (hI : LR0Inv g fuel [] t) (hr : r = 0)
    {resets : Nat → Bool} {w : Nat → Int} {B : Nat} {cost : Token → Nat}
    (hprod : ∀ (i : Nat) p, g.prods[i]? = some p → i ≠ g.root → w p.head + 1 ≤ (p.body.map w).sum)
    (hcost : ∀ tok tys, tok.types = some tys → ∀ ty ∈ tys, ty ∈ g.terminals → (∃ p ∈ g.prods, ty ∈ p.body) → w ty + 1 ≤ cost tok)
    (hlow : ∀ x, -(B : Int) ≤ w x)
    (hadj : ∀ x y, w x < 0 → Follows g x y → 0 ≤ w x + w y) :
    ∀ {k : Nat} {s : PState} {inp : List Token} {xs : List Nat} {q : Nat} {qs : List (Option Nat)}, StackOk t r s.states xs →
    List.Forall₂ (Lab g) xs s.matched → s.states = some q :: qs → (∀ x ∈ remaining s inp, Typed g x) → Fitted g xs →
    (xs.map w).sum + B + ((remaining s inp).map cost).sum < k → g.parseLoop tb resets k s inp ≠ .error .diverge := by
  intro k
  induction k with
  | zero =>
    intro s inp xs q qs _ _ _ _ hfit hk
    exfalso
    have h0 : 0 ≤ (xs.map w).sum + B := by
      rcases Fitted.low hadj hfit with h | ⟨x, _, _, h⟩
      · omega
      · have := hlow x; omega
    omega
  | succ k ih =>
    intro s inp xs q qs hst hlab hq htyped hfit hsum
    rw [parseLoop_succ]
    cases hpull : pull s.next inp with
    | none => simp
    | some x =>
      obtain ⟨tok, inp'⟩ := x
      have hrem : remaining s inp = tok :: inp' := pull_some hpull
      rw [hrem] at htyped hsum
      obtain ⟨tys, hty, htt⟩ := htyped tok (by simp)
      simp only [hty]
      have hstep := advance_total (s := { s with next := none }) (resets := resets) hT hF hW hsep hend hroot hR hI hr hst hlab hq tok hty (fun _ h => h) htt
      simp only [List.map_cons, List.sum_cons] at hsum
      generalize g.parseAdvance tb resets { s with next := none } tok tys = res at hstep
      cases hstep with
      | no => simp
      | accepted hx =>
        simp only
        split <;> simp
      | shift h1 h2 h3 h4 h5 h6 =>
        simp only
        refine ih (xs := _ :: xs) (q := _) (qs := _) h5 (.cons (fun _ _ => h3) hlab) rfl (fun x hx => htyped x (by simp [remaining] at hx; simp [hx])) ⟨h6, hfit⟩ ?_
        have := hcost tok _ h1 _ h2 h3 h4
        simp only [remaining, List.map_cons, List.sum_cons, Option.toList_none, List.nil_append]
        omega
      | full h1 h2 h3 h4 h5 => simp
      | @reduce p pr xs' s' j qs1 h1 h2 h3 h4 h5 h6 h7 h8 h9 =>
        simp only
        have := hprod _ _ h1 h2
        rw [h3] at hsum hfit
        simp only [List.map_append, List.map_reverse, List.sum_append, List.sum_reverse] at hsum h6
        refine ih (xs := pr.head :: xs') h8 h9 h5 (fun x hx => htyped x (by simpa [remaining, h7] using hx)) ⟨h4, hfit.drop⟩ ?_
        simp only [remaining, h7, List.map_cons, List.sum_cons, Option.toList_some, List.cons_append, List.nil_append]
        omega

/-! ### Names -/

open Classical in
/-- A function of names as a function of ids. -/
noncomputable def byName (g : Grammar) {α} (d : α) (f : String → α) (n : Nat) : α :=
  if h : ∃ m, g.symbolId.lookup m = some n then f h.choose else d

theorem byName_eq {terms : List String} (hN : NamesOk terms g) {α} {d : α} {f : String → α} {m : String} {n : Nat}
    (h : g.symbolId.lookup m = some n) : byName g d f n = f m := by
  have he : ∃ m, g.symbolId.lookup m = some n := ⟨m, h⟩
  unfold byName
  rw [dif_pos he, hN.inj _ _ _ he.choose_spec h]

theorem byName_map {terms : List String} (hN : NamesOk terms g) {α} {d : α} {f : String → α} {ids : List Nat} {ns : List String}
    (h : List.Forall₂ (fun id n => g.symbolId.lookup n = some id) ids ns) : ids.map (byName g d f) = ns.map f := by
  induction h with
  | nil => rfl
  | cons h _ ih => simp only [List.map_cons, ih, byName_eq hN h]

theorem _root_.LogSurgeon.Beside.used {all : List (String × List String)} {x n : String} (h : Beside all x n) : ∃ d ∈ all, n ∈ d.2 := by
  cases h with
  | here h => exact ⟨_, h, by simp⟩
  | left _ h => exact ⟨_, h, by simp⟩

theorem forall₂_split {α β} {R : α → β → Prop} : ∀ {pre post : List α} {l : List β}, List.Forall₂ R (pre ++ post) l →
    ∃ l1 l2, l = l1 ++ l2 ∧ List.Forall₂ R post l2
  | [], _, l, h => ⟨[], l, rfl, h⟩
  | _ :: _, _, _, .cons _ h => by
    obtain ⟨l1, l2, rfl, h2⟩ := forall₂_split h
    exact ⟨_ :: l1, l2, rfl, h2⟩

theorem Follows.names {terms : List String} {start : String} {all : List (String × List String)} (hB : BuildOk terms start all g) (hp : NoPrime all)
    {x : Nat} {m : String} (hm : g.symbolId.lookup m = some x) {y : Nat} (h : Follows g x y) :
    ∃ n, g.symbolId.lookup n = some y ∧ Beside all m n := by
  induction h with
  | @here p pre y r hmem hb =>
    obtain ⟨i, hi⟩ := List.getElem?_of_mem hmem
    obtain ⟨⟨dh, db⟩, hd, hh, hf⟩ := hB.names.decl hi
    rw [hb] at hf
    simp only at hh hf
    obtain ⟨l1, l2, rfl, hf'⟩ := forall₂_split (pre := pre) (post := x :: y :: r) hf
    clear hf
    rename' hf' => hf
    cases hf with
    | @cons _ n1 _ _ e1 hf =>
      cases hf with
      | @cons _ n2 _ _ e2 hf =>
        cases hB.names.inj _ _ _ e1 hm
        have hi1 : i ≠ 1 := by
          rintro rfl
          have := hd.symm.trans hB.prime
          simp only [Option.some.injEq, Prod.mk.injEq] at this
          have := congrArg List.length this.2
          simp only [List.length_append, List.length_cons, List.length_nil] at this
          omega
        exact ⟨n2, e2, .here (hB.decls i _ hd hi1)⟩
  | @left p y r _ hmem hb ih =>
    obtain ⟨i, hi⟩ := List.getElem?_of_mem hmem
    obtain ⟨⟨dh, db⟩, hd, hh, hf⟩ := hB.names.decl hi
    rw [hb] at hf
    simp only at hh hf
    obtain ⟨n, hn, hbes⟩ := ih
    cases hB.names.inj _ _ _ hh hn
    cases hf with
    | @cons _ n1 _ _ e1 hf =>
      have hi1 : i ≠ 1 := by
        rintro rfl
        have := hd.symm.trans hB.prime
        simp only [Option.some.injEq, Prod.mk.injEq] at this
        obtain ⟨d', hd', hmem⟩ := hbes.used
        rw [this.1] at hmem
        exact (hp d' hd').2 hmem
      exact ⟨n1, e1, .left hbes (hB.decls i _ hd hi1)⟩

/-- What the two theorems below have in common. -/
structure Sound (g : Grammar) (o : Orders) (fuel : Nat) (tb : Table) (terms : List String) (start : String) (all : List (String × List String))
    (sid : Nat) (t : LR0) : Prop where
  names : BuildOk (reservedNames ++ terms) start all g
  root : tb.root = some 0
  table : TableOk g t tb
  firm : Firm g t tb
  wide : Wide g tb
  sep : Separate g
  fin : g.symbolId.lookup "$end" = some tokenEnd
  finT : tokenEnd ∈ g.terminals
  start : g.symbolId.lookup start = some sid
  rootOk : RootOk g sid
  startT : sid ∉ g.terminals
  lr0 : LR0Inv g fuel [] t
  sets : g.lr0Sets o fuel = .ok t

theorem sound_names {terms : List String} {start : String} {bd : List String} {ds : List (String × List String)}
    (hg : g = build terms ((start, bd) :: ds)) (hp : NoPrime ((start, bd) :: ds))
    (hsep : ∀ d ∈ (start, bd) :: ds, d.1 ∉ reservedNames ++ terms) (hpt : "$START_PRIME" ∉ terms)
    (hpr : ∀ d ∈ (start, bd) :: ds, ∀ s ∈ d.2, Productive (reservedNames ++ terms) ((start, bd) :: ds) s)
    (hsize : g.symbolId.length ≤ cNullSymbol) {o : Orders} (ho : o.Ok g) {fuel : Nat} {tb : Table} (hgen : g.generate o fuel = .ok tb) :
    ∃ sid t, Sound g o fuel tb terms start ((start, bd) :: ds) sid t := by
  have hB := build_ok (terms := terms) hp
  obtain ⟨hall, hT, hle⟩ := build_has (terms := terms) (all := (start, bd) :: ds)
  rw [← hg] at hB hall hT hle
  obtain ⟨sid, hsid, hR⟩ := rootOk_build hB hp (hp (start, bd) (by simp)).1
  have hlt : ∀ ty ∈ g.terminals, ty < g.symbolId.length := by
    intro ty hty
    obtain ⟨n, _, e⟩ := hB.names.terms ty hty
    exact hB.names.lt _ _ e
  have hnt : ∀ n id, g.symbolId.lookup n = some id → n ∉ reservedNames ++ terms → id ∉ g.terminals := by
    intro n id hn hm hid
    obtain ⟨m, hm', e⟩ := hB.names.terms id hid
    rw [hB.names.inj _ _ _ hn e] at hm
    exact hm hm'
  have hpr' : "$START_PRIME" ∉ reservedNames ++ terms := by
    simp only [List.mem_append, not_or]
    exact ⟨by decide, hpt⟩
  have hS : Separate g := by
    intro p hm
    obtain ⟨i, hi⟩ := List.getElem?_of_mem hm
    obtain ⟨d, hd, hh, _⟩ := hB.names.decl hi
    refine hnt _ _ hh ?_
    by_cases hi1 : i = 1
    · subst hi1
      have := hd.symm.trans hB.prime
      simp only [Option.some.injEq] at this
      rw [this]; exact hpr'
    · exact hsep d (hB.decls i d hd hi1)
  have hE : g.symbolId.lookup "$end" = some tokenEnd := hle "$end" tokenEnd (by decide)
  have hend : tokenEnd ∈ g.terminals := by
    obtain ⟨id, h1, h2⟩ := hT "$end" (by simp [reservedNames, reserved])
    rw [hE] at h2
    cases h2
    exact h1
  have hs : sid ∉ g.terminals := hnt _ _ hsid (hsep (start, bd) (by simp))
  have hnull : cNullSymbol ∉ g.terminals := fun h => by have := hlt _ h; omega
  have hlive : ∀ f : Firsts, (∀ a ∈ g.terminals, a ∈ mget f.firsts a) → (∀ p ∈ g.prods, f.Closed p) → ∀ p ∈ g.prods, ∀ s ∈ p.body, Live f s := by
    intro f hself hcl p hm s hsm
    obtain ⟨i, hi⟩ := List.getElem?_of_mem hm
    obtain ⟨d, hd, hh, hf⟩ := hB.names.decl hi
    obtain ⟨k, hk⟩ := List.getElem?_of_mem hsm
    obtain ⟨n, hn, e⟩ := forall₂_getElem?' hf hk
    refine productive_live hB.names hT hall hself hcl (n := n) ?_ e
    have hnm := List.mem_of_getElem? hn
    by_cases hi1 : i = 1
    · subst hi1
      have := hd.symm.trans hB.prime
      simp only [Option.some.injEq] at this
      rw [this] at hnm
      simp only [List.mem_singleton] at hnm
      rw [hnm]
      exact .prod (body := bd) (by simp) (hpr (start, bd) (by simp))
    · exact hpr d (hB.decls i d hd hi1) n hnm
  have hbody : g.body g.root ≠ [] := by
    obtain ⟨hh, e, _⟩ := hR.prod
    simp [body, e]
  obtain ⟨t, ht, hTab⟩ := generate_ok hgen hbody
  have hF := generate_firm hgen ho hS hnull hlive ht
  have hI := (lr0Sets_spec ht).1
  obtain ⟨r, hr⟩ := hF.root
  have hr0 : r = 0 := by
    obtain ⟨it0, hit0, _, hd0⟩ := hTab.root r hr
    obtain ⟨c, hc⟩ := LR0.kernel_of_mem hit0
    rcases hI.pos r _ c hc with h | h
    · exact h
    · have := h it0 hit0; omega
  subst hr0
  exact ⟨sid, t, hB, hr, hTab, hF, generate_wide hgen hlt, hS, hE, hend, hsid, hR, hs, hI, ht⟩

variable {terms : List String} {start : String} {all : List (String × List String)} {tb : Table} {sid : Nat}

/-- What a token costs. -/
def tokCost (K : Nat) (x : Token) : Nat := if x.types = some [tokenEnd] then 0 else K

theorem tokCost_sum (K : Nat) : ∀ l : List Token, (l.map (tokCost K)).sum = K * (l.filter fun x => x.types ≠ some [tokenEnd]).length
  | [] => by simp
  | x :: l => by
    have ih := tokCost_sum K l
    by_cases hx : x.types = some [tokenEnd]
    · simp [hx, ih, tokCost]
    · rw [List.filter_cons_of_pos (by simpa using hx)]
      simp only [List.map_cons, List.sum_cons, List.length_cons, Nat.mul_add]
      rw [ih, tokCost, if_neg hx]
      omega

/-- The end of the input is in no production. -/
theorem Sound.end_free (S : Sound g o fuel tb terms start all sid t) (hend : ∀ d ∈ all, "$end" ∉ d.2) (hse : start ≠ "$end") {p : Production}
    (hp : p ∈ g.prods) : tokenEnd ∉ p.body := by
  intro hmem
  have hN := S.names.names
  obtain ⟨i, hi⟩ := List.getElem?_of_mem hp
  obtain ⟨d, hd, hh, hf⟩ := hN.decl hi
  obtain ⟨k, hk⟩ := List.getElem?_of_mem hmem
  obtain ⟨n, hn, e'⟩ := forall₂_getElem?' hf hk
  cases hN.inj _ _ _ e' S.fin
  have hm := List.mem_of_getElem? hn
  by_cases hi1 : i = 1
  · subst hi1
    have := hd.symm.trans S.names.prime
    simp only [Option.some.injEq] at this
    rw [this] at hm
    simp only [List.mem_singleton] at hm
    exact hse hm.symm
  · exact hend d (S.names.decls i d hd hi1) hm

theorem Sound.no_ub (S : Sound g o fuel tb terms start all sid t) (hend : ∀ d ∈ all, "$end" ∉ d.2) (hse : start ≠ "$end") {sl : String → Nat} {K : Nat}
    (hsl : ∀ d ∈ all, sl d.1 + d.2.length ≤ (d.2.map sl).sum) (hK : ∀ s ∈ reservedNames ++ terms, sl s ≤ K) {resets : Nat → Bool}
    {input : List Token} (hty : ∀ x ∈ input, Typed g x) {kids : Nat}
    (hkids : kids + K * (input.filter fun x => x.types ≠ some [tokenEnd]).length ≤ 10000) (k : Nat) :
    g.parse tb resets k kids input ≠ .error .ub := by
  have hN := S.names.names
  unfold parse
  rw [S.root]
  refine parseLoop_no_ub (t := t) (r := 0) (start := sid) (sl := byName g 0 sl) (cost := tokCost K)
    S.table S.firm S.wide S.sep S.finT S.root S.rootOk S.startT S.lr0 rfl ?_ ?_ (xs := []) .root .nil rfl (by simpa [remaining] using hty) ?_
  · intro i p hp hi
    obtain ⟨d, hd, hh, hf⟩ := hN.decl hp
    rw [byName_eq hN hh, byName_map hN hf]
    have := hsl d (S.names.decls i d hd (by rw [← S.names.root]; exact hi))
    rw [hf.length_eq]
    exact this
  · intro tok tys htok ty htys htm ⟨p, hp, hmem⟩
    obtain ⟨n, hn, e⟩ := hN.terms ty htm
    rw [byName_eq hN e]
    unfold tokCost
    split
    · rename_i he
      rw [htok] at he
      cases he
      rw [List.mem_singleton.mp htys] at hmem
      exact absurd hmem (S.end_free hend hse hp)
    · exact hK n hn
  · simp only [remaining, Option.toList_none, List.nil_append, List.map_nil, List.sum_nil, Nat.add_zero]
    rw [tokCost_sum]
    exact hkids

theorem Sound.terminates (S : Sound g o fuel tb terms start all sid t) (hp : NoPrime all) (hend : ∀ d ∈ all, "$end" ∉ d.2) (hse : start ≠ "$end")
    {w : String → Int} {K B : Nat}
    (hw : ∀ d ∈ all, w d.1 + 1 ≤ (d.2.map w).sum) (hK : ∀ s ∈ reservedNames ++ terms, w s ≤ K) (hlow : ∀ s, -(B : Int) ≤ w s)
    (hadj : ∀ x y, w x < 0 → Beside all x y → 0 ≤ w x + w y) {resets : Nat → Bool}
    {input : List Token} (hty : ∀ x ∈ input, Typed g x) (kids : Nat) {k : Nat}
    (hk : B + (K + 1) * (input.filter fun x => x.types ≠ some [tokenEnd]).length < k) :
    g.parse tb resets k kids input ≠ .error .diverge := by
  have hN := S.names.names
  unfold parse
  rw [S.root]
  refine parseLoop_terminates (t := t) (r := 0) (start := sid) (w := byName g 0 w) (cost := tokCost (K + 1)) (B := B)
    S.table S.firm S.wide S.sep S.finT S.root S.rootOk S.lr0 rfl ?_ ?_ ?_ ?_ (xs := []) .root .nil rfl (by simpa [remaining] using hty) trivial ?_
  · intro i p hp hi
    obtain ⟨d, hd, hh, hf⟩ := hN.decl hp
    rw [byName_eq hN hh, byName_map hN hf]
    exact hw d (S.names.decls i d hd (by rw [← S.names.root]; exact hi))
  · intro tok tys htok ty htys htm ⟨p, hp, hmem⟩
    obtain ⟨n, hn, e⟩ := hN.terms ty htm
    rw [byName_eq hN e]
    unfold tokCost
    split
    · rename_i he
      rw [htok] at he
      cases he
      rw [List.mem_singleton.mp htys] at hmem
      exact absurd hmem (S.end_free hend hse hp)
    · have := hK n hn
      omega
  · intro x
    unfold byName
    split
    · exact hlow _
    · omega
  · intro x y hx hf
    have hex : ∃ m, g.symbolId.lookup m = some x := by
      refine Classical.byContradiction fun h => ?_
      unfold byName at hx
      rw [dif_neg h] at hx
      omega
    obtain ⟨m, hm⟩ := hex
    obtain ⟨n, hn, hb⟩ := hf.names S.names hp hm
    rw [byName_eq hN hm] at hx ⊢
    rw [byName_eq hN hn]
    exact hadj m n hx hb
  · simp only [remaining, Option.toList_none, List.nil_append, List.map_nil, List.sum_nil, Int.zero_add]
    rw [tokCost_sum]
    omega

/-- The parser fails with an exception, undefined behaviour or not at all. -/
theorem reduce_fail {resets : Nat → Bool} {s : PState} {tok : Token} {p : Nat} {e : Fail} (h : g.reduce tb resets s tok p = .error e) :
    e = .throws ∨ e = .ub := by
  unfold reduce at h
  simp only at h
  split at h
  · cases h; exact .inr rfl
  · split at h
    · split at h
      · cases h; exact .inr rfl
      · split at h
        · cases h; exact .inr rfl
        · cases h
        · cases h; exact .inl rfl
    · cases h; exact .inr rfl

theorem parseSymbol_fail {resets : Nat → Bool} {s : PState} {tok : Token} {ty : Nat} {e : Fail} (h : g.parseSymbol tb resets s tok ty = .error e) :
    e = .throws ∨ e = .ub := by
  unfold parseSymbol at h
  split at h
  · split at h
    · cases h; exact .inr rfl
    · split at h
      · cases h; exact .inr rfl
      · cases h
      · cases h
      · cases h
      · split at h
        · rename_i e' he
          cases h
          exact reduce_fail he
        · cases h
  · cases h; exact .inr rfl

theorem parseAdvance_fail {resets : Nat → Bool} {s : PState} {tok : Token} {e : Fail} : ∀ {tys : List Nat},
    g.parseAdvance tb resets s tok tys = .error e → e = .throws ∨ e = .ub := by
  intro tys
  induction tys with
  | nil => intro h; cases h
  | cons ty tys ih =>
    intro h
    unfold parseAdvance at h
    split at h
    · rename_i e' he
      cases h
      exact parseSymbol_fail he
    · exact ih h
    · cases h

theorem parseLoop_fail {resets : Nat → Bool} {e : Fail} : ∀ {k : Nat} {s : PState} {inp : List Token},
    g.parseLoop tb resets k s inp = .error e → e = .throws ∨ e = .ub ∨ e = .diverge := by
  intro k
  induction k with
  | zero => intro s inp h; simp [parseLoop] at h; exact .inr (.inr h.symm)
  | succ k ih =>
    intro s inp h
    rw [parseLoop_succ] at h
    split at h
    · cases h; exact .inl rfl
    · split at h
      · cases h; exact .inr (.inl rfl)
      · split at h
        · rename_i e' he
          cases h
          rcases parseAdvance_fail he with h | h
          · exact .inl h
          · exact .inr (.inl h)
        · cases h; exact .inl rfl
        · split at h
          · cases h; exact .inr (.inl rfl)
          · cases h; exact .inl rfl
          · cases h
        · exact ih h

/-- More steps do not change a result. -/
theorem parseLoop_mono {resets : Nat → Bool} : ∀ {k : Nat} {s : PState} {inp : List Token} {res : Except Fail (Tree × List Token × Nat)},
    g.parseLoop tb resets k s inp = res → res ≠ .error .diverge → ∀ m, k ≤ m → g.parseLoop tb resets m s inp = res := by
  intro k
  induction k with
  | zero => intro s inp res h hne; simp [parseLoop] at h; exact absurd h.symm hne
  | succ k ih =>
    intro s inp res h hne m hm
    obtain ⟨m, rfl⟩ : ∃ m', m = m' + 1 := ⟨m - 1, by omega⟩
    rw [parseLoop_succ] at h ⊢
    cases hp : pull s.next inp with
    | none => rw [hp] at h; exact h
    | some x =>
      obtain ⟨tok, inp'⟩ := x
      rw [hp] at h
      simp only at h ⊢
      cases ht : tok.types with
      | none => rw [ht] at h; exact h
      | some tys =>
        rw [ht] at h
        simp only at h ⊢
        cases ha : g.parseAdvance tb resets { s with next := none } tok tys with
        | error e => rw [ha] at h; exact h
        | ok y =>
          rw [ha] at h
          cases y with
          | no => exact h
          | accepted => exact h
          | moved s' => exact ih h hne m (by omega)

theorem pull_append {nx : Option Token} {inp : List Token} {tok : Token} {R : List Token} (h : pull nx inp = some (tok, R)) (rest : List Token) :
    pull nx (inp ++ rest) = some (tok, R ++ rest) := by
  unfold pull at h ⊢
  cases nx with
  | some x => simp only [Option.some.injEq, Prod.mk.injEq] at h ⊢; exact ⟨h.1, by rw [h.2]⟩
  | none =>
    cases inp with
    | nil => cases h
    | cons y ys => simp only [Option.some.injEq, Prod.mk.injEq] at h; simp only [List.cons_append]; rw [h.1, h.2]

/-- What is behind the end of the input does not matter for failures. -/
theorem parseLoop_end {tb : Table} (hT : TableOk g t tb) (hF : Firm g t tb) (hW : Wide g tb) (hsep : Separate g) (hend : tokenEnd ∈ g.terminals)
    {r start : Nat} (hroot : tb.root = some r) (hR : RootOk g start) (hI : LR0Inv g fuel [] t) (hr : r = 0)
    {resets : Nat → Bool} (hfree : ∀ p ∈ g.prods, tokenEnd ∉ p.body) {e : Token} (he : e.types = some [tokenEnd]) (rest : List Token) {f : Fail} :
    ∀ {k : Nat} {s : PState} {inp : List Token} {xs : List Nat} {q : Nat} {qs : List (Option Nat)}, StackOk t r s.states xs →
    List.Forall₂ (Lab g) xs s.matched → s.states = some q :: qs → (∀ x ∈ remaining s inp, Typed g x) → (remaining s inp).getLast? = some e →
    g.parseLoop tb resets k s inp = .error f → g.parseLoop tb resets k s (inp ++ rest) = .error f := by
  intro k
  induction k with
  | zero => intro s inp xs q qs _ _ _ _ _ h; simp [parseLoop] at h ⊢; exact h
  | succ k ih =>
    intro s inp xs q qs hst hlab hq htyped hlast h
    rw [parseLoop_succ] at h ⊢
    cases hpull : pull s.next inp with
    | none =>
      exfalso
      unfold remaining at hlast
      unfold pull at hpull
      cases hn : s.next with
      | some x => rw [hn] at hpull; cases hpull
      | none =>
        rw [hn] at hpull hlast
        cases inp with
        | nil => cases hlast
        | cons y ys => cases hpull
    | some x =>
      obtain ⟨tok, inp'⟩ := x
      have hrem : remaining s inp = tok :: inp' := pull_some hpull
      rw [hrem] at htyped hlast
      rw [hpull] at h
      rw [pull_append hpull]
      obtain ⟨tys, hty, htt⟩ := htyped tok (by simp)
      simp only [hty] at h ⊢
      have hstep := advance_total (s := { s with next := none }) (resets := resets) hT hF hW hsep hend hroot hR hI hr hst hlab hq tok hty (fun _ h => h) htt
      generalize g.parseAdvance tb resets { s with next := none } tok tys = res at hstep h
      cases hstep with
      | no => exact h
      | accepted hx =>
        simp only at h ⊢
        cases hm : s.matched with
        | nil => rw [hm] at h; exact h
        | cons tr ms =>
          rw [hm] at h
          cases tr with
          | leaf tk => exact h
          | node p cs => cases h
      | shift h1 h2 h3 h4 h5 h6 =>
        simp only at h ⊢
        refine ih (xs := _ :: xs) (q := _) (qs := _) h5 (.cons (fun _ _ => h3) hlab) rfl (fun x hx => htyped x (by simp [remaining] at hx; simp [hx])) ?_ h
        simp only [remaining, Option.toList_none, List.nil_append]
        cases inp' with
        | nil =>
          exfalso
          simp only [List.getLast?_singleton, Option.some.injEq] at hlast
          subst hlast
          rw [he] at h1
          cases h1
          obtain ⟨p, hp, hm⟩ := h4
          rw [List.mem_singleton.mp h2] at hm
          exact hfree p hp hm
        | cons y ys => simpa using hlast
      | full h1 h2 h3 h4 h5 => exact h
      | @reduce p pr xs' s' j qs1 h1 h2 h3 h4 h5 h6 h7 h8 h9 =>
        simp only at h ⊢
        refine ih (xs := pr.head :: xs') h8 h9 h5 (fun x hx => htyped x (by simpa [remaining, h7] using hx)) ?_ h
        simpa [remaining, h7] using hlast

theorem Sound.parse_end (S : Sound g o fuel tb terms start all sid t) (hend : ∀ d ∈ all, "$end" ∉ d.2) (hse : start ≠ "$end") {resets : Nat → Bool}
    {w : List Token} {e : Token} (he : e.types = some [tokenEnd]) (hty : ∀ x ∈ w ++ [e], Typed g x) (rest : List Token) {k kids : Nat} {f : Fail}
    (h : g.parse tb resets k kids (w ++ [e]) = .error f) : g.parse tb resets k kids (w ++ e :: rest) = .error f := by
  unfold parse at h ⊢
  rw [S.root] at h ⊢
  have := parseLoop_end (t := t) (r := 0) (start := sid) S.table S.firm S.wide S.sep S.finT S.root S.rootOk S.lr0 rfl
    (fun p hp => S.end_free hend hse hp) he rest (xs := []) .root .nil rfl (by simpa [remaining] using hty) (by simp [remaining]) h
  simpa using this

/-- The children of a derivation tree, in terms of the slack. -/
theorem edges_le_of {decls : List (String × List String)} {isTok : Token → String → Prop} {bad : String} {sl : String → Nat} {K : Nat}
    (hall : ∀ (i : Nat) d, decls[i]? = some d → d.1 = bad ∨ (bad ∉ d.2 ∧ sl d.1 + d.2.length ≤ (d.2.map sl).sum))
    (hlook : ∀ t s, isTok t s → sl s ≤ K) {ss : List String} {ts : List Tree} {w : List Token}
    (h : Derivation decls isTok ss ts w) : bad ∉ ss →
    Tree.edges.edgesAll ts + (ss.map sl).sum ≤ K * w.length ∧ ss.length = ts.length := by
  induction h with
  | nil => intro _; simp [Tree.edges.edgesAll]
  | tok ht _ ih =>
    intro hss
    simp only [List.mem_cons, not_or] at hss
    obtain ⟨ih, e⟩ := ih hss.2
    have := hlook _ _ ht
    simp only [Tree.edges.edgesAll, Tree.edges, List.map_cons, List.sum_cons, List.length_cons, Nat.mul_add]
    exact ⟨by omega, by omega⟩
  | @prod i head body cs ss ts w w' hd _ _ ih1 ih2 =>
    intro hss
    simp only [List.mem_cons, not_or] at hss
    rcases hall i _ hd with h | ⟨h, h2⟩
    · exact absurd h.symm hss.1
    obtain ⟨ih1, e1⟩ := ih1 h
    obtain ⟨ih2, e2⟩ := ih2 hss.2
    simp only [Tree.edges.edgesAll, Tree.edges, List.map_cons, List.sum_cons, List.length_cons, List.length_append, Nat.mul_add] at h2 ⊢
    exact ⟨by omega, by omega⟩

end Grammar
end LogSurgeon
