import Verif.Proofs.LalrLinear
import Verif.Proofs.LalrTotal
/-
The parser ends on every sequence of tokens: what is on the stack is the beginning of a derivation of the start symbol, and beginnings
have linearly many moves.
-/
namespace LogSurgeon
namespace Grammar
variable {g : Grammar} {start : Nat}

/-- Symbols that derive something, one after the other. -/
theorem Fixed.list (F : Fixed g start) : ∀ {ss : List Nat}, (∀ s ∈ ss, ∃ p ∈ g.prods, s ∈ p.body) → ∃ u, Der g ss u
  | [], _ => ⟨[], .nil⟩
  | s :: ss, hs => by
    obtain ⟨p, hp, hm⟩ := hs s (by simp)
    obtain ⟨u, h1⟩ := F.fert p hp s hm
    obtain ⟨v, h2⟩ := F.list (ss := ss) fun x hx => hs x (by simp [hx])
    exact ⟨u ++ v, Der.append (ss := [s]) h1 h2⟩

/-- The item may stand on top of the stack: derivations of the stack and of the rest of the item can be completed. -/
def Extends (g : Grammar) (start : Nat) (xs : List Nat) (it : Item) : Prop :=
  ∃ γ z, xs.reverse = γ ++ (g.body it.prod).take it.dot ∧ ∀ v, Der g (γ ++ g.body it.prod) v → Der g [start] (v ++ z)

theorem extends_fresh (F : Fixed g start) {xs : List Nat} {it : Item} (hit : Extends g start xs it) {x : Item} {las : List Nat}
    (hx : x ∈ g.freshItems it las) : Extends g start xs x := by
  obtain ⟨γ, z, e, hv⟩ := hit
  obtain ⟨B, hB, hp, h0, _⟩ := mem_freshItems.mp hx
  obtain ⟨pr, hpr, hhead⟩ := mem_prodsOf.mp hp
  obtain ⟨w, hw⟩ := F.list (ss := (g.body it.prod).drop (it.dot + 1)) (fun s hs => body_used (List.mem_of_mem_drop hs))
  refine ⟨xs.reverse, .red x.prod :: w ++ z, by simp [h0], fun v hgv => ?_⟩
  obtain ⟨v1, v2, rfl, g1, g2⟩ := Der.split hgv
  have hb : g.body x.prod = pr.body := by simp [body, hpr]
  rw [hb] at g2
  have g3 := Der.reduce hpr g2
  rw [hhead] at g3
  have e2 : γ ++ g.body it.prod = xs.reverse ++ ([B] ++ (g.body it.prod).drop (it.dot + 1)) := by
    rw [e, List.append_assoc, List.singleton_append, ← take_drop_of_get hB, List.take_append_drop]
  have := hv (v1 ++ (v2 ++ [.red x.prod] ++ w)) (by rw [e2]; exact g1.append (g3.append hw))
  simpa using this

theorem extends_stack (F : Fixed g start) {t : LR0} {fuel : Nat} (hI : LR0Inv g fuel [] t) (hR : RootOk g start) :
    ∀ {qs xs}, StackOk t 0 qs xs → ∀ q qs', qs = some q :: qs' → ∀ it ∈ t.kernel q, Extends g start xs it := by
  intro qs xs h
  induction h with
  | root =>
    intro q qs' he it hit
    cases he
    obtain ⟨c, hc⟩ := hI.zero
    rw [LR0.kernel_eq hc] at hit
    simp only [List.mem_singleton] at hit
    subst hit
    obtain ⟨h0, hprod, _⟩ := hR.prod
    exact ⟨[], [], by simp, fun v hv => by simpa [body, hprod] using hv⟩
  | @push q qs xs s j h hlk ih =>
    intro q' qs' he it hit
    cases he
    obtain ⟨_, ker, c, c', h1, h2⟩ := hI.goes q s j (lookup_mem hlk)
    rw [LR0.kernel_eq h2] at hit
    obtain ⟨x, hx, hb, rfl⟩ := mem_advance.mp hit
    have hk := ih q qs rfl
    rw [LR0.kernel_eq h1] at hk
    obtain ⟨_, _, h3, _⟩ := closureLoop_spec (hI.clo q ker c h1 (by simp))
    obtain ⟨γ, z, e, hv⟩ := h3 (Extends g start xs) (by simp) (fun it hit => hk it (by simpa using hit))
      (fun it hit x hx => extends_fresh F hit hx) x hx
    refine ⟨γ, z, ?_, hv⟩
    simp only [List.reverse_cons, e]
    rw [List.take_add_one, hb, List.append_assoc]
    rfl
  | null h ih => intro q qs' he; cases he

/-- The moves that have led to the stack are the beginning of a derivation. -/
theorem stack_begins (F : Fixed g start) {t : LR0} {fuel : Nat} (hI : LR0Inv g fuel [] t) (hne : ∀ x ∈ t.sets, x.1 ≠ []) (hR : RootOk g start)
    {qs : List (Option Nat)} {xs : List Nat} (h : StackOk t 0 qs xs) {q : Nat} {qs' : List (Option Nat)} (hq : qs = some q :: qs')
    {u : List Move} (hu : Der g xs.reverse u) : ∃ r, Der g [start] (u ++ r) := by
  have hlt := h.set hI rfl hq
  obtain ⟨⟨ker, c⟩, hx⟩ : ∃ x, t.sets[q]? = some x := ⟨_, List.getElem?_eq_getElem hlt⟩
  have hkne := hne _ (List.mem_of_getElem? hx)
  obtain ⟨it, hit⟩ := List.exists_mem_of_ne_nil _ hkne
  obtain ⟨γ, z, e, hv⟩ := extends_stack F hI hR h q qs' hq it (by rw [LR0.kernel_eq hx]; exact hit)
  obtain ⟨w, hw⟩ := F.list (ss := (g.body it.prod).drop it.dot) (fun s hs => body_used (List.mem_of_mem_drop hs))
  rw [e] at hu
  have := hu.append hw
  rw [List.append_assoc, List.take_append_drop] at this
  exact ⟨w ++ z, by rw [← List.append_assoc]; exact hv _ this⟩

/-! ### The loop -/

variable {t : LR0} {tb : Table} {fuel : Nat}

theorem shifts_snoc_red (u : List Move) (p : Nat) : shifts (u ++ [.red p]) = shifts u := by rw [shifts_append]; rfl
theorem shifts_snoc_shift (u : List Move) (s : Nat) : shifts (u ++ [.shift s]) = shifts u + 1 := by rw [shifts_append]; rfl

/-- What a reduction does to the moves. -/
theorem Der.reduced {xs' : List Nat} {p : Nat} {pr : Production} (hp : g.prods[p]? = some pr) {u : List Move} (hu : Der g (pr.body.reverse ++ xs').reverse u) :
    Der g (pr.head :: xs').reverse (u ++ [.red p]) := by
  rw [List.reverse_append, List.reverse_reverse] at hu
  obtain ⟨u1, u2, rfl, h1, h2⟩ := Der.split hu
  rw [List.reverse_cons, List.append_assoc]
  exact h1.append (Der.reduce hp h2)

theorem Der.shifted {xs : List Nat} {s : Nat} (hs : s ∈ g.terminals) {u : List Move} (hu : Der g xs.reverse u) : Der g (s :: xs).reverse (u ++ [.shift s]) := by
  rw [List.reverse_cons]
  exact hu.append (.tok hs .nil)

theorem parseLoop_linear (hT : TableOk g t tb) (hF : Firm g t tb) (hW : Wide g tb) (hsep : Separate g) (hend : tokenEnd ∈ g.terminals)
    {r : Nat} (hroot : tb.root = some r) (hR : RootOk g start) (hs : start ∉ g.terminals) (hI : LR0Inv g fuel [] t) (hr : r = 0)
    (hne : ∀ x ∈ t.sets, x.1 ≠ []) (F : Fixed g start)
    {resets : Nat → Bool} {C kids : Nat} (hC : ∀ h r, Der g [start] (h ++ r) → h.length ≤ C * (shifts h + 1)) :
    ∀ {k : Nat} {s : PState} {inp : List Token} {xs : List Nat} {q : Nat} {qs : List (Option Nat)} {u : List Move}, StackOk t r s.states xs →
    List.Forall₂ (Lab g) xs s.matched → s.states = some q :: qs → (∀ x ∈ remaining s inp, Typed g x) → Der g xs.reverse u →
    s.kids + xs.length ≤ kids + u.length →
    (C * (shifts u + (remaining s inp).length + 1) < k + u.length → g.parseLoop tb resets k s inp ≠ .error .diverge) ∧
    (kids + C * (shifts u + (remaining s inp).length + 1) ≤ 10000 → g.parseLoop tb resets k s inp ≠ .error .ub) := by
  intro k
  induction k with
  | zero =>
    intro s inp xs q qs u hst hlab hq _ hu _
    subst hr
    obtain ⟨z, hz⟩ := stack_begins F hI hne hR hst hq hu
    have h1 := hC u z hz
    have h2 : C * (shifts u + 1) ≤ C * (shifts u + (remaining s inp).length + 1) := Nat.mul_le_mul_left C (by omega)
    exact ⟨fun h => by omega, fun _ h => by simp [parseLoop] at h⟩
  | succ k ih =>
    intro s inp xs q qs u hst hlab hq htyped hu hkids
    rw [parseLoop_succ]
    cases hpull : pull s.next inp with
    | none => simp
    | some x =>
      obtain ⟨tok, inp'⟩ := x
      have hrem : remaining s inp = tok :: inp' := pull_some hpull
      rw [hrem] at htyped ⊢
      obtain ⟨tys, hty, htt⟩ := htyped tok (by simp)
      simp only [hty]
      have hstep := advance_total (s := { s with next := none }) (resets := resets) hT hF hW hsep hend hroot hR hI hr hst hlab hq tok hty (fun _ h => h) htt
      generalize g.parseAdvance tb resets { s with next := none } tok tys = res at hstep
      cases hstep with
      | no => simp
      | accepted hx =>
        subst hx
        simp only
        cases hm : s.matched with
        | nil => rw [hm] at hlab; cases hlab
        | cons tr ms =>
          rw [hm] at hlab
          cases hlab with
          | cons hl _ =>
            cases tr with
            | leaf tk => exact absurd (hl tk rfl) hs
            | node p cs => simp
      | @shift ty j tys' h1 h2 h3 h4 h5 h6 =>
        simp only
        have := ih (s := { s with next := none, states := some j :: s.states, matched := .leaf tok :: s.matched }) (inp := inp') (xs := ty :: xs) (q := j)
          (qs := s.states) (u := u ++ [.shift ty]) h5 (.cons (fun _ _ => h3) hlab) rfl
          (fun x hx => htyped x (by simp [remaining] at hx; simp [hx])) (hu.shifted h3) (by simp only [List.length_cons, List.length_append, List.length_nil]; omega)
        simp only [remaining, Option.toList_none, List.nil_append, shifts_snoc_shift, List.length_append, List.length_singleton, List.length_cons] at this ⊢
        rw [show shifts u + 1 + inp'.length + 1 = shifts u + (inp'.length + 1) + 1 by omega] at this
        exact ⟨fun h => this.1 (by omega), this.2⟩
      | @full p pr xs' h1 h2 h3 h4 h5 =>
        simp only
        refine ⟨fun _ => by simp, fun h => ?_⟩
        exfalso
        subst hr
        obtain ⟨z, hz⟩ := stack_begins F hI hne hR hst hq hu
        have a1 := hC u z hz
        have a2 : C * (shifts u + 1) ≤ C * (shifts u + (tok :: inp').length + 1) := Nat.mul_le_mul_left C (by omega)
        rw [h3] at hkids
        simp only [List.length_append, List.length_reverse] at hkids h5
        omega
      | @reduce p pr xs' s' j qs1 h1 h2 h3 h4 h5 h6 h7 h8 h9 =>
        simp only
        subst h3
        have := ih (s := s') (inp := inp') (xs := pr.head :: xs') (u := u ++ [.red p]) h8 h9 h5 (fun x hx => htyped x (by simpa [remaining, h7] using hx)) (hu.reduced h1)
          (by
            simp only [List.length_append, List.length_reverse, List.length_cons, List.length_nil] at hkids h6 ⊢
            omega)
        simp only [remaining, h7, Option.toList_some, List.cons_append, List.nil_append, shifts_snoc_red, List.length_append, List.length_singleton] at this ⊢
        exact ⟨fun h => this.1 (by omega), this.2⟩

/-- The moves of a derivation tree. -/
theorem Forest.moves {ss : List Nat} {ts : List Tree} {w : List Token} (h : Forest g ss ts w) : (∀ x ∈ w, Typed g x) →
    ∃ u, Der g ss u ∧ shifts u = w.length ∧ Tree.edges.edgesAll ts + ts.length = u.length := by
  induction h with
  | nil => intro _; exact ⟨[], .nil, rfl, rfl⟩
  | tok h1 h2 _ ih =>
    intro hw
    obtain ⟨u, hu, h5, h6⟩ := ih fun x hx => hw x (by simp [hx])
    obtain ⟨tys, h3, h4⟩ := hw _ List.mem_cons_self
    rw [h1] at h3
    cases h3
    refine ⟨_, .tok (h4 _ h2) hu, by simp [shifts, h5], ?_⟩
    simp only [Tree.edges.edgesAll, Tree.edges, List.length_cons]
    omega
  | @prod i p cs ss ts w w' h1 h2 _ ih1 ih2 =>
    intro hw
    obtain ⟨u, hu, a1, a2⟩ := ih1 fun x hx => hw x (by simp [hx])
    obtain ⟨v, hv, b1, b2⟩ := ih2 fun x hx => hw x (by simp [hx])
    refine ⟨_, .prod h1 hu hv, by rw [shifts_append]; simp [shifts, a1, b1], ?_⟩
    simp only [Tree.edges.edgesAll, Tree.edges, List.length_cons, List.length_append]
    omega

/-! ### Names -/

theorem fixed_names {terms : List String} {start : String} {bd : List String} {ds : List (String × List String)}
    (hg : g = build terms ((start, bd) :: ds)) (hp : NoPrime ((start, bd) :: ds))
    (hpr : ∀ d ∈ (start, bd) :: ds, ∀ s ∈ d.2, Productive (reservedNames ++ terms) ((start, bd) :: ds) s)
    (hend : ∀ d ∈ (start, bd) :: ds, "$end" ∉ d.2) (hclean : EndsCleanly ((start, bd) :: ds) start)
    (hsize : g.symbolId.length ≤ cNullSymbol) {o : Orders} (ho : o.Ok g) {sid : Nat} (hgen : g.generate o fuel = .ok tb)
    (S : Sound g o fuel tb terms start ((start, bd) :: ds) sid t) : Fixed g sid := by
  have hB := S.names
  obtain ⟨hall, hT, hle⟩ := build_has (terms := terms) (all := (start, bd) :: ds)
  rw [← hg] at hall hT hle
  have hlt : ∀ ty ∈ g.terminals, ty < g.symbolId.length := by
    intro ty hty
    obtain ⟨n, _, e⟩ := hB.names.terms ty hty
    exact hB.names.lt _ _ e
  have hnull : cNullSymbol ∉ g.terminals := fun h => by have := hlt _ h; omega
  have hlive : ∀ f : Firsts, (∀ a ∈ g.terminals, a ∈ mget f.firsts a) → (∀ p ∈ g.prods, f.Closed p) → ∀ p ∈ g.prods, ∀ s ∈ p.body, Live f s := by
    intro f hself hcl p hm s hsm
    obtain ⟨i, hi⟩ := List.getElem?_of_mem hm
    obtain ⟨d, hd, hh, hf⟩ := hB.names.decl hi
    obtain ⟨k, hk⟩ := List.getElem?_of_mem hsm
    obtain ⟨n, hn, e⟩ := forall₂_getElem?' hf hk
    refine productive_live hB.names hT hall hself hcl (n := n) ?_ e
    have hnm := List.mem_of_getElem? hn
    by_cases hi1 : i = 1
    · subst hi1
      have := hd.symm.trans hB.prime
      simp only [Option.some.injEq] at this
      rw [this] at hnm
      simp only [List.mem_singleton] at hnm
      rw [hnm]
      exact .prod (body := bd) (by simp) (hpr (start, bd) (by simp))
    · exact hpr d (hB.decls i d hd hi1) n hnm
  have hclash := no_clash hB hp S.start hclean
  have hfree : ∀ p ∈ g.prods, tokenEnd ∉ p.body := body_no_end hB S.start S.fin (fun h => S.startT (h ▸ S.finT)) hend
  obtain ⟨f, V, hF⟩ := generate_full hgen ho S.sep hnull S.rootOk hlive (.inr ⟨hclash, hfree⟩)
  exact fixed_of S.rootOk S.finT S.sep hfree hclash hF (fertile_names S hT hall (bd := bd) (by simp) hpr)

/-- The parser ends and stays within the array. -/
theorem linear_names {terms : List String} {start : String} {bd : List String} {ds : List (String × List String)}
    (hg : g = build terms ((start, bd) :: ds)) (hp : NoPrime ((start, bd) :: ds))
    (hpr : ∀ d ∈ (start, bd) :: ds, ∀ s ∈ d.2, Productive (reservedNames ++ terms) ((start, bd) :: ds) s)
    (hend : ∀ d ∈ (start, bd) :: ds, "$end" ∉ d.2) (hclean : EndsCleanly ((start, bd) :: ds) start)
    (hsize : g.symbolId.length ≤ cNullSymbol) {o : Orders} (ho : o.Ok g) {sid : Nat} (hgen : g.generate o fuel = .ok tb)
    (S : Sound g o fuel tb terms start ((start, bd) :: ds) sid t) :
    ∃ c, (∀ (resets : Nat → Bool) (input : List Token), (∀ x ∈ input, Typed g x) → ∀ kids k,
        (c * (input.length + 1) < k → g.parse tb resets k kids input ≠ .error .diverge) ∧
        (kids + c * (input.length + 1) ≤ 10000 → g.parse tb resets k kids input ≠ .error .ub)) ∧
      ∀ tree w, Derivation g.decls (g.IsTok (reservedNames ++ terms)) [start] [tree] w → (∀ x ∈ w, Typed g x) → tree.edges ≤ c * (w.length + 1) := by
  have F := fixed_names hg hp hpr hend hclean hsize ho hgen S
  obtain ⟨c, hc⟩ := F.linear
  refine ⟨c, fun resets input hty kids k => ?_, fun tree w hd hw => ?_⟩
  · have := parseLoop_linear (resets := resets) (kids := kids) S.table S.firm S.wide S.sep S.finT S.root S.rootOk S.startT S.lr0 rfl (lr0Sets_ne S.sets) F hc (k := k)
      (s := { states := [tb.root], matched := [], next := none, kids := kids }) (inp := input) (xs := []) (q := 0) (qs := []) (u := [])
      (by rw [S.root]; exact .root) .nil (by simp only [S.root]) (by simpa [remaining] using hty) .nil (by simp)
    simp only [remaining, Option.toList_none, List.nil_append, shifts, Nat.zero_add, List.length_nil, Nat.add_zero] at this
    exact this
  · obtain ⟨u, h1, h2, h3⟩ := (Forest.of_names S.names.names hd (.cons S.start .nil)).moves hw
    have := hc u [] (by simpa using h1)
    rw [h2] at this
    simp only [Tree.edges.edgesAll, List.length_singleton] at h3
    omega

end Grammar
end LogSurgeon
