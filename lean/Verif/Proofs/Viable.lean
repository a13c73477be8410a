import Verif.Proofs.LalrTotal
import Verif.Model.ErrorReport
/-
What is on the stack of the parser can be completed to something derivable.
-/
namespace LogSurgeon
namespace Grammar
variable {g : Grammar}

/-! ### The kernels are not empty -/

theorem goTo_ne {t : LR0} {i s : Nat} {clo : List Item} (h : ∀ x ∈ t.sets, x.1 ≠ []) : ∀ x ∈ (g.goTo t i clo s).1.sets, x.1 ≠ [] := by
  unfold goTo
  simp only
  split
  · exact h
  · rename_i hne
    split
    · exact h
    · intro x hx
      rcases List.mem_append.mp hx with hx | hx
      · exact h x hx
      · rw [List.mem_singleton.mp hx]
        simpa using hne

theorem goToAll_ne {i : Nat} {clo : List Item} : ∀ {ss : List Nat} {t : LR0} {q : List Nat}, (∀ x ∈ t.sets, x.1 ≠ []) →
    ∀ x ∈ (g.goToAll i clo ss t q).1.sets, x.1 ≠ []
  | [], _, _, h => h
  | _ :: ss, _, _, h => goToAll_ne (ss := ss) (goTo_ne h)

theorem lr0Loop_ne {syms : List Nat} {cfuel : Nat} : ∀ {k : Nat} {q : List Nat} {t t' : LR0}, (∀ x ∈ t.sets, x.1 ≠ []) →
    g.lr0Loop syms cfuel k q t = .ok t' → ∀ x ∈ t'.sets, x.1 ≠ [] := by
  intro k
  induction k with
  | zero =>
    intro q t t' h he
    cases q with
    | nil => simp only [lr0Loop, Except.ok.injEq] at he; subst he; exact h
    | cons i q => simp [lr0Loop] at he
  | succ k ih =>
    intro q t t' h he
    cases q with
    | nil => simp only [lr0Loop, Except.ok.injEq] at he; subst he; exact h
    | cons i q =>
      simp only [lr0Loop] at he
      split at he
      · cases he
      · rename_i clo hclo
        refine ih (goToAll_ne ?_) he
        intro x hx
        by_cases hi : i < t.sets.length
        · rcases List.mem_or_eq_of_mem_set hx with hx | rfl
          · exact h x hx
          · simp only [List.getElem?_eq_getElem hi, Option.map_some, Option.getD_some]
            exact h _ (List.getElem_mem hi)
        · rw [List.set_eq_of_length_le (by omega)] at hx
          exact h x hx

theorem lr0Sets_ne {o : Orders} {fuel : Nat} {t : LR0} (h : g.lr0Sets o fuel = .ok t) : ∀ x ∈ t.sets, x.1 ≠ [] :=
  lr0Loop_ne (by simp) h

/-! ### Items valid for a stack -/

/-- The symbols derive the tokens. -/
def Gives (g : Grammar) (ss : List Nat) (w : List Token) : Prop := ∃ ts, Forest g ss ts w

theorem Gives.append {ss ss' : List Nat} {w w' : List Token} (h : Gives g ss w) (h' : Gives g ss' w') : Gives g (ss ++ ss') (w ++ w') := by
  obtain ⟨ts, h⟩ := h
  obtain ⟨ts', h'⟩ := h'
  exact ⟨_, h.append h'⟩

theorem Gives.split {ss ss' : List Nat} {w : List Token} (h : Gives g (ss ++ ss') w) : ∃ w1 w2, w = w1 ++ w2 ∧ Gives g ss w1 ∧ Gives g ss' w2 := by
  obtain ⟨ts, h⟩ := h
  obtain ⟨w1, w2, e, h1, h2⟩ := Forest.split (n := ss.length) h
  rw [List.take_left] at h1
  rw [List.drop_left] at h2
  exact ⟨w1, w2, e, ⟨_, h1⟩, ⟨_, h2⟩⟩

/-- A token of one type, a terminal some production uses. -/
def Nice (g : Grammar) (x : Token) : Prop := ∃ ty, x.types = some [ty] ∧ ty ∈ g.terminals ∧ ∃ p ∈ g.prods, ty ∈ p.body

/-- The item may stand on top of the stack: what is on the stack can be continued with the rest of the item and more. -/
def ValidAt (g : Grammar) (start : Nat) (xs : List Nat) (it : Item) : Prop :=
  ∃ γ z, xs.reverse = γ ++ (g.body it.prod).take it.dot ∧ (∀ x ∈ z, Nice g x) ∧ ∀ v, Gives g (γ ++ g.body it.prod) v → Gives g [start] (v ++ z)

/-- Every symbol a production uses derives nice tokens. -/
def Fertile (g : Grammar) : Prop := ∀ p ∈ g.prods, ∀ s ∈ p.body, ∃ w, Gives g [s] w ∧ ∀ x ∈ w, Nice g x

theorem Fertile.list (h : Fertile g) : ∀ {ss : List Nat}, (∀ s ∈ ss, ∃ p ∈ g.prods, s ∈ p.body) → ∃ w, Gives g ss w ∧ ∀ x ∈ w, Nice g x
  | [], _ => ⟨[], ⟨[], .nil⟩, by simp⟩
  | s :: ss, hs => by
    obtain ⟨p, hp, hm⟩ := hs s (by simp)
    obtain ⟨w, h1, h2⟩ := h p hp s hm
    obtain ⟨w', h3, h4⟩ := h.list (ss := ss) (fun x hx => hs x (by simp [hx]))
    refine ⟨w ++ w', h1.append h3, fun x hx => ?_⟩
    rcases List.mem_append.mp hx with hx | hx
    · exact h2 x hx
    · exact h4 x hx

theorem body_used {q s : Nat} (h : s ∈ g.body q) : ∃ p ∈ g.prods, s ∈ p.body := by
  obtain ⟨k, hk⟩ := List.getElem?_of_mem h
  obtain ⟨p, hp, e⟩ := body_mem hk
  exact ⟨p, hp, e ▸ h⟩

theorem validAt_fresh (hfe : Fertile g) {start : Nat} {xs : List Nat} {it : Item} (hit : ValidAt g start xs it) {x : Item} {las : List Nat} (hx : x ∈ g.freshItems it las) :
    ValidAt g start xs x := by
  obtain ⟨γ, z, e, hz, hv⟩ := hit
  obtain ⟨B, hB, hp, h0, _⟩ := mem_freshItems.mp hx
  obtain ⟨pr, hpr, hhead⟩ := mem_prodsOf.mp hp
  obtain ⟨w, hw, hwn⟩ := hfe.list (ss := (g.body it.prod).drop (it.dot + 1)) (fun s hs => body_used (List.mem_of_mem_drop hs))
  refine ⟨xs.reverse, w ++ z, by simp [h0], ?_, fun v hgv => ?_⟩
  · intro y hy
    rcases List.mem_append.mp hy with hy | hy
    · exact hwn y hy
    · exact hz y hy
  · rw [← List.append_assoc]
    refine hv _ ?_
    obtain ⟨v1, v2, rfl, g1, ts, g2⟩ := hgv.split
    have hb : g.body x.prod = pr.body := by simp [body, hpr]
    rw [hb] at g2
    have g3 : Gives g [B] v2 := by
      have := Forest.prod hpr g2 .nil
      rw [hhead, List.append_nil] at this
      exact ⟨_, this⟩
    have e2 : γ ++ g.body it.prod = xs.reverse ++ ([B] ++ (g.body it.prod).drop (it.dot + 1)) := by
      rw [e, List.append_assoc, List.singleton_append, ← take_drop_of_get hB, List.take_append_drop]
    rw [e2, List.append_assoc]
    exact g1.append (g3.append hw)

theorem validAt_closure (hfe : Fertile g) {start : Nat} {xs : List Nat} {fuel : Nat} {ker clo : List Item} (h : g.lr0Closure fuel ker = .ok clo)
    (hk : ∀ it ∈ ker, ValidAt g start xs it) : ∀ it ∈ clo, ValidAt g start xs it := by
  obtain ⟨_, _, h3, _⟩ := closureLoop_spec h
  refine h3 (ValidAt g start xs) (by simp) (fun it hit => hk it (by simpa using hit)) ?_
  exact fun it hit x hx => validAt_fresh hfe hit hx

theorem validAt_stack (hfe : Fertile g) {t : LR0} {fuel : Nat} (hI : LR0Inv g fuel [] t) {start : Nat} (hR : RootOk g start) :
    ∀ {qs xs}, StackOk t 0 qs xs → ∀ q qs', qs = some q :: qs' → ∀ it ∈ t.kernel q, ValidAt g start xs it := by
  intro qs xs h
  induction h with
  | root =>
    intro q qs' he it hit
    cases he
    obtain ⟨c, hc⟩ := hI.zero
    rw [LR0.kernel_eq hc] at hit
    simp only [List.mem_singleton] at hit
    subst hit
    obtain ⟨h0, hprod, _⟩ := hR.prod
    exact ⟨[], [], by simp, by simp, fun v hv => by simpa [body, hprod] using hv⟩
  | @push q qs xs s j h hlk ih =>
    intro q' qs' he it hit
    cases he
    obtain ⟨_, ker, c, c', h1, h2⟩ := hI.goes q s j (lookup_mem hlk)
    rw [LR0.kernel_eq h2] at hit
    obtain ⟨x, hx, hb, rfl⟩ := mem_advance.mp hit
    have hk := ih q qs rfl
    rw [LR0.kernel_eq h1] at hk
    obtain ⟨γ, z, e, hz, hv⟩ := validAt_closure hfe (hI.clo q ker c h1 (by simp)) hk x hx
    refine ⟨γ, z, ?_, hz, hv⟩
    simp only [List.reverse_cons, e]
    rw [List.take_add_one, hb, List.append_assoc]
    rfl
  | null h ih => intro q qs' he; cases he

/-- If `a` occurs in the bodies only behind a `b`, or in productions of `a`, then where `a` is on the stack, so is `b`. -/
theorem stack_guard (hfe : Fertile g) {t : LR0} {fuel : Nat} (hI : LR0Inv g fuel [] t) (hne : ∀ x ∈ t.sets, x.1 ≠ []) {start : Nat} (hR : RootOk g start) {a b : Nat}
    (hg : ∀ (i : Nat) p, g.prods[i]? = some p → ∀ (j : Nat), p.body[j]? = some a → b ∈ p.body.take j ∨ p.head = a)
    (hr : ∀ p, g.prods[g.root]? = some p → p.head ≠ a) :
    ∀ {qs xs}, StackOk t 0 qs xs → ∀ q qs', qs = some q :: qs' →
      (a ∈ xs → b ∈ xs) ∧ ∀ it ∈ t.kernel q, ∀ p, g.prods[it.prod]? = some p → p.head = a → b ∈ xs := by
  intro qs xs h
  induction h with
  | root =>
    intro q qs' he
    cases he
    refine ⟨by simp, fun it hit p hp hh => ?_⟩
    obtain ⟨c, hc⟩ := hI.zero
    rw [LR0.kernel_eq hc] at hit
    simp only [List.mem_singleton] at hit
    subst hit
    exact absurd hh (hr p hp)
  | @push q qs xs s j h hlk ih =>
    intro q' qs' he
    cases he
    obtain ⟨_, ker, c, c', h1, h2⟩ := hI.goes q s j (lookup_mem hlk)
    obtain ⟨ih1, ih2⟩ := ih q qs rfl
    have hval := validAt_stack hfe hI hR h q qs rfl
    rw [LR0.kernel_eq h1] at ih2 hval
    -- an item with `a` behind the dot
    have next : ∀ it : Item, ValidAt g start xs it → (∀ p, g.prods[it.prod]? = some p → p.head = a → b ∈ xs) → (g.body it.prod)[it.dot]? = some a → b ∈ xs := by
      rintro it ⟨γ, z, e, -, -⟩ hh hb
      cases hp : g.prods[it.prod]? with
      | none => simp [body, hp] at hb
      | some p =>
        have hbody : g.body it.prod = p.body := by simp [body, hp]
        rw [hbody] at hb e
        rcases hg _ p hp _ hb with h3 | h3
        · have : b ∈ xs.reverse := by rw [e]; simp [h3]
          simpa using this
        · exact hh p hp h3
    have hclo : ∀ it ∈ c, ValidAt g start xs it ∧ ∀ p, g.prods[it.prod]? = some p → p.head = a → b ∈ xs := by
      obtain ⟨_, _, h3, _⟩ := closureLoop_spec (hI.clo q ker c h1 (by simp))
      refine h3 (fun it => ValidAt g start xs it ∧ ∀ p, g.prods[it.prod]? = some p → p.head = a → b ∈ xs) (by simp)
        (fun it hit => ⟨hval it (by simpa using hit), ih2 it (by simpa using hit)⟩) ?_
      rintro it ⟨hv, hh⟩ x hx
      refine ⟨validAt_fresh hfe hv hx, fun p hp hpa => ?_⟩
      obtain ⟨B, hB, hpx, h0, _⟩ := mem_freshItems.mp hx
      obtain ⟨pr, hpr, hhead⟩ := mem_prodsOf.mp hpx
      rw [hpr] at hp
      cases hp
      rw [← hhead, hpa] at hB
      exact next it hv hh hB
    refine ⟨fun hm => ?_, fun it hit p hp hh => ?_⟩
    · rcases List.mem_cons.mp hm with rfl | hm
      · have hjs : t.sets[j]? = some (g.advance c a, c') := h2
        have hne : g.advance c a ≠ [] := fun h => by
          have := hne _ (List.mem_of_getElem? hjs)
          exact this h
        obtain ⟨y, hy⟩ := List.exists_mem_of_ne_nil _ hne
        obtain ⟨x, hx, hb, -⟩ := mem_advance.mp hy
        exact List.mem_cons_of_mem _ (next x (hclo x hx).1 (hclo x hx).2 hb)
      · exact List.mem_cons_of_mem _ (ih1 hm)
    · rw [LR0.kernel_eq h2] at hit
      obtain ⟨x, hx, hb, rfl⟩ := mem_advance.mp hit
      exact List.mem_cons_of_mem _ ((hclo x hx).2 p hp hh)
  | null h ih => intro q qs' he; cases he

/-- What is on the stack occurs in a production. -/
theorem stack_used {t : LR0} {fuel : Nat} (hI : LR0Inv g fuel [] t) (hne : ∀ x ∈ t.sets, x.1 ≠ []) :
    ∀ {qs xs}, StackOk t 0 qs xs → ∀ q qs', qs = some q :: qs' → ∀ x ∈ xs, ∃ p ∈ g.prods, x ∈ p.body := by
  intro qs xs h
  induction h with
  | root => intro q qs' he x hx; simp at hx
  | @push q qs xs s j h hlk ih =>
    intro q' qs' he x hx
    cases he
    obtain ⟨_, ker, c, c', h1, h2⟩ := hI.goes q s j (lookup_mem hlk)
    rcases List.mem_cons.mp hx with rfl | hx
    · obtain ⟨y, hy⟩ := List.exists_mem_of_ne_nil _ (hne _ (List.mem_of_getElem? h2))
      obtain ⟨it, _, hb, -⟩ := mem_advance.mp hy
      exact body_used (List.mem_of_getElem? hb)
    · exact ih q qs rfl x hx
  | null h ih => intro q qs' he; cases he

/-- Whatever the parser has read can be continued to something derivable. -/
theorem viable (hfe : Fertile g) {t : LR0} {fuel : Nat} (hI : LR0Inv g fuel [] t) (hne : ∀ x ∈ t.sets, x.1 ≠ []) {start : Nat} (hR : RootOk g start)
    {used : List Token} {s : PState} (h : ParseInv g t 0 used s) {q : Nat} {qs : List (Option Nat)} (hq : s.states = some q :: qs) :
    ∃ z, Gives g [start] (used ++ z) ∧ ∀ x ∈ z, Nice g x := by
  obtain ⟨xs, hst, hfo⟩ := h.stacks
  have hlt := StackOk.set hI rfl hst hq
  have hk := hne _ (List.getElem_mem hlt)
  obtain ⟨it, hit⟩ := List.exists_mem_of_ne_nil _ hk
  have hit' : it ∈ t.kernel q := by
    rw [LR0.kernel_eq (c := t.sets[q].2) (by rw [List.getElem?_eq_getElem hlt])]
    exact hit
  obtain ⟨γ, z, e, hz, hv⟩ := validAt_stack hfe hI hR hst q qs hq it hit'
  obtain ⟨w, hw, hwn⟩ := hfe.list (ss := (g.body it.prod).drop it.dot) (fun s hs => body_used (List.mem_of_mem_drop hs))
  refine ⟨w ++ z, ?_, fun y hy => ?_⟩
  · rw [← List.append_assoc]
    refine hv _ ?_
    have := Gives.append (g := g) ⟨_, hfo⟩ hw
    rw [e, List.append_assoc, List.take_append_drop] at this
    exact this
  · rcases List.mem_append.mp hy with hy | hy
    · exact hwn y hy
    · exact hz y hy

/-! ### Where the parse stops -/

variable {tb : Table} {resets : Nat → Bool}

theorem stopLoop_succ {k : Nat} {s : PState} {inp : List Token} : g.stopLoop tb resets (k + 1) s inp =
    match pull s.next inp with
    | none => .error .throws
    | some (tok, input) =>
      match tok.types with
      | none => .error .ub
      | some tys =>
        match g.parseAdvance tb resets { s with next := none } tok tys with
        | .error e => .error e
        | .ok .no => .ok (.rejected { s with next := none } tok input)
        | .ok .accepted =>
          match s.matched with
          | [] => .error .ub
          | .leaf _ :: _ => .error .throws
          | t :: _ => .ok (.accepted t input s.kids)
        | .ok (.moved s) => g.stopLoop tb resets k s input := rfl

/-- What `parse` makes of it. -/
def TokStop.result : Except Fail TokStop → Except Fail (Tree × List Token × Nat)
  | .error e => .error e
  | .ok (.accepted t rest kids) => .ok (t, rest, kids)
  | .ok (.rejected _ _ _) => .error .throws

theorem stopLoop_parse : ∀ (k : Nat) (s : PState) (inp : List Token),
    g.parseLoop tb resets k s inp = TokStop.result (g.stopLoop tb resets k s inp)
  | 0, _, _ => rfl
  | k + 1, s, inp => by
    rw [parseLoop_succ, stopLoop_succ]
    cases pull s.next inp with
    | none => rfl
    | some x =>
      obtain ⟨tok, input⟩ := x
      simp only
      cases tok.types with
      | none => rfl
      | some tys =>
        simp only
        cases g.parseAdvance tb resets { s with next := none } tok tys with
        | error e => rfl
        | ok r =>
          cases r with
          | no => rfl
          | accepted =>
            cases s.matched with
            | nil => rfl
            | cons x xs => cases x <;> rfl
          | moved s1 => exact stopLoop_parse k s1 input

/-- With a counter that is always set back nothing else changes. -/
theorem reduce_free (hlen : ∀ p ∈ g.prods, p.body.length ≤ 5000) {s s1 : PState} {tok : Token} {p k2 : Nat} (hk2 : k2 ≤ 5000)
    (hr : g.reduce tb resets s tok p = .ok s1) :
    ∃ k3, k3 ≤ 5000 ∧ g.reduce tb (fun _ => true) { s with kids := k2 } tok p = .ok { s1 with kids := k3 } := by
  have hb : (g.body p).length ≤ 5000 := by
    unfold body
    cases hp : g.prods[p]? with
    | none => simp
    | some pr => exact hlen pr (List.mem_of_getElem? hp)
  unfold reduce at hr ⊢
  simp only at hr ⊢
  split at hr
  · cases hr
  rename_i hc
  simp only [Bool.or_eq_true, decide_eq_true_eq, not_or, Nat.not_lt] at hc
  rw [if_neg (by
    simp only [Bool.or_eq_true, decide_eq_true_eq, not_or, Nat.not_lt]
    refine ⟨hc.1, fun h => ?_⟩
    have := h.2
    unfold cSizeOfAllChildren at this
    omega)]
  cases hd : s.states.drop (g.body p).length with
  | nil => rw [hd] at hr; cases hr
  | cons q1 qs1 =>
    rw [hd] at hr
    cases q1 with
    | none => cases hr
    | some q1 =>
      simp only at hr ⊢
      cases hl : tb.actions.lookup q1 with
      | none => rw [hl] at hr; cases hr
      | some acts1 =>
        rw [hl] at hr
        simp only at hr ⊢
        cases hh : acts1[g.head p]? with
        | none => rw [hh] at hr; cases hr
        | some a1 =>
          rw [hh] at hr
          cases a1 with
          | flag _ => cases hr
          | reduce _ => cases hr
          | shift j =>
            cases hr
            refine ⟨resetKids (fun _ => true) p (k2 + (g.body p).length), ?_, rfl⟩
            unfold resetKids
            simp only [Bool.true_and, decide_eq_true_eq]
            split
            · omega
            · rename_i h5
              unfold cSizeOfAllChildren at h5
              omega

/-- The result of a step with the counter always set back. -/
def FreeStep (g : Grammar) (tb : Table) (s : PState) (tok : Token) (k2 : Nat) (tys : List Nat) : Sym → Prop
  | .no => g.parseAdvance tb (fun _ => true) { s with kids := k2 } tok tys = .ok .no
  | .accepted => True
  | .moved s1 => ∃ k3, k3 ≤ 5000 ∧ g.parseAdvance tb (fun _ => true) { s with kids := k2 } tok tys = .ok (.moved { s1 with kids := k3 })

theorem parseAdvance_free (hlen : ∀ p ∈ g.prods, p.body.length ≤ 5000) {s : PState} {tok : Token} {k2 : Nat} (hk2 : k2 ≤ 5000) :
    ∀ {tys : List Nat} {res : Sym}, g.parseAdvance tb resets s tok tys = .ok res → FreeStep g tb s tok k2 tys res := by
  intro tys
  induction tys with
  | nil =>
    intro res h
    simp only [parseAdvance, Except.ok.injEq] at h
    subst h
    rfl
  | cons ty tys ih =>
    intro res h
    have keep : g.parseSymbol tb (fun _ => true) { s with kids := k2 } tok ty = .ok .no → g.parseAdvance tb resets s tok tys = .ok res →
        FreeStep g tb s tok k2 (ty :: tys) res := by
      intro h1 h2
      have := ih h2
      cases res with
      | no => simp only [FreeStep, parseAdvance, h1] at this ⊢; exact this
      | accepted => trivial
      | moved s1 => simp only [FreeStep, parseAdvance, h1] at this ⊢; exact this
    have done : ∀ s1 k3, k3 ≤ 5000 → g.parseSymbol tb (fun _ => true) { s with kids := k2 } tok ty = .ok (.moved { s1 with kids := k3 }) →
        FreeStep g tb s tok k2 (ty :: tys) (.moved s1) := by
      intro s1 k3 hk h1
      exact ⟨k3, hk, by simp only [parseAdvance, h1]⟩
    simp only [parseAdvance] at h
    cases hps : g.parseSymbol tb resets s tok ty with
    | error e => rw [hps] at h; cases h
    | ok r =>
      rw [hps] at h
      unfold parseSymbol at hps
      split at hps
      · rename_i q qs hst
        split at hps
        · cases hps
        rename_i acts hacts
        split at hps
        · cases hps
        · rename_i ha
          cases hps
          exact keep (by unfold parseSymbol; simp only [hst, hacts, ha]) h
        · cases hps
          cases h
          trivial
        · rename_i j ha
          cases hps
          cases h
          exact done _ k2 hk2 (by unfold parseSymbol; simp only [hst, hacts, ha])
        · rename_i p ha
          split at hps
          · cases hps
          · rename_i s1 hr
            cases hps
            cases h
            obtain ⟨k3, h1, h2⟩ := reduce_free hlen hk2 hr
            exact done _ k3 h1 (by
              unfold parseSymbol
              simp only [hst, hacts, ha]
              rw [← hst, h2])
      · cases hps

theorem Forest.labs {xs : List Nat} {ms : List Tree} {w : List Token} (h : Forest g xs.reverse ms.reverse w) (hw : ∀ x ∈ w, Typed g x) :
    List.Forall₂ (Lab g) xs ms := by
  rw [← List.forall₂_reverse_iff]
  generalize xs.reverse = a at h
  generalize ms.reverse = b at h
  induction h with
  | nil => exact .nil
  | @tok tk s ss ts w tys h1 h2 _ ih =>
    refine .cons (fun _ _ => ?_) (ih fun x hx => hw x (by simp [hx]))
    obtain ⟨tys', e, h⟩ := hw tk (by simp)
    rw [h1] at e
    cases e
    exact h s h2
  | prod _ _ _ _ ih => exact .cons (fun _ h => by cases h) (ih fun x hx => hw x (by simp [hx]))

/-- A token the grammar can use. -/
def Usable (g : Grammar) (x : Token) : Prop := ∃ tys ty, x.types = some tys ∧ ty ∈ tys ∧ ∃ p ∈ g.prods, ty ∈ p.body

section
variable {t : LR0} {fuel start : Nat} (hT : TableOk g t tb) (hF : Firm g t tb) (hW : Wide g tb) (hsep : Separate g) (hend : tokenEnd ∈ g.terminals)
  (hroot : tb.root = some 0) (hR : RootOk g start) (hI : LR0Inv g fuel [] t)
include hT hF hW hsep hend hroot hR hI

/-- Where the parse stops: the tokens before were consumed, and the same happens whatever follows. -/
theorem stopLoop_spec (hlen : ∀ p ∈ g.prods, p.body.length ≤ 5000) : ∀ {k : Nat} {used : List Token} {s : PState} {inp : List Token} {q : Nat}
    {qs : List (Option Nat)} {s' : PState} {tok : Token} {rest : List Token}, ParseInv g t 0 used s →
    (∀ x ∈ used, Typed g x) → s.states = some q :: qs → (∀ x ∈ remaining s inp, Typed g x) → g.stopLoop tb resets k s inp = .ok (.rejected s' tok rest) →
    ∃ used' q' qs', remaining s inp = used' ++ tok :: rest ∧ (∀ x ∈ used', Usable g x) ∧ ParseInv g t 0 (used ++ used') s' ∧
      s'.states = some q' :: qs' ∧
      ∀ kids2, kids2 ≤ 5000 → ∀ rest2 inp2, s.next.toList ++ inp2 = used' ++ tok :: rest2 →
        ∃ s2, g.stopLoop tb (fun _ => true) k { s with kids := kids2 } inp2 = .ok (.rejected s2 tok rest2) := by
  intro k
  induction k with
  | zero => intro used s inp q qs s' tok rest _ _ _ _ h; simp [stopLoop] at h
  | succ k ih =>
    intro used s inp q qs s' tok rest hinv hlab hq htyped h
    rw [stopLoop_succ] at h
    cases hpull : pull s.next inp with
    | none => rw [hpull] at h; cases h
    | some x =>
      obtain ⟨tk, inp'⟩ := x
      rw [hpull] at h
      have hrem : remaining s inp = tk :: inp' := pull_some hpull
      rw [hrem] at htyped ⊢
      obtain ⟨tys, hty, htt⟩ := htyped tk (by simp)
      simp only [hty] at h
      obtain ⟨xs, hst, hfo⟩ := hinv.stacks
      have hstep := advance_total (s := { s with next := none }) (resets := resets) hT hF hW hsep hend hroot hR hI rfl hst (hfo.labs hlab) hq tk hty
        (fun _ h => h) htt
      have hsound := fun res => parseAdvance_spec (s := { s with next := none }) (resets := resets) (used := used) hT hroot hR ⟨hinv.stacks⟩ (tok := tk) hty
        (tys := tys) (res := res) (fun _ h => h)
      have hfree := fun (kids2 : Nat) (hk : kids2 ≤ 5000) res => parseAdvance_free (s := { s with next := none }) (tb := tb) (resets := resets) hlen hk
        (tok := tk) (tys := tys) (res := res)
      have hnext : ∀ (kids2 : Nat) inp2 r2, s.next.toList ++ inp2 = tk :: r2 → pull ({ s with kids := kids2 } : PState).next inp2 = some (tk, r2) :=
        fun _ _ _ h => next_token h
      generalize hadv : g.parseAdvance tb resets { s with next := none } tk tys = res at hstep h hsound hfree
      cases hstep with
      | no =>
        cases h
        refine ⟨[], q, qs, rfl, by simp, by simpa using ⟨hinv.stacks⟩, hq, fun kids2 hk rest2 inp2 he => ?_⟩
        have hf := hfree kids2 hk .no rfl
        refine ⟨_, by rw [stopLoop_succ, hnext kids2 inp2 rest2 he]; simp only [hty]; simp only [FreeStep] at hf; rw [hf]⟩
      | accepted _ =>
        simp only at h
        split at h <;> cases h
      | @shift ty j tys' h1 h2 h3 h4 h5 h6 =>
        simp only at h
        rcases hsound _ rfl with ⟨_, hP⟩ | ⟨hn, _⟩
        · obtain ⟨used', q', qs', e1, e2, e3, e4, e5⟩ := ih (used := used ++ [tk]) hP (by
            intro x hx
            rcases List.mem_append.mp hx with hx | hx
            · exact hlab x hx
            · exact htyped x (by simp [List.mem_singleton.mp hx])) rfl (fun x hx => htyped x (by simp [remaining] at hx; simp [hx])) h
          have e1 : inp' = used' ++ tok :: rest := e1
          refine ⟨tk :: used', q', qs', by rw [e1]; rfl, ?_, by simpa using e3, e4, fun kids2 hk rest2 inp2 he => ?_⟩
          · intro x hx
            rcases List.mem_cons.mp hx with rfl | hx
            · exact ⟨tys', ty, h1, h2, h4⟩
            · exact e2 x hx
          · obtain ⟨k3, hk3, hf⟩ := hfree kids2 hk _ rfl
            obtain ⟨s2, hs2⟩ := e5 k3 hk3 rest2 (used' ++ tok :: rest2) rfl
            refine ⟨s2, ?_⟩
            rw [stopLoop_succ, hnext kids2 inp2 _ he]
            simp only [hty]
            rw [hf]
            exact hs2
        · cases hn
      | full => cases h
      | @reduce p pr xs' s1 j qs1 h1 h2 h3 h4 h5 h6 h7 h8 h9 =>
        simp only at h
        rcases hsound _ rfl with ⟨hn, _⟩ | ⟨_, hP⟩
        · rw [h7] at hn; cases hn
        · obtain ⟨used', q', qs', e1, e2, e3, e4, e5⟩ := ih (used := used) hP hlab h5 (fun x hx => htyped x (by simpa [remaining, h7] using hx)) h
          have e1 : tk :: inp' = used' ++ tok :: rest := by simpa [remaining, h7] using e1
          refine ⟨used', q', qs', e1, e2, e3, e4, fun kids2 hk rest2 inp2 he => ?_⟩
          obtain ⟨k3, hk3, hf⟩ := hfree kids2 hk _ rfl
          obtain ⟨r2, hr2⟩ : ∃ r2, used' ++ tok :: rest2 = tk :: r2 := by
            cases used' with
            | nil => cases e1; exact ⟨rest2, rfl⟩
            | cons a l => cases e1; exact ⟨_, rfl⟩
          obtain ⟨s2, hs2⟩ := e5 k3 hk3 rest2 r2 (by rw [h7, hr2]; rfl)
          refine ⟨s2, ?_⟩
          rw [stopLoop_succ, hnext kids2 inp2 r2 (he.trans hr2)]
          simp only [hty]
          rw [hf]
          exact hs2

/-- The parse of something that contains an end token throws only where it is rejected. -/
theorem stopLoop_throws (hs : start ∉ g.terminals) (hfree : ∀ p ∈ g.prods, tokenEnd ∉ p.body) : ∀ {k : Nat} {used : List Token} {s : PState} {inp : List Token} {q : Nat}
    {qs : List (Option Nat)}, ParseInv g t 0 used s →
    (∀ x ∈ used, Typed g x) → s.states = some q :: qs → (∀ x ∈ remaining s inp, Typed g x) →
    (∃ e ∈ remaining s inp, e.types = some [tokenEnd]) → g.stopLoop tb resets k s inp ≠ .error .throws := by
  intro k
  induction k with
  | zero => intro used s inp q qs _ _ _ _ _ h; simp [stopLoop] at h
  | succ k ih =>
    intro used s inp q qs hinv hlab hq htyped hex h
    rw [stopLoop_succ] at h
    cases hpull : pull s.next inp with
    | none =>
      obtain ⟨e, he, _⟩ := hex
      cases hn : s.next with
      | some x => rw [hn] at hpull; cases hpull
      | none =>
        rw [hn] at hpull
        cases inp with
        | nil => simp [remaining, hn] at he
        | cons a l => cases hpull
    | some x =>
      obtain ⟨tk, inp'⟩ := x
      rw [hpull] at h
      have hrem : remaining s inp = tk :: inp' := pull_some hpull
      rw [hrem] at htyped hex
      obtain ⟨tys, hty, htt⟩ := htyped tk (by simp)
      simp only [hty] at h
      obtain ⟨xs, hst, hfo⟩ := hinv.stacks
      have hstep := advance_total (s := { s with next := none }) (resets := resets) hT hF hW hsep hend hroot hR hI rfl hst (hfo.labs hlab) hq tk hty
        (fun _ h => h) htt
      have hsound := fun res => parseAdvance_spec (s := { s with next := none }) (resets := resets) (used := used) hT hroot hR ⟨hinv.stacks⟩ (tok := tk) hty
        (tys := tys) (res := res) (fun _ h => h)
      generalize g.parseAdvance tb resets { s with next := none } tk tys = res at hstep h hsound
      cases hstep with
      | no => cases h
      | accepted hx =>
        subst hx
        have hl := hfo.labs hlab
        cases hm : s.matched with
        | nil => rw [hm] at hl; cases hl
        | cons tr ms =>
          rw [hm] at hl h
          cases hl with
          | cons hl _ =>
            cases tr with
            | leaf tk => exact absurd (hl tk rfl) hs
            | node p cs => cases h
      | @shift ty j tys' h1 h2 h3 h4 h5 h6 =>
        simp only at h
        rcases hsound _ rfl with ⟨_, hP⟩ | ⟨hn, _⟩
        · refine ih (used := used ++ [tk]) hP (by
            intro x hx
            rcases List.mem_append.mp hx with hx | hx
            · exact hlab x hx
            · exact htyped x (by simp [List.mem_singleton.mp hx])) rfl (fun x hx => htyped x (by simp [remaining] at hx; simp [hx])) ?_ h
          obtain ⟨e, he, hee⟩ := hex
          rcases List.mem_cons.mp he with rfl | he
          · exfalso
            rw [hee] at h1
            cases h1
            obtain ⟨p, hp, hm⟩ := h4
            rw [List.mem_singleton.mp h2] at hm
            exact hfree p hp hm
          · exact ⟨e, he, hee⟩
        · cases hn
      | full => cases h
      | @reduce p pr xs' s1 j qs1 h1 h2 h3 h4 h5 h6 h7 h8 h9 =>
        simp only at h
        rcases hsound _ rfl with ⟨hn, _⟩ | ⟨_, hP⟩
        · rw [h7] at hn; cases hn
        · exact ih (used := used) hP hlab h5 (fun x hx => htyped x (by simpa [remaining, h7] using hx)) (by simpa [remaining, h7] using hex) h
end

/-- No node has many children. -/
def _root_.LogSurgeon.Tree.Narrow : Tree → Prop
  | .leaf _ => True
  | .node _ cs => cs.length ≤ 5000 ∧ all cs
where
  /-- The same for several trees. -/
  all : List Tree → Prop
    | [] => True
    | t :: ts => t.Narrow ∧ all ts

theorem Forest.narrow (hlen : ∀ p ∈ g.prods, p.body.length ≤ 5000) {ss : List Nat} {ts : List Tree} {w : List Token} (h : Forest g ss ts w) :
    Tree.Narrow.all ts := by
  induction h with
  | nil => trivial
  | tok _ _ _ ih => exact ⟨trivial, ih⟩
  | @prod i p cs ss ts w w' h1 h2 _ ih1 ih2 =>
    refine ⟨⟨?_, ih1⟩, ih2⟩
    rw [← h2.length]
    exact hlen p (List.mem_of_getElem? h1)

/-! ### With names -/

variable {o : Orders} {fuel : Nat} {t : LR0} {terms : List String} {start : String} {all : List (String × List String)} {sid : Nat}

theorem fertile_names (S : Sound g o fuel tb terms start all sid t) (hT : HasTerms (reservedNames ++ terms) g) (hall : ∀ d ∈ all, d ∈ g.decls)
    {bd : List String} (hfst : (start, bd) ∈ all)
    (hpr : ∀ d ∈ all, ∀ s ∈ d.2, Productive (reservedNames ++ terms) all s) : Fertile g := by
  have hN := S.names.names
  have key : ∀ n, Productive (reservedNames ++ terms) all n → ∀ p ∈ g.prods, ∀ s ∈ p.body, g.symbolId.lookup n = some s →
      ∃ w, Gives g [s] w ∧ ∀ x ∈ w, Nice g x := by
    intro n h
    induction h with
    | term hn =>
      intro p hp s hs e
      obtain ⟨id, hm, e'⟩ := hT _ hn
      rw [e] at e'
      cases e'
      refine ⟨[{ types := some [s] }], ⟨_, .tok rfl (by simp) .nil⟩, fun x hx => ?_⟩
      rw [List.mem_singleton.mp hx]
      exact ⟨s, rfl, hm, p, hp, hs⟩
    | @prod n body hd _ ih =>
      intro p hp s hs e
      obtain ⟨i, hi⟩ := List.getElem?_of_mem (hall _ hd)
      obtain ⟨pr, hpr', hh, hb⟩ := forall₂_getElem? hN.prods hi
      simp only at hh hb
      rw [e] at hh
      cases hh
      have hlist : ∀ (l : List Nat), (∀ x ∈ l, x ∈ pr.body) → ∃ w, Gives g l w ∧ ∀ x ∈ w, Nice g x := by
        intro l
        induction l with
        | nil => intro _; exact ⟨[], ⟨[], .nil⟩, by simp⟩
        | cons a l ihl =>
          intro hl
          obtain ⟨k, hk⟩ := List.getElem?_of_mem (hl a (by simp))
          obtain ⟨m, hm, e'⟩ := forall₂_getElem?' hb hk
          obtain ⟨w1, h1, h2⟩ := ih m (List.mem_of_getElem? hm) pr (List.mem_of_getElem? hpr') a (hl a (by simp)) e'
          obtain ⟨w2, h3, h4⟩ := ihl fun x hx => hl x (by simp [hx])
          refine ⟨w1 ++ w2, h1.append h3, fun x hx => ?_⟩
          rcases List.mem_append.mp hx with hx | hx
          · exact h2 x hx
          · exact h4 x hx
      obtain ⟨w, ⟨ts, hw⟩, hn⟩ := hlist pr.body fun _ h => h
      have := Forest.prod hpr' hw .nil
      rw [List.append_nil] at this
      exact ⟨w, ⟨_, this⟩, hn⟩
  intro p hp s hs
  obtain ⟨i, hi⟩ := List.getElem?_of_mem hp
  obtain ⟨d, hd, hh, hf⟩ := hN.decl hi
  obtain ⟨k, hk⟩ := List.getElem?_of_mem hs
  obtain ⟨n, hn, e⟩ := forall₂_getElem?' hf hk
  refine key n ?_ p hp s hs e
  have hnm := List.mem_of_getElem? hn
  by_cases hi1 : i = 1
  · subst hi1
    have := hd.symm.trans S.names.prime
    simp only [Option.some.injEq] at this
    rw [this] at hnm
    simp only [List.mem_singleton] at hnm
    rw [hnm]
    exact .prod hfst (hpr _ hfst)
  · exact hpr d (S.names.decls i d hd hi1) n hnm

mutual
theorem counter_free : ∀ (tr : Tree) (k : Nat), k ≤ 5000 → tr.Narrow → ∃ k', k' ≤ 5000 ∧ tr.counter (fun _ => true) k = some k'
  | .leaf _, k, hk, _ => ⟨k, hk, rfl⟩
  | .node p cs, k, hk, hn => by
    simp only [Tree.Narrow] at hn
    obtain ⟨k1, h1, h2⟩ := counters_free cs k hk hn.2
    simp only [Tree.counter, h2]
    rw [if_neg (by omega)]
    simp only [true_and]
    split
    · exact ⟨0, by omega, rfl⟩
    · exact ⟨_, by omega, rfl⟩
theorem counters_free : ∀ (ts : List Tree) (k : Nat), k ≤ 5000 → Tree.Narrow.all ts → ∃ k', k' ≤ 5000 ∧ Tree.counter.counters (fun _ => true) ts k = some k'
  | [], k, hk, _ => ⟨k, hk, rfl⟩
  | t :: ts, k, hk, hn => by
    simp only [Tree.Narrow.all] at hn
    obtain ⟨k1, h1, h2⟩ := counter_free t k hk hn.1
    obtain ⟨k2, h3, h4⟩ := counters_free ts k1 h1 hn.2
    simp only [Tree.counter.counters, h2]
    exact ⟨k2, h3, h4⟩
end

/-- The conditions on a grammar under which the table is known to be complete (those of C42), with short bodies. -/
structure Decent (terms : List String) (start : String) (bd : List String) (ds : List (String × List String)) (g : Grammar) : Prop where
  build : g = build terms ((start, bd) :: ds)
  prime : NoPrime ((start, bd) :: ds)
  primeT : "$START_PRIME" ∉ terms
  sep : ∀ d ∈ (start, bd) :: ds, d.1 ∉ reservedNames ++ terms
  fin : ∀ d ∈ (start, bd) :: ds, "$end" ∉ d.2
  productive : ∀ d ∈ (start, bd) :: ds, ∀ s ∈ d.2, Productive (reservedNames ++ terms) ((start, bd) :: ds) s
  clean : EndsCleanly ((start, bd) :: ds) start
  size : g.symbolId.length ≤ cNullSymbol
  short : ∀ d ∈ (start, bd) :: ds, d.2.length ≤ 5000

theorem Decent.lengths {bd : List String} {ds : List (String × List String)} (D : Decent terms start bd ds g)
    (S : Sound g o fuel tb terms start ((start, bd) :: ds) sid t) : ∀ p ∈ g.prods, p.body.length ≤ 5000 := by
  intro p hp
  obtain ⟨i, hi⟩ := List.getElem?_of_mem hp
  obtain ⟨d, hd, -, hf⟩ := S.names.names.decl hi
  rw [hf.length_eq]
  by_cases hi1 : i = 1
  · subst hi1
    have := hd.symm.trans S.names.prime
    simp only [Option.some.injEq] at this
    rw [this]
    simp
  · exact D.short d (S.names.decls i d hd hi1)

/-- The names of the symbols on the stack. -/
theorem stack_names {bd : List String} {ds : List (String × List String)} (S : Sound g o fuel tb terms start ((start, bd) :: ds) sid t)
    (hfe : Fertile g) {used : List Token} (hused : ∀ x ∈ used, Typed g x) {s : PState} (h : ParseInv g t 0 used s) {q : Nat} {qs : List (Option Nat)}
    (hq : s.states = some q :: qs) :
    ∃ ns, Derivation g.decls (g.IsTok (reservedNames ++ terms)) ns s.matched.reverse used ∧
      (∀ n ∈ ns, n = start ∨ ∃ d ∈ (start, bd) :: ds, n ∈ d.2) ∧
      ∀ a b, a ≠ "$START_PRIME" → a ≠ start → (∃ ib, g.symbolId.lookup b = some ib) →
        (∀ d ∈ (start, bd) :: ds, ∀ (j : Nat), d.2[j]? = some a → b ∈ d.2.take j ∨ d.1 = a) → a ∈ ns → b ∈ ns := by
  obtain ⟨xs, hst, hfo⟩ := h.stacks
  have hne := lr0Sets_ne S.sets
  have hN := S.names.names
  have hname : ∀ x ∈ xs.reverse, ∃ n, g.symbolId.lookup n = some x ∧ (n = start ∨ ∃ d ∈ (start, bd) :: ds, n ∈ d.2) := by
    intro x hx
    obtain ⟨p, hp, hm⟩ := stack_used S.lr0 hne hst q qs hq x (by simpa using hx)
    obtain ⟨i, hi⟩ := List.getElem?_of_mem hp
    obtain ⟨d, hd, -, hf⟩ := hN.decl hi
    obtain ⟨n, hn, hl⟩ := forall₂_mem_left hf hm
    refine ⟨n, hl, ?_⟩
    by_cases hi1 : i = 1
    · subst hi1
      have := hd.symm.trans S.names.prime
      simp only [Option.some.injEq] at this
      rw [this] at hn
      exact .inl (by simpa using hn)
    · exact .inr ⟨d, S.names.decls i d hd hi1, hn⟩
  obtain ⟨ns, hns⟩ : ∃ ns, List.Forall₂ (fun x n => g.symbolId.lookup n = some x ∧ (n = start ∨ ∃ d ∈ (start, bd) :: ds, n ∈ d.2)) xs.reverse ns := by
    generalize xs.reverse = ys at hname
    induction ys with
    | nil => exact ⟨[], .nil⟩
    | cons y ys ih =>
      obtain ⟨n, hn⟩ := hname y (by simp)
      obtain ⟨ns, h⟩ := ih fun x hx => hname x (by simp [hx])
      exact ⟨n :: ns, .cons hn h⟩
  refine ⟨ns, ?_, fun n hn => ?_, ?_⟩
  · refine Forest.names hN hfo ?_ (hns.imp fun _ _ h => h.1)
    intro x hx tys hty ty hm
    obtain ⟨tys', h1, h2⟩ := hused x hx
    rw [h1] at hty
    cases hty
    exact h2 ty hm
  · obtain ⟨x, _, h⟩ := forall₂_mem_right hns hn
    exact h.2
  · rintro a b hap has ⟨ib, hib⟩ hg ha
    obtain ⟨ia, hia, hla, -⟩ := forall₂_mem_right hns ha
    have hguard := (stack_guard hfe S.lr0 hne S.rootOk (a := ia) (b := ib) ?_ ?_ hst q qs hq).1 (by simpa using hia)
    · obtain ⟨b', hb', hlb, -⟩ := forall₂_mem_left hns (show ib ∈ xs.reverse by simpa using hguard)
      rw [hN.inj _ _ _ hib hlb]
      exact hb'
    · intro i p hp j hj
      obtain ⟨d, hd, hhd, hf⟩ := hN.decl hp
      obtain ⟨n, hn, hln⟩ : ∃ n, d.2[j]? = some n ∧ g.symbolId.lookup n = some ia := by
        have hlt := (List.getElem?_eq_some_iff.mp hj).1
        have hlt' : j < d.2.length := by rw [← hf.length_eq]; exact hlt
        have h3 := hf.get hlt hlt'
        have h4 : p.body.get ⟨j, hlt⟩ = ia := by
          rw [List.getElem?_eq_getElem hlt] at hj
          exact Option.some.inj hj
        rw [h4] at h3
        exact ⟨_, List.getElem?_eq_getElem hlt', h3⟩
      rw [hN.inj _ _ _ hln hla] at hn
      by_cases hi1 : i = 1
      · subst hi1
        have := hd.symm.trans S.names.prime
        simp only [Option.some.injEq] at this
        rw [this] at hn
        exact absurd (List.mem_singleton.mp (List.mem_of_getElem? hn)) has
      · rcases hg d (S.names.decls i d hd hi1) j hn with h5 | h5
        · left
          have := List.forall₂_take j hf
          obtain ⟨x, hx, hlx⟩ := forall₂_mem_right this h5
          rw [hib] at hlx
          cases hlx
          exact hx
        · right
          rw [h5, hla] at hhd
          exact (Option.some.inj hhd).symm
    · intro p hp heq
      rw [S.names.root] at hp
      obtain ⟨d, hd, hhd, hf⟩ := hN.decl hp
      have := hd.symm.trans S.names.prime
      simp only [Option.some.injEq] at this
      rw [this, heq] at hhd
      exact hap (hN.inj _ _ _ hla hhd)

/-- A rejected token: what is before it can be completed, with it nothing derivable begins. -/
theorem rejected_names {bd : List String} {ds : List (String × List String)} (D : Decent terms start bd ds g) (ho : o.Ok g)
    (hgen : g.generate o fuel = .ok tb) {input : List Token} (hin : ∀ x ∈ input, g.Clear tb x ∨ x.types = some [tokenEnd]) {k kids : Nat}
    {s : PState} {tok : Token} {rest : List Token} (h : g.stop tb resets k kids input = .ok (.rejected s tok rest)) :
    ∃ w t, input = w ++ tok :: rest ∧ ParseInv g t 0 w s ∧ (∃ sid, Sound g o fuel tb terms start ((start, bd) :: ds) sid t) ∧ (∃ q qs acts, s.states = some q :: qs ∧ tb.actions.lookup q = some acts) ∧
      (∃ ns, Derivation g.decls (g.IsTok (reservedNames ++ terms)) ns s.matched.reverse w ∧
        (∀ n ∈ ns, n = start ∨ ∃ d ∈ (start, bd) :: ds, n ∈ d.2) ∧
        ∀ a b, a ≠ "$START_PRIME" → a ≠ start → (∃ ib, g.symbolId.lookup b = some ib) →
          (∀ d ∈ (start, bd) :: ds, ∀ (j : Nat), d.2[j]? = some a → b ∈ d.2.take j ∨ d.1 = a) → a ∈ ns → b ∈ ns) ∧
      (∃ z tree, Derivation g.decls (g.IsTok (reservedNames ++ terms)) [start] [tree] (w ++ z) ∧ ∀ x ∈ z, Nice g x) ∧
      (tok.types = some [tokenEnd] → ¬ ∃ tree, Derivation g.decls (g.IsTok (reservedNames ++ terms)) [start] [tree] w) ∧
      (g.Clear tb tok → ∀ z, (∀ x ∈ z, g.Clear tb x) →
        ¬ ∃ tree, Derivation g.decls (g.IsTok (reservedNames ++ terms)) [start] [tree] (w ++ tok :: z)) := by
  obtain ⟨sid, t, S⟩ := sound_names D.build D.prime D.sep D.primeT D.productive D.size ho hgen
  obtain ⟨hall, hT, hle⟩ := build_has (terms := terms) (all := (start, bd) :: ds)
  rw [← D.build] at hall hT hle
  have hlen := D.lengths S
  have hse : start ≠ "$end" := fun h => D.sep (start, bd) (by simp) (by rw [h]; simp [reservedNames, reserved])
  have hfree := fun p hp => S.end_free D.fin hse (p := p) hp
  have htyped : ∀ x ∈ input, Typed g x := by
    intro x hx
    rcases hin x hx with h | h
    · exact h.typed
    · exact ⟨[tokenEnd], h, by simpa using S.finT⟩
  unfold stop at h
  rw [S.root] at h
  obtain ⟨w, q, qs, e1, e2, e3, e4, e5⟩ := stopLoop_spec S.table S.firm S.wide S.sep S.finT S.root S.rootOk S.lr0 hlen (used := [])
    ⟨[], .root, .nil⟩ (by simp) rfl (by simpa [remaining] using htyped) h
  rw [List.nil_append] at e3
  have e1 : input = w ++ tok :: rest := by simpa [remaining] using e1
  have hwclear : ∀ x ∈ w, g.Clear tb x := by
    intro x hx
    rcases hin x (by rw [e1]; simp [hx]) with h | h
    · exact h
    · exfalso
      obtain ⟨tys, ty, g1, g2, p, hp, hm⟩ := e2 x hx
      rw [h] at g1
      cases g1
      rw [List.mem_singleton.mp g2] at hm
      exact hfree p hp hm
  have hcontra : ∀ (u : List Token), (∀ x ∈ u, g.Clear tb x) → ∀ rest2 (e : Token) r2, e.types = some [tokenEnd] → u ++ e :: r2 = w ++ tok :: rest2 →
      ¬ ∃ tree, Derivation g.decls (g.IsTok (reservedNames ++ terms)) [start] [tree] u := by
    rintro u hu rest2 e r2 he heq ⟨tree, hd⟩
    have hfor := Forest.of_names S.names.names hd (.cons S.start .nil)
    obtain ⟨k', _, hk'⟩ := counter_free tree 0 (by omega) (hfor.narrow hlen).1
    obtain ⟨n, tree', k1, h1, _⟩ := complete_names (resets := fun _ => true) D.build D.prime D.sep D.primeT D.productive D.size ho hgen (.inr ⟨D.clean, D.fin⟩) hd hu hk' he r2
    obtain ⟨s2, hs2⟩ := e5 0 (by omega) rest2 (u ++ e :: r2) (by simpa using heq)
    have h2 := stopLoop_parse (g := g) (tb := tb) (resets := fun _ => true) k { states := [some 0], matched := [], next := none, kids := 0 } (u ++ e :: r2)
    rw [hs2] at h2
    have h3 := parseLoop_mono h2 (by simp [TokStop.result]) (n + k) (by omega)
    have h4 := h1 (n + k) (by omega)
    unfold parse at h4
    rw [S.root, h3] at h4
    cases h4
  obtain ⟨z, ⟨ts, hz⟩, hzn⟩ := viable (fertile_names S hT hall (List.mem_cons_self (a := (start, bd)) (l := ds)) D.productive) S.lr0 (lr0Sets_ne S.sets) S.rootOk e3 e4
  obtain ⟨xs, hst, -⟩ := e3.stacks
  have hlt := StackOk.set S.lr0 rfl hst e4
  obtain ⟨acts, hacts⟩ := S.firm.rows q hlt
  obtain ⟨tree, rfl⟩ : ∃ tree, ts = [tree] := by
    have := hz.length
    simp only [List.length_singleton] at this
    exact List.length_eq_one_iff.mp this.symm
  have hz' := Forest.names S.names.names hz (by
    intro x hx tys hty ty hm
    rcases List.mem_append.mp hx with hx | hx
    · obtain ⟨tys', h1, h2⟩ := (hwclear x hx).typed
      rw [h1] at hty
      cases hty
      exact h2 ty hm
    · obtain ⟨ty', h1, h2, _⟩ := hzn x hx
      rw [h1] at hty
      cases hty
      rw [List.mem_singleton.mp hm]; exact h2) (.cons S.start .nil)
  have hns := stack_names S (fertile_names S hT hall (List.mem_cons_self (a := (start, bd)) (l := ds)) D.productive)
    (fun x hx => (hwclear x hx).typed) e3 e4
  refine ⟨w, t, e1, e3, ⟨sid, S⟩, ⟨q, qs, acts, e4, hacts⟩, hns, ⟨z, tree, hz', hzn⟩, fun he => hcontra w hwclear rest tok rest he rfl, fun hc z2 hz2 => ?_⟩
  refine hcontra (w ++ tok :: z2) (fun x hx => ?_) (z2 ++ [{ types := some [tokenEnd] }]) { types := some [tokenEnd] } [] rfl (by simp)
  rcases List.mem_append.mp hx with hx | hx
  · exact hwclear x hx
  · rcases List.mem_cons.mp hx with rfl | hx
    · exact hc
    · exact hz2 x hx

/-- If the call throws, a token was rejected. -/
theorem throws_rejected {bd : List String} {ds : List (String × List String)} (D : Decent terms start bd ds g) (ho : o.Ok g)
    (hgen : g.generate o fuel = .ok tb) {input : List Token} (hin : ∀ x ∈ input, Typed g x) (hex : ∃ e ∈ input, e.types = some [tokenEnd]) {k kids : Nat}
    (h : g.parse tb resets k kids input = .error .throws) : ∃ s tok rest, g.stop tb resets k kids input = .ok (.rejected s tok rest) := by
  obtain ⟨sid, t, S⟩ := sound_names D.build D.prime D.sep D.primeT D.productive D.size ho hgen
  have hse : start ≠ "$end" := fun h => D.sep (start, bd) (by simp) (by rw [h]; simp [reservedNames, reserved])
  have hfree := fun p hp => S.end_free D.fin hse (p := p) hp
  have hne := stopLoop_throws S.table S.firm S.wide S.sep S.finT S.root S.rootOk S.lr0 S.startT hfree (used := []) (resets := resets) (k := k)
    (s := { states := [some 0], matched := [], next := none, kids := kids }) (inp := input)
    ⟨[], .root, .nil⟩ (by simp) rfl (by simpa [remaining] using hin) (by simpa [remaining] using hex)
  unfold parse at h
  rw [stopLoop_parse] at h
  unfold stop
  rw [S.root] at h ⊢
  generalize g.stopLoop tb resets k { states := [some 0], matched := [], next := none, kids := kids } input = r at h hne ⊢
  cases r with
  | error e => simp only [TokStop.result, Except.error.injEq] at h; rw [h] at hne; exact absurd rfl hne
  | ok r =>
    cases r with
    | accepted => cases h
    | rejected s tok rest => exact ⟨s, tok, rest, rfl⟩

end Grammar
end LogSurgeon
