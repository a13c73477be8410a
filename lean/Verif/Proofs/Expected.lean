import Verif.Proofs.Viable
import Verif.Proofs.ErrorReport
import Verif.Spec.ErrorMessage
/-
What the list of expected symbols of a message means.
-/
namespace LogSurgeon
namespace Grammar

/-! ### Every id has one name -/

/-- The ids are the numbers below the number of names, each once; `P` holds of the names. -/
structure Dense (P : String → Prop) (g : Grammar) : Prop where
  nodup : (g.symbolId.map (·.2)).Nodup
  lt : ∀ p ∈ g.symbolId, p.2 < g.symbolId.length
  has : ∀ i < g.symbolId.length, ∃ n, (n, i) ∈ g.symbolId
  names : ∀ p ∈ g.symbolId, P p.1

theorem Dense.intern {P : String → Prop} {g : Grammar} (h : Dense P g) {n : String} (hn : P n) : Dense P (g.intern n).1 := by
  unfold Grammar.intern
  split
  · exact h
  · refine ⟨?_, ?_, ?_, ?_⟩
    · simp only [List.map_cons, List.nodup_cons]
      refine ⟨fun hm => ?_, h.nodup⟩
      obtain ⟨p, hp, e⟩ := List.mem_map.mp hm
      have := h.lt p hp
      omega
    · intro p hp
      simp only [List.length_cons]
      rcases List.mem_cons.mp hp with rfl | hp
      · simp
      · have := h.lt p hp
        omega
    · intro i hi
      simp only [List.length_cons] at hi
      by_cases he : i = g.symbolId.length
      · exact ⟨n, by rw [he]; exact List.mem_cons_self⟩
      · obtain ⟨m, hm⟩ := h.has i (by omega)
        exact ⟨m, List.mem_cons_of_mem _ hm⟩
    · intro p hp
      rcases List.mem_cons.mp hp with rfl | hp
      · exact hn
      · exact h.names p hp

theorem Dense.internAll {P : String → Prop} : ∀ {ns : List String} {g : Grammar}, Dense P g → (∀ n ∈ ns, P n) → Dense P (g.internAll ns).1
  | [], _, h, _ => h
  | n :: ns, g, h, hn => by
    simp only [Grammar.internAll]
    exact (h.intern (hn n (by simp))).internAll fun m hm => hn m (by simp [hm])

theorem Dense.addProd {P : String → Prop} {g : Grammar} (h : Dense P g) {hd : String} {bd : List String} (h1 : P hd) (h2 : ∀ n ∈ bd, P n) :
    Dense P (g.addProd hd bd) := by
  unfold Grammar.addProd
  simp only
  split
  · exact h.intern h1
  · have := (h.intern h1).internAll h2
    exact ⟨this.nodup, this.lt, this.has, this.names⟩

theorem Dense.addProduction {P : String → Prop} {g : Grammar} (h : Dense P g) (hp : P "$START_PRIME") {hd : String} {bd : List String} (h1 : P hd)
    (h2 : ∀ n ∈ bd, P n) : Dense P (g.addProduction hd bd) := by
  have hf := h.addProd h1 h2
  unfold Grammar.addProduction
  simp only
  split
  · have := hf.addProd (hd := "$START_PRIME") (bd := [hd]) hp (by simpa using h1)
    exact ⟨this.nodup, this.lt, this.has, this.names⟩
  · exact hf

theorem dense_build {P : String → Prop} {terms : List String} {ds : List (String × List String)} (h0 : ∀ n ∈ reservedNames, P n) (hp : P "$START_PRIME")
    (ht : ∀ n ∈ terms, P n) (hd : ∀ d ∈ ds, P d.1 ∧ ∀ n ∈ d.2, P n) : Dense P (build terms ds) := by
  unfold build
  have hinit : Dense P ({} : Grammar) := by
    refine ⟨by decide, by decide, ?_, fun p hp => h0 _ (List.mem_map.mpr ⟨p, hp, rfl⟩)⟩
    have : ∀ i < reserved.length, ∃ p ∈ reserved, p.2 = i := by decide
    intro i hi
    obtain ⟨⟨n, j⟩, hm, e⟩ := this i hi
    simp only at e
    subst e
    exact ⟨n, hm⟩
  have hT : ∀ (ts : List String) (g : Grammar), (∀ n ∈ ts, P n) → Dense P g → Dense P (ts.foldl addTerminal g) := by
    intro ts
    induction ts with
    | nil => intro g _ h; exact h
    | cons n ts ih =>
      intro g hn h
      have := h.intern (hn n (by simp))
      exact ih _ (fun m hm => hn m (by simp [hm])) ⟨this.nodup, this.lt, this.has, this.names⟩
  have hD : ∀ (l : List (String × List String)) (g : Grammar), (∀ d ∈ l, P d.1 ∧ ∀ n ∈ d.2, P n) → Dense P g →
      Dense P (l.foldl (fun g d => g.addProduction d.1 d.2) g) := by
    intro l
    induction l with
    | nil => intro g _ h; exact h
    | cons d l ih =>
      intro g hn h
      have h1 := hn d (by simp)
      exact ih _ (fun m hm => hn m (by simp [hm])) (h.addProduction hp h1.1 h1.2)
  exact hD ds _ hd (hT terms _ ht hinit)

/-- The name found for an id is the name with that id. -/
theorem Dense.text {P : String → Prop} {g : Grammar} (h : Dense P g) {i : Nat} (hi : i < g.symbolId.length) :
    ∃ n, P n ∧ (n, i) ∈ g.symbolId ∧ symbolText [] g i = asciiBytes n := by
  obtain ⟨m, hm⟩ := h.has i hi
  cases hf : g.symbolId.find? (fun p => p.2 == i) with
  | none =>
    rw [List.find?_eq_none] at hf
    exact absurd (beq_self_eq_true i) (hf (m, i) hm)
  | some p =>
    have h1 := List.mem_of_find?_eq_some hf
    have h2 := List.find?_some hf
    simp only [beq_iff_eq] at h2
    refine ⟨p.1, h.names p h1, by rw [← h2]; exact h1, ?_⟩
    simp only [symbolText, List.lookup, hf]
    rfl

theorem Dense.unique {P : String → Prop} {g : Grammar} (h : Dense P g) {n m : String} {i : Nat} (hn : (n, i) ∈ g.symbolId) (hm : (m, i) ∈ g.symbolId) : n = m := by
  obtain ⟨a, ha⟩ := List.getElem?_of_mem hn
  obtain ⟨b, hb⟩ := List.getElem?_of_mem hm
  have ha' : (g.symbolId.map (·.2))[a]? = some i := by simp [ha]
  have hb' : (g.symbolId.map (·.2))[b]? = some i := by simp [hb]
  have hlt : a < (g.symbolId.map (·.2)).length := (List.getElem?_eq_some_iff.mp ha').1
  have := (List.getElem?_inj hlt h.nodup).mp (ha'.trans hb'.symm)
  subst this
  rw [ha] at hb
  exact (Prod.mk.inj (Option.some.inj hb)).1

/-- The rows of the table are as long as there are symbols. -/
theorem generate_rows {g : Grammar} {o : Orders} {fuel : Nat} {tb : Table} (h : g.generate o fuel = .ok tb) :
    ∀ q acts, tb.actions.lookup q = some acts → acts.length = g.symbolId.length := by
  unfold generate at h
  split at h
  · cases h
  split at h
  · cases h
  split at h
  · cases h
  simp only at h
  split at h
  · cases h
  split at h
  · cases h
  split at h
  · cases h
  split at h
  · cases h
  rename_i acts hacts
  cases h
  intro q row hr
  obtain ⟨s, _, _, hset⟩ := (actionTable_eq hacts).1 q row (lookup_mem hr)
  have := setActions_length hset
  simpa using this

/-! ### What an entry of the table means -/

section
variable {g : Grammar} {o : Orders} {fuel : Nat} {tb : Table} {terms : List String} {start : String} {all : List (String × List String)} {sid : Nat} {t : LR0}

/-- A shift or goto entry: the tokens read can be followed by anything derived from the symbol. -/
theorem shift_suits (S : Sound g o fuel tb terms start all sid t) (hfe : Fertile g) {used : List Token} {s : PState} (h : ParseInv g t 0 used s) {q : Nat}
    {qs : List (Option Nat)} (hq : s.states = some q :: qs) {acts : List Action} (ha : tb.actions.lookup q = some acts) {i : Nat} {x : Option Nat}
    (hi : acts[i]? = some (.shift x)) :
    (∃ p ∈ g.prods, i ∈ p.body) ∧ ∀ v, Gives g [i] v → ∃ z, Gives g [sid] (used ++ v ++ z) ∧ ∀ y ∈ z, Nice g y := by
  obtain ⟨j, rfl⟩ := S.firm.shift q acts ha i x hi
  obtain ⟨ker, c, it, h1, h2, h3⟩ := S.firm.item q acts ha i j hi
  refine ⟨body_used (List.mem_of_getElem? h3), fun v hv => ?_⟩
  obtain ⟨xs, hst, hfo⟩ := h.stacks
  have hk := validAt_stack hfe S.lr0 S.rootOk hst q qs hq
  rw [LR0.kernel_eq h1] at hk
  obtain ⟨γ, z, e, hz, hg⟩ := validAt_closure hfe (S.lr0.clo q ker c h1 (by simp)) hk it h2
  obtain ⟨w, hw, hwn⟩ := hfe.list (ss := (g.body it.prod).drop (it.dot + 1)) (fun s hs => body_used (List.mem_of_mem_drop hs))
  refine ⟨w ++ z, ?_, fun y hy => ?_⟩
  · rw [← List.append_assoc]
    refine hg _ ?_
    have hbody : g.body it.prod = (g.body it.prod).take it.dot ++ ([i] ++ (g.body it.prod).drop (it.dot + 1)) := by
      rw [List.singleton_append, ← take_drop_of_get h3, List.take_append_drop]
    rw [hbody, ← List.append_assoc, ← e, List.append_assoc used]
    exact Gives.append ⟨_, hfo⟩ (hv.append hw)
  · rcases List.mem_append.mp hy with hy | hy
    · exact hwn y hy
    · exact hz y hy

/-- A reduce entry: the tokens read end with the body of a production, in whose place any other could stand. -/
theorem reduce_suits (S : Sound g o fuel tb terms start all sid t) (hfe : Fertile g) {used : List Token} {s : PState} (h : ParseInv g t 0 used s) {q : Nat}
    {qs : List (Option Nat)} (hq : s.states = some q :: qs) {acts : List Action} (ha : tb.actions.lookup q = some acts) {i p : Nat}
    (hi : acts[i]? = some (.reduce p)) :
    p ≠ g.root ∧ ∃ a b, used = a ++ b ∧ Gives g (g.body p) b ∧ ∀ v, Gives g (g.body p) v → ∃ z, Gives g [sid] (a ++ v ++ z) ∧ ∀ y ∈ z, Nice g y := by
  obtain ⟨hne, ker, c, h1, h2⟩ := S.firm.red q acts ha i p hi
  refine ⟨hne, ?_⟩
  obtain ⟨xs, hst, hfo⟩ := h.stacks
  have hk := validAt_stack hfe S.lr0 S.rootOk hst q qs hq
  rw [LR0.kernel_eq h1] at hk
  obtain ⟨γ, z, e, hz, hg⟩ := validAt_closure hfe (S.lr0.clo q ker c h1 (by simp)) hk _ h2
  simp only [List.take_length] at e hg
  have hgx : Gives g xs.reverse used := ⟨_, hfo⟩
  rw [e] at hgx
  obtain ⟨a, b, rfl, g1, g2⟩ := hgx.split
  exact ⟨a, b, rfl, g2, fun v hv => ⟨z, hg _ (g1.append hv), hz⟩⟩

/-- What the name of a listed symbol says, in terms of names. -/
theorem entry_names {bd : List String} {ds : List (String × List String)} (D : Decent terms start bd ds g) {fol : String → String → Prop}
    (hfol : ∀ q acts, tb.actions.lookup q = some acts → ∀ (i p : Nat), acts[i]? = some (.reduce p) → ∀ d n, g.decls[p]? = some d → (n, i) ∈ g.symbolId → fol d.1 n)
    (S : Sound g o fuel tb terms start ((start, bd) :: ds) sid t) (hgen : g.generate o fuel = .ok tb) {P : String → Prop} (hP : Dense P g) {used : List Token} (htyped : ∀ x ∈ used, Typed g x)
    {s : PState} (h : ParseInv g t 0 used s) {q : Nat} {qs : List (Option Nat)} (hq : s.states = some q :: qs) {acts : List Action}
    (ha : tb.actions.lookup q = some acts) {i : Nat} {x : Action} (hi : acts[i]? = some x) (hx : ∀ b, x ≠ .flag b) :
    ∃ n, symbolText [] g i = asciiBytes n ∧ P n ∧
      ((n = start ∨ ∃ d ∈ (start, bd) :: ds, n ∈ d.2) ∧
        (∃ v ts, Derivation g.decls (g.IsTok (reservedNames ++ terms)) [n] ts v ∧ ∀ y ∈ v, Nice g y) ∧ (∀ v ts, (∀ y ∈ v, Typed g y) → Derivation g.decls (g.IsTok (reservedNames ++ terms)) [n] ts v →
          ∃ z tree, Derivation g.decls (g.IsTok (reservedNames ++ terms)) [start] [tree] (used ++ v ++ z) ∧ ∀ y ∈ z, Nice g y) ∨
       ∃ d ∈ (start, bd) :: ds, fol d.1 n ∧ ∃ a b, used = a ++ b ∧ (∃ ts, Derivation g.decls (g.IsTok (reservedNames ++ terms)) d.2 ts b) ∧
          ∀ v ts, (∀ y ∈ v, Typed g y) → Derivation g.decls (g.IsTok (reservedNames ++ terms)) d.2 ts v →
            ∃ z tree, Derivation g.decls (g.IsTok (reservedNames ++ terms)) [start] [tree] (a ++ v ++ z) ∧ ∀ y ∈ z, Nice g y) := by
  obtain ⟨hall, hT, hle⟩ := build_has (terms := terms) (all := (start, bd) :: ds)
  rw [← D.build] at hall hT hle
  have hfe := fertile_names S hT hall (List.mem_cons_self (a := (start, bd)) (l := ds)) D.productive
  have hN := S.names.names
  have hlt : i < g.symbolId.length := by
    rw [← generate_rows hgen q acts ha]
    exact (List.getElem?_eq_some_iff.mp hi).1
  obtain ⟨n, hPn, hn, htext⟩ := hP.text hlt
  have tys : ∀ {w : List Token}, (∀ y ∈ w, Typed g y ∨ Nice g y) → ∀ y ∈ w, ∀ tys, y.types = some tys → ∀ ty ∈ tys, ty ∈ g.terminals := by
    intro w hw y hy tys hty ty hm
    rcases hw y hy with ⟨tys', h1, h2⟩ | ⟨ty', h1, h2, _⟩
    · rw [h1] at hty
      cases hty
      exact h2 ty hm
    · rw [h1] at hty
      cases hty
      rw [List.mem_singleton.mp hm]
      exact h2
  have fin : ∀ a v z, (∀ y ∈ a, Typed g y) → (∀ y ∈ v, Typed g y) → (∀ y ∈ z, Nice g y) → Gives g [sid] (a ++ v ++ z) →
      ∃ tree, Derivation g.decls (g.IsTok (reservedNames ++ terms)) [start] [tree] (a ++ v ++ z) := by
    rintro a v z h1 h2 h3 ⟨ts, hts⟩
    have := Forest.names hN hts (tys (fun y hy => by
      rcases List.mem_append.mp hy with hy | hy
      · rcases List.mem_append.mp hy with hy | hy
        · exact .inl (h1 y hy)
        · exact .inl (h2 y hy)
      · exact .inr (h3 y hy))) (.cons S.start .nil)
    obtain ⟨tree, rfl⟩ : ∃ tree, ts = [tree] := by
      have := hts.length
      simp only [List.length_singleton] at this
      exact List.length_eq_one_iff.mp this.symm
    exact ⟨tree, this⟩
  refine ⟨n, htext, hPn, ?_⟩
  cases x with
  | flag b => exact absurd rfl (hx b)
  | shift x =>
    left
    obtain ⟨⟨p, hp, hm⟩, h2⟩ := shift_suits S hfe h hq ha hi
    obtain ⟨k, hk⟩ := List.getElem?_of_mem hp
    obtain ⟨d, hd, -, hf⟩ := hN.decl hk
    obtain ⟨m, hmd, hlk⟩ := forall₂_mem_left hf hm
    obtain rfl := hP.unique (lookup_mem hlk) hn
    refine ⟨?_, ?_, fun v ts hv hder => ?_⟩
    · by_cases hk1 : k = 1
      · subst hk1
        have := hd.symm.trans S.names.prime
        simp only [Option.some.injEq] at this
        rw [this] at hmd
        exact .inl (List.mem_singleton.mp hmd)
      · exact .inr ⟨d, S.names.decls k d hd hk1, hmd⟩
    · obtain ⟨v, ⟨ts, hv⟩, hvn⟩ := hfe p hp i hm
      exact ⟨v, ts, Forest.names hN hv (tys fun y hy => .inr (hvn y hy)) (.cons hlk .nil), hvn⟩
    · obtain ⟨z, hz, hzn⟩ := h2 v ⟨_, Forest.of_names hN hder (.cons hlk .nil)⟩
      obtain ⟨tree, htree⟩ := fin used v z htyped hv hzn hz
      exact ⟨z, tree, htree, hzn⟩
  | reduce p =>
    right
    obtain ⟨hne, a, b, e, hb, h2⟩ := reduce_suits S hfe h hq ha hi
    have hplt : p < g.prods.length := (S.table.acts q acts ha i _ hi).1
    obtain ⟨d, hd, -, hf⟩ := hN.decl (List.getElem?_eq_getElem hplt)
    have hbody : g.body p = (g.prods[p]).body := by simp [body, List.getElem?_eq_getElem hplt]
    rw [← hbody] at hf
    have hp1 : p ≠ 1 := fun h => hne (by rw [h, S.names.root])
    rw [e] at htyped
    refine ⟨d, S.names.decls p d hd hp1, hfol q acts ha i p hi d n hd hn, a, b, e, ?_, fun v ts hv hder => ?_⟩
    · obtain ⟨ts, hts⟩ := hb
      exact ⟨ts, Forest.names hN hts (tys fun y hy => .inl (htyped y (by simp [hy]))) hf⟩
    · obtain ⟨z, hz, hzn⟩ := h2 v ⟨_, Forest.of_names hN hder hf⟩
      obtain ⟨tree, htree⟩ := fin a v z (fun y hy => htyped y (by simp [hy])) hv hzn hz
      exact ⟨z, tree, htree, hzn⟩

end

end Grammar
end LogSurgeon
