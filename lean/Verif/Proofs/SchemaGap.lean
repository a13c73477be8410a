import Verif.Proofs.MachineCall
/-
Between two reductions with a semantic rule the parser of schema files does not get further than a line.
-/
namespace LogSurgeon
open Grammar

theorem gap_checks :
    (∀ y ∈ lexSpec, (match y.2 with | some rs => rs.any (fun r => decide (r.1 ≤ 10) && decide (10 ≤ r.2)) | none => false) = true → y.1 = "NewLine") ∧
    (∀ y ∈ lexSpec, (match y.2 with | some rs => rs.any (fun r => decide (r.1 ≤ 13) && decide (13 ≤ r.2)) | none => false) = true → y.1 = "CarriageReturn") ∧
    (∀ y ∈ lexSpec, y.1 = "CarriageReturn" → y.2 = some [(13, 13)]) ∧
    (∀ x ∈ D0, x.1.1 = "Schema" → x.2 ≠ .null) ∧ (∀ x ∈ D0, x.1.1 ≠ "CarriageReturn") := by decide +kernel

theorem nl_name {s : String} {x : Option (List Range)} (h : (s, x) ∈ lexSpec) (ht : RuleText x [10]) : s = "NewLine" := by
  refine gap_checks.1 _ h ?_
  cases x with
  | none => have h : [10] = delimitersWord := ht; exact absurd h (by decide)
  | some rs =>
    obtain ⟨c, hc, r, hr, h1, h2⟩ := ht
    cases hc
    exact List.any_eq_true.mpr ⟨r, hr, by simp [h1, h2]⟩

theorem cr_name {s : String} {x : Option (List Range)} (h : (s, x) ∈ lexSpec) (ht : RuleText x [13]) : s = "CarriageReturn" := by
  refine gap_checks.2.1 _ h ?_
  cases x with
  | none => have h : [13] = delimitersWord := ht; exact absurd h (by decide)
  | some rs =>
    obtain ⟨c, hc, r, hr, h1, h2⟩ := ht
    cases hc
    exact List.any_eq_true.mpr ⟨r, hr, by simp [h1, h2]⟩

theorem cr_text {x : Option (List Range)} (h : ("CarriageReturn", x) ∈ lexSpec) {u : List Nat} (ht : RuleText x u) : u = [13] := by
  have : x = some [(13, 13)] := gap_checks.2.2.1 _ h rfl
  subst this
  obtain ⟨c, rfl, r, hr, h1, h2⟩ := ht
  rw [List.mem_singleton.mp hr] at h1 h2
  simp only at h1 h2
  rw [show c = 13 by omega]

/-- Where the parser is: it has shifted `n` units, the last reduction with a rule was at unit `us`. -/
structure GapAt (sp : List String) (nl : Nat → Prop) (s : PState) (n us : Nat) : Prop where
  le : us ≤ n
  lines : ∀ j, us ≤ j → j < n → nl j → j ≤ us + 1
  cr : ∀ tk ts tys id, s.matched = .leaf tk :: ts → tk.types = some tys → id ∈ tys → (schemaGrammar sp).symbolId.lookup "CarriageReturn" = some id → us + 1 = n
  rule : ∀ p cs ts, s.matched = .node p cs :: ts → schemaHasRule sp p = true → us = n

/-- Where the last reduction with a rule was, after a reduction. -/
def gapNext (sp : List String) (s : PState) (n us : Nat) : Nat :=
  match s.matched with
  | .node p _ :: _ => if schemaHasRule sp p then n else us
  | _ => us

theorem schema_hasRule {sp : List String} (hsp : sp.Perm schemaSpecials) {p : Nat} {d : String × List String} (hd : (schemaGrammar sp).decls[p]? = some d)
    (h : d.1 = "Schema") : schemaHasRule sp p = true := by
  rcases decl_cases hsp p d hd with h1 | ⟨r, hr⟩
  · rw [h] at h1; exact absurd h1 (by decide)
  · have h2 : schemaRuleOf sp p = some r := by
      unfold schemaRuleOf
      rw [hd]
      exact (semRule_iff hsp d r).mpr hr
    have h3 := gap_checks.2.2.2.1 _ hr h
    unfold schemaHasRule
    rw [h2]
    cases r <;> first | rfl | exact absurd rfl h3

theorem forest_last {g : Grammar} {ss : List Nat} {ts : List Tree} {w : List Token} (h : Forest g ss ts w) :
    List.Forall₂ (fun x tr => (∃ tk tys, tr = Tree.leaf tk ∧ tk ∈ w ∧ tk.types = some tys ∧ x ∈ tys) ∨ ∃ p pr cs, tr = .node p cs ∧ g.prods[p]? = some pr ∧ x = pr.head) ss ts := by
  induction h with
  | nil => exact .nil
  | @tok t s ss ts w tys h1 h2 _ ih =>
    refine .cons (.inl ⟨t, tys, rfl, by simp, h1, h2⟩) (ih.imp fun x tr h => ?_)
    rcases h with ⟨tk, tys, e1, e2, e3⟩ | h
    · exact .inl ⟨tk, tys, e1, by simp [e2], e3⟩
    · exact .inr h
  | @prod i p cs ss ts w w' h1 _ _ _ ih =>
    refine .cons (.inr ⟨i, p, cs, rfl, h1, rfl⟩) (ih.imp fun x tr h => ?_)
    rcases h with ⟨tk, tys, e1, e2, e3⟩ | h
    · exact .inl ⟨tk, tys, e1, by simp [e2], e3⟩
    · exact .inr h

section
variable {sc : List (Nat × String)} (hsc : sc.Perm schemaSpecialChars) {L : Lexer} (hL : SchemaLexOk L (schemaGrammar (sc.map (·.2))))
  {o : Orders} {fuel : Nat} {tb : Grammar.Table} {sid : Nat} {t : LR0}
  (S : Sound (schemaGrammar (sc.map (·.2))) o fuel tb (schemaTerminals (sc.map (·.2))) "Schema" (("Schema", ["Comment"]) :: (schemaProductions (sc.map (·.2))).tail) sid t)
include hsc hL S

/-- One step. -/
theorem gap_step {nl : Nat → Prop} {s : PState} {used : List Token} {us : Nat} (hg : GapAt (sc.map (·.2)) nl s used.length us)
    (hinv : ParseInv (schemaGrammar (sc.map (·.2))) t 0 used s) {q : Nat} {qs : List (Option Nat)} (hq : s.states = some q :: qs)
    (htu : ∀ x ∈ used, Typed (schemaGrammar (sc.map (·.2))) x) {tok : Token} {tys : List Nat} (hty : tok.types = some tys)
    (htt : ∀ ty ∈ tys, ty ∈ (schemaGrammar (sc.map (·.2))).terminals)
    (hunit : (∃ l : Lexeme, AllBytes l.text ∧ tok.types = some (L.dfa.idsOn l.text) ∧ (nl used.length → l = .char 10)) ∨ tok.types = some [tokenEnd]) {resets : Nat → Bool} {s' : PState}
    (hadv : (schemaGrammar (sc.map (·.2))).parseAdvance tb resets { s with next := none } tok tys = .ok (.moved s')) :
    (∃ q qs, s'.states = some q :: qs) ∧
    ((s'.next = none ∧ ParseInv (schemaGrammar (sc.map (·.2))) t 0 (used ++ [tok]) s' ∧ GapAt (sc.map (·.2)) nl s' (used.length + 1) us ∧ tok.types ≠ some [tokenEnd] ∧
        (∃ tr ts, s'.matched = .leaf tr :: ts)) ∨
      (s'.next = some tok ∧ ParseInv (schemaGrammar (sc.map (·.2))) t 0 used s' ∧ GapAt (sc.map (·.2)) nl s' used.length (gapNext (sc.map (·.2)) s' used.length us) ∧
        ∃ p cs ts, s'.matched = .node p cs :: ts)) := by
  have hsp := perm_names hsc
  have hdec := schema_decent hsp
  generalize hgg : sc.map (·.2) = sp at *
  have hinv' : ParseInv (schemaGrammar sp) t 0 used { s with next := none } := ⟨hinv.stacks⟩
  have hspec := parseAdvance_spec S.table S.root S.rootOk hinv' hty (fun _ h => h) hadv
  simp only at hspec
  obtain ⟨xs, hst, hfo⟩ := hinv.stacks
  have hlab : List.Forall₂ (Lab (schemaGrammar sp)) xs s.matched := by
    have := lab_of_forest hfo htu
    simpa using List.rel_reverse this
  have hkind := by
    have := List.rel_reverse (forest_last hfo)
    simpa only [List.reverse_reverse] using this
  have hstep := advance_total (s := { s with next := none }) (resets := resets) S.table S.firm S.wide S.sep S.finT S.root S.rootOk S.lr0 rfl hst hlab hq
    tok hty (fun _ h => h) htt
  rw [hadv] at hstep
  have hne := lr0Sets_ne S.sets
  have hnoend : ∀ {ty : Nat} {tys' : List Nat}, tok.types = some tys' → ty ∈ tys' → (∃ p ∈ (schemaGrammar sp).prods, ty ∈ p.body) → some tys' ≠ some [tokenEnd] := by
    rintro ty tys' - h2 ⟨p, hpp, hmem⟩ e
    cases e
    rw [List.mem_singleton.mp h2] at hmem
    exact S.end_free (fun d hd => (schema_conditions hsp).2.2.2.1 d (by
      rcases List.mem_cons.mp hd with rfl | hd
      · exact List.mem_cons_self
      · exact List.mem_of_mem_tail hd)) (by decide) hpp hmem
  generalize hgr : schemaGrammar sp = g at *
  cases hstep with
  | @shift ty j tys' h1 h2 h3 h4 h5 h6 =>
    refine ⟨⟨_, _, rfl⟩, .inl ⟨rfl, ?_, ?_, ?_, _, _, rfl⟩⟩
    · rcases hspec with ⟨_, h⟩ | ⟨h, _⟩
      · exact h
      · cases h
    · -- the symbol below
      have hbelow : ∀ nm, g.symbolId.lookup nm = some ty → (nm = "NewLine" → used.length ≤ us + 1) ∧ (nm = "CarriageReturn" → us = used.length) := by
        intro nm hnm
        cases xs with
        | nil =>
          generalize hms : s.matched = ms at hkind hfo
          cases hkind
          generalize hx : ([] : List Nat).reverse = x1 at hfo
          cases hfo
          all_goals first | (cases hx; done) | skip
          have := hg.le
          simp only [List.length_nil] at this ⊢
          exact ⟨fun _ => by omega, fun _ => by omega⟩
        | cons x xs' =>
          obtain ⟨p', hp', hm⟩ := stack_used S.lr0 hne hst q qs hq x (by simp)
          obtain ⟨i, hi⟩ := List.getElem?_of_mem hp'
          obtain ⟨d', _, _, hf'⟩ := S.names.names.decl hi
          obtain ⟨k', hk'⟩ := List.getElem?_of_mem hm
          obtain ⟨m, _, hmx⟩ := forall₂_getElem?' hf' hk'
          obtain ⟨nm', hnm', hbes⟩ := Follows.names S.names hdec.prime hmx (h6 x xs' rfl)
          cases S.names.names.inj _ _ _ hnm hnm'
          have hmay := beside_precede (x := m) (y := nm) (fun d hd => ?_) hbes
          · generalize hms : s.matched = ms at hkind
            cases hkind with
            | cons htop hrest =>
              have hS : m = "Schema" → us = used.length := by
                intro hm
                subst hm
                rcases htop with ⟨tk, tys, e1, e2, e3, e4⟩ | ⟨p, pr, cs, e1, e2, e3⟩
                · obtain ⟨tys2, e5, e6⟩ := htu tk e2
                  rw [e3] at e5
                  cases e5
                  have := S.start.symm.trans hmx
                  simp only [Option.some.injEq] at this
                  exact absurd (e6 _ e4) (this ▸ S.startT)
                · obtain ⟨d, hd, hh, _⟩ := S.names.names.decl e2
                  rw [← e3] at hh
                  have hdn := S.names.names.inj _ _ _ hh hmx
                  subst e1
                  refine hg.rule _ _ _ hms (schema_hasRule hsp (d := d) ?_ hdn)
                  rw [hgr]; exact hd
              have hC : m = "CarriageReturn" → us + 1 = used.length := by
                intro hm
                subst hm
                rcases htop with ⟨tk, tys, e1, e2, e3, e4⟩ | ⟨p, pr, cs, e1, e2, e3⟩
                · subst e1
                  refine hg.cr _ _ _ _ hms e3 e4 ?_
                  rw [hgr]; exact hmx
                · obtain ⟨d, hd, hh, _⟩ := S.names.names.decl e2
                  rw [← e3] at hh
                  have hdn := S.names.names.inj _ _ _ hh hmx
                  rw [← hgr] at hd
                  rcases decl_cases hsp p d hd with h1 | ⟨r, hr⟩
                  · rw [hdn] at h1; exact absurd h1 (by decide)
                  · exact absurd hdn (gap_checks.2.2.2.2 _ hr)
              refine ⟨fun hn => ?_, fun hn => ?_⟩
              · subst hn
                have : m = "Schema" ∨ m = "CarriageReturn" := by simpa [mayPrecede] using hmay
                rcases this with h | h
                · have := hS h; omega
                · have := hC h; omega
              · subst hn
                exact hS (by simpa [mayPrecede] using hmay)
          · have hd : d ∈ schemaProductions sp := by
              rcases List.mem_cons.mp hd with rfl | hd
              · exact List.mem_cons_self
              · exact List.mem_of_mem_tail hd
            obtain ⟨y, hy, rfl⟩ := List.mem_map.mp hd
            exact List.mem_map.mpr ⟨y, (mem_schemaDecls hsp _).mp hy, rfl⟩
      refine ⟨Nat.le_succ_of_le hg.le, ?_, ?_, ?_⟩
      · intro j h7 h8 h9
        rcases Nat.lt_or_ge j used.length with h10 | h10
        · exact hg.lines j h7 h10 h9
        · obtain rfl : j = used.length := by omega
          rcases hunit with ⟨l, hlb, hlt, hln⟩ | hend
          · rw [hln h9] at hlb hlt
            rw [hlt] at h1
            cases h1
            obtain ⟨nm, x, hx, hlk, hrt⟩ := (hL.ids _ hlb ty).mp h2
            exact (hbelow nm hlk).1 (nl_name hx hrt)
          · exact absurd (h1.symm.trans hend) (hnoend h1 h2 h4)
      · intro tk ts tys1 id hm htk hid hlk
        simp only [List.cons.injEq, Tree.leaf.injEq] at hm
        obtain ⟨rfl, rfl⟩ := hm
        rcases hunit with ⟨l, hlb, hlt, hln⟩ | hend
        · rw [hlt] at h1 htk
          cases h1
          cases htk
          rw [hgr] at hlk
          obtain ⟨nm, x, hx, hlk', hrt⟩ := (hL.ids _ hlb id).mp hid
          have e := S.names.names.inj _ _ _ hlk hlk'
          subst e
          have e2 := cr_text hx hrt
          rw [e2] at h2 hlb
          obtain ⟨nm2, x2, hx2, hlk2, hrt2⟩ := (hL.ids _ hlb ty).mp h2
          rw [(hbelow nm2 hlk2).2 (cr_name hx2 hrt2)]
        · exact absurd (h1.symm.trans hend) (hnoend h1 h2 h4)
      · intro p cs ts h; cases h
    · rw [h1]; exact hnoend h1 h2 h4
  | @reduce p pr xs' s1 j qs1 h1 h2 h3 h4 h5 h6 h7 h8 h9 =>
    have hp : ParseInv g t 0 used s' := by
      rcases hspec with ⟨h, _⟩ | ⟨_, h⟩
      · rw [h7] at h; cases h
      · exact h
    generalize hms : s'.matched = ms at h9
    cases h9 with
    | @cons _ tr _ ts' htop hrest =>
    have hnode : ∃ p cs, tr = .node p cs := by
      cases tr with
      | leaf tk => exact absurd (htop tk rfl) (S.sep _ (List.mem_of_getElem? h1))
      | node p cs => exact ⟨p, cs, rfl⟩
    obtain ⟨p1, cs1, rfl⟩ := hnode
    refine ⟨⟨_, _, h5⟩, .inr ⟨h7, hp, ?_, _, _, _, rfl⟩⟩
    unfold gapNext
    rw [hms]
    simp only
    split
    · rename_i hr
      exact ⟨Nat.le_refl _, fun j h1 h2 _ => by omega, (by rw [hms]; intro _ _ _ _ h; cases h), fun _ _ _ _ _ => rfl⟩
    · rename_i hr
      refine ⟨hg.le, hg.lines, (by rw [hms]; intro _ _ _ _ h; cases h), ?_⟩
      intro p cs ts h hh
      rw [hms] at h
      cases h
      exact absurd hh hr
end

end LogSurgeon
