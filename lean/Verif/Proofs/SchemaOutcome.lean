import Verif.Proofs.ErrorSchema
/-
What a call that parses a schema does, in terms of the derivation of the text.
-/
namespace LogSurgeon
open Grammar

/-! ### A complaint makes the call fail -/

theorem parse_of_error {σ : Type} {E : SchemaEnv} {kids : Nat} {rd : σ → Nat → σ × InBuf.ReadRes} {src : σ} {e : Fail}
    (h : E.complaint kids rd src = .error e) : E.parse kids rd src = .error e := by
  unfold SchemaEnv.complaint at h
  unfold SchemaEnv.parse SchemaEnv.parseIn
  cases hl : schemaLexer E.specials E.addr with
  | error e' => rw [hl] at h; cases h; rfl
  | ok L =>
    rw [hl] at h
    simp only at h ⊢
    generalize (schemaGrammar (E.specials.map (·.2))).generate E.orders E.fuel = gen at h ⊢
    cases gen with
    | error e' => cases h; rfl
    | ok tb =>
      simp only at h ⊢
      unfold generateSchemaAst
      generalize stopFrom L (schemaGrammar (E.specials.map (·.2))) tb (schemaResets (schemaGrammar (E.specials.map (·.2))))
        (schemaHasRule (E.specials.map (·.2))) rd E.steps { states := [tb.root], matched := [], next := none, kids := kids } src {}
        (InBuf.init E.mem 48000 E.nextId).reset = r at h ⊢
      cases r with
      | error e' => cases h; rfl
      | ok r =>
        cases r with
        | accepted _ _ _ => cases h
        | rejected s tok st b =>
          simp only at h ⊢
          cases hev : Tree.eval.evals (schemaRuleOf (E.specials.map (·.2))) (tokenText b.mem) s.matched.reverse 0 with
          | error e' => rw [hev] at h; cases h; rfl
          | ok v =>
            rw [hev] at h
            simp only at h ⊢
            generalize reportError L E.rules (schemaGrammar (E.specials.map (·.2))) tb E.steps s tok st b = r at h ⊢
            cases r with
            | error e' => cases h; rfl
            | ok m => cases h

theorem parse_of_message {σ : Type} {E : SchemaEnv} {kids : Nat} {rd : σ → Nat → σ × InBuf.ReadRes} {src : σ} {m : List Nat}
    (h : E.complaint kids rd src = .ok (some m)) : E.parse kids rd src = .error .throws := by
  unfold SchemaEnv.complaint at h
  unfold SchemaEnv.parse SchemaEnv.parseIn
  cases hl : schemaLexer E.specials E.addr with
  | error e' => rw [hl] at h; cases h
  | ok L =>
    rw [hl] at h
    simp only at h ⊢
    generalize (schemaGrammar (E.specials.map (·.2))).generate E.orders E.fuel = gen at h ⊢
    cases gen with
    | error e' => cases h
    | ok tb =>
      simp only at h ⊢
      unfold generateSchemaAst
      generalize stopFrom L (schemaGrammar (E.specials.map (·.2))) tb (schemaResets (schemaGrammar (E.specials.map (·.2))))
        (schemaHasRule (E.specials.map (·.2))) rd E.steps { states := [tb.root], matched := [], next := none, kids := kids } src {}
        (InBuf.init E.mem 48000 E.nextId).reset = r at h ⊢
      cases r with
      | error e' => cases h
      | ok r =>
        cases r with
        | accepted _ _ _ => cases h
        | rejected s tok st b =>
          simp only at h ⊢
          cases hev : Tree.eval.evals (schemaRuleOf (E.specials.map (·.2))) (tokenText b.mem) s.matched.reverse 0 with
          | error e' => rw [hev] at h; cases h
          | ok v =>
            rw [hev] at h
            simp only at h ⊢
            generalize reportError L E.rules (schemaGrammar (E.specials.map (·.2))) tb E.steps s tok st b = r at h ⊢
            cases r with
            | error e' => cases h
            | ok m => rfl

/-! ### The outcome -/

theorem schema_outcome {σ : Type} {E : SchemaEnv} (hE : E.Ok) (ho : E.orders.Ok (schemaGrammar (E.specials.map (·.2)))) {kids : Nat}
    {rd : σ → Nat → σ × InBuf.ReadRes} {src : σ} {w : List Nat} (hw : w.length < 24000) (hb : AllBytes w) (hrd : Delivers rd src 24000 w)
    (hk : Fit kids (lexemes w)) :
    ∃ n res, (∀ fuel steps, n ≤ fuel → n ≤ steps → ({ E with fuel := fuel, steps := steps } : SchemaEnv).parse kids rd src = res) ∧
      ((¬ SchemaSyntax (lexemes w) ∧ ∃ e, res = .error e ∧ (e = .throws ∨ (e = .ub ∧ Faulty (lexemes w)))) ∨
       (SchemaSyntax (lexemes w) ∧ ∃ m toks,
        List.Forall₂ (SameUnit ((schemaGrammar (E.specials.map (·.2))).IsTok (reserved.map (·.1) ++ schemaTerminals (E.specials.map (·.2)))) (tokenText m))
          toks (lexemes w) ∧
        (∃ tree, Derivation (schemaGrammar (E.specials.map (·.2))).decls
          ((schemaGrammar (E.specials.map (·.2))).IsTok (reserved.map (·.1) ++ schemaTerminals (E.specials.map (·.2)))) ["Schema"] [tree] toks) ∧
        ∀ tree, Derivation (schemaGrammar (E.specials.map (·.2))).decls
          ((schemaGrammar (E.specials.map (·.2))).IsTok (reserved.map (·.1) ++ schemaTerminals (E.specials.map (·.2)))) ["Schema"] [tree] toks →
        ∃ kids', res = match schemaOfTree (E.specials.map (·.2)) (tokenText m) tree with | .error e => .error e | .ok a => .ok (a, kids'))) := by
  by_cases hsyn : SchemaSyntax (lexemes w)
  case neg =>
    obtain ⟨n, res, hres, h⟩ := schema_complaint hE ho hw hb hrd hk
    rcases h with ⟨h, _⟩ | ⟨_, ⟨e, rfl, pre, post, h1, _, _, h2⟩ | ⟨m, rfl, _⟩⟩
    · exact absurd h hsyn
    · refine ⟨n, _, fun fuel steps hf hst => parse_of_error (hres fuel steps hf hst), .inl ⟨hsyn, e, rfl, h2.imp (·.1) fun h => ⟨h.1, ?_⟩⟩⟩
      rw [h1]
      exact h.2.context [] post
    · exact ⟨n, _, fun fuel steps hf hst => parse_of_message (hres fuel steps hf hst), .inl ⟨hsyn, _, rfl, .inl rfl⟩⟩
  obtain ⟨L, hlex, hL⟩ := schemaLexer_ok hE.specials hE.addr
  have hsc := hE.specials
  have hsp := perm_names hsc
  obtain ⟨n1, tb, hgen, hclear⟩ := schema_table hsc hL (o := E.orders) (fun ks i h => (ho.sets ks i).mp h)
  unfold SchemaEnv.parse SchemaEnv.parseIn
  simp only [hlex, SchemaEnv.rules]
  generalize hS : E.specials = sc at *
  obtain ⟨m1, toks, e0, h1, -, h2⟩ := parse_units hsc hL (mem := E.mem) (nid := E.nextId) (N := 48000) (by decide) hw hb hrd (tb := tb)
      (resets := schemaResets (schemaGrammar (sc.map (·.2)))) (hasRule := schemaHasRule (sc.map (·.2)))
  have hsame := same_units hsc hL h1
  have hcl : ∀ x ∈ toks, (schemaGrammar (sc.map (·.2))).Clear tb x := by
    intro x hx
    obtain ⟨l, _, h3⟩ := forall₂_mem_left h1 hx
    exact hclear x l h3.2.2 h3.1
  have he0 : e0.types = some [tokenEnd] := by
    obtain ⟨ends, z1, ⟨more, rfl⟩, -⟩ := h2 0 { states := [tb.root], matched := [], next := none, kids := kids }
    exact z1 e0 (by simp)
  have run : ∀ tree, Derivation (schemaGrammar (sc.map (·.2))).decls
      ((schemaGrammar (sc.map (·.2))).IsTok (reserved.map (·.1) ++ schemaTerminals (sc.map (·.2)))) ["Schema"] [tree] toks →
      ∃ n kids', ∀ fuel steps, n ≤ fuel → n ≤ steps →
        (match (schemaGrammar (sc.map (·.2))).generate E.orders fuel with
          | .error e => .error e
          | .ok tb => generateSchemaAst L [] (sc.map (·.2)) tb steps kids rd src (InBuf.init E.mem 48000 E.nextId) : Except Fail (SchemaAST × Nat)) =
        match schemaOfTree (sc.map (·.2)) (tokenText m1) tree with | .error e => .error e | .ok a => .ok (a, kids') := by
    intro tree d1
    obtain ⟨kids', -, hkids⟩ := fit_counter hsp d1 hsame hk
    obtain ⟨n2, hparse⟩ := C42_schema_files hsp ho (hgen n1 (Nat.le_refl _)) d1 hcl hkids he0 []
    refine ⟨n1 + n2 + 1, kids', fun fuel steps hf hst => ?_⟩
    rw [hgen fuel (by omega)]
    simp only
    obtain ⟨k, rfl⟩ : ∃ k, steps = k + 1 := ⟨steps - 1, by omega⟩
    obtain ⟨ends, -, ⟨more, rfl⟩, e3⟩ := h2 k { states := [tb.root], matched := [], next := none, kids := kids }
    have hp := hparse (k + 1) (by omega)
    unfold Grammar.parse at hp
    have hp := parseLoop_append more _ _ _ _ _ _ hp
    rw [List.append_assoc, List.singleton_append] at hp
    rw [hp] at e3
    cases hres : parseFrom L (schemaGrammar (sc.map (·.2))) tb (schemaResets (schemaGrammar (sc.map (·.2)))) (schemaHasRule (sc.map (·.2))) rd (k + 1)
        { states := [tb.root], matched := [], next := none, kids := kids } src {} (InBuf.init E.mem 48000 E.nextId).reset with
    | error e => rw [hres] at e3; exact e3.elim
    | ok x =>
      rw [hres] at e3
      obtain ⟨t, kk, b⟩ := x
      obtain ⟨rfl, rfl, hm⟩ := e3
      rw [generateSchemaAst_tree hres, hm]
      cases schemaOfTree (sc.map (·.2)) (tokenText m1) t <;> rfl
  have hd : ∃ tree, Derivation (schemaGrammar (sc.map (·.2))).decls
      ((schemaGrammar (sc.map (·.2))).IsTok (reserved.map (·.1) ++ schemaTerminals (sc.map (·.2)))) ["Schema"] [tree] toks := by
    obtain ⟨ts, hder⟩ := tree_of_derives (schema_has hsp) hsyn hsame
    obtain ⟨tr, rfl⟩ := single_tree hder
    exact ⟨tr, hder⟩
  obtain ⟨tree, d1⟩ := hd
  obtain ⟨n, kids', hn⟩ := run tree d1
  refine ⟨n, _, hn, .inr ⟨hsyn, m1, toks, hsame, ⟨tree, d1⟩, fun tree' d1' => ?_⟩⟩
  obtain ⟨n', kids'', hn'⟩ := run tree' d1'
  exact ⟨kids'', (hn (n + n') (n + n') (by omega) (by omega)).symm.trans (hn' (n + n') (n + n') (by omega) (by omega))⟩

end LogSurgeon
