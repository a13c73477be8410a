import Verif.Proofs.SchemaTablesOk
import Verif.Proofs.SchemaStack
/-
Every schema text that fits is parsed.
-/
namespace LogSurgeon
open Grammar

/-- Every well-formed text that fits is parsed, to what it says. -/
theorem schema_complete_in {σ : Type} {E : SchemaEnv} (hE : E.Ok) (ho : E.orders.Ok (schemaGrammar (E.specials.map (·.2)))) {kids : Nat}
    {rd : σ → Nat → σ × InBuf.ReadRes} {src : σ} {w : List Nat} {N : Nat} (hN : 2 < N) (hw : w.length < N / 2) (hb : AllBytes w) (hrd : Delivers rd src (N / 2) w)
    (hk : Fit kids (lexemes w)) {s : SchemaText} (hs : WrittenFile 0 (lexemes w) s) {a : SchemaAST} (ha : s.Builds a) :
    ∃ n kids', kids' ≤ roomBound kids (lexemes w) ∧ ∀ fuel steps, n ≤ fuel → n ≤ steps → ({ E with fuel := fuel, steps := steps } : SchemaEnv).parseIn N kids rd src = .ok (a, kids') := by
  obtain ⟨L, hlex, hL⟩ := schemaLexer_ok hE.specials hE.addr
  have hsc := hE.specials
  have hsp := perm_names hsc
  obtain ⟨n1, tb, hgen, hclear⟩ := schema_table hsc hL (o := E.orders) (fun ks i h => (ho.sets ks i).mp h)
  unfold SchemaEnv.parseIn
  simp only [hlex]
  generalize hS : E.specials = sc at *
  obtain ⟨m1, toks, e0, h1, -, h2⟩ := parse_units hsc hL (mem := E.mem) (nid := E.nextId) hN hw hb hrd (tb := tb)
      (resets := schemaResets (schemaGrammar (sc.map (·.2)))) (hasRule := schemaHasRule (sc.map (·.2)))
  obtain ⟨ts, d1, d2⟩ := tree_of_der (ruleOf_has hsp) ((der_iff (lexemes_bytes hb)).mpr ⟨s, hs, ha⟩) (same_units hsc hL h1)
  obtain ⟨tree, rfl⟩ : ∃ tree, ts = [tree] := by
    cases d1 with
    | tok _ h => cases h; exact ⟨_, rfl⟩
    | prod _ _ h => cases h; exact ⟨_, rfl⟩
  obtain ⟨kids', hkle, hkids⟩ := fit_counter hsp d1 (same_units hsc hL h1) hk
  have hcl : ∀ x ∈ toks, (schemaGrammar (sc.map (·.2))).Clear tb x := by
    intro x hx
    obtain ⟨l, _, h3⟩ := forall₂_mem_left h1 hx
    exact hclear x l h3.2.2 h3.1
  have he0 : e0.types = some [tokenEnd] := by
    obtain ⟨ends, z1, ⟨more, rfl⟩, -⟩ := h2 0 { states := [tb.root], matched := [], next := none, kids := kids }
    exact z1 e0 (by simp)
  obtain ⟨n2, hparse⟩ := C42_schema_files hsp ho (hgen n1 (Nat.le_refl _)) d1 hcl hkids he0 []
  refine ⟨n1 + n2 + 1, kids', hkle, fun fuel steps hf hst => ?_⟩
  rw [hgen fuel (by omega)]
  simp only
  obtain ⟨k, rfl⟩ : ∃ k, steps = k + 1 := ⟨steps - 1, by omega⟩
  obtain ⟨ends, -, ⟨more, rfl⟩, e3⟩ := h2 k { states := [tb.root], matched := [], next := none, kids := kids }
  have hp := hparse (k + 1) (by omega)
  unfold Grammar.parse at hp
  have hp := parseLoop_append more _ _ _ _ _ _ hp
  rw [List.append_assoc, List.singleton_append] at hp
  rw [hp] at e3
  cases hres : parseFrom L (schemaGrammar (sc.map (·.2))) tb (schemaResets (schemaGrammar (sc.map (·.2)))) (schemaHasRule (sc.map (·.2))) rd (k + 1)
      { states := [tb.root], matched := [], next := none, kids := kids } src {} (InBuf.init E.mem N E.nextId).reset with
  | error e => rw [hres] at e3; exact e3.elim
  | ok x =>
    rw [hres] at e3
    obtain ⟨t, kk, b⟩ := x
    obtain ⟨rfl, rfl, hm⟩ := e3
    rw [generateSchemaAst_tree hres]
    have hv : schemaOfTree (sc.map (·.2)) (tokenText b.mem) t = .ok a := by
      rw [hm]
      unfold schemaOfTree
      simp only [Tree.eval.evals] at d2
      split at d2
      · cases d2
      · rename_i v p' hv
        rw [hv]
        simp only [Except.ok.injEq, Prod.mk.injEq, List.cons.injEq, and_true] at d2
        rw [d2.1]
    rw [hv]

theorem schema_complete_room {σ : Type} {E : SchemaEnv} (hE : E.Ok) (ho : E.orders.Ok (schemaGrammar (E.specials.map (·.2)))) {kids : Nat}
    {rd : σ → Nat → σ × InBuf.ReadRes} {src : σ} {w : List Nat} (hw : w.length < 24000) (hb : AllBytes w) (hrd : Delivers rd src 24000 w)
    (hk : Fit kids (lexemes w)) {s : SchemaText} (hs : WrittenFile 0 (lexemes w) s) {a : SchemaAST} (ha : s.Builds a) :
    ∃ n kids', kids' ≤ roomBound kids (lexemes w) ∧ ∀ fuel steps, n ≤ fuel → n ≤ steps → ({ E with fuel := fuel, steps := steps } : SchemaEnv).parse kids rd src = .ok (a, kids') :=
  schema_complete_in hE ho (N := 48000) (by decide) hw hb hrd hk hs ha

theorem schema_complete {σ : Type} {E : SchemaEnv} (hE : E.Ok) (ho : E.orders.Ok (schemaGrammar (E.specials.map (·.2)))) {kids : Nat}
    {rd : σ → Nat → σ × InBuf.ReadRes} {src : σ} {w : List Nat} (hw : w.length < 24000) (hb : AllBytes w) (hrd : Delivers rd src 24000 w)
    (hk : Fit kids (lexemes w)) {s : SchemaText} (hs : WrittenFile 0 (lexemes w) s) {a : SchemaAST} (ha : s.Builds a) :
    ∃ n kids', ∀ fuel steps, n ≤ fuel → n ≤ steps → ({ E with fuel := fuel, steps := steps } : SchemaEnv).parse kids rd src = .ok (a, kids') := by
  obtain ⟨n, k, _, h⟩ := schema_complete_room hE ho hw hb hrd hk hs ha
  exact ⟨n, k, h⟩

end LogSurgeon
