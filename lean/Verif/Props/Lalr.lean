import Verif.Proofs.LalrNames
import Verif.Model.SchemaGrammar
/-
C34: what the LALR(1) parser accepts is derivable.
-/
namespace LogSurgeon

/-- The production of the extra start symbol takes part in no derivation from the start symbol. -/
theorem Derivation.derives {decls all : List (String × List String)} {isTok : Token → String → Prop}
    (hall : ∀ d ∈ all, "$START_PRIME" ∉ d.2) (hd : ∀ (i : Nat) d, decls[i]? = some d → d.1 ≠ "$START_PRIME" → d ∈ all)
    {ss : List String} {ts : List Tree} {w : List Token}
    (h : Derivation decls isTok ss ts w) : "$START_PRIME" ∉ ss → Derives all isTok ss w := by
  induction h with
  | nil => intro _; exact .nil
  | tok a _ ih =>
    intro hs
    exact .tok a (ih fun h => hs (by simp [h]))
  | @prod i hd' bd _ _ _ _ _ a _ _ ih1 ih2 =>
    intro hs
    have hm := hd _ _ a (fun h => hs (by simp [← h]))
    exact .prod hm (ih1 (hall _ hm)) (ih2 fun h => hs (by simp [h]))

/-- C34.  For every list of terminals and every list of productions `(start, bd) :: ds` (which do not use the reserved name
`$START_PRIME`), whatever the order in which the containers are traversed: if generation succeeds and the parser
accepts a sequence of tokens, then it has read `used` and one token of the end type, and `used` is derivable from the
start symbol, the head of the first production, by the productions given; the tree it returns is the derivation
tree, whose inner nodes carry the numbers of the productions in `decls`. -/
theorem C34_accepted_is_derivable {terms : List String} {start : String} {bd : List String} {ds : List (String × List String)} {g : Grammar}
    (hg : g = Grammar.build terms ((start, bd) :: ds))
    (hp : ∀ d ∈ (start, bd) :: ds, d.1 ≠ "$START_PRIME" ∧ "$START_PRIME" ∉ d.2) {o : Grammar.Orders} {fuel : Nat} {tb : Grammar.Table}
    (hgen : g.generate o fuel = .ok tb) {resets : Nat → Bool} {fuel' kids kids' : Nat} {input rest : List Token} {tree : Tree}
    (htok : ∀ t ∈ input, ∀ tys, t.types = some tys → ∀ ty ∈ tys, ty ∈ g.terminals)
    (h : g.parse tb resets fuel' kids input = .ok (tree, rest, kids')) :
    ∃ used e, input = used ++ e :: rest ∧ (∃ tys, e.types = some tys ∧ tokenEnd ∈ tys) ∧
      Derives ((start, bd) :: ds) (g.IsTok (reserved.map (·.1) ++ terms)) [start] used ∧
      Derivation g.decls (g.IsTok (reserved.map (·.1) ++ terms)) [start] [tree] used ∧
      (∀ (i : Nat) d, g.decls[i]? = some d → d = ("$START_PRIME", [start]) ∨ d ∈ (start, bd) :: ds) := by
  have hB := Grammar.build_ok (terms := terms) hp
  rw [← hg] at hB
  obtain ⟨used, e, h1, h2, h3, _⟩ := Grammar.parse_sound hg hp hgen htok h
  have hdecl : ∀ (i : Nat) d, g.decls[i]? = some d → d = ("$START_PRIME", [start]) ∨ d ∈ (start, bd) :: ds := by
    intro i d hi
    by_cases hi1 : i = 1
    · subst hi1
      have := hi.symm.trans hB.prime
      exact .inl (Option.some.inj this)
    · exact .inr (hB.decls i d hi hi1)
  refine ⟨used, e, h1, h2, ?_, h3, hdecl⟩
  refine h3.derives (fun d hd => (hp d hd).2) ?_ ?_
  · intro i d hi hne
    exact (hdecl i d hi).resolve_left (by rintro rfl; exact hne rfl)
  · simp only [List.mem_singleton]
    exact fun h => (hp (start, bd) (by simp)).1 h.symm

/-- C42: the children of what is accepted fit into the array for children, and the counter says how many entries are used (the tree is that of
C34; `C42_derivable_is_accepted` is the converse). -/
theorem C42_accepted_fits {terms : List String} {start : String} {bd : List String} {ds : List (String × List String)} {g : Grammar}
    (hg : g = Grammar.build terms ((start, bd) :: ds))
    (hp : ∀ d ∈ (start, bd) :: ds, d.1 ≠ "$START_PRIME" ∧ "$START_PRIME" ∉ d.2) {o : Grammar.Orders} {fuel : Nat} {tb : Grammar.Table}
    (hgen : g.generate o fuel = .ok tb) {resets : Nat → Bool} {fuel' kids kids' : Nat} {input rest : List Token} {tree : Tree}
    (htok : ∀ t ∈ input, ∀ tys, t.types = some tys → ∀ ty ∈ tys, ty ∈ g.terminals)
    (h : g.parse tb resets fuel' kids input = .ok (tree, rest, kids')) : tree.counter resets kids = some kids' := by
  obtain ⟨_, _, _, _, _, h4⟩ := Grammar.parse_sound hg hp hgen htok h
  exact h4

/-- The grammar of schema files has the form required, whatever the order of the special characters. -/
theorem C34_schema_grammar (specials : List String) (hs : "$START_PRIME" ∉ specials) :
    ∃ ds, schemaGrammar specials = Grammar.build (schemaTerminals specials) (("Schema", ["Comment"]) :: ds) ∧
      ∀ d ∈ ("Schema", ["Comment"]) :: ds, d.1 ≠ "$START_PRIME" ∧ "$START_PRIME" ∉ d.2 := by
  refine ⟨(schemaProductions specials).tail, rfl, ?_⟩
  have : ("Schema", ["Comment"]) :: (schemaProductions specials).tail = schemaProductions specials := rfl
  rw [this]
  intro d hd
  unfold schemaProductions schemaDecls at hd
  rw [List.map_append, List.map_append, List.mem_append, List.mem_append, List.map_map] at hd
  rcases hd with (hd | hd) | hd
  · revert d; decide
  · obtain ⟨n, hn, rfl⟩ := List.mem_map.mp hd
    refine ⟨by simp, ?_⟩
    show "$START_PRIME" ∉ ["Backslash", n]
    simp only [List.mem_cons, List.not_mem_nil, or_false, not_or]
    exact ⟨by decide, fun h => hs (h ▸ hn)⟩
  · revert d; decide

/-! A concrete grammar, `E → E PLUS T | T`, `T → NUM | LP E RP | LP Opt RP`, `Opt → ε`: generation succeeds, `( 1 + ( ) )` is
accepted and `( 1 + )` is not. -/
section Example

private def exDecls : List (String × List String) :=
  [("E", ["T"]), ("T", ["NUM"]), ("T", ["LP", "E", "RP"]), ("T", ["LP", "Opt", "RP"]), ("E", ["E", "PLUS", "T"]), ("Opt", [])]
private def exG : Grammar := Grammar.build ["PLUS", "NUM", "LP", "RP"] (("E", ["E", "PLUS", "T"]) :: exDecls)
private def exO : Grammar.Orders := ⟨[12, 13, 14, 15], fun s => List.range s.length⟩
private def exTok (n : Nat) : Token := { types := some [n] }

private def exRun (w : List Nat) : Except Fail (Nat × Nat) :=
  match exG.generate exO 100 with
  | .error e => .error e
  | .ok tb =>
    match exG.parse tb (fun _ => false) 100 0 (w.map exTok) with
    | .error e => .error e
    | .ok (_, rest, kids) => .ok (rest.length, kids)

set_option maxRecDepth 100000 in
example : exRun [10, 9, 8, 10, 11, 11, 0, 9] = .ok (1, 12) := by decide +kernel

set_option maxRecDepth 100000 in
example : exRun [10, 9, 8, 11, 0] = .error .throws := by decide +kernel

set_option maxRecDepth 100000 in
example : ∀ d ∈ ("E", ["E", "PLUS", "T"]) :: exDecls, d.1 ≠ "$START_PRIME" ∧ "$START_PRIME" ∉ d.2 := by decide

set_option maxRecDepth 100000 in
example : ∀ t ∈ ([10, 9, 8, 10, 11, 11, 0, 9].map exTok), ∀ tys, t.types = some tys → ∀ ty ∈ tys, ty ∈ exG.terminals := by
  intro t ht tys hty
  have key : ∀ n ∈ [10, 9, 8, 10, 11, 11, 0, 9], n ∈ exG.terminals := by decide +kernel
  obtain ⟨n, hn, rfl⟩ := List.mem_map.mp ht
  cases hty
  intro ty hty
  rw [List.mem_singleton.mp hty]
  exact key n hn

end Example
end LogSurgeon
