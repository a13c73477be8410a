import Verif.Proofs.LalrCheck
import Verif.Proofs.Viable
/-
C42: what is derivable the LALR(1) parser accepts.
-/
namespace LogSurgeon
open Grammar

/-- C42.  For every list of terminals and every list of productions `(start, bd) :: ds` (which do not use the reserved
name `$START_PRIME`, in which no terminal has productions, in which every symbol derives something and which end
cleanly), whatever the order in which the containers are traversed: if generation reports no conflict then the parser
accepts every sequence of tokens derivable from the start symbol, followed by a token of the end type, and it returns
the derivation tree and the tokens behind the end token, if the tokens are clear and the children of the nodes of the tree fit
into the array for children, of which `kids` entries are used before. -/
theorem C42_derivable_is_accepted {terms : List String} {start : String} {bd : List String} {ds : List (String × List String)} {g : Grammar}
    (hg : g = Grammar.build terms ((start, bd) :: ds))
    (hp : ∀ d ∈ (start, bd) :: ds, d.1 ≠ "$START_PRIME" ∧ "$START_PRIME" ∉ d.2) (hpt : "$START_PRIME" ∉ terms)
    (hsep : ∀ d ∈ (start, bd) :: ds, d.1 ∉ reserved.map (·.1) ++ terms) (hend : ∀ d ∈ (start, bd) :: ds, "$end" ∉ d.2)
    (hpr : ∀ d ∈ (start, bd) :: ds, ∀ s ∈ d.2, Productive (reserved.map (·.1) ++ terms) ((start, bd) :: ds) s)
    (hclean : EndsCleanly ((start, bd) :: ds) start) (hsize : g.symbolId.length ≤ cNullSymbol)
    {o : Orders} (ho : o.Ok g) {fuel : Nat} {tb : Table} (hgen : g.generate o fuel = .ok tb)
    {resets : Nat → Bool} {tree : Tree} {w : List Token} (hd : Derivation g.decls (g.IsTok (reserved.map (·.1) ++ terms)) [start] [tree] w)
    (hw : ∀ x ∈ w, g.Clear tb x) {kids kids' : Nat} (hk : tree.counter resets kids = some kids')
    {e : Token} (he : e.types = some [tokenEnd]) (rest : List Token) :
    ∃ n, ∀ fuel, n ≤ fuel → g.parse tb resets fuel kids (w ++ e :: rest) = .ok (tree, rest, kids') := by
  obtain ⟨n, tree', k', h1, h2⟩ := complete_names (resets := resets) hg hp hsep hpt hpr hsize ho hgen (.inr ⟨hclean, hend⟩) hd hw hk he rest
  obtain ⟨rfl, rfl⟩ := h2 hclean
  exact ⟨n, h1⟩

/-- The same for grammars that do not end cleanly, if the table still accepts somewhere: the sequence is accepted, possibly
with another tree. -/
theorem C42_accepted_unclean {terms : List String} {start : String} {bd : List String} {ds : List (String × List String)} {g : Grammar}
    (hg : g = Grammar.build terms ((start, bd) :: ds))
    (hp : ∀ d ∈ (start, bd) :: ds, d.1 ≠ "$START_PRIME" ∧ "$START_PRIME" ∉ d.2) (hpt : "$START_PRIME" ∉ terms)
    (hsep : ∀ d ∈ (start, bd) :: ds, d.1 ∉ reserved.map (·.1) ++ terms)
    (hpr : ∀ d ∈ (start, bd) :: ds, ∀ s ∈ d.2, Productive (reserved.map (·.1) ++ terms) ((start, bd) :: ds) s)
    (hsize : g.symbolId.length ≤ cNullSymbol) {o : Orders} (ho : o.Ok g) {fuel : Nat} {tb : Table} (hgen : g.generate o fuel = .ok tb)
    (hacc : ∃ i acts, (i, acts) ∈ tb.actions ∧ acts[tokenEnd]? = some (.flag true))
    {resets : Nat → Bool} {tree : Tree} {w : List Token} (hd : Derivation g.decls (g.IsTok (reserved.map (·.1) ++ terms)) [start] [tree] w)
    (hw : ∀ x ∈ w, g.Clear tb x) {kids kids' : Nat} (hk : tree.counter resets kids = some kids')
    {e : Token} (he : e.types = some [tokenEnd]) (rest : List Token) :
    ∃ n tree' k', ∀ fuel, n ≤ fuel → g.parse tb resets fuel kids (w ++ e :: rest) = .ok (tree', rest, k') := by
  obtain ⟨n, tree', k', h1, _⟩ := complete_names (resets := resets) hg hp hsep hpt hpr hsize ho hgen (.inl hacc) hd hw hk he rest
  exact ⟨n, tree', k', h1⟩

/-- A token of one type other than the end is clear. -/
theorem C42_one_type_clear {g : Grammar} {tb : Table} {t : Token} {ty : Nat} (ht : t.types = some [ty]) (h : ty ∈ g.terminals)
    (hne : ty ≠ tokenEnd) : g.Clear tb t := by
  refine ⟨[ty], ht, by simpa using ⟨h, hne⟩, ?_⟩
  intro r _ a ha b hb x y hx hy _ _
  rw [List.mem_singleton.mp ha] at hx
  rw [List.mem_singleton.mp hb] at hy
  rw [hx] at hy
  exact Option.some.inj hy

mutual
theorem counter_of_edges (resets : Nat → Bool) : ∀ (t : Tree) (k : Nat), k + t.edges ≤ 10000 →
    ∃ k', t.counter resets k = some k' ∧ k' ≤ k + t.edges
  | .leaf _, k, _ => ⟨k, rfl, by simp⟩
  | .node p cs, k, h => by
    simp only [Tree.edges] at h
    obtain ⟨k1, h1, h2⟩ := counters_of_edges resets cs k (by omega)
    simp only [Tree.counter, h1, Tree.edges]
    rw [if_neg (by omega)]
    split
    · exact ⟨0, rfl, by omega⟩
    · exact ⟨_, rfl, by omega⟩
theorem counters_of_edges (resets : Nat → Bool) : ∀ (ts : List Tree) (k : Nat), k + Tree.edges.edgesAll ts ≤ 10000 →
    ∃ k', Tree.counter.counters resets ts k = some k' ∧ k' ≤ k + Tree.edges.edgesAll ts
  | [], k, _ => ⟨k, rfl, by simp⟩
  | t :: ts, k, h => by
    simp only [Tree.edges.edgesAll] at h
    obtain ⟨k1, h1, h2⟩ := counter_of_edges resets t k (by omega)
    obtain ⟨k2, h3, h4⟩ := counters_of_edges resets ts k1 (by omega)
    simp only [Tree.counter.counters, h1, Tree.edges.edgesAll]
    exact ⟨k2, h3, by omega⟩
end

/-- The children fit if the entries used before and the children of all the nodes are at most 10000. -/
theorem C42_small_fits (resets : Nat → Bool) {t : Tree} {k : Nat} (h : k + t.edges ≤ 10000) : ∃ k', t.counter resets k = some k' := by
  obtain ⟨k', h1, _⟩ := counter_of_edges resets t k h
  exact ⟨k', h1⟩

/-- Under the same conditions the grammar is not ambiguous: two derivation trees for the same tokens are the
same, however large, if no production has more than 5000 symbols. -/
theorem C42_unambiguous {terms : List String} {start : String} {bd : List String} {ds : List (String × List String)} {g : Grammar}
    (hg : g = Grammar.build terms ((start, bd) :: ds))
    (hp : ∀ d ∈ (start, bd) :: ds, d.1 ≠ "$START_PRIME" ∧ "$START_PRIME" ∉ d.2) (hpt : "$START_PRIME" ∉ terms)
    (hsep : ∀ d ∈ (start, bd) :: ds, d.1 ∉ reserved.map (·.1) ++ terms) (hend : ∀ d ∈ (start, bd) :: ds, "$end" ∉ d.2)
    (hpr : ∀ d ∈ (start, bd) :: ds, ∀ s ∈ d.2, Productive (reserved.map (·.1) ++ terms) ((start, bd) :: ds) s)
    (hclean : EndsCleanly ((start, bd) :: ds) start) (hsize : g.symbolId.length ≤ cNullSymbol)
    {o : Orders} (ho : o.Ok g) {fuel : Nat} {tb : Table} (hgen : g.generate o fuel = .ok tb) {t1 t2 : Tree} {w : List Token}
    (h1 : Derivation g.decls (g.IsTok (reserved.map (·.1) ++ terms)) [start] [t1] w)
    (h2 : Derivation g.decls (g.IsTok (reserved.map (·.1) ++ terms)) [start] [t2] w) (hw : ∀ x ∈ w, g.Clear tb x)
    (hshort : ∀ d ∈ (start, bd) :: ds, d.2.length ≤ 5000) : t1 = t2 := by
  obtain ⟨sid, t, S⟩ := sound_names hg hp hsep hpt hpr hsize ho hgen
  have hlen := Decent.lengths ⟨hg, hp, hpt, hsep, hend, hpr, hclean, hsize, hshort⟩ S
  obtain ⟨k1, -, hk1⟩ := counter_free t1 0 (by omega) ((Forest.of_names S.names.names h1 (.cons S.start .nil)).narrow hlen).1
  obtain ⟨k2, -, hk2⟩ := counter_free t2 0 (by omega) ((Forest.of_names S.names.names h2 (.cons S.start .nil)).narrow hlen).1
  obtain ⟨n1, e1⟩ := C42_derivable_is_accepted hg hp hpt hsep hend hpr hclean hsize ho hgen h1 hw hk1 (e := { types := some [tokenEnd] }) rfl []
  obtain ⟨n2, e2⟩ := C42_derivable_is_accepted hg hp hpt hsep hend hpr hclean hsize ho hgen h2 hw hk2 (e := { types := some [tokenEnd] }) rfl []
  have a := e1 (n1 + n2) (by omega)
  have b := e2 (n1 + n2) (by omega)
  rw [a] at b
  cases b
  rfl

/-- The grammar of schema files meets the conditions on grammars, whatever the order of the special characters: if generation
succeeds then every sequence of clear tokens that is a schema file by the grammar is accepted with its derivation tree. -/
theorem C42_schema_files {sp : List String} (hsp : sp.Perm schemaSpecials) {o : Orders} (ho : o.Ok (schemaGrammar sp)) {fuel : Nat} {tb : Table}
    (hgen : (schemaGrammar sp).generate o fuel = .ok tb) {tree : Tree} {w : List Token}
    (hd : Derivation (schemaGrammar sp).decls ((schemaGrammar sp).IsTok (reserved.map (·.1) ++ schemaTerminals sp)) ["Schema"] [tree] w)
    (hw : ∀ x ∈ w, (schemaGrammar sp).Clear tb x) {kids kids' : Nat}
    (hk : tree.counter (schemaResets (schemaGrammar sp)) kids = some kids') {e : Token} (he : e.types = some [tokenEnd]) (rest : List Token) :
    ∃ n, ∀ fuel, n ≤ fuel →
      (schemaGrammar sp).parse tb (schemaResets (schemaGrammar sp)) fuel kids (w ++ e :: rest) = .ok (tree, rest, kids') := by
  obtain ⟨c1, c2, c3, c4, c5, c6, c7⟩ := schema_conditions hsp
  exact C42_derivable_is_accepted (terms := schemaTerminals sp) (start := "Schema") (bd := ["Comment"]) (ds := (schemaProductions sp).tail) rfl
    c1 c2 c3 c4 c5 c6 c7 ho hgen hd hw hk he rest

/-! ### A grammar that meets the conditions -/
section Example

private def exTok (n : Nat) : Token := { types := some [n] }
private def exOrd (nts : List Nat) : Orders := ⟨nts, fun s => List.range s.length⟩
private def exTb (g : Grammar) (nts : List Nat) : Table :=
  match g.generate (exOrd nts) 100 with
  | .ok tb => tb
  | .error _ => ⟨none, []⟩
private def exErr (g : Grammar) (nts : List Nat) (kids : Nat) (w : List Token) : Option Fail :=
  match g.parse (exTb g nts) (fun _ => false) 100 kids w with
  | .ok _ => none
  | .error e => some e
private def exGen (g : Grammar) (nts : List Nat) : Bool :=
  match g.generate (exOrd nts) 100 with
  | .ok _ => true
  | .error _ => false
private theorem exGen_ok {g : Grammar} {nts : List Nat} (h : exGen g nts = true) : g.generate (exOrd nts) 100 = .ok (exTb g nts) := by
  unfold exGen at h
  unfold exTb
  split at h
  · rename_i e; rw [e]
  · cases h

private theorem exOrd_ok {g : Grammar} {nts : List Nat} (h : ∀ p ∈ g.prods, p.head ∈ nts) : (exOrd nts).Ok g :=
  ⟨h, fun ks i => by simp [exOrd]⟩

/-- `E → E PLUS T | T`, `T → NUM | LP E RP | LP Opt RP`, `Opt → ε`. -/
private def exDs : List (String × List String) :=
  [("E", ["T"]), ("T", ["NUM"]), ("T", ["LP", "E", "RP"]), ("T", ["LP", "Opt", "RP"]), ("Opt", [])]
private def exTerms : List String := ["PLUS", "NUM", "LP", "RP"]
private def exG : Grammar := Grammar.build exTerms (("E", ["E", "PLUS", "T"]) :: exDs)
/-- `1 + ( )` -/
private def exTree : Tree :=
  .node 0 [.node 2 [.node 3 [.leaf (exTok 9)]], .leaf (exTok 8), .node 5 [.leaf (exTok 10), .node 6 [], .leaf (exTok 11)]]

set_option maxRecDepth 100000 in
private theorem exG_facts : exGen exG [12, 13, 14, 15] = true ∧ (∀ p ∈ exG.prods, p.head ∈ [12, 13, 14, 15]) ∧
    (∀ n ∈ [8, 9, 10, 11], n ∈ exG.terminals) ∧
    exG.decls = [("E", ["E", "PLUS", "T"]), ("$START_PRIME", ["E"]), ("E", ["T"]), ("T", ["NUM"]), ("T", ["LP", "E", "RP"]),
      ("T", ["LP", "Opt", "RP"]), ("Opt", [])] ∧
    exG.symbolId.lookup "PLUS" = some 8 ∧ exG.symbolId.lookup "NUM" = some 9 ∧ exG.symbolId.lookup "LP" = some 10 ∧
    exG.symbolId.lookup "RP" = some 11 ∧ exG.symbolId.length ≤ cNullSymbol := by decide +kernel

set_option maxRecDepth 100000 in
private theorem exG_conds : (∀ d ∈ ("E", ["E", "PLUS", "T"]) :: exDs, d.1 ≠ "$START_PRIME" ∧ "$START_PRIME" ∉ d.2) ∧
    (∀ d ∈ ("E", ["E", "PLUS", "T"]) :: exDs, d.1 ∉ reserved.map (·.1) ++ exTerms) ∧
    (∀ d ∈ ("E", ["E", "PLUS", "T"]) :: exDs, "$end" ∉ d.2) ∧
    behindIn ["PLUS"] (("E", ["E", "PLUS", "T"]) :: exDs) "E" = true ∧
    (∀ d ∈ ("E", ["E", "PLUS", "T"]) :: exDs, d.2 ≠ ["E"]) ∧
    productiveIn (reserved.map (·.1) ++ exTerms) (("E", ["E", "PLUS", "T"]) :: exDs) [("Opt", []), ("T", ["NUM"]), ("E", ["T"])] [] = true ∧
    (∀ d ∈ ("E", ["E", "PLUS", "T"]) :: exDs, ∀ s ∈ d.2,
      s ∈ reserved.map (·.1) ++ exTerms ∨ s ∈ [("Opt", []), ("T", ["NUM"]), ("E", ["T"])].map (fun d : String × List String => d.1)) := by decide +kernel

/-- `1 + ( )` is accepted with its tree, at any place of the input and whatever has been parsed before, as long as 9000 entries at
most are used. -/
example (rest : List Token) {kids : Nat} (hk : kids ≤ 9000) : ∃ kids' n, ∀ fuel, n ≤ fuel →
    exG.parse (exTb exG [12, 13, 14, 15]) (fun _ => false) fuel kids ([exTok 9, exTok 8, exTok 10, exTok 11] ++ exTok 0 :: rest) =
      .ok (exTree, rest, kids') := by
  obtain ⟨f1, f2, f3, f4, f5, f6, f7, f8, f9⟩ := exG_facts
  obtain ⟨c1, c2, c3, c4, c5, c6, c7⟩ := exG_conds
  obtain ⟨kids', hk'⟩ := C42_small_fits (fun _ => false) (t := exTree) (k := kids) (by simp [exTree, Tree.edges, Tree.edges.edgesAll]; omega)
  refine ⟨kids', C42_derivable_is_accepted (terms := exTerms) (start := "E") (bd := ["E", "PLUS", "T"]) (ds := exDs) rfl c1 (by decide) c2 c3 ?_
    (endsCleanly_of c4 c5) f9 (exOrd_ok f2) (exGen_ok f1) ?_ ?_ hk' rfl rest⟩
  · intro d hd s hs
    rcases c7 d hd s hs with h | h
    · exact .term h
    · obtain ⟨d', hd', rfl⟩ := List.mem_map.mp h
      exact productiveIn_spec c6 (by simp) d' hd'
  · have hd : exG.decls = _ := f4
    have tok : ∀ {n : Nat} {s : String}, s ∈ exTerms → exG.symbolId.lookup s = some n → exG.IsTok (reserved.map (·.1) ++ exTerms) (exTok n) s :=
      fun {n s} h1 h2 => ⟨List.mem_append_right _ h1, n, [n], h2, rfl, by simp⟩
    show Derivation exG.decls _ ["E"] [exTree] ([exTok 9, exTok 8, exTok 10, exTok 11] ++ [])
    rw [hd]
    refine .prod (i := 0) (body := ["E", "PLUS", "T"]) rfl ?_ .nil
    refine .prod (i := 2) (body := ["T"]) (w := [exTok 9]) rfl (.prod (i := 3) (body := ["NUM"]) (w := [exTok 9]) (w' := []) rfl (.tok (tok (by decide) f6) .nil) .nil) ?_
    refine .tok (tok (by decide) f5) ?_
    refine .prod (i := 5) (body := ["LP", "Opt", "RP"]) (w := [exTok 10, exTok 11]) (w' := []) rfl ?_ .nil
    exact .tok (tok (by decide) f7) (.prod (i := 6) (body := []) (w := []) rfl .nil (.tok (tok (by decide) f8) .nil))
  · intro x hx
    simp only [List.mem_cons, List.not_mem_nil, or_false] at hx
    rcases hx with rfl | rfl | rfl | rfl <;> exact C42_one_type_clear rfl (f3 _ (by simp)) (by decide)

end Example

/-! ### The conditions are needed

In each of the following cases generation succeeds, a sequence is derivable and the parser does not accept it. -/
section Refutations

private def named (g : Grammar) (terms : List String) (n : Nat) (s : String) : Bool :=
  (reserved.map (·.1) ++ terms).contains s && g.symbolId.lookup s == some n

private theorem named_tok {g : Grammar} {terms : List String} {tys : List Nat} {n : Nat} {s : String} (h : named g terms n s = true) (hn : n ∈ tys) :
    g.IsTok (reserved.map (·.1) ++ terms) { types := some tys } s := by
  simp only [named, Bool.and_eq_true, List.contains_iff_mem, beq_iff_eq] at h
  exact ⟨h.1, n, tys, h.2, rfl, hn⟩

/-- `S → A x | c A x | c B U`, `U → U u`, `A → a`, `B → a`. -/
private def g1 : Grammar := Grammar.build ["x", "c", "u", "a"]
  [("S", ["A", "x"]), ("S", ["c", "A", "x"]), ("S", ["c", "B", "U"]), ("U", ["U", "u"]), ("A", ["a"]), ("B", ["a"])]

set_option maxRecDepth 100000 in
/-- A symbol that derives nothing (`U`): two LALR(1) item sets get the same kernel, one replaces the other, and the parser runs
into a null pointer on `a x`. -/
theorem C42_unproductive_refuted : ∃ tb, g1.generate (exOrd [12, 13, 14, 15, 16]) 100 = .ok tb ∧
    (∃ tree, Derivation g1.decls (g1.IsTok (reserved.map (·.1) ++ ["x", "c", "u", "a"])) ["S"] [tree] [exTok 11, exTok 8]) ∧
    (∀ x ∈ [exTok 11, exTok 8], g1.Clear tb x) ∧
    (match g1.parse tb (fun _ => false) 100 0 [exTok 11, exTok 8, exTok 0] with | .error .ub => True | _ => False) := by
  have f : exGen g1 [12, 13, 14, 15, 16] = true ∧ exErr g1 [12, 13, 14, 15, 16] 0 [exTok 11, exTok 8, exTok 0] = some .ub ∧
      g1.decls[0]? = some ("S", ["A", "x"]) ∧ g1.decls[5]? = some ("A", ["a"]) ∧ named g1 ["x", "c", "u", "a"] 11 "a" = true ∧
      named g1 ["x", "c", "u", "a"] 8 "x" = true ∧ 11 ∈ g1.terminals ∧ 8 ∈ g1.terminals := by decide +kernel
  obtain ⟨f1, f2, f3, f4, f5, f6, f7, f8⟩ := f
  refine ⟨_, exGen_ok f1, ⟨.node 0 [.node 5 [.leaf (exTok 11)], .leaf (exTok 8)], ?_⟩, ?_, ?_⟩
  · refine .prod (w := [exTok 11, exTok 8]) (w' := []) f3 ?_ .nil
    exact .prod (w := [exTok 11]) (w' := [exTok 8]) f4 (.tok (named_tok f5 (by simp)) .nil) (.tok (named_tok f6 (by simp)) .nil)
  · intro x hx
    simp only [List.mem_cons, List.not_mem_nil, or_false] at hx
    rcases hx with rfl | rfl
    · exact C42_one_type_clear rfl f7 (by decide)
    · exact C42_one_type_clear rfl f8 (by decide)
  · unfold exErr at f2
    split at f2
    · cases f2
    · rename_i e he
      cases f2
      rw [he]; trivial

/-- `S → a | S X`, `X → ε`. -/
private def g2 : Grammar := Grammar.build ["a"] [("S", ["a"]), ("S", ["S", "X"]), ("X", [])]

set_option maxRecDepth 100000 in
/-- A grammar that does not end cleanly: the accepting entry is silently overwritten by the reduction to `X`, and on `a` the
parser reduces for ever, here until it writes beyond the array for children. -/
theorem C42_unclean_refuted : ∃ tb, g2.generate (exOrd [9, 10, 11]) 100 = .ok tb ∧
    (∃ tree, Derivation g2.decls (g2.IsTok (reserved.map (·.1) ++ ["a"])) ["S"] [tree] [exTok 8] ∧
      (tree.counter (fun _ => false) 9970).isSome = true) ∧
    (match g2.parse tb (fun _ => false) 100 9970 [exTok 8, exTok 0] with | .error .ub => True | _ => False) := by
  have f : exGen g2 [9, 10, 11] = true ∧ exErr g2 [9, 10, 11] 9970 [exTok 8, exTok 0] = some .ub ∧
      g2.decls[0]? = some ("S", ["a"]) ∧ named g2 ["a"] 8 "a" = true := by decide +kernel
  obtain ⟨f1, f2, f3, f4⟩ := f
  refine ⟨_, exGen_ok f1, ⟨.node 0 [.leaf (exTok 8)], ?_, by decide⟩, ?_⟩
  · exact .prod (w := [exTok 8]) (w' := []) f3 (.tok (named_tok f4 (by simp)) .nil) .nil
  · unfold exErr at f2
    split at f2
    · cases f2
    · rename_i e he
      cases f2
      rw [he]; trivial

/-- `S → a`. -/
private def g3 : Grammar := Grammar.build ["a"] [("S", ["a"])]

set_option maxRecDepth 100000 in
/-- The counter of children is static and only one semantic rule ever resets it: after enough parses the parser writes beyond the array, on
the smallest input. -/
theorem C42_repeated_use_refuted : ∃ tb, g3.generate (exOrd [9, 10]) 100 = .ok tb ∧
    (∃ tree, Derivation g3.decls (g3.IsTok (reserved.map (·.1) ++ ["a"])) ["S"] [tree] [exTok 8]) ∧
    (match g3.parse tb (fun _ => false) 100 9999 [exTok 8, exTok 0] with | .ok (_, [], 10000) => True | _ => False) ∧
    (match g3.parse tb (fun _ => false) 100 10000 [exTok 8, exTok 0] with | .error .ub => True | _ => False) := by
  have f : exGen g3 [9, 10] = true ∧ exErr g3 [9, 10] 10000 [exTok 8, exTok 0] = some .ub ∧
      (match g3.parse (exTb g3 [9, 10]) (fun _ => false) 100 9999 [exTok 8, exTok 0] with | .ok (_, [], 10000) => true | _ => false) = true ∧
      g3.decls[0]? = some ("S", ["a"]) ∧ named g3 ["a"] 8 "a" = true := by decide +kernel
  obtain ⟨f1, f2, f3, f4, f5⟩ := f
  refine ⟨_, exGen_ok f1, ⟨.node 0 [.leaf (exTok 8)], ?_⟩, ?_, ?_⟩
  · exact .prod (w := [exTok 8]) (w' := []) f4 (.tok (named_tok f5 (by simp)) .nil) .nil
  · split at f3
    · trivial
    · cases f3
  · unfold exErr at f2
    split at f2
    · cases f2
    · rename_i e he
      cases f2
      rw [he]; trivial

/-- `S → a a | b`. -/
private def g4 : Grammar := Grammar.build ["a", "b"] [("S", ["a", "a"]), ("S", ["b"])]

set_option maxRecDepth 100000 in
/-- A token with two types that is not clear: the parser takes the first type that is possible and does not come back. -/
theorem C42_unclear_refuted : ∃ tb, g4.generate (exOrd [10, 11]) 100 = .ok tb ∧
    (∃ tree, Derivation g4.decls (g4.IsTok (reserved.map (·.1) ++ ["a", "b"])) ["S"] [tree] [{ types := some [8, 9] }]) ∧
    (match g4.parse tb (fun _ => false) 100 0 [{ types := some [8, 9] }, exTok 0] with | .error .throws => True | _ => False) := by
  have f : exGen g4 [10, 11] = true ∧ exErr g4 [10, 11] 0 [{ types := some [8, 9] }, exTok 0] = some .throws ∧
      g4.decls[2]? = some ("S", ["b"]) ∧ named g4 ["a", "b"] 9 "b" = true := by decide +kernel
  obtain ⟨f1, f2, f3, f4⟩ := f
  refine ⟨_, exGen_ok f1, ⟨.node 2 [.leaf { types := some [8, 9] }], ?_⟩, ?_⟩
  · exact .prod (w := [{ types := some [8, 9] }]) (w' := []) f3 (.tok (named_tok f4 (by simp)) .nil) .nil
  · unfold exErr at f2
    split at f2
    · cases f2
    · rename_i e he
      cases f2
      rw [he]; trivial

end Refutations
end LogSurgeon
