import Verif.Proofs.SchemaDer
import Verif.Proofs.LalrCheck
/-
Derivation trees of schema files, the values of the semantic rules on them and their size.
-/
namespace LogSurgeon

/-- The token has the text of the unit and stands for the same terminals. -/
def SameUnit (isTok : Token → String → Prop) (text : Token → List Nat) (t : Token) (l : Lexeme) : Prop :=
  text t = l.text ∧ ∀ s, isTok t s ↔ Stands s l

section
variable {decls : List (String × List String)} {isTok : Token → String → Prop} {text : Token → List Nat} {ruleOf : Nat → Option SemRule}

theorem der_of_tree (hr : ∀ (i : Nat) d r, decls[i]? = some d → ruleOf i = some r → (d, r) ∈ D0) {ss : List String} {ts : List Tree} {w : List Token}
    (h : Derivation decls isTok ss ts w) : ∀ {ls : List Lexeme} {k k' : Nat} {vs : List SemChild}, List.Forall₂ (SameUnit isTok text) w ls →
    Tree.eval.evals ruleOf text ts k = .ok (vs, k') → DerL ss k ls vs ∧ k' = k + (textOf ls).length := by
  induction h with
  | nil =>
    intro ls k k' vs hl he
    cases hl
    cases he
    exact ⟨.nil, by simp⟩
  | tok ht _ ih =>
    intro ls k k' vs hl he
    cases hl with
    | @cons _ l _ ls hx hl =>
      simp only [Tree.eval.evals, Tree.eval] at he
      split at he
      · cases he
      · rename_i vs' k'' he'
        cases he
        obtain ⟨h1, h2⟩ := ih hl he'
        rw [hx.1] at h1 h2 ⊢
        exact ⟨.tok ((hx.2 _).mp ht) h1, by simp [h2, Nat.add_assoc]⟩
  | @prod i head body cs ss ts w w' hd _ _ ih1 ih2 =>
    intro ls k k' vs hl he
    obtain ⟨l1, l2, rfl, hl1, hl2⟩ := forall₂_append_inv hl
    simp only [Tree.eval.evals, Tree.eval] at he
    split at he
    · cases he
    · rename_i v k1 he1
      split at he1
      · cases he1
      · rename_i vs1 k2 he2
        split at he1
        · cases he1
        · rename_i r hr'
          split at he1
          · cases he1
          · rename_i v' hv
            cases he1
            split at he
            · cases he
            · rename_i vs2 k3 he3
              cases he
              obtain ⟨a1, a2⟩ := ih1 hl1 he2
              subst a2
              obtain ⟨b1, b2⟩ := ih2 hl2 he3
              exact ⟨.prod (hr i _ r hd hr') a1 hv b1, by simp [b2, Nat.add_assoc]⟩

theorem forall₂_append_inv' {α β} {R : α → β → Prop} : ∀ {b c : List β} {a : List α}, List.Forall₂ R a (b ++ c) →
    ∃ a1 a2, a = a1 ++ a2 ∧ List.Forall₂ R a1 b ∧ List.Forall₂ R a2 c
  | [], _, a, h => ⟨[], a, rfl, .nil, h⟩
  | _ :: _, _, _, .cons h hs => by
    obtain ⟨c1, c2, rfl, h1, h2⟩ := forall₂_append_inv' hs
    exact ⟨_ :: c1, c2, rfl, .cons h h1, h2⟩

theorem tree_of_der (hr : ∀ d r, (d, r) ∈ D0 → ∃ i : Nat, decls[i]? = some d ∧ ruleOf i = some r) {ss : List String} {k : Nat} {ls : List Lexeme}
    {vs : List SemChild} (h : DerL ss k ls vs) : ∀ {w : List Token}, List.Forall₂ (SameUnit isTok text) w ls →
    ∃ ts, Derivation decls isTok ss ts w ∧ Tree.eval.evals ruleOf text ts k = .ok (vs, k + (textOf ls).length) := by
  induction h with
  | nil =>
    intro w hw
    cases hw
    exact ⟨[], .nil, by simp [Tree.eval.evals]⟩
  | @tok s l ss k ls vs hs _ ih =>
    intro w hw
    cases hw with
    | @cons t _ w _ hx hw =>
      obtain ⟨ts, h1, h2⟩ := ih hw
      refine ⟨.leaf t :: ts, .tok ((hx.2 _).mpr hs) h1, ?_⟩
      simp [Tree.eval.evals, Tree.eval, hx.1, h2, Nat.add_assoc]
  | @prod head body r ss k ls vs v ls' vs' hm _ ha _ ih1 ih2 =>
    intro w hw
    obtain ⟨w1, w2, rfl, hw1, hw2⟩ := forall₂_append_inv' hw
    obtain ⟨cs, h1, h2⟩ := ih1 hw1
    obtain ⟨ts, h3, h4⟩ := ih2 hw2
    obtain ⟨i, hi, hri⟩ := hr _ _ hm
    refine ⟨.node i cs :: ts, .prod hi h1 h3, ?_⟩
    simp [Tree.eval.evals, Tree.eval, h2, hri, ha, h4, Nat.add_assoc]

/-! ### Size -/

/-- How much less than five children per token a symbol needs. -/
def slackTable : List (String × Nat) :=
  [("Schema", 4), ("DelimiterString", 3), ("PortableNewLine", 4), ("Comment", 11), ("Text", 4), ("SchemaVar", 5),
    ("Identifier", 4), ("WhitespaceStar", 0), ("Regex", 0), ("Concat", 1), ("Or", 2), ("MatchStar", 6),
    ("MatchPlus", 6), ("MatchExact", 10), ("MatchRange", 15), ("CompleteGroup", 3),
    ("IncompleteGroup", 7), ("LiteralRange", 8), ("Literal", 4), ("Integer", 4), ("Digit", 8), ("Wildcard", 4),
    ("WhiteSpace", 8)]

def slack (s : String) : Nat := (slackTable.lookup s).getD 5

theorem slack_ok : ∀ x ∈ D0, slack x.1.1 + x.1.2.length ≤ (x.1.2.map slack).sum := by decide +kernel

theorem edges_le (hall : ∀ (i : Nat) d, decls[i]? = some d → d.1 = "$START_PRIME" ∨ ∃ r, (d, r) ∈ D0) (hno : ∀ x ∈ D0, "$START_PRIME" ∉ x.1.2)
    (hlook : ∀ t s, isTok t s → slack s ≤ 5) {ss : List String} {ts : List Tree} {w : List Token}
    (h : Derivation decls isTok ss ts w) : "$START_PRIME" ∉ ss →
    Tree.edges.edgesAll ts + (ss.map slack).sum ≤ 5 * w.length ∧ ss.length = ts.length := by
  induction h with
  | nil => intro _; simp [Tree.edges.edgesAll]
  | tok ht _ ih =>
    intro hss
    simp only [List.mem_cons, not_or] at hss
    obtain ⟨ih, e⟩ := ih hss.2
    have := hlook _ _ ht
    simp only [Tree.edges.edgesAll, Tree.edges, List.map_cons, List.sum_cons, List.length_cons]
    exact ⟨by omega, by omega⟩
  | @prod i head body cs ss ts w w' hd _ _ ih1 ih2 =>
    intro hss
    simp only [List.mem_cons, not_or] at hss
    obtain ⟨ih2, e2⟩ := ih2 hss.2
    rcases hall i _ hd with hp | ⟨r, hr⟩
    · exact absurd hp.symm hss.1
    obtain ⟨ih1, e1⟩ := ih1 (hno _ hr)
    have h2 := slack_ok _ hr
    simp only [Tree.edges.edgesAll, Tree.edges, List.map_cons, List.sum_cons, List.length_cons, List.length_append] at h2 ⊢
    exact ⟨by omega, by omega⟩

end

/-! ### The grammar of schema files -/

theorem mem_schemaDecls {sp : List String} (hsp : sp.Perm schemaSpecials) (x : (String × List String) × SemRule) : x ∈ schemaDecls sp ↔ x ∈ D0 := by
  unfold D0 schemaDecls
  simp only [List.mem_append, List.mem_map, hsp.mem_iff]

theorem decls_functional : ∀ x ∈ D0, ∀ y ∈ D0, x.1 = y.1 → x.2 = y.2 := by decide +kernel

theorem tree_mem_of_lookup {α β} [BEq α] [LawfulBEq α] {l : List (α × β)} {k : α} {v : β} (h : l.lookup k = some v) : (k, v) ∈ l := by
  induction l with
  | nil => cases h
  | cons x l ih =>
    obtain ⟨a, b⟩ := x
    simp only [List.lookup] at h
    split at h
    · rename_i he
      cases h
      rw [eq_of_beq he]
      simp
    · exact List.mem_cons_of_mem _ (ih h)

theorem tree_lookup_of_mem {α β} [BEq α] [LawfulBEq α] {l : List (α × β)} {k : α} {v : β} (h : (k, v) ∈ l) : ∃ v', l.lookup k = some v' := by
  induction l with
  | nil => cases h
  | cons x l ih =>
    obtain ⟨a, b⟩ := x
    simp only [List.lookup]
    split
    · exact ⟨_, rfl⟩
    · rename_i he
      rcases List.mem_cons.mp h with h | h
      · cases h; simp at he
      · exact ih h

theorem semRule_iff {sp : List String} (hsp : sp.Perm schemaSpecials) (d : String × List String) (r : SemRule) :
    semRule (schemaDecls sp) d = some r ↔ (d, r) ∈ D0 := by
  constructor
  · intro h
    exact (mem_schemaDecls hsp _).mp (List.mem_reverse.mp (tree_mem_of_lookup h))
  · intro h
    obtain ⟨r', hr'⟩ := tree_lookup_of_mem (List.mem_reverse.mpr ((mem_schemaDecls hsp _).mpr h))
    have h' := (mem_schemaDecls hsp _).mp (List.mem_reverse.mp (tree_mem_of_lookup hr'))
    have := decls_functional _ h _ h' rfl
    simp only at this
    rw [this]
    exact hr'

theorem ruleOf_mem {sp : List String} (hsp : sp.Perm schemaSpecials) (i : Nat) (d : String × List String) (r : SemRule)
    (hd : (schemaGrammar sp).decls[i]? = some d) (hr : schemaRuleOf sp i = some r) : (d, r) ∈ D0 := by
  unfold schemaRuleOf at hr
  rw [hd] at hr
  exact (semRule_iff hsp d r).mp hr

theorem ruleOf_has {sp : List String} (hsp : sp.Perm schemaSpecials) (d : String × List String) (r : SemRule) (h : (d, r) ∈ D0) :
    ∃ i : Nat, (schemaGrammar sp).decls[i]? = some d ∧ schemaRuleOf sp i = some r := by
  have h1 : d ∈ schemaProductions sp := List.mem_map.mpr ⟨_, (mem_schemaDecls hsp _).mpr h, rfl⟩
  have h2 : d ∈ (schemaGrammar sp).decls := (Grammar.build_has (terms := schemaTerminals sp)).1 d h1
  obtain ⟨i, hi⟩ := List.mem_iff_getElem?.mp h2
  refine ⟨i, hi, ?_⟩
  unfold schemaRuleOf
  rw [hi]
  exact (semRule_iff hsp d r).mpr h

theorem decl_cases {sp : List String} (hsp : sp.Perm schemaSpecials) (i : Nat) (d : String × List String)
    (h : (schemaGrammar sp).decls[i]? = some d) : d.1 = "$START_PRIME" ∨ ∃ r, (d, r) ∈ D0 := by
  have hp := (schema_conditions hsp).1
  have hB : Grammar.BuildOk _ "Schema" (schemaProductions sp) (schemaGrammar sp) :=
    Grammar.build_ok (terms := schemaTerminals sp) (start := "Schema") (bd := ["Comment"]) (ds := (schemaProductions sp).tail) hp
  by_cases hi : i = 1
  · subst hi
    rw [hB.prime] at h
    cases h
    exact .inl rfl
  · obtain ⟨x, hx, rfl⟩ := List.mem_map.mp (hB.decls i d h hi)
    exact .inr ⟨x.2, (mem_schemaDecls hsp _).mp hx⟩

/-- The nodes of the derivation tree of a schema file have at most five children per token. -/
theorem schema_edges {sp : List String} (hsp : sp.Perm schemaSpecials) {tree : Tree} {w : List Token}
    (hd : Derivation (schemaGrammar sp).decls ((schemaGrammar sp).IsTok (reserved.map (·.1) ++ schemaTerminals sp)) ["Schema"] [tree] w) :
    tree.edges ≤ 5 * w.length := by
  have hno : ∀ x ∈ D0, "$START_PRIME" ∉ x.1.2 := fun x hx => (schema_checks.2.2.1 x.1 (List.mem_map.mpr ⟨x, hx, rfl⟩)).2
  have hs : ∀ s ∈ reserved.map (·.1) ++ schemaTerminals schemaSpecials, slack s ≤ 5 := by decide +kernel
  have hl : ∀ t s, (schemaGrammar sp).IsTok (reserved.map (·.1) ++ schemaTerminals sp) t s → slack s ≤ 5 := by
    intro t s h
    refine hs s ?_
    have := h.1
    rw [List.mem_append, mem_schemaTerminals hsp] at this
    exact List.mem_append.mpr this
  obtain ⟨h, _⟩ := edges_le (decl_cases hsp) hno hl hd (by decide)
  simp only [Tree.edges.edgesAll] at h
  omega

end LogSurgeon
