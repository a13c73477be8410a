import Verif.Proofs.LalrFull
import Verif.Model.SchemaGrammar
/-
Checking the conditions on grammars by computation, and the grammar of schema files.
-/
namespace LogSurgeon

/-- A list of productions each of which uses terminals and heads of productions before it. -/
def productiveIn (T : List String) (ps : List (String × List String)) : List (String × List String) → List String → Bool
  | [], _ => true
  | d :: ds, acc => ps.contains d && d.2.all (fun x => T.contains x || acc.contains x) && productiveIn T ps ds (d.1 :: acc)

theorem productiveIn_spec {T : List String} {ps : List (String × List String)} : ∀ {cs : List (String × List String)} {acc : List String},
    productiveIn T ps cs acc = true → (∀ x ∈ acc, Productive T ps x) → ∀ d ∈ cs, Productive T ps d.1 := by
  intro cs
  induction cs with
  | nil => intro acc _ _ d hd; cases hd
  | cons d cs ih =>
    intro acc h hacc d' hd'
    simp only [productiveIn, Bool.and_eq_true, List.all_eq_true, Bool.or_eq_true, List.contains_iff_mem] at h
    obtain ⟨⟨h1, h2⟩, h3⟩ := h
    have hd : Productive T ps d.1 := by
      refine .prod (body := d.2) h1 fun x hx => ?_
      rcases h2 x hx with h | h
      · exact .term h
      · exact hacc x h
    rcases List.mem_cons.mp hd' with rfl | hd'
    · exact hd
    · refine ih h3 ?_ d' hd'
      intro x hx
      rcases List.mem_cons.mp hx with rfl | hx
      · exact hd
      · exact hacc x hx

theorem Productive.mono {T T' : List String} {ps ps' : List (String × List String)} (hT : ∀ x ∈ T, x ∈ T') (hps : ∀ d ∈ ps, d ∈ ps') {s : String}
    (h : Productive T ps s) : Productive T' ps' s := by
  induction h with
  | term h => exact .term (hT _ h)
  | prod h _ ih => exact .prod (hps _ h) ih

/-- Behind the start symbol only symbols of `L` can begin. -/
def behindIn (L : List String) (ps : List (String × List String)) (start : String) : Bool :=
  ps.all fun d =>
    (match d.2 with
      | a :: x :: _ => !(a == start) || L.contains x
      | _ => true) &&
    (!L.contains d.1 || match d.2 with
      | x :: _ => L.contains x
      | [] => false)

theorem behindIn_spec {L : List String} {ps : List (String × List String)} {start : String} (h : behindIn L ps start = true) {s : String}
    (hs : BehindStart ps start s) : s ∈ L := by
  simp only [behindIn, List.all_eq_true, Bool.and_eq_true] at h
  induction hs with
  | here hd => simpa using (h _ hd).1
  | left _ hd ih =>
    have := (h _ hd).2
    simp only [Bool.or_eq_true, Bool.not_eq_eq_eq_not, Bool.not_true, List.contains_iff_mem] at this
    rcases this with h | h
    · simp [ih] at h
    · exact h

theorem endsCleanly_of {L : List String} {ps : List (String × List String)} {start : String} (h : behindIn L ps start = true)
    (h1 : ∀ d ∈ ps, d.2 ≠ [start]) : EndsCleanly ps start := by
  refine ⟨h1, fun d hd he hb => ?_⟩
  have hm := behindIn_spec h hb
  simp only [behindIn, List.all_eq_true, Bool.and_eq_true] at h
  have := (h d hd).2
  rw [he] at this
  simp [hm] at this

namespace Grammar

theorem intern_size (g : Grammar) (n : String) : (g.intern n).1.symbolId.length ≤ g.symbolId.length + 1 := by
  unfold intern
  split
  · simp
  · simp

theorem internAll_size : ∀ {ns : List String} {g : Grammar}, (g.internAll ns).1.symbolId.length ≤ g.symbolId.length + ns.length := by
  intro ns
  induction ns with
  | nil => intro g; simp [internAll]
  | cons n ns ih =>
    intro g
    simp only [internAll, List.length_cons]
    have := ih (g := (g.intern n).1)
    have := intern_size g n
    omega

theorem addProd_size (g : Grammar) (hd : String) (bd : List String) :
    (g.addProd hd bd).symbolId.length ≤ g.symbolId.length + (1 + bd.length) := by
  unfold addProd
  simp only
  have h1 := intern_size g hd
  split
  · omega
  · have := internAll_size (ns := bd) (g := (g.intern hd).1)
    simp only
    omega

theorem addProduction_size (g : Grammar) (hd : String) (bd : List String) :
    (g.addProduction hd bd).symbolId.length ≤ g.symbolId.length + (3 + bd.length) := by
  unfold addProduction
  simp only
  have h1 := addProd_size g hd bd
  split
  · have := addProd_size (g.addProd hd bd) "$START_PRIME" [hd]
    simp only [List.length_singleton] at this ⊢
    omega
  · omega

theorem build_size {terms : List String} {all : List (String × List String)} :
    (build terms all).symbolId.length ≤ 8 + terms.length + (all.map fun d => 3 + d.2.length).sum := by
  have h1 : ∀ (ts : List String) (g : Grammar), (ts.foldl addTerminal g).symbolId.length ≤ g.symbolId.length + ts.length := by
    intro ts
    induction ts with
    | nil => intro g; simp
    | cons t ts ih =>
      intro g
      simp only [List.foldl_cons, List.length_cons]
      have := ih (g.addTerminal t)
      have h2 : (g.addTerminal t).symbolId.length ≤ g.symbolId.length + 1 := intern_size g t
      omega
  have h2 : ∀ (ds : List (String × List String)) (g : Grammar), (ds.foldl (fun g d => g.addProduction d.1 d.2) g).symbolId.length ≤
      g.symbolId.length + (ds.map fun d => 3 + d.2.length).sum := by
    intro ds
    induction ds with
    | nil => intro g; simp
    | cons d ds ih =>
      intro g
      simp only [List.foldl_cons, List.map_cons, List.sum_cons]
      have := ih (g.addProduction d.1 d.2)
      have := addProduction_size g d.1 d.2
      omega
  have := h2 all (terms.foldl addTerminal {})
  have h3 := h1 terms {}
  have h4 : ({} : Grammar).symbolId.length = 8 := rfl
  unfold build
  omega

end Grammar

/-! ### The grammar of schema files -/

theorem mem_schemaProductions {sp : List String} (hsp : sp.Perm schemaSpecials) (d : String × List String) :
    d ∈ schemaProductions sp ↔ d ∈ schemaProductions schemaSpecials := by
  unfold schemaProductions schemaDecls
  simp only [List.map_append, List.mem_append, List.mem_map, hsp.mem_iff]

theorem mem_schemaTerminals {sp : List String} (hsp : sp.Perm schemaSpecials) (s : String) :
    s ∈ schemaTerminals sp ↔ s ∈ schemaTerminals schemaSpecials := by
  unfold schemaTerminals
  simp only [List.mem_append, hsp.mem_iff]

set_option maxRecDepth 100000 in
theorem schema_checks :
    (∀ d ∈ schemaProductions schemaSpecials, d.1 ∉ reserved.map (·.1) ++ schemaTerminals schemaSpecials) ∧
    (∀ d ∈ schemaProductions schemaSpecials, "$end" ∉ d.2) ∧
    (∀ d ∈ schemaProductions schemaSpecials, d.1 ≠ "$START_PRIME" ∧ "$START_PRIME" ∉ d.2) ∧
    "$START_PRIME" ∉ schemaTerminals schemaSpecials ∧
    behindIn ["PortableNewLine", "CarriageReturn", "NewLine"] (schemaProductions schemaSpecials) "Schema" = true ∧
    (∀ d ∈ schemaProductions schemaSpecials, d.2 ≠ ["Schema"]) := by decide +kernel

/-- A derivation for each nonterminal. -/
def schemaCert : List (String × List String) :=
  [("Literal", ["Tilde"]), ("Integer", ["Numeric"]), ("Digit", ["Backslash", "d"]), ("Wildcard", ["Dot"]), ("WhiteSpace", ["Backslash", "s"]),
    ("LiteralRange", ["Literal", "Dash", "Literal"]), ("IncompleteGroup", ["Lbracket", "Hat"]), ("CompleteGroup", ["Literal"]),
    ("MatchRange", ["CompleteGroup", "Lbrace", "Integer", "Comma", "Integer", "Rbrace"]),
    ("MatchExact", ["CompleteGroup", "Lbrace", "Integer", "Rbrace"]), ("MatchPlus", ["CompleteGroup", "Plus"]),
    ("MatchStar", ["CompleteGroup", "Star"]), ("Or", ["CompleteGroup"]), ("Concat", ["Or"]), ("Regex", ["Concat"]), ("WhitespaceStar", []),
    ("Identifier", ["AlphaNumeric"]), ("SchemaVar", ["WhitespaceStar", "Identifier", "Colon", "Regex"]), ("Text", ["Delimiters"]),
    ("Comment", ["ForwardSlash", "ForwardSlash", "Text"]), ("PortableNewLine", ["NewLine"]), ("DelimiterString", ["Literal"]),
    ("Schema", ["Comment"])]

set_option maxRecDepth 100000 in
theorem schema_productive :
    productiveIn (reserved.map (·.1) ++ schemaTerminals schemaSpecials) (schemaProductions schemaSpecials) schemaCert [] = true ∧
    (∀ d ∈ schemaProductions schemaSpecials, ∀ s ∈ d.2,
      s ∈ reserved.map (·.1) ++ schemaTerminals schemaSpecials ∨ s ∈ schemaCert.map (·.1)) := by decide +kernel

/-- The grammar of schema files meets the conditions, in whatever order the special characters come. -/
theorem schema_conditions {sp : List String} (hsp : sp.Perm schemaSpecials) :
    (∀ d ∈ schemaProductions sp, d.1 ≠ "$START_PRIME" ∧ "$START_PRIME" ∉ d.2) ∧ "$START_PRIME" ∉ schemaTerminals sp ∧
    (∀ d ∈ schemaProductions sp, d.1 ∉ reserved.map (·.1) ++ schemaTerminals sp) ∧ (∀ d ∈ schemaProductions sp, "$end" ∉ d.2) ∧
    (∀ d ∈ schemaProductions sp, ∀ s ∈ d.2, Productive (reserved.map (·.1) ++ schemaTerminals sp) (schemaProductions sp) s) ∧
    EndsCleanly (schemaProductions sp) "Schema" ∧ (schemaGrammar sp).symbolId.length ≤ cNullSymbol := by
  obtain ⟨c1, c2, c3, c4, c5, c6⟩ := schema_checks
  have hm := mem_schemaProductions hsp
  have ht : ∀ s, s ∈ reserved.map (·.1) ++ schemaTerminals sp ↔ s ∈ reserved.map (·.1) ++ schemaTerminals schemaSpecials := by
    intro s
    rw [List.mem_append, List.mem_append, mem_schemaTerminals hsp]
  refine ⟨fun d hd => c3 d ((hm d).mp hd), fun h => c4 ((mem_schemaTerminals hsp _).mp h), fun d hd h => c1 d ((hm d).mp hd) ((ht _).mp h),
    fun d hd => c2 d ((hm d).mp hd), fun d hd s hs => ?_, ?_, ?_⟩
  · refine Productive.mono (fun x hx => (ht x).mpr hx) (fun d hd => (hm d).mpr hd) ?_
    rcases schema_productive.2 d ((hm d).mp hd) s hs with h | h
    · exact .term h
    · obtain ⟨d', hd', rfl⟩ := List.mem_map.mp h
      exact productiveIn_spec schema_productive.1 (by simp) d' hd'
  · refine endsCleanly_of (L := ["PortableNewLine", "CarriageReturn", "NewLine"]) ?_ (fun d hd => c6 d ((hm d).mp hd))
    rw [behindIn, List.all_eq_true] at c5 ⊢
    exact fun d hd => c5 d ((hm d).mp hd)
  · have h1 := Grammar.build_size (terms := schemaTerminals sp) (all := schemaProductions sp)
    have h2 : (schemaTerminals sp).length = (schemaTerminals schemaSpecials).length := by
      unfold schemaTerminals; simp only [List.length_append, hsp.length_eq]
    have h3 : ((schemaProductions sp).map fun d => 3 + d.2.length).sum = ((schemaProductions schemaSpecials).map fun d => 3 + d.2.length).sum := by
      unfold schemaProductions schemaDecls
      simp only [List.map_append, List.sum_append, List.map_map, Function.comp_def, List.length_cons, List.length_nil]
      simp only [List.map_const', hsp.length_eq]
    have h4 : (schemaTerminals schemaSpecials).length ≤ 1000 := by decide +kernel
    have h5 : ((schemaProductions schemaSpecials).map fun d => 3 + d.2.length).sum ≤ 1000 := by decide +kernel
    unfold schemaGrammar cNullSymbol
    omega

end LogSurgeon
