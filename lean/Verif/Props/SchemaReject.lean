import Verif.Proofs.SchemaOutcome
import Verif.Props.SchemaText
/-
C43: texts that are no schema files.
-/
namespace LogSurgeon
open Grammar

/-! ### Refused -/

/-- What the parser does with a text of which no AST is made. -/
theorem refused {σ : Type} {E : SchemaEnv} (hE : E.Ok) (ho : E.orders.Ok (schemaGrammar (E.specials.map (·.2)))) {kids : Nat}
    {rd : σ → Nat → σ × InBuf.ReadRes} {src : σ} {w : List Nat} (hw : w.length < 24000) (hb : AllBytes w) (hrd : Delivers rd src 24000 w)
    (hk : Fit kids (lexemes w)) (hno : ¬ ∃ s a, WrittenFile 0 (lexemes w) s ∧ s.Builds a) :
    ∃ n e, (e = .throws ∨ (e = .ub ∧ Faulty (lexemes w))) ∧ ∀ fuel steps, n ≤ fuel → n ≤ steps →
      ({ E with fuel := fuel, steps := steps } : SchemaEnv).parse kids rd src = .error e := by
  obtain ⟨n, res, hres, h⟩ := schema_outcome hE ho hw hb hrd hk
  rcases h with ⟨-, e, rfl, h⟩ | ⟨-, m, toks, hsame, ⟨tree, hd⟩, hall⟩
  · exact ⟨n, _, h, hres⟩
  · obtain ⟨kids', he⟩ := hall tree hd
    cases hs : schemaOfTree (E.specials.map (·.2)) (tokenText m) tree with
    | ok a =>
      exfalso
      rw [hs] at he
      simp only at he
      rw [he] at hres
      obtain ⟨s, h1, h2⟩ := schema_sound (E := { E with fuel := n, steps := n }) ⟨hE.specials, hE.addr⟩ hw hb hrd (hres n n (Nat.le_refl _) (Nat.le_refl _))
      exact hno ⟨s, a, h1, h2⟩
    | error e =>
      rw [hs] at he
      simp only at he
      rw [he] at hres
      refine ⟨n, e, ?_, hres⟩
      rcases schemaOfTree_tame _ _ _ e hs with rfl | rfl
      · exact .inl rfl
      · exact .inr ⟨rfl, schema_value (perm_names hE.specials) hsame hd hs⟩

/-- C43 (partial: short texts): if the text is no schema file, `try_schema_string` throws, unless the text contains one of the three things the parser is
not prepared for (`Faulty`).  It never hangs. -/
theorem C43_rejected_string_partial {E : SchemaEnv} (hE : E.Ok) (ho : E.orders.Ok (schemaGrammar (E.specials.map (·.2)))) {kids : Nat} {text : List Nat}
    (hw : text.length < 24000) (hb : AllBytes text) (hk : Fit kids (lexemes text))
    (hno : ¬ ∃ s a, WrittenFile 0 (lexemes text) s ∧ s.Builds a) :
    ∃ n e, (e = .throws ∨ (e = .ub ∧ Faulty (lexemes text))) ∧ ∀ fuel steps, n ≤ fuel → n ≤ steps →
      trySchemaString { E with fuel := fuel, steps := steps } kids text = .error e :=
  refused hE ho hw hb (string_delivers hw) hk hno

/-- C43 (partial: short texts): the same for files. -/
theorem C43_rejected_file_partial {E : SchemaEnv} (hE : E.Ok) (ho : E.orders.Ok (schemaGrammar (E.specials.map (·.2)))) {kids : Nat} {text : List Nat}
    (hw : text.length < 24000) (hb : AllBytes text) (hk : Fit kids (lexemes text))
    (hno : ¬ ∃ s a, WrittenFile 0 (lexemes text) s ∧ s.Builds a) :
    ∃ n e, (e = .throws ∨ (e = .ub ∧ Faulty (lexemes text))) ∧ ∀ fuel steps, n ≤ fuel → n ≤ steps →
      trySchemaFile { E with fuel := fuel, steps := steps } kids (some text) = .error e :=
  refused hE ho hw hb (file_delivers hw) hk hno

/-- C43 (partial: short texts): what is not derivable from the productions throws, unless the text contains one of the three things. -/
theorem C43_syntax_error_partial {E : SchemaEnv} (hE : E.Ok) (ho : E.orders.Ok (schemaGrammar (E.specials.map (·.2)))) {kids : Nat} {text : List Nat}
    (hw : text.length < 24000) (hb : AllBytes text) (hk : Fit kids (lexemes text))
    (hno : ¬ Derives (schemaProductions schemaSpecials) (fun l s => Stands s l) ["Schema"] (lexemes text)) :
    ∃ n e, (e = .throws ∨ (e = .ub ∧ Faulty (lexemes text))) ∧ ∀ fuel steps, n ≤ fuel → n ≤ steps →
      trySchemaString { E with fuel := fuel, steps := steps } kids text = .error e := by
  obtain ⟨n, res, hres, h⟩ := schema_outcome hE ho hw hb (string_delivers hw) hk
  rcases h with ⟨-, e, rfl, h⟩ | ⟨h, -⟩
  · exact ⟨n, e, h, hres⟩
  · exact absurd h hno

/-- What the parser is not prepared for contains a dash, a brace, a comma or a parenthesis. -/
theorem Faulty.chars {ls : List Lexeme} (h : Faulty ls) : .char 45 ∈ ls ∨ .char 123 ∈ ls ∨ .char 44 ∈ ls ∨ .char 40 ∈ ls := by
  cases h with
  | range h _ _ _ => rw [h]; simp [LogSurgeon.chars]
  | count h hc _ _ => rw [h]; rcases hc with rfl | rfl <;> simp [LogSurgeon.chars]
  | delims _ h hw hp =>
    rw [h]
    cases hw with
    | char h => exact absurd rfl (hp _)
    | parens _ => simp [LogSurgeon.chars]
    | capture _ _ => simp [LogSurgeon.chars]

/-- What makes the parser throw contains an opening bracket or a dash. -/
theorem Unsuitable.chars {ls : List Lexeme} (h : Unsuitable ls) : .char 91 ∈ ls ∨ .char 45 ∈ ls := by
  cases h with
  | item h _ _ _ => exact .inl h
  | space h _ => exact .inl h
  | @rangeEnd pre w post k p h _ _ h4 =>
    right
    rw [h]
    rcases h4 with h4 | h4
    · have := List.mem_of_getLast? h4
      simp [this]
    · have := List.mem_of_head? h4
      simp [this]

/-- Symbols that need a slash or a colon. -/
def needsMark (s : String) : Nat := if s ∈ ["Schema", "SchemaVar", "Comment", "Colon", "ForwardSlash"] then 1 else 0

theorem needsMark_prods : ∀ d ∈ schemaProductions schemaSpecials, needsMark d.1 ≤ (d.2.map needsMark).sum := by decide +kernel

theorem needsMark_toks : ∀ x ∈ charToks, needsMark x.1 ≠ 0 → x.2 = [(58, 58)] ∨ x.2 = [(47, 47)] := by decide +kernel

/-- C43 (partial: short texts): a text without any of the characters `/ : - { , (` is refused with an exception. -/
theorem C43_no_mark_partial {E : SchemaEnv} (hE : E.Ok) (ho : E.orders.Ok (schemaGrammar (E.specials.map (·.2)))) {kids : Nat} {text : List Nat}
    (hw : text.length < 24000) (hb : AllBytes text) (hk : Fit kids (lexemes text))
    (hm : ∀ c ∈ [58, 47, 45, 123, 44, 40], .char c ∉ lexemes text) :
    ∃ n, ∀ fuel steps, n ≤ fuel → n ≤ steps → trySchemaString { E with fuel := fuel, steps := steps } kids text = .error .throws := by
  have h1 : Lexeme.char 58 ∉ lexemes text := hm 58 (by simp)
  have h2 : Lexeme.char 47 ∉ lexemes text := hm 47 (by simp)
  suffices hno : ¬ Derives (schemaProductions schemaSpecials) (fun l s => Stands s l) ["Schema"] (lexemes text) by
    obtain ⟨n, e, h, hn⟩ := C43_syntax_error_partial hE ho hw hb hk hno
    rcases h with rfl | ⟨-, h⟩
    · exact ⟨n, hn⟩
    · rcases h.chars with h | h | h | h
      · exact absurd h (hm 45 (by simp))
      · exact absurd h (hm 123 (by simp))
      · exact absurd h (hm 44 (by simp))
      · exact absurd h (hm 40 (by simp))
  intro hd
  have := derives_potential needsMark_prods hd (fun l hl s hs => ?_)
  · simp [needsMark] at this
  · apply Classical.byContradiction
    intro hne
    cases l with
    | delimiters =>
      have hs : s = "Delimiters" := hs
      rw [hs] at hne
      exact hne (by decide)
    | char c =>
      obtain ⟨x, hx, rfl, r, hr, g1, g2⟩ := hs
      rcases needsMark_toks x hx hne with h | h <;> rw [h, List.mem_singleton] at hr <;> subst hr
      · have : c = 58 := Nat.le_antisymm g2 g1
        subst this; exact h1 hl
      · have : c = 47 := Nat.le_antisymm g2 g1
        subst this; exact h2 hl

/-- The hypotheses are met by the text `abc`. -/
example : ([97, 98, 99] : List Nat).length < 24000 ∧ AllBytes [97, 98, 99] ∧ 0 + 5 * (lexemes [97, 98, 99]).length ≤ 10000 ∧
    ∀ c ∈ [58, 47, 45, 123, 44, 40], Lexeme.char c ∉ lexemes [97, 98, 99] := by
  refine ⟨by decide, ?_, by decide, by decide⟩
  have : ∀ c ∈ [97, 98, 99], c < 256 := by decide
  exact this

/-- What the parser does with a text that is derivable from the productions and contains nothing faulty and nothing unsuitable. -/
theorem accepted {σ : Type} {E : SchemaEnv} (hE : E.Ok) (ho : E.orders.Ok (schemaGrammar (E.specials.map (·.2)))) {kids : Nat}
    {rd : σ → Nat → σ × InBuf.ReadRes} {src : σ} {w : List Nat} (hw : w.length < 24000) (hb : AllBytes w) (hrd : Delivers rd src 24000 w)
    (hk : Fit kids (lexemes w)) (hsyn : SchemaSyntax (lexemes w)) (hf : ¬ Faulty (lexemes w)) (hu : ¬ Unsuitable (lexemes w)) :
    ∃ n s a kids', WrittenFile 0 (lexemes w) s ∧ s.Builds a ∧ ∀ fuel steps, n ≤ fuel → n ≤ steps →
      ({ E with fuel := fuel, steps := steps } : SchemaEnv).parse kids rd src = .ok (a, kids') := by
  obtain ⟨n, res, hres, h⟩ := schema_outcome hE ho hw hb hrd hk
  rcases h with ⟨h, -⟩ | ⟨-, m, toks, hsame, ⟨tree, hd⟩, hall⟩
  · exact absurd hsyn h
  · obtain ⟨kids', he⟩ := hall tree hd
    cases hs : schemaOfTree (E.specials.map (·.2)) (tokenText m) tree with
    | ok a =>
      rw [hs] at he
      simp only at he
      rw [he] at hres
      obtain ⟨s, h1, h2⟩ := schema_sound (E := { E with fuel := n, steps := n }) ⟨hE.specials, hE.addr⟩ hw hb hrd (hres n n (Nat.le_refl _) (Nat.le_refl _))
      exact ⟨n, s, a, kids', h1, h2, hres⟩
    | error e =>
      rcases schemaOfTree_tame _ _ _ e hs with rfl | rfl
      · exact absurd (schema_throws (perm_names hE.specials) hsame hd hs) hu
      · exact absurd (schema_value (perm_names hE.specials) hsame hd hs) hf

/-- C43 (partial: short texts): a text that is derivable from the productions of the parser is parsed, unless it contains one of the things the parser is
not prepared for (`Faulty`), or one of those it refuses with an exception (`Unsuitable`). -/
theorem C43_syntax_partial {E : SchemaEnv} (hE : E.Ok) (ho : E.orders.Ok (schemaGrammar (E.specials.map (·.2)))) {kids : Nat} {text : List Nat}
    (hw : text.length < 24000) (hb : AllBytes text) (hk : Fit kids (lexemes text))
    (hsyn : Derives (schemaProductions schemaSpecials) (fun l s => Stands s l) ["Schema"] (lexemes text))
    (hf : ¬ Faulty (lexemes text)) (hu : ¬ Unsuitable (lexemes text)) :
    ∃ n s a kids', WrittenFile 0 (lexemes text) s ∧ s.Builds a ∧ ∀ fuel steps, n ≤ fuel → n ≤ steps →
      trySchemaString { E with fuel := fuel, steps := steps } kids text = .ok (a, kids') :=
  accepted hE ho hw hb (string_delivers hw) hk hsyn hf hu

/-! ### Texts the parser is not prepared for -/

theorem fails {σ : Type} {E : SchemaEnv} (hE : E.Ok) (ho : E.orders.Ok (schemaGrammar (E.specials.map (·.2)))) {kids : Nat}
    {rd : σ → Nat → σ × InBuf.ReadRes} {src : σ} {w : List Nat} (hw : w.length < 24000) (hb : AllBytes w) (hrd : Delivers rd src 24000 w)
    (hk : Fit kids (lexemes w)) {e : Fail} (hf : FailL ["Schema"] 0 (lexemes w) e) :
    ∃ n, ∀ fuel steps, n ≤ fuel → n ≤ steps → ({ E with fuel := fuel, steps := steps } : SchemaEnv).parse kids rd src = .error e := by
  obtain ⟨n, res, hres, h⟩ := schema_outcome hE ho hw hb hrd hk
  have hsp := perm_names hE.specials
  have hr : ∀ d r, (d, r) ∈ D0 → ∃ i : Nat, (schemaGrammar (E.specials.map (·.2))).decls[i]? = some d ∧ schemaRuleOf (E.specials.map (·.2)) i = some r :=
    fun d r hm => ruleOf_has hsp d r hm
  rcases h with ⟨hno, -⟩ | ⟨-, m, toks, hsame, -, hall⟩
  · exfalso
    refine hno ?_
    exact derives_of_fail hf
  · obtain ⟨ts, hd, hev⟩ := tree_of_fail hr hf hsame
    obtain ⟨tree, rfl⟩ : ∃ t, ts = [t] := by
      cases hd with
      | tok _ h => cases h; exact ⟨_, rfl⟩
      | prod _ _ h => cases h; exact ⟨_, rfl⟩
    obtain ⟨kids', he⟩ := hall tree hd
    have hs : schemaOfTree (E.specials.map (·.2)) (tokenText m) tree = .error e := by
      unfold schemaOfTree
      simp only [Tree.eval.evals] at hev
      cases ht : tree.eval (schemaRuleOf (E.specials.map (·.2))) (tokenText m) 0 with
      | error e' =>
        rw [ht] at hev
        simp only [Except.error.injEq] at hev
        rw [hev]
      | ok x => rw [ht] at hev; simp at hev
    rw [hs] at he
    rw [he] at hres
    exact ⟨n, hres⟩

/-- C43: the text `delimiters:(p)`, where `p` is no single character, is in the grammar, but the parser dereferences a null pointer: a claim that
every text is either parsed or refused with an exception is false. -/
theorem C43_paren_delimiters_refuted {E : SchemaEnv} (hE : E.Ok) (ho : E.orders.Ok (schemaGrammar (E.specials.map (·.2)))) {kids : Nat} {text w : List Nat}
    (hw : text.length < 24000) (hb : AllBytes text) (hk : Fit kids (lexemes text))
    (ht : lexemes text = .delimiters :: chars (58 :: w)) {p : Pat} (hp : Written .literal 11 w p) {r : Regex} (hr : p.elab = some r)
    (hr' : ∀ t c, r ≠ .literal t c) :
    ∃ n, ∀ fuel steps, n ≤ fuel → n ≤ steps → trySchemaString { E with fuel := fuel, steps := steps } kids text = .error .ub := by
  refine fails hE ho hw hb (string_delivers hw) hk ?_
  rw [ht]
  have h8 : ((("DelimiterString", ["Literal"]), SemRule.newDelimiterString) : (String × List String) × SemRule) ∈ D0 := List.mem_of_getElem? (i := 8) rfl
  have h2 : ((("Schema", ["Delimiters", "Colon", "DelimiterString"]), SemRule.newSchemaWithDelimiters) : (String × List String) × SemRule) ∈ D0 :=
    List.mem_of_getElem? (i := 2) rfl
  have hl : DerL ["Literal"] 11 (chars w) [.val (.regex r)] := der_pattern hp r hr
  have ha : SemRule.newDelimiterString.apply 11 [.val (.regex r)] = .error .ub := by
    cases r <;> first | rfl | exact absurd rfl (hr' _ _)
  have f1 : FailL ["DelimiterString"] 11 (chars w ++ []) .ub := .here h8 hl ha .nil
  have f2 : FailL ["Colon", "DelimiterString"] 10 ([.char 58] ++ (chars w ++ [])) .ub := .after (.ch is_Colon .nil) f1
  have f3 : FailL ["Delimiters", "Colon", "DelimiterString"] 0 ([.delimiters] ++ ([.char 58] ++ (chars w ++ []))) .ub :=
    .after (.tok stands_keyword .nil) f2
  have f4 := FailL.inside (ss := []) h2 f3 .nil
  simpa using f4

/-- The hypotheses are met by `delimiters:(ab)`. -/
example : lexemes (delimitersWord ++ [58, 40, 97, 98, 41]) = .delimiters :: chars (58 :: [40, 97, 98, 41]) ∧
    Written .literal 11 [40, 97, 98, 41] (.cat (.lit 97) (.lit 98)) ∧
    ∃ r, (Pat.cat (.lit 97) (.lit 98)).elab = some r ∧ ∀ t c, r ≠ .literal t c := by
  refine ⟨by decide, ?_, _, rfl, fun t c h => by cases h⟩
  have pl : ∀ {k c}, c ∈ [97, 98] → Written .literal k [c] (.lit c) := by
    intro k c h
    refine .char (.plain ?_)
    simp only [List.mem_cons, List.not_mem_nil, or_false] at h
    rcases h with rfl | rfl <;> simp [Plain, AlphaNum]
  exact .parens (.cat (.ofChoice (.ofSingle (.ofLiteral (pl (by simp))))) (.ofSingle (.ofLiteral (pl (by simp)))))

/-- C43: a range `[a-b]` whose end is not above its beginning violates an assertion of the parser, also when beginning and end are the same
character. -/
theorem C43_reversed_range_refuted {E : SchemaEnv} (hE : E.Ok) (ho : E.orders.Ok (schemaGrammar (E.specials.map (·.2)))) {kids : Nat} {name u v : List Nat}
    {a b : Nat} (hn : IsName name) (hu : Written .literal (name.length + 2) u (.lit a)) (hv : Written .literal (name.length + u.length + 3) v (.lit b)) (hab : b ≤ a)
    (hkey : lexemes (name ++ 58 :: 91 :: u ++ 45 :: v ++ [93]) = chars (name ++ 58 :: 91 :: u ++ 45 :: v ++ [93]))
    (hb : AllBytes (name ++ 58 :: 91 :: u ++ 45 :: v ++ [93])) (hk : kids + 5 * (name.length + u.length + v.length + 4) ≤ 10000) :
    ∃ n, ∀ fuel steps, n ≤ fuel → n ≤ steps →
      trySchemaString { E with fuel := fuel, steps := steps } kids (name ++ 58 :: 91 :: u ++ 45 :: v ++ [93]) = .error .ub := by
  have hlen : (lexemes (name ++ 58 :: 91 :: u ++ 45 :: v ++ [93])).length = name.length + u.length + v.length + 4 := by
    rw [hkey]; simp [chars]; omega
  have hw : (name ++ 58 :: 91 :: u ++ 45 :: v ++ [93]).length < 24000 := by simp; omega
  have hnl : Lexeme.char 10 ∉ lexemes (name ++ 58 :: 91 :: u ++ 45 :: v ++ [93]) := by
    rw [hkey]
    intro h
    obtain ⟨c, hc, e⟩ := List.mem_map.mp h
    cases e
    have h1 : 10 ∉ name := by
      intro h
      have := hn.2 _ h
      unfold AlphaNum at this
      omega
    have h2 := written_line hu
    have h3 := written_line hv
    simp [h1, h2, h3] at hc
  refine fails hE ho hw hb (string_delivers hw) ((fit_one hnl).1.mpr (by omega)) ?_
  rw [hkey]
  have d48 : ((("LiteralRange", ["Literal", "Dash", "Literal"]), SemRule.literalRange) : (String × List String) × SemRule) ∈ D0 := List.mem_of_getElem? (i := 48) rfl
  have d43 : ((("IncompleteGroup", ["Lbracket", "LiteralRange"]), SemRule.addRangeNew) : (String × List String) × SemRule) ∈ D0 := List.mem_of_getElem? (i := 43) rfl
  have d34 : ((("CompleteGroup", ["IncompleteGroup", "Rbracket"]), SemRule.identity) : (String × List String) × SemRule) ∈ D0 := List.mem_of_getElem? (i := 34) rfl
  have d29 : ((("Or", ["CompleteGroup"]), SemRule.identity) : (String × List String) × SemRule) ∈ D0 := List.mem_of_getElem? (i := 29) rfl
  have d23 : ((("Concat", ["Or"]), SemRule.identity) : (String × List String) × SemRule) ∈ D0 := List.mem_of_getElem? (i := 23) rfl
  have d21 : ((("Regex", ["Concat"]), SemRule.identity) : (String × List String) × SemRule) ∈ D0 := List.mem_of_getElem? (i := 21) rfl
  have d16 : ((("SchemaVar", ["WhitespaceStar", "Identifier", "Colon", "Regex"]), SemRule.schemaVar) : (String × List String) × SemRule) ∈ D0 :=
    List.mem_of_getElem? (i := 16) rfl
  have d1 : ((("Schema", ["SchemaVar"]), SemRule.newSchemaWithVar) : (String × List String) × SemRule) ∈ D0 := List.mem_of_getElem? (i := 1) rfl
  have l1 : DerL ["Literal"] (name.length + 2) (chars u) [.val (.regex (.literal [] a))] := der_pattern hu _ rfl
  have l2 : DerL ["Literal"] (name.length + 2 + (textOf (chars u)).length + 1) (chars v) [.val (.regex (.literal [] b))] :=
    (DerL.shift (der_pattern hv _ rfl) (by simp; omega))
  have l3 : DerL ["Literal", "Dash", "Literal"] (name.length + 2) (chars u ++ .char 45 :: chars v) _ := l1.cons (.ch is_Dash l2)
  have ha : SemRule.literalRange.apply (name.length + 2) [.val (.regex (.literal [] a)), .tok [45], .val (.regex (.literal [] b))] = .error .ub := by
    have : ¬ a < b := by omega
    show (if a < b then _ else _) = _
    rw [if_neg this]
  have rb : Derives (D0.map (·.1)) (fun l s => Stands s l) ["Rbracket"] [.char 93] := .tok (isTok := fun l s => Stands s l) is_Rbracket .nil
  have f1 : FailL ["LiteralRange"] (name.length + 2) _ .ub := .here d48 l3 ha .nil
  have f2 : FailL ["Lbracket", "LiteralRange"] (name.length + 1) ([.char 91] ++ _) .ub := .after (.ch is_Lbracket .nil) f1
  have f3 := FailL.inside d21 (.inside d23 (.inside d29 (.inside d34 (.inside d43 f2 rb) .nil) .nil) .nil) .nil
  have f4 : FailL ["Colon", "Regex"] name.length ([.char 58] ++ _) .ub := .after (.ch is_Colon .nil) f3
  have f5 : FailL ["Identifier", "Colon", "Regex"] 0 (chars name ++ _) .ub := .after (der_name hn _) (by simpa using f4)
  have f6 : FailL ["WhitespaceStar", "Identifier", "Colon", "Regex"] 0 (chars (List.replicate 0 32) ++ _) .ub := .after (der_spaces 0 0) f5
  have f7 := FailL.inside (ss := []) d1 (.inside d16 f6 .nil) .nil
  simpa using f7

/-- The hypotheses are met by `v:[b-a]`. -/
example : IsName [118] ∧ Written .literal 3 [98] (.lit 98) ∧ Written .literal 5 [97] (.lit 97) ∧ 97 ≤ 98 ∧
    lexemes [118, 58, 91, 98, 45, 97, 93] = chars [118, 58, 91, 98, 45, 97, 93] := by
  refine ⟨⟨by simp, by simp [AlphaNum]⟩, .char (.plain (.inl (.inl ?_))), .char (.plain (.inl (.inl ?_))), by decide, by decide⟩ <;> decide

/-- The hypotheses of the rejection theorems are met by `abc`. -/
example : ¬ ∃ s a, WrittenFile 0 (lexemes [97, 98, 99]) s ∧ s.Builds a := by
  rintro ⟨s, a, h1, h2⟩
  have hb : AllBytes [97, 98, 99] := by
    have : ∀ c ∈ [97, 98, 99], c < 256 := by decide
    exact this
  obtain ⟨n1, k1, e1⟩ := schema_complete exEnv_ok exEnv_orders (by decide) hb (string_delivers (by decide)) (kids := 0) (by decide) h1 h2
  obtain ⟨n2, e2⟩ := C43_no_mark_partial exEnv_ok exEnv_orders (kids := 0) (text := [97, 98, 99]) (by decide) hb (by decide) (by decide)
  have e := (e1 (n1 + n2) (n1 + n2) (by omega) (by omega)).symm.trans (e2 (n1 + n2) (n1 + n2) (by omega) (by omega))
  cases e

end LogSurgeon
