import Verif.Proofs.RuleLines
import Verif.Props.RuleError
import Verif.Props.SchemaText
/-
C64, continued: from the text of the schema to the message.
-/
namespace LogSurgeon

/-- With or without the line numbers, the same is computed. -/
theorem parseLinesIn_erase {σ : Type} (E : SchemaEnv) (N kids : Nat) (rd : σ → Nat → σ × InBuf.ReadRes) (src : σ) :
    (E.parseLinesIn N kids rd src).map (fun x => (x.1, x.2.2)) = E.parseIn N kids rd src := by
  unfold SchemaEnv.parseLinesIn SchemaEnv.parseIn
  cases schemaLexer E.specials E.addr with
  | error e => rfl
  | ok L =>
    simp only
    generalize schemaGrammar (E.specials.map (·.2)) = g
    cases g.generate E.orders E.fuel with
    | error e => rfl
    | ok tb =>
      simp only
      unfold generateSchemaLines generateSchemaAst
      generalize schemaGrammar (E.specials.map (·.2)) = g
      generalize stopFrom L g tb _ _ rd _ _ src _ _ = res
      cases res with
      | error e => rfl
      | ok r =>
        cases r with
        | accepted t kids b =>
          simp only
          generalize schemaOfTree _ _ _ = v
          cases v <;> rfl
        | rejected s tok st b =>
          simp only
          generalize Tree.eval.evals _ _ _ _ = v
          cases v with
          | error e => rfl
          | ok _ =>
            simp only
            generalize reportError _ _ _ _ _ _ _ _ _ = r
            cases r <;> rfl

/-- The variables carry the numbers of the lines that declare them. -/
theorem parse_lines {σ : Type} {E : SchemaEnv} (hE : E.Ok) {kids kids' : Nat} {rd : σ → Nat → σ × InBuf.ReadRes} {src : σ} {w : List Nat}
    (hw : w.length < 24000) (hb : AllBytes w) (hrd : Delivers rd src 24000 w) {a : SchemaAST} (h : E.parse kids rd src = .ok (a, kids')) :
    E.parseLines kids rd src = .ok (a, declaredLines (lexemes w), kids') := by
  obtain ⟨L, m, toks, tree, p, hL, h1, hd, -, -, hline, hres⟩ := schema_run_in hE (N := 48000) (by decide) hw hb hrd h
  have hsc := hE.specials
  have hsp := perm_names hsc
  obtain ⟨t, ts', w1, w2, l1, l2, e1, e2, e3, -, u2, d2, hc⟩ := schema_lines (c := 0) (decl_cases hsp)
    (ruleOf := schemaRuleOf (E.specials.map (·.2)))
    (fun i d r hd hr => by
      unfold schemaRuleOf
      rw [hd]
      exact (semRule_iff hsp d r).mpr hr) hd [] rfl (same_units hsc hL h1)
  obtain ⟨rfl, rfl⟩ := derivation_nil d2
  cases u2
  simp only [List.cons.injEq] at e1
  obtain ⟨rfl, -⟩ := e1
  simp only [List.append_nil] at e2 e3
  subst e2
  have := hc (by
    intro i t ht
    rw [hline i t ht, ← e3, Nat.zero_add]
    rfl)
  unfold SchemaEnv.parseLines
  rw [hres, this, declaredLines_from, ← e3]
  rfl

/-- **C64**: whenever a schema text of less than 24000 bytes is parsed, the variables of the AST carry the numbers of the lines of the text that declare
them: the `i`-th number is that of the line with the declaration of the `i`-th variable. -/
theorem C64_lines {E : SchemaEnv} (hE : E.Ok) {kids kids' : Nat} {text : List Nat} (hw : text.length < 24000) (hb : AllBytes text) {a : SchemaAST}
    {lines : List Nat} (h : trySchemaStringLines E kids text = .ok (a, lines, kids') ∨ trySchemaFileLines E kids (some text) = .ok (a, lines, kids')) :
    ∃ s, WrittenFile 0 (lexemes text) s ∧ s.Builds a ∧
      List.Forall₂ (fun v (n : Nat) => ∃ x, (unitLines (lexemes text))[n]? = some x ∧ DeclaresVar x v) s.vars lines := by
  have key : ∀ {σ : Type} {rd : σ → Nat → σ × InBuf.ReadRes} {src : σ}, Delivers rd src 24000 text → E.parseLines kids rd src = .ok (a, lines, kids') →
      ∃ s, WrittenFile 0 (lexemes text) s ∧ s.Builds a ∧
        List.Forall₂ (fun v (n : Nat) => ∃ x, (unitLines (lexemes text))[n]? = some x ∧ DeclaresVar x v) s.vars lines := by
    intro σ rd src hrd h
    have h' : E.parse kids rd src = .ok (a, kids') := by
      unfold SchemaEnv.parse
      rw [← parseLinesIn_erase]
      unfold SchemaEnv.parseLines at h
      rw [h]
      rfl
    have hp := parse_lines hE hw hb hrd h'
    rw [h] at hp
    simp only [Except.ok.injEq, Prod.mk.injEq, true_and, and_true] at hp
    obtain ⟨s, h1, h2⟩ := schema_sound hE hw hb hrd h'
    exact ⟨s, h1, h2, hp ▸ written_lines h1⟩
  rcases h with h | h
  · exact key (string_delivers hw) h
  · exact key (file_delivers hw) h

theorem declared_lt {ls : List Lexeme} {n i : Nat} (h : (declaredLines ls)[i]? = some n) : n < (unitLines ls).length := by
  obtain ⟨x, h1, h2⟩ := List.mem_filterMap.mp (List.mem_of_getElem? h)
  split at h2
  · cases h2
    have := List.mem_zipIdx h1
    omega
  · cases h2

/-- **C64** (partial: short texts, and there is room for the text, as in C43): the schema text, given as a string or in a file, has a `delimiters` line
and says `s`; the `i`-th variable is the first one that mentions a delimiter.  Then the exception thrown when a parser is made from it gives the number of the line
of the text that declares this variable, its name and the least delimiter it mentions; no file name. -/
theorem C64_text_partial {E : SchemaEnv} (hE : E.Ok) (ho : E.orders.Ok (schemaGrammar (E.specials.map (·.2)))) {kids : Nat} {text : List Nat}
    (hw : text.length < 24000) (hb : AllBytes text) (hk : Fit kids (lexemes text)) {s : SchemaText} (hs : WrittenFile 0 (lexemes text) s)
    {a : SchemaAST} (ha : s.Builds a) (hne : s.delims ≠ []) {i : Nat} {name : String} {d : Nat} (h : s.FirstOffence i name d)
    {fs : List Nat → Option (List Nat)} (hfs : fs [] = none) :
    ∃ n k1 k2 lines line x p, s.vars[i]? = some (name, p) ∧ (declaredLines (lexemes text))[i]? = some line ∧
      (unitLines (lexemes text))[line]? = some x ∧ DeclaresVar x (name, p) ∧
      (∀ fuel steps, n ≤ fuel → n ≤ steps →
        trySchemaStringLines { E with fuel := fuel, steps := steps } kids text = .ok (a, lines, k1) ∧
        trySchemaFileLines { E with fuel := fuel, steps := steps } kids (some text) = .ok (a, lines, k2)) ∧
      ParserTables.addRulesM fs [] a lines = .error (.message (delimiterComplaint [] (line + 1) name d)) := by
  obtain ⟨n1, k1, c1⟩ := schema_complete hE ho hw hb (string_delivers hw) hk hs ha
  obtain ⟨n2, k2, c2⟩ := schema_complete hE ho hw hb (file_delivers hw) hk hs ha
  have hall := written_lines hs
  obtain ⟨p, hv, -, -⟩ := h.here
  have hi : i < (declaredLines (lexemes text)).length := by
    rw [← hall.length_eq]
    exact (List.getElem?_eq_some_iff.mp hv).1
  have hl := List.getElem?_eq_getElem hi
  obtain ⟨x, hx1, hx2⟩ : ∃ x, (unitLines (lexemes text))[(declaredLines (lexemes text))[i]]? = some x ∧ DeclaresVar x (name, p) := by
    have h1 := (List.getElem?_eq_some_iff.mp hv).1
    have := List.Forall₂.get hall (i := i) h1 hi
    have e : s.vars.get ⟨i, h1⟩ = (name, p) := (List.getElem?_eq_some_iff.mp hv).2
    rw [e] at this
    exact this
  have hlt : (declaredLines (lexemes text))[i] + 1 < 2 ^ 32 := by
    have h1 := declared_lt hl
    rw [unitLines_length, textOf_lexemes _ _ (Nat.le_refl _)] at h1
    have := List.count_le_length (a := 10) (l := text)
    omega
  have hE' : ∀ fuel steps, SchemaEnv.Ok { E with fuel := fuel, steps := steps } := fun _ _ => ⟨hE.specials, hE.addr⟩
  exact ⟨max n1 n2, k1, k2, declaredLines (lexemes text), _, x, p, hv, hl, hx1, hx2,
    fun fuel steps hf hst => ⟨parse_lines (hE' fuel steps) hw hb (string_delivers hw) (c1 fuel steps (by omega) (by omega)),
      parse_lines (hE' fuel steps) hw hb (file_delivers hw) (c2 fuel steps (by omega) (by omega))⟩,
    C64_no_file_name hs ha hne h hl hlt hfs⟩

/-- The example of Props/RuleError.lean, from its text: `:3: error: 'bc' has regex pattern which contains delimiter ' '.` -/
example (fs : List Nat → Option (List Nat)) (h : fs [] = none) :
    ∃ n k lines, (∀ fuel steps, n ≤ fuel → n ≤ steps →
        trySchemaStringLines { exEnv with fuel := fuel, steps := steps } 0 (asciiBytes "delimiters: ,\na:x\nbc:y[ ,]") = .ok (offendingAst, lines, k)) ∧
      ParserTables.addRulesM fs [] offendingAst lines = .error (.message (asciiBytes
        ":3: error: 'bc' has regex pattern which contains delimiter ' '.\n")) := by
  have hu : lexemes (asciiBytes "delimiters: ,\na:x\nbc:y[ ,]") = offendingUnits := by decide +kernel
  have hw := offending_written
  rw [← hu] at hw
  obtain ⟨n, k1, k2, lines, line, x, p, -, hl, -, -, hp, hm⟩ := C64_text_partial (E := exEnv) exEnv_ok exEnv_orders (kids := 0) (by decide +kernel)
    (by
      rw [show asciiBytes "delimiters: ,\na:x\nbc:y[ ,]" = [100, 101, 108, 105, 109, 105, 116, 101, 114, 115, 58, 32, 44, 10, 97, 58, 120, 10,
        98, 99, 58, 121, 91, 32, 44, 93] from by decide +kernel]
      simp [AllBytes, cSizeOfByte])
    (by rw [hu]; decide +kernel) hw offending_builds (by decide) offending_first h
  refine ⟨n, k1, lines, fun fuel steps h1 h2 => (hp fuel steps h1 h2).1, ?_⟩
  have hl : line = 2 := by
    rw [hu, show declaredLines offendingUnits = [1, 2] from by decide +kernel] at hl
    exact (Option.some.inj hl).symm
  subst hl
  rw [hm]
  have : delimiterComplaint [] (2 + 1) "bc" 32 = asciiBytes ":3: error: 'bc' has regex pattern which contains delimiter ' '.\n" := by decide +kernel
  rw [this]

end LogSurgeon
