import Verif.Proofs.ExampleSchema
import Verif.Props.EndToEnd
/-
The file examples/schema.txt is an instance of the theorems about schema files (Proofs/ExampleSchema.lean has the derivation that it is one).
-/
namespace LogSurgeon.ExampleSchema

theorem file_bytes : AllBytes file := by
  have : ∀ c ∈ file, c < 256 := by decide +kernel
  exact this

/-- The conditions of C43 are met: there is room for the file, although it has more than 2000 units. -/
theorem file_fits : file.length < 24000 ∧ Fit 0 (lexemes file) ∧ 10000 < 5 * (lexemes file).length := by
  refine ⟨by decide +kernel, by decide +kernel, by decide +kernel⟩

instance decItem (c : Nat) : ∀ i : ClassItem, Decidable (i.Has c)
  | .lit _ | .range _ _ | .digit | .space => by unfold ClassItem.Has; infer_instance

instance decSensible : ∀ p : Pat, Decidable p.Sensible
  | .cls negate items => inferInstanceAs (Decidable (negate = true → items ≠ []))
  | .cat l r | .or l r =>
    have := decSensible l
    have := decSensible r
    inferInstanceAs (Decidable (_ ∧ _))
  | .star p | .plus p | .capture p _ => decSensible p
  | .exact p n =>
    have := decSensible p
    inferInstanceAs (Decidable (((∀ d ∈ n, d ≤ 9) ∧ n.length ≤ 10 ∧ decimal n < 2 ^ 32) ∧ 1 ≤ decimal n ∧ p.Sensible))
  | .range p n m =>
    have := decSensible p
    inferInstanceAs (Decidable (((∀ d ∈ n, d ≤ 9) ∧ n.length ≤ 10 ∧ decimal n < 2 ^ 32) ∧ ((∀ d ∈ m, d ≤ 9) ∧ m.length ≤ 10 ∧ decimal m < 2 ^ 32) ∧
      decimal n ≤ decimal m ∧ 1 ≤ decimal m ∧ p.Sensible))
  | .lit _ | .digit | .wild | .space => inferInstanceAs (Decidable True)

instance decUsable : ∀ p : Pat, Decidable p.ClassesUsable
  | .cls negate items =>
    have : DecidablePred fun i : ClassItem => (match i with | .range lo hi => lo < hi | .space => False | _ => True : Prop) := fun i => by
      cases i <;> infer_instance
    inferInstanceAs (Decidable (∀ i ∈ items, (match i with | .range lo hi => lo < hi | .space => False | _ => True : Prop)))
  | .cat l r | .or l r =>
    have := decUsable l
    have := decUsable r
    inferInstanceAs (Decidable (_ ∧ _))
  | .star p | .plus p | .capture p _ | .exact p _ | .range p _ _ => decUsable p
  | .lit _ | .digit | .wild | .space => inferInstanceAs (Decidable True)

instance decOpen : ∀ p : Pat, Decidable p.EndsOpen
  | .cat _ r => decOpen r
  | .or l r =>
    have := decOpen l
    have := decOpen r
    inferInstanceAs (Decidable (_ ∨ _))
  | .star _ | .plus _ => inferInstanceAs (Decidable True)
  | .exact p _ | .range p _ _ => decOpen p
  | .lit _ | .digit | .wild | .space | .cls _ _ | .capture _ _ => inferInstanceAs (Decidable False)

instance decChoice : ∀ p : Pat, Decidable p.NoOpenChoice
  | .cat l r =>
    have := decChoice l
    have := decChoice r
    inferInstanceAs (Decidable (_ ∧ _))
  | .or l r =>
    have := decChoice l
    have := decChoice r
    inferInstanceAs (Decidable (¬ l.EndsOpen ∧ ¬ r.EndsOpen ∧ l.NoOpenChoice ∧ r.NoOpenChoice))
  | .star p | .plus p | .capture p _ | .exact p _ | .range p _ _ => decChoice p
  | .lit _ | .digit | .wild | .space | .cls _ _ => inferInstanceAs (Decidable True)

instance decMentions (dot : Bool) (c : Nat) : ∀ p : Pat, Decidable (p.Mentions dot c)
  | .lit a => inferInstanceAs (Decidable (c = a))
  | .cls negate items => inferInstanceAs (Decidable (if negate then c ≤ cUnicodeMax ∧ ∀ i ∈ items, ¬ i.Has c else ∃ i ∈ items, i.Has c))
  | .digit => inferInstanceAs (Decidable (48 ≤ c ∧ c ≤ 57))
  | .wild => inferInstanceAs (Decidable (dot = true ∧ c ≤ cUnicodeMax))
  | .space => inferInstanceAs (Decidable (c = 32 ∨ c = 9 ∨ c = 13 ∨ c = 10 ∨ c = 11 ∨ c = 12))
  | .cat l r | .or l r =>
    have := decMentions dot c l
    have := decMentions dot c r
    inferInstanceAs (Decidable (_ ∨ _))
  | .star p | .plus p | .capture p _ | .exact p _ | .range p _ _ => decMentions dot c p

theorem content_good : content.Good := by
  have h : ∀ v ∈ content.vars, v.2.Sensible ∧ v.2.ClassesUsable := by decide +kernel
  exact h

/-- No alternative ends in `*` or `+`, so that `C48_textbook_partial` applies. -/
theorem content_noOpenChoice : ∀ v ∈ content.vars, v.2.NoOpenChoice := by decide +kernel

theorem content_accepted : content.Accepted := by
  have h : ∀ v ∈ content.vars, v.1 ≠ "timestamp" → ∀ d ∈ 0xFD :: content.delimiters, ¬ v.2.Mentions false d := by decide +kernel
  refine ⟨by decide +kernel, fun v hv hn d hd => h v hv hn d ?_⟩
  rcases hd with hd | rfl
  · exact List.mem_cons_of_mem _ hd
  · exact List.mem_cons_self

/-- C43 for this file: it is parsed, to an AST that says what the file says. -/
theorem C43_example_file : ∃ a, content.Builds a ∧ ∃ n kids', ∀ fuel steps, n ≤ fuel → n ≤ steps →
    trySchemaFile { exEnv with fuel := fuel, steps := steps } 0 (some file) = .ok (a, kids') := by
  obtain ⟨a, ha⟩ := SchemaText.Builds.exists (s := content) content_good
  obtain ⟨n, kids', h⟩ := schema_complete exEnv_ok exEnv_orders file_fits.1 file_bytes (file_delivers file_fits.1) file_fits.2.1 file_written ha
  exact ⟨a, ha, n, kids', h⟩

/-- C48 for this file, with no condition left but those on the log (bytes, no 0xFD, one byte behind it): the parser made from the file reports, for
every log, the events of the pieces into which the file divides the log. -/
theorem C48_example_file : ∃ n, ∀ fuel steps, n ≤ fuel → n ≤ steps → ∃ t p kids',
    BufferParser.ofFile { exEnv with fuel := fuel, steps := steps } 0 (some file) id (fun _ => []) 48000 48000 = .ok (t, p, kids') ∧
    ∀ q, p.Used q → ∀ ptr content' size k, size < content'.length → size < k → AllBytes (content'.take size) → 0xFD ∉ content'.take size →
      (q.parseBuffer k ptr content' size true).status = none ∧
      (∃ texts : List (List Nat), (q.parseBuffer k ptr content' size true).events.map (·.text) = texts.map some ∧ texts.flatten = content'.take size) ∧
      ∃ ps xs, content.Division (content'.take size) ps ∧ List.Forall₂ (SchemaText.Piece.Is content t.getSymbolId (content'.take size)) ps xs ∧
        List.Forall₂ (fun o e => EventOut.Shows o (content'.take size) e) (q.parseBuffer k ptr content' size true).events
          (segment (content'.take size) none xs) :=
  C48_events_partial exEnv_ok exEnv_orders file_fits.1 file_bytes file_fits.2.1 file_written content_good content_accepted (by decide +kernel)
    (by decide +kernel) (fun _ _ h => h) (by decide)

end LogSurgeon.ExampleSchema
