import Verif.Spec.LexerRules
import Verif.Props.Search
/-
C56: the first-character table.  C57: the rules of a lexer.
-/
namespace LogSurgeon

/-! ### C56 -/

section
variable {s : SchemaAST} {addr : Nat → Nat} {t : ParserTables} {L : Lexer}

/-- C56: for which bytes `is_first_char` is true: newline; the start-of-file character if there is a variable; every delimiter if there is a variable
other than the timestamp. -/
theorem C56_first_char (hC : s.Compiled addr t L) {c : Nat} (hc : c < cSizeOfByte) :
    L.isFirst c = true ↔ c = newline ∨ (c = cCharStartOfFile ∧ s.vars ≠ []) ∨ (s.IsDelim c ∧ ∃ v ∈ s.vars, v.name ≠ "timestamp") := by
  have h := buildLexer_ok hC.ok
  constructor
  · intro hf
    obtain ⟨_, n, re, hk, h1, _⟩ := h.alive hC.sensible hC.inj (c := c) (v := []) (by rw [run_one]; exact hf)
    cases hk with
    | newLine => simp [Regex.firstOf] at h1; exact .inl h1
    | first hv _ => simp [Regex.firstOf, Regex.possible] at h1; exact .inr (.inl ⟨h1, List.ne_nil_of_mem hv⟩)
    | newLineTs _ _ => simp [Regex.firstOf, Regex.possible] at h1; exact .inl h1
    | var hv hts => exact .inr (.inr ⟨(mem_delimBytes.mp (possible_singletons.mp h1)).2, _, hv, hts⟩)
  · intro hcase
    have hex : ∃ r ∈ t.rules, r.regex.firstOf c = true := by
      rcases hcase with rfl | ⟨rfl, hv⟩ | ⟨hd, v, hv, hts⟩
      · obtain ⟨r, hr, hre, _⟩ := h.rule .newLine
        exact ⟨r, hr, by rw [hre]; rfl⟩
      · obtain ⟨v, hv⟩ := List.exists_mem_of_ne_nil _ hv
        by_cases hts : v.name = "timestamp"
        · obtain ⟨r, hr, hre, _⟩ := h.rule (.first hv hts)
          exact ⟨r, hr, by rw [hre]; rfl⟩
        · obtain ⟨r, hr, hre, _⟩ := h.rule (.var hv hts)
          refine ⟨r, hr, ?_⟩
          rw [hre]
          exact possible_singletons.mpr (mem_delimBytes.mpr ⟨by decide, .inl rfl⟩)
      · obtain ⟨r, hr, hre, _⟩ := h.rule (.var hv hts)
        refine ⟨r, hr, ?_⟩
        rw [hre]
        exact possible_singletons.mpr (mem_delimBytes.mpr ⟨hc, hd⟩)
    obtain ⟨r, hr, hf⟩ := hex
    obtain ⟨n, hn, h2, _⟩ := h.nfa hC.inj
    obtain ⟨own, hR⟩ := buildNfa_regions (fun r hr => by
      obtain ⟨_, hk, _⟩ := h.kind r hr
      exact (hk.headed hC.sensible).1) hn
    obtain ⟨ends, hI⟩ := buildNfa_inv hn
    obtain ⟨q', hq'⟩ := hR.first r hr c hc hf
    have hsome : L.dfa.run 0 [c] ≠ none := by
      intro he
      refine (h2 _ (by simpa [AllBytes] using hc)).mp he q' ⟨[.byte c], ?_, rfl⟩
      rw [hI.root]
      exact .cons hq' (.nil _)
    rw [run_one] at hsome
    exact Option.isSome_iff_ne_none.mpr hsome

/-- C56: no byte at which an ordinary character of a variable stands is marked: a marked byte is a delimiter or newline. -/
theorem C56_never_inside (hC : s.Compiled addr t L) {c : Nat} (hc : c < cSizeOfByte) (hf : L.isFirst c = true) : s.IsDelim c ∨ c = newline := by
  rcases (C56_first_char hC hc).mp hf with h | ⟨h, _⟩ | ⟨h, _⟩
  · exact .inr h
  · exact .inl (.inl h)
  · exact .inl h

set_option maxRecDepth 100000 in
/-- The hypotheses are met, and the table is not the one the comment in Lexer.hpp:119 promises ("First character of any variable in the schema"): with
the variable `x` = `b` (and a timestamp `a b c`) the delimiter 32 is marked, `b` is not. -/
example : ∃ t L, hideSchema.Compiled id t L ∧ L.isFirst 32 = true ∧ L.isFirst 98 = false := by
  obtain ⟨t, L, hc, hC⟩ := compiled_spec hideSchema_sensible (by decide +kernel)
  refine ⟨t, L, hC, (C56_first_char hC (by decide)).mpr (.inr (.inr ⟨.inr ⟨_, rfl, by decide⟩, ⟨"x", .literal [] 98⟩, by simp [hideSchema], by decide⟩)), ?_⟩
  rw [Bool.eq_false_iff]
  intro h
  rcases C56_never_inside hC (by decide) h with (h | ⟨ds, h1, h2⟩) | h
  · exact absurd h (by decide)
  · cases h1; exact absurd h2 (by decide)
  · exact absurd h (by decide)

end

/-! ### C57 -/

namespace LexerRules

theorem run_append (l : LexerRules) (a b : List Call) : l.run (a ++ b) = (l.run a).bind fun l => l.run b := by
  induction a generalizing l with
  | nil => rfl
  | cons c a ih =>
    cases c with
    | add r => exact ih _
    | generate addr =>
      simp only [List.cons_append, run]
      cases l.generate addr with
      | none => rfl
      | some l' => exact ih l'

theorem run_quiet : ∀ (cs : List Call) (l : LexerRules), Quiet cs → l.run cs = some { l with rules := l.rules ++ added cs }
  | [], l, _ => by simp [run, added]
  | c :: cs, l, h => by
    obtain ⟨r, rfl⟩ := h c (by simp)
    simp only [run, added]
    rw [run_quiet cs _ fun c hc => h c (by simp [hc])]
    simp [addRule]

theorem run_since {cs : List Call} {l : LexerRules} (h : ({} : LexerRules).run cs = some l) {rs : List Rule} (hs : Since cs rs) : l.rules = rs := by
  rcases hs with ⟨hq, rfl⟩ | ⟨before, addr, after, rfl, hq, rfl⟩
  · rw [run_quiet cs _ hq] at h
    cases h
    rfl
  · rw [run_append] at h
    cases hb : ({} : LexerRules).run before with
    | none => rw [hb] at h; cases h
    | some l1 =>
      rw [hb] at h
      simp only [Option.bind_some, run] at h
      cases hg : l1.generate addr with
      | none => rw [hg] at h; cases h
      | some l2 =>
        rw [hg] at h
        simp only [Option.bind_some] at h
        rw [run_quiet after _ hq] at h
        cases h
        unfold generate at hg
        cases hd : generateDfa l1.rules addr with
        | none => rw [hd] at hg; cases hg
        | some d =>
          rw [hd] at hg
          cases hg
          rfl

/-- Every history has its rules. -/
theorem since_exists : ∀ cs : List Call, ∃ rs, Since cs rs := by
  intro cs
  induction cs using List.reverseRecOn with
  | nil => exact ⟨[], .inl ⟨fun c hc => absurd hc (by simp), rfl⟩⟩
  | append_singleton cs c ih =>
    cases c with
    | generate addr => exact ⟨[], .inr ⟨cs, addr, [], rfl, fun c hc => absurd hc (by simp), rfl⟩⟩
    | add r =>
      obtain ⟨rs, ⟨hq, rfl⟩ | ⟨before, addr, after, rfl, hq, rfl⟩⟩ := ih
      · refine ⟨_, .inl ⟨fun c hc => ?_, rfl⟩⟩
        rcases List.mem_append.mp hc with hc | hc
        · exact hq c hc
        · exact ⟨r, List.mem_singleton.mp hc⟩
      · refine ⟨_, .inr ⟨before, addr, after ++ [.add r], by simp, fun c hc => ?_, rfl⟩⟩
        rcases List.mem_append.mp hc with hc | hc
        · exact hq c hc
        · exact ⟨r, List.mem_singleton.mp hc⟩

end LexerRules

open LexerRules

/-- C57: `get_rule` gives the first of the rules with this id that were added since the last `generate`, and nothing if there is none. -/
theorem C57_get_rule {cs : List Call} {l : LexerRules} (h : ({} : LexerRules).run cs = some l) {rs : List Rule} (hs : Since cs rs) (id : Nat) :
    (∀ re, l.getRule id = some re ↔ ∃ a b, rs = a ++ ⟨id, re⟩ :: b ∧ ∀ r ∈ a, r.id ≠ id) ∧ (l.getRule id = none ↔ ∀ r ∈ rs, r.id ≠ id) := by
  have hr := run_since h hs
  unfold getRule
  rw [hr]
  refine ⟨fun re => ?_, ?_⟩
  · constructor
    · intro hf
      obtain ⟨r, h1, rfl⟩ := Option.map_eq_some_iff.mp hf
      obtain ⟨h2, a, b, rfl, h3⟩ := List.find?_eq_some_iff_append.mp h1
      have : r.id = id := by simpa using h2
      subst this
      exact ⟨a, b, rfl, fun r hr => by simpa using h3 r hr⟩
    · rintro ⟨a, b, rfl, h1⟩
      rw [List.find?_append, List.find?_eq_none.mpr (by simpa using h1)]
      simp
  · rw [Option.map_eq_none_iff, List.find?_eq_none]
    simp

/-- C57: the automaton after `generate` is that of the rules added since the `generate` before it, and of no others; the first-character table is
that of this automaton. -/
theorem C57_automaton {cs : List Call} {l : LexerRules} (h : ({} : LexerRules).run cs = some l) {addr : Nat → Nat} {rs : List Rule} (hs : Generated cs addr rs) :
    ∃ d, generateDfa rs addr = some d ∧ l.dfa = some d ∧ ∀ c < cSizeOfByte, l.firstChar c = (d.next 0 c).isSome := by
  obtain ⟨before, after, rfl, hq, hsince⟩ := hs
  rw [LexerRules.run_append] at h
  cases hb : ({} : LexerRules).run before with
  | none => rw [hb] at h; cases h
  | some l1 =>
    rw [hb] at h
    simp only [Option.bind_some, run] at h
    have hr := run_since hb hsince
    cases hg : l1.generate addr with
    | none => rw [hg] at h; cases h
    | some l2 =>
      rw [hg] at h
      simp only [Option.bind_some] at h
      rw [run_quiet after _ hq] at h
      cases h
      unfold generate at hg
      rw [hr] at hg
      cases hd : generateDfa rs addr with
      | none => rw [hd] at hg; cases hg
      | some d =>
        rw [hd] at hg
        cases hg
        exact ⟨d, rfl, rfl, fun c hc => by simp [hc]⟩

theorem generateDfa_nil (addr : Nat → Nat) : generateDfa [] addr = some { states := [{}] } := by
  have key : ∀ (n : Nfa) (set : StateSet) (q : Nat) (cs : List Nat) (st : SubsetState), (∀ c, moveSet n addr set c = some []) →
      subsetBytes n addr set q cs st = some st := by
    intro n set q cs st h
    induction cs with
    | nil => rfl
    | cons c cs ih => rw [subsetBytes, h c]; exact ih
  obtain ⟨n, hn, h1, h2, h3⟩ : ∃ n, buildNfa [] = some n ∧ n.root = 0 ∧ n.states.length = 1 ∧ (∀ c, moveSet n addr [0] c = some []) ∧
      epsilonClosure n addr 0 = some [0] ∧ acceptIds n [0] = [] := ⟨_, rfl, rfl, rfl, fun c => rfl, rfl, rfl⟩
  unfold generateDfa nfaToDfa
  rw [hn]
  simp only [Option.bind_some, h1, h3.2.1, h2, SubsetState.create, h3.2.2]
  rw [show 2 ^ 1 = 1 + 1 from rfl, subsetLoop]
  simp only [List.lookup, beq_self_eq_true, Option.bind_some, key n [0] _ _ _ h3.1]
  rfl

/-- C57: two calls of `generate` in a row give an automaton that recognises nothing, and no byte is a first character, whatever rules there were. -/
theorem C57_twice {cs : List Call} {addr addr' : Nat → Nat} {l : LexerRules}
    (h : ({} : LexerRules).run (cs ++ [.generate addr, .generate addr']) = some l) :
    (∃ d, l.dfa = some d ∧ ∀ w, d.idsOn w = []) ∧ (∀ c < cSizeOfByte, l.firstChar c = false) ∧ ∀ id, l.getRule id = none := by
  have hq : Quiet [] := fun c hc => absurd hc (by simp)
  have hg : Generated (cs ++ [.generate addr, .generate addr']) addr' [] :=
    ⟨cs ++ [.generate addr], [], by simp, hq, .inr ⟨cs, addr, [], rfl, hq, rfl⟩⟩
  obtain ⟨d, h1, h2, h3⟩ := C57_automaton h hg
  have hd : generateDfa [] addr' = some { states := [{}] } := generateDfa_nil addr'
  rw [hd] at h1
  cases h1
  refine ⟨⟨_, h2, fun w => ?_⟩, fun c hc => ?_, fun id => ?_⟩
  · cases w <;> rfl
  · rw [h3 c hc]; rfl
  · exact (C57_get_rule h (.inr ⟨cs ++ [.generate addr], addr', [], by simp, hq, rfl⟩) id).2.mpr fun r hr => absurd hr (by simp [added])

/-- The hypotheses are met: a rule, `generate`, another rule, `generate`. -/
example : (({} : LexerRules).run [.add ⟨8, .literal [] 97⟩, .generate id, .add ⟨9, .literal [] 98⟩]).map (fun l => (l.getRule 8, l.getRule 9)) =
    some (none, some (.literal [] 98)) := by decide +kernel

example : (({} : LexerRules).run [.add ⟨8, .literal [] 97⟩, .generate id, .add ⟨9, .literal [] 98⟩, .generate id]).map (fun l => (l.firstChar 97, l.firstChar 98)) =
    some (false, true) := by decide +kernel

end LogSurgeon
