import Verif.Proofs.RuleError
/-!
# C64: what is said about a variable that contains a delimiter

The reader needs: `Spec/RuleError.lean` (`Offends`, `FirstOffence`, `delimiterComplaint`, `markedLine`), `Spec/EndToEnd.lean` (`Mentions`, `delimiters`,
`Accepted`), `Spec/SchemaText.lean` (`SchemaText`, `WrittenFile`, `Builds`) and from the model `ParserTables.addRulesM` (`LogParser::add_rules`, the
constructor of every parser): `fs` says which files can be opened and what they contain, `path` is the `m_file_path` of the AST and `lines` are the
line numbers of its variables.
-/
namespace LogSurgeon
open SchemaText

/-- Unless the schema is accepted there is a first offence. -/
theorem firstOffence_exists {s : SchemaText} (hne : s.delims ≠ []) (h : ¬ s.Accepted) : ∃ i name d, s.FirstOffence i name d := by
  classical
  have h1 : ∃ (i : Nat) (v : String × Pat) (d : Nat), s.vars[i]? = some v ∧ s.Offends v d := by
    by_contra hno
    refine h ⟨hne, fun v hv hts d hd hm => hno ?_⟩
    obtain ⟨i, hi⟩ := List.mem_iff_getElem?.mp hv
    exact ⟨i, v, d, hi, hts, hd, hm⟩
  have hi := Nat.find_spec h1
  have hmin := fun m => Nat.find_min (m := m) h1
  generalize Nat.find h1 = i at hi hmin
  obtain ⟨⟨name, p⟩, d, hv, hd⟩ := hi
  have h2 : ∃ d, s.Offends (name, p) d := ⟨d, hd⟩
  refine ⟨i, name, Nat.find h2, ⟨p, hv, Nat.find_spec h2, fun d' hd' => Nat.find_min' h2 hd'⟩, fun j v hj hjv d' hd' => hmin j hj ⟨v, d', hjv, hd'⟩⟩

/-- **C64**: whatever is said or not said, the parser is built or not as before (`addRules` is the function of C15, C16, C18 and C48). -/
theorem C64_same (fs : List Nat → Option (List Nat)) (path : List Nat) (s : SchemaAST) (lines : List Nat) (hl : s.vars.length ≤ lines.length)
    (t : ParserTables) : ParserTables.addRulesM fs path s lines = .ok t ↔ ParserTables.addRules s = .ok t := by
  rw [← addRulesM_erase fs path s lines hl]
  cases ParserTables.addRulesM fs path s lines with
  | ok t' => exact ⟨(fun h => by cases h; rfl), (fun h => by cases h; rfl)⟩
  | error e => exact ⟨(fun h => by cases h), (fun h => by cases h)⟩

/-- **C64**: a schema without a `delimiters` line. -/
theorem C64_no_delimiters {s : SchemaText} {a : SchemaAST} (hb : s.Builds a) (h : s.delims = []) (fs : List Nat → Option (List Nat)) (path lines : List Nat) :
    ParserTables.addRulesM fs path a lines =
      .error (.message (asciiBytes "When using --schema-path, \"delimiters:\" line must be used.")) := by
  unfold ParserTables.addRulesM
  rw [hb.1, h]
  have : ParserTables.init.delimList = [] := by
    unfold ParserTables.delimList ParserTables.init; simp
  simp only [ParserTables.addAllDelimiters, this]
  rfl

/-- **C64**: for every schema text that says `s` (with delimiters) and every parser made from its AST `a`: either no variable mentions a delimiter, and
the rules are accepted, or there is exactly one first offence, and the exception names this variable, its line and this delimiter. -/
theorem C64_message {k : Nat} {ls : List Lexeme} {s : SchemaText} {a : SchemaAST} (hf : WrittenFile k ls s) (hb : s.Builds a) (hne : s.delims ≠ [])
    {lines : List Nat} (hl : lines.length = a.vars.length) (fs : List Nat → Option (List Nat)) (path : List Nat) :
    (s.Accepted ∧ ∃ t, ParserTables.addRulesM fs path a lines = .ok t) ∨
    (∃ i name d, s.FirstOffence i name d ∧ (∀ i' name' d', s.FirstOffence i' name' d' → i' = i ∧ name' = name ∧ d' = d) ∧
      ∃ line, lines[i]? = some line ∧
        ∃ more, (line + 1 < 2 ^ 32 → ParserTables.addRulesM fs path a lines =
          .error (.message (delimiterComplaint path (line + 1) name d ++ more))) ∧ (fs path = none → more = [])) := by
  classical
  have hw := writtenFile_wf hf
  by_cases hacc : s.Accepted
  · obtain ⟨t, ht⟩ := hacc.tables hb hw
    exact .inl ⟨hacc, t, (C64_same fs path a lines (by omega) t).mpr ht⟩
  · obtain ⟨i, name, d, h⟩ := firstOffence_exists hne hacc
    refine .inr ⟨i, name, d, h, fun i' name' d' h' => ?_, ?_⟩
    · obtain ⟨p, h1, h2, h3⟩ := h.here
      obtain ⟨p', h1', h2', h3'⟩ := h'.here
      have hi : i' = i := by
        rcases Nat.lt_trichotomy i i' with hlt | heq | hgt
        · exact absurd h2 (h'.first i _ hlt h1 d)
        · exact heq.symm
        · exact absurd h2' (h.first i' _ hgt h1' d')
      subst hi
      rw [h1] at h1'
      cases h1'
      exact ⟨rfl, rfl, Nat.le_antisymm (h3' d h2) (h3 d' h2')⟩
    · have hi : i < lines.length := by
        obtain ⟨p, h1, _⟩ := h.here
        have := (List.getElem?_eq_some_iff.mp h1).1
        rw [hl, ← hb.2.length_eq]; exact this
      refine ⟨lines[i], List.getElem?_eq_getElem hi, ?_⟩
      obtain ⟨more, hm⟩ := ruleError_message fs path name lines[i] d
      refine ⟨more, fun hlt => ?_, fun hn => ?_⟩
      · rw [addRulesM_offence hb hw hne h (List.getElem?_eq_getElem hi) fs path, hm, ruleHead_complaint hlt]
      · unfold ruleError FileReader.tryOpen at hm
        rw [hn] at hm
        simpa using hm

/-- **C64**: if the AST says where the schema file is and the file can be read, its line with the variable is shown, with arrows below the pattern. -/
theorem C64_marked {k : Nat} {ls : List Lexeme} {s : SchemaText} {a : SchemaAST} (hf : WrittenFile k ls s) (hb : s.Builds a) (hne : s.delims ≠ [])
    {i : Nat} {name : String} {d : Nat} (h : s.FirstOffence i name d) {lines : List Nat} {line : Nat} (hl : lines[i]? = some line) (hlt : line + 1 < 2 ^ 32)
    {fs : List Nat → Option (List Nat)} {path content : List Nat} (hfs : fs path = some content)
    {fileLines : List (List Nat)} (hlines : IsLines 10 content fileLines) {text front pat : List Nat} (ht : fileLines[line]? = some text)
    (hs : stripEnd 10 text = front ++ 58 :: pat) (hfront : 58 ∉ front) :
    ParserTables.addRulesM fs path a lines = .error (.message (delimiterComplaint path (line + 1) name d ++ markedLine front pat)) := by
  rw [addRulesM_offence hb (writtenFile_wf hf) hne h hl fs path]
  obtain ⟨n, ls', h1, _, h2⟩ := C40_lines content 10 (FileReader.mk none) []
  have hu := isLines_unique 10 _ _ _ h1 hlines
  subst hu
  have hg : (ls'.map (stripEnd 10))[line]? = some (front ++ 58 :: pat) := by simp [ht, hs]
  have hr := readLine_of_lines n line _ [] [] _ _ h2 hg
  unfold ruleError
  rw [hfs]
  rw [show (FileReader.mk none).tryOpen (some content) = ((FileReader.tryOpen { file := none } (some content)).1, FileCode.success) from rfl]
  simp only [hr]
  rw [ruleHead_complaint hlt, ruleDetail_marked hfront]

/-- **C64, finding**: `m_file_path` is empty unless the user of the library assigns it (nothing in the library does), and no file has an empty name, so
the message does not say which file is meant and does not show the line. -/
theorem C64_no_file_name {k : Nat} {ls : List Lexeme} {s : SchemaText} {a : SchemaAST} (hf : WrittenFile k ls s) (hb : s.Builds a) (hne : s.delims ≠ [])
    {i : Nat} {name : String} {d : Nat} (h : s.FirstOffence i name d) {lines : List Nat} {line : Nat} (hl : lines[i]? = some line) (hlt : line + 1 < 2 ^ 32)
    {fs : List Nat → Option (List Nat)} (hfs : fs [] = none) :
    ParserTables.addRulesM fs [] a lines = .error (.message (delimiterComplaint [] (line + 1) name d)) := by
  rw [addRulesM_offence hb (writtenFile_wf hf) hne h hl fs []]
  unfold ruleError
  rw [hfs]
  rw [← ruleHead_complaint hlt]
  rfl

/-! ### An example -/

/-- `delimiters: ,` (a space and a comma), then `a:x` and `bc:y[ ,]`. -/
def offendingAst : SchemaAST where
  delims := [[32, 44]]
  vars := [⟨"a", .literal [] 120⟩, ⟨"bc", .cat [] (.literal [] 121) (.group [] false false [(32, 32), (44, 44)])⟩]

def offendingText : SchemaText where
  delims := [[32, 44]]
  vars := [("a", .lit 120), ("bc", .cat (.lit 121) (.cls false [.lit 32, .lit 44]))]

/-- The file, as units. -/
def offendingUnits : List Lexeme := (.delimiters :: chars [58, 32, 44]) ++ chars [10] ++ chars [97, 58, 120] ++ chars [10] ++ chars [98, 99, 58, 121, 91, 32, 44, 93]

theorem offending_builds : offendingText.Builds offendingAst :=
  ⟨rfl, .cons ⟨rfl, rfl⟩ (.cons ⟨rfl, rfl⟩ .nil)⟩

theorem offending_first : offendingText.FirstOffence 1 "bc" 32 := by
  refine ⟨⟨_, rfl, ⟨by decide, .inl (by decide), ?_⟩, ?_⟩, ?_⟩
  · simp [Pat.Mentions, ClassItem.Has]
  · rintro d' ⟨_, h, _⟩
    have : d' ∈ [32, 44] ∨ d' = 0xFD := h
    simp at this
    omega
  · intro j v hj hv d' hd'
    have : j = 0 := by omega
    subst this
    cases hv
    obtain ⟨_, h1, h2⟩ := hd'
    have h1 : d' ∈ [32, 44] ∨ d' = 0xFD := h1
    have h2 : d' = 120 := by simpa [Pat.Mentions, eq_comm] using h2
    subst h2
    simp at h1

/-- `delimiters: ,` is line 1, `a:x` line 2 and `bc:y[ ,]` line 3. -/
theorem offending_written : WrittenFile 0 offendingUnits offendingText := by
  have pl : ∀ {k c}, Plain c → Written .literal k [c] (.lit c) := fun h => .char (.plain h)
  have d : WrittenLine 0 (.delimiters :: chars (58 :: ([32] ++ [44]))) { delims := [[32] ++ [44]] } :=
    .delims (.snoc (.one (pl (.inr (by decide)))) (pl (.inr (by decide))))
  have va : WrittenLine 14 (chars (List.replicate 0 32 ++ [97] ++ 58 :: [120])) { vars := [(asString [97], .lit 120)] } :=
    .var ⟨by decide, by simp [AlphaNum]⟩ (.ofChoice (.ofSingle (.ofLiteral (pl (.inl (by simp [AlphaNum]))))))
  have vb : WrittenLine 18 (chars (List.replicate 0 32 ++ [98, 99] ++ 58 :: ([121] ++ ((91 :: [32]) ++ [44] ++ [93]))))
      { vars := [(asString [98, 99], .cat (.lit 121) (.cls false ([.lit 32] ++ [.lit 44])))] } :=
    .var ⟨by decide, by simp [AlphaNum]⟩ (.cat (.ofChoice (.ofSingle (.ofLiteral (pl (.inl (by simp [AlphaNum]))))))
      (.ofSingle (.closed (.more (.opened (.itemChar (pl (.inr (by decide))))) (.itemChar (pl (.inr (by decide))))))))
  exact .line (.line (.first d) (.inl rfl) va) (.inl rfl) vb

/-- The message: `:3: error: 'bc' has regex pattern which contains delimiter ' '.` -/
example (fs : List Nat → Option (List Nat)) (h : fs [] = none) :
    ParserTables.addRulesM fs [] offendingAst [1, 2] = .error (.message (delimiterComplaint [] 3 "bc" 32)) :=
  C64_no_file_name offending_written offending_builds (by decide) offending_first rfl (by decide) h

/-- With a path it would be more helpful. -/
example (fs : List Nat → Option (List Nat)) (h : fs (asciiBytes "s.txt") = some (asciiBytes "delimiters: ,\na:x\nbc:y[ ,]\n")) :
    ParserTables.addRulesM fs (asciiBytes "s.txt") offendingAst [1, 2] = .error (.message (asciiBytes
      "s.txt:3: error: 'bc' has regex pattern which contains delimiter ' '.\n          bc:y[ ,]\n             ^^^^^\n")) := by
  have e : delimiterComplaint (asciiBytes "s.txt") (2 + 1) "bc" 32 ++ markedLine (asciiBytes "bc") (asciiBytes "y[ ,]") = asciiBytes
      "s.txt:3: error: 'bc' has regex pattern which contains delimiter ' '.\n          bc:y[ ,]\n             ^^^^^\n" := by decide +kernel
  rw [← e]
  exact C64_marked (fileLines := [asciiBytes "delimiters: ,\n", asciiBytes "a:x\n", asciiBytes "bc:y[ ,]\n"])
    offending_written offending_builds (by decide) offending_first rfl (by decide) h ⟨by decide, by decide, by decide, by decide⟩ rfl
    (by decide +kernel) (by decide)

end LogSurgeon
