import Verif.Spec.Reading
import Verif.Proofs.Reading
import Verif.Proofs.EndToEnd
import Verif.Props.Regex
import Verif.Props.Dfa
import Verif.Props.Schema
/-
C54: what is accepted, for every schema regex.  The reader needs `Spec/Reading.lean` (`Pat.reading`, `Pat.ReadAs`, `SchemaAST.Takes`),
`Spec/Automata.lean` (`Accepts`, `idsOn`).
-/
namespace LogSurgeon

/-- C54: for every schema regex the parser can turn into an AST, the NFA accepts for it exactly the byte strings of its reading
(`Spec/Reading.lean`), whatever the other rules are.  No condition on the regex.  (`C08_sound_refuted` is an instance: the reading of `a+|b` has
`ba`.) -/
theorem C54_exact {rules : List Rule} {n : Nfa} (hbuild : buildNfa rules = some n) {v : Nat} {p : Pat} {re : Regex} (hp : p.elab = some re)
    (hr : ⟨v, re⟩ ∈ rules) (huniq : ∀ r ∈ rules, r.id = v → r.regex = re) (s : List Nat) :
    n.Accepts v s ↔ AllBytes s ∧ p.ReadAs [] s := by
  rw [accepts_iff hbuild, ← rule_reading_plain hp]
  constructor
  · rintro ⟨r, h1, h2, w, h3, h4⟩
    rw [huniq r h1 h2] at h3
    exact ⟨w, h3, h4⟩
  · rintro ⟨w, h3, h4⟩
    exact ⟨_, hr, rfl, w, h3, h4⟩

/-- `(a|b+)c{0,2}d{0}`, whose language the theorems about textbook meanings say nothing about. -/
def oddPat : Pat := .cat (.cat (.or (.lit 97) (.plus (.lit 98))) (.range (.lit 99) [0] [2])) (.exact (.lit 100) [0])

example : ∃ re n, oddPat.elab = some re ∧ buildNfa [⟨8, re⟩] = some n ∧ n.Accepts 8 [97, 98, 98, 99, 100, 100] := by
  obtain ⟨re, hre, hni⟩ : ∃ re, oddPat.elab = some re ∧ re.NoInteger := by
    refine ⟨_, rfl, ?_⟩
    simp [rangeRule, exactRule, plusRule, Regex.NoInteger, Regex.mkCat, Regex.mkOr, Regex.mkMult, Regex.setNegTags, Regex.mkEmpty]
  obtain ⟨n, hn⟩ := buildNfa_total [⟨8, re⟩] (by simpa using hni)
  refine ⟨re, n, hre, hn, (C54_exact hn (v := 8) hre (by simp) (by simp) _).mpr ⟨by simp [AllBytes, cSizeOfByte], ?_⟩⟩
  have rep : ∀ {P : List Nat → Prop} {s : List Nat}, P s → Repeat P 1 s := fun h => by simpa using Repeat.succ h .zero
  have rep2 : ∀ {P : List Nat → Prop} {s t : List Nat}, P s → P t → Repeat P 2 (s ++ t) := fun h h' => Repeat.succ h (rep h')
  refine ⟨[97, 98, 98, 99], [100, 100], 2, rfl, ⟨[97, 98, 98, 99], [], rfl, ?_, .inl ⟨by decide, rfl⟩⟩,
    rep2 (s := [100]) (t := [100]) (.inr ⟨by decide, 100, rfl, rfl⟩) (.inr ⟨by decide, 100, rfl, rfl⟩)⟩
  refine ⟨[97, 98, 98, 99], [], 0, rfl, ⟨[97, 98, 98], [99], rfl, ?_, .inr ⟨0, [], [99], by decide, by decide, rfl, .zero, 99, rfl, rfl⟩⟩, .zero⟩
  exact ⟨[97], [98, 98], 2, rfl, .inl ⟨97, rfl, rfl⟩, rep2 (s := [98]) (t := [98])
    (.inr (.inr ⟨by decide, 98, rfl, rfl⟩)) (.inr (.inr ⟨by decide, 98, rfl, rfl⟩))⟩

/-- C54, for the DFA. -/
theorem C54_dfa {rules : List Rule} {addr : Nat → Nat} (hinj : ∀ a b, addr a = addr b → a = b) {d : Dfa}
    (hd : generateDfa rules addr = some d) {v : Nat} {p : Pat} {re : Regex} (hp : p.elab = some re) (hr : ⟨v, re⟩ ∈ rules)
    (huniq : ∀ r ∈ rules, r.id = v → r.regex = re) {s : List Nat} (hs : AllBytes s) : v ∈ d.idsOn s ↔ p.ReadAs [] s := by
  have hd0 := hd
  simp only [generateDfa, Option.bind_eq_some_iff] at hd0
  obtain ⟨n, hn, _⟩ := hd0
  obtain ⟨d', hd', h⟩ := C10_dfa_equiv_nfa hn hinj
  rw [hd] at hd'; cases hd'
  rw [h s hs, C54_exact hn hp hr huniq]
  exact ⟨fun h => h.2, fun h => ⟨hs, h⟩⟩

/-- The reading of a sensible regex in which no alternative ends in an open repetition is its textbook meaning, with `r*` read as `r+` and `r{0,m}`
as `r{1,m}`. -/
theorem C08_reading_partial {p : Pat} {re : Regex} (hp : p.elab = some re) (hsens : p.Sensible) (hno : p.NoOpenChoice) {s : List Nat}
    (hs : AllBytes s) : p.ReadAs [] s ↔ p.atLeastOne.Matches s := by
  obtain ⟨n, hn⟩ := buildNfa_total [⟨8, re⟩] (by simpa using (elab_spec p hp hsens).2.2.1)
  have h1 := C54_exact (v := 8) hn hp (by simp) (by simp) s
  have h2 := C08_pattern_partial (v := 8) hn hp (by simp) (by simp) hsens ((elab_open p hp hsens).2 hno) s
  rw [h1] at h2
  exact ⟨fun h => (h2.mp ⟨hs, h⟩).2, fun h => (h2.mpr ⟨hs, h⟩).2⟩

example : pat3.Sensible ∧ pat3.NoOpenChoice ∧ (pat3.elab).isSome := by
  simp [pat3, Pat.Sensible, Pat.NoOpenChoice, NumeralOk, decimal, Pat.elab, addItems, addItem, repetitionCount]

/-- What is matched in the textbook meaning (with at least one repetition) is always in the reading. -/
theorem C07_reading {p : Pat} {re : Regex} (hp : p.elab = some re) (hsens : p.Sensible) {s : List Nat}
    (hs : AllBytes s) (hm : p.atLeastOne.Matches s) : p.ReadAs [] s := by
  obtain ⟨h1, h2, h3, _, _, h6⟩ := elab_spec p hp hsens
  obtain ⟨w, hw, hb⟩ := lang_complete re h2 s hs ((h6 s).mpr hm)
  exact ((rule_reading_plain hp s).mp ⟨w, hw, hb⟩).2

/-- C54, for whole schemas: the types the lexer of a schema reports for a text are exactly the ones `Takes` gives it.  The only condition is
that the regexes come from schema syntax. -/
theorem C54_types {s : SchemaAST} (hs : ∀ v ∈ s.vars, ∃ p : Pat, p.elab = some v.regex)
    {addr : Nat → Nat} (hinj : ∀ a b, addr a = addr b → a = b)
    {t : ParserTables} {L : Lexer} (h : buildLexer s addr = .ok (t, L)) {name : String} {id : Nat}
    (hid : t.getSymbolId name = some id) {w : List Nat} (hw : AllBytes w) :
    id ∈ L.dfa.idsOn w ↔ s.Takes name w := by
  have hL := buildLexer_ok h
  obtain ⟨hinv, _⟩ := C16_bijection h
  obtain ⟨m, hm, _, h3⟩ := hL.nfa hinj
  constructor
  · intro hg
    obtain ⟨r, hr, ha, rfl⟩ := (h3 w id hw).mp hg
    obtain ⟨n, hk, hn⟩ := hL.kind r hr
    have e1 := (hinv _ _).mp hid
    have e2 := (hinv _ _).mp hn
    rw [e1] at e2
    cases e2
    exact kind_takes hs hk ((acceptsAlone_iff hm hr w).mp ha)
  · intro hg
    obtain ⟨re, hk, ht⟩ := takes_kind hw hg
    obtain ⟨r, hr, hre, hn⟩ := hL.rule hk
    rw [hid] at hn
    cases hn
    exact (h3 w _ hw).mpr ⟨r, hr, (acceptsAlone_iff hm hr w).mpr (by rw [hre]; exact ht), rfl⟩

/-- `x:a|b+` with a space as delimiter. -/
def openSchema : SchemaAST where
  delims := [[32]]
  vars := [⟨"x", ((Pat.or (.lit 97) (.plus (.lit 98))).elab).getD .mkEmpty⟩]

/-- ` abb` is reported as the variable `a|b+`. -/
example : (∀ v ∈ openSchema.vars, ∃ p : Pat, p.elab = some v.regex) ∧ (∃ t L, buildLexer openSchema id = .ok (t, L)) ∧
    openSchema.Takes "x" [32, 97, 98, 98] := by
  refine ⟨?_, ?_, ?_⟩
  · intro v hv
    simp only [openSchema, List.mem_singleton] at hv
    subst hv
    exact ⟨.or (.lit 97) (.plus (.lit 98)), rfl⟩
  · have : (match buildLexer openSchema id with | .ok _ => true | .error _ => false) = true := by decide +kernel
    revert this
    cases h : buildLexer openSchema id with
    | error e => simp
    | ok x => intro _; exact ⟨x.1, x.2, rfl⟩
  · refine SchemaAST.Takes.var (v := openSchema.vars.head (by simp [openSchema])) (p := .or (.lit 97) (.plus (.lit 98))) (by simp [openSchema])
      (by simp [openSchema]) rfl (.inr ⟨_, rfl, by simp⟩) ?_
    exact ⟨[97], [98, 98], 2, rfl, .inl ⟨97, rfl, rfl⟩, Repeat.succ (s := [98]) (t := [98]) (.inr (.inr ⟨by decide, 98, rfl, rfl⟩))
      (Repeat.succ (s := [98]) (t := []) (.inr (.inr ⟨by decide, 98, rfl, rfl⟩)) .zero)⟩

end LogSurgeon
