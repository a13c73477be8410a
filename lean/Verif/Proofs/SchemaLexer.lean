import Verif.Proofs.SchemaTables
import Verif.Proofs.Wildcard
import Verif.Proofs.Headed
import Verif.Proofs.DfaShape
import Verif.Proofs.Longest
/-
The lexer of an accepted schema: `SchemaLike`, `TypesProper`, start of file.
-/
namespace LogSurgeon

theorem forall₂_right {α β : Type} {R : α → β → Prop} {l : List α} {m : List β} (h : List.Forall₂ R l m) :
    ∀ b ∈ m, ∃ a ∈ l, R a b := by
  induction h with
  | nil => intro b hb; cases hb
  | cons h _ ih =>
    intro b hb
    rcases List.mem_cons.mp hb with rfl | hb
    · exact ⟨_, .head _, h⟩
    · obtain ⟨a, ha, hr⟩ := ih b hb; exact ⟨a, .tail _ ha, hr⟩

theorem forall₂_left {α β : Type} {R : α → β → Prop} {l : List α} {m : List β} (h : List.Forall₂ R l m) :
    ∀ a ∈ l, ∃ b ∈ m, R a b := by
  induction h with
  | nil => intro b hb; cases hb
  | cons h _ ih =>
    intro b hb
    rcases List.mem_cons.mp hb with rfl | hb
    · exact ⟨_, .head _, h⟩
    · obtain ⟨a, ha, hr⟩ := ih b hb; exact ⟨a, .tail _ ha, hr⟩

theorem mem_delimBytes {s : SchemaAST} {c : Nat} :
    c ∈ s.delimBytes ↔ c < cSizeOfByte ∧ s.IsDelim c := by
  unfold SchemaAST.delimBytes SchemaAST.IsDelim
  simp only [List.mem_filter, List.mem_range, Bool.or_eq_true, beq_iff_eq]
  cases s.delims.getLast? with
  | none => simp
  | some ds => simp

theorem delimBytes_ne (s : SchemaAST) : s.delimBytes ≠ [] :=
  List.ne_nil_of_mem (mem_delimBytes.mpr ⟨by decide, .inl rfl⟩ : cCharStartOfFile ∈ s.delimBytes)

theorem delimBytes_max (s : SchemaAST) : ∀ d ∈ s.delimBytes, d ≤ cUnicodeMax := by
  intro d hd
  have := (mem_delimBytes.mp hd).1
  simp only [cSizeOfByte, cUnicodeMax] at *; omega

/-- The three kinds of rules. -/
inductive RuleKind (s : SchemaAST) : String → Regex → Prop
  | newLine : RuleKind s "newLine" (.literal [] newline)
  | first {v} : v ∈ s.vars → v.name = "timestamp" →
      RuleKind s "firstTimestamp" (.cat [] (.literal [] cCharStartOfFile) v.regex)
  | newLineTs {v} : v ∈ s.vars → v.name = "timestamp" →
      RuleKind s "newLineTimestamp" (.cat [] (.literal [] newline) v.regex)
  | var {v} : v ∈ s.vars → v.name ≠ "timestamp" → RuleKind s v.name
      (.cat [] (.group [] false false (s.delimBytes.map fun d => (d, d))) (v.regex.removeDelims s.delimBytes))

theorem ruleKind_iff {s : SchemaAST} {n : String} {re : Regex} : (n, re) ∈ s.namedRules ↔ RuleKind s n re := by
  simp only [SchemaAST.namedRules, List.mem_cons, Prod.mk.injEq, List.mem_flatMap, SchemaVar.rules]
  constructor
  · rintro (⟨rfl, rfl⟩ | ⟨v, hv, h⟩)
    · exact .newLine
    · split at h
      · rename_i hts
        simp only [List.mem_cons, Prod.mk.injEq, List.not_mem_nil, or_false] at h
        rcases h with ⟨rfl, rfl⟩ | ⟨rfl, rfl⟩
        · exact .first hv hts
        · exact .newLineTs hv hts
      · rename_i hts
        simp only [List.mem_cons, Prod.mk.injEq, List.not_mem_nil, or_false] at h
        obtain ⟨rfl, rfl⟩ := h
        exact .var hv hts
  · intro h
    cases h with
    | newLine => exact .inl ⟨rfl, rfl⟩
    | first hv hts => exact .inr ⟨_, hv, by simp [hts]⟩
    | newLineTs hv hts => exact .inr ⟨_, hv, by simp [hts]⟩
    | var hv hts => exact .inr ⟨_, hv, by simp [hts]⟩

theorem RuleKind.headed {s : SchemaAST} (hs : s.Sensible) {n : String} {re : Regex} (h : RuleKind s n re) :
    re.Headed ∧ re.NoInteger := by
  cases h with
  | newLine => exact ⟨rfl, trivial⟩
  | first hv _ =>
    obtain ⟨_, p, hp, hps⟩ := hs _ hv
    obtain ⟨_, h2, h3, _⟩ := elab_spec p hp hps
    exact ⟨⟨rfl, rfl, trivial, h2⟩, trivial, h3⟩
  | newLineTs hv _ =>
    obtain ⟨_, p, hp, hps⟩ := hs _ hv
    obtain ⟨_, h2, h3, _⟩ := elab_spec p hp hps
    exact ⟨⟨rfl, rfl, trivial, h2⟩, trivial, h3⟩
  | var hv _ =>
    obtain ⟨_, p, hp, hps⟩ := hs _ hv
    obtain ⟨_, h2, h3, _⟩ := elab_spec p hp hps
    exact ⟨⟨rfl, rfl, (fun h => by cases h), removeDelims_classesOk _ _ (elab_shape p hp hps).1 h2⟩, trivial,
      removeDelims_noInteger _ _ h3⟩

/-- Words of a rule: a newline alone, or a first character and at least one more. -/
theorem RuleKind.words {s : SchemaAST} (hs : s.Sensible) {n : String} {re : Regex} (h : RuleKind s n re) :
    ∀ w, ruleLang re w → (re = .literal [] newline ∧ bytesOf w = [newline]) ∨ 2 ≤ (bytesOf w).length := by
  have two : ∀ f g : Regex, f.NoZeroMin → g.NoZeroMin → ∀ w, ruleLang (.cat [] f g) w → 2 ≤ (bytesOf w).length := by
    rintro f g hf hg w hw
    have hw : (Lang.full (Lang.seq ((wrapLang f.negTags f.lang).1.full (wrapLang f.negTags f.lang).2)
      (wrapLang g.negTags g.lang).1) (wrapLang g.negTags g.lang).2) w := hw
    obtain ⟨x, y, rfl, ⟨u, v, rfl, hu, hv⟩, hy⟩ := hw
    have h1 := ruleLang_nonempty f hf u hu
    have h2 := ruleLang_nonempty g hg (v ++ y) ⟨v, y, rfl, hv, hy⟩
    rw [List.append_assoc, bytesOf_append, List.length_append]
    have := List.length_pos_iff.mpr h1
    have := List.length_pos_iff.mpr h2
    omega
  intro w hw
  cases h with
  | newLine =>
    refine .inl ⟨rfl, ?_⟩
    have hw : (Lang.full (Lang.bytesIn [(newline, newline)]) .none) w := hw
    obtain ⟨x, y, rfl, ⟨c, rfl, _, r, hr, h1, h2⟩, hy⟩ := hw
    cases hy with
    | nil =>
      simp at hr; subst hr
      have : c = newline := by simp at h1 h2; omega
      subst this; rfl
    | cons h _ => exact h.elim
  | first hv _ =>
    obtain ⟨_, p, hp, hps⟩ := hs _ hv
    exact .inr (two _ _ (by trivial) (elab_shape p hp hps).2 w hw)
  | newLineTs hv _ =>
    obtain ⟨_, p, hp, hps⟩ := hs _ hv
    exact .inr (two _ _ (by trivial) (elab_shape p hp hps).2 w hw)
  | var hv _ =>
    obtain ⟨_, p, hp, hps⟩ := hs _ hv
    exact .inr (two _ _ (by trivial) (removeDelims_noZeroMin _ _ (elab_shape p hp hps).2) w hw)

/-- Everything used about the lexer of an accepted schema. -/
structure LexerOf (s : SchemaAST) (addr : Nat → Nat) (t : ParserTables) (L : Lexer) : Prop where
  tables : ParserTables.addRules s = .ok t
  gen : generateDfa t.rules addr = some L.dfa
  isDelim : L.isDelim = t.isDelim
  hasDelims : L.hasDelims = t.hasDelims

theorem buildLexer_ok {s : SchemaAST} {addr : Nat → Nat} {t : ParserTables} {L : Lexer}
    (h : buildLexer s addr = .ok (t, L)) : LexerOf s addr t L := by
  unfold buildLexer at h
  split at h
  · cases h
  · rename_i t' ht
    split at h
    · cases h
    · rename_i d hd
      cases h
      exact ⟨ht, hd, rfl, rfl⟩

theorem LexerOf.kind {s addr t L} (h : LexerOf s addr t L) : ∀ r ∈ t.rules, ∃ n, RuleKind s n r.regex ∧
    t.getSymbolId n = some r.id := by
  obtain ⟨ds, _, _, _, _, _, _, _, h8, _⟩ := addRules_ok h.tables
  intro r hr
  obtain ⟨⟨n, re⟩, h1, h2, h3⟩ := forall₂_right h8 r hr
  exact ⟨n, by rw [h3]; exact ruleKind_iff.mp h1, h2⟩

theorem LexerOf.rule {s addr t L} (h : LexerOf s addr t L) {n re} (hk : RuleKind s n re) :
    ∃ r ∈ t.rules, r.regex = re ∧ t.getSymbolId n = some r.id := by
  obtain ⟨ds, _, _, _, _, _, _, _, h8, _⟩ := addRules_ok h.tables
  obtain ⟨r, h1, h2, h3⟩ := forall₂_left h8 (n, re) (ruleKind_iff.mpr hk)
  exact ⟨r, h1, h3, h2⟩

theorem LexerOf.delim {s addr t L} (h : LexerOf s addr t L) (c : Nat) : L.isDelim c = true ↔ s.IsDelim c := by
  obtain ⟨ds, h1, _, _, h4, _⟩ := addRules_ok h.tables
  rw [h.isDelim, h4, delimTable_eq]
  simp [SchemaAST.IsDelim, h1]

theorem LexerOf.delimByte {s addr t L} (h : LexerOf s addr t L) {c : Nat} (hc : L.isDelim c = true) : c ∈ s.delimBytes := by
  obtain ⟨ds, h1, _, h3, h4, _⟩ := addRules_ok h.tables
  have hd := (h.delim c).mp hc
  refine mem_delimBytes.mpr ⟨?_, hd⟩
  rcases hd with rfl | ⟨ds', h5, h6⟩
  · decide
  · rw [h1] at h5; cases h5; exact h3 c h6

theorem LexerOf.typesProper {s addr t L} (h : LexerOf s addr t L) (hs : s.Sensible) : TypesProper L := by
  obtain ⟨_, hids⟩ := dfa_shape h.gen
  obtain ⟨ds, _, _, _, _, _, hsym, _⟩ := addRules_ok h.tables
  have key : ∀ (x : String) (i : Nat), (x, i) ∈ reserved → '$' ∈ x.toList → ∀ q, i ∉ L.dfa.ids q := by
    intro x i hx hdol q hi
    obtain ⟨r, hr, hri⟩ := hids q i hi
    obtain ⟨n, hk, hn⟩ := h.kind r hr
    rw [hri] at hn
    have h1 := (hsym.inverse n i).mp hn
    have h2 : t.getSymbolId x = some i := (lookup_eq_some_of_nodup hsym.names).mpr (hsym.reserved _ hx)
    have h3 := (hsym.inverse x i).mp h2
    rw [h1] at h3
    have hnx : n = x := by simpa using h3
    subst hnx
    generalize r.regex = re at hk
    cases hk with
    | newLine => revert hdol; decide
    | first _ _ => revert hdol; decide
    | newLineTs _ _ => revert hdol; decide
    | var hv _ => exact (hs _ hv).1 hdol
  intro q
  exact ⟨key "$UncaughtString" 1 (by decide) (by decide) q, key "$end" 0 (by decide) (by decide) q⟩

theorem LexerOf.nfa {s addr t L} (h : LexerOf s addr t L) (hinj : ∀ a b, addr a = addr b → a = b) :
    ∃ n, buildNfa t.rules = some n ∧
      (∀ w, AllBytes w → (L.dfa.run 0 w = none ↔ ∀ y, ¬ n.ReachBy w y)) ∧
      (∀ w v, AllBytes w → (v ∈ L.dfa.idsOn w ↔ ∃ r ∈ t.rules, r.AcceptsAlone w ∧ r.id = v)) := by
  have hg := h.gen
  simp only [generateDfa, Option.bind_eq_some_iff] at hg
  obtain ⟨n, hn, hd⟩ := hg
  obtain ⟨d, hd', _, h2, h3, _⟩ := dfa_ids_spec hn hinj
  rw [hd] at hd'
  cases hd'
  refine ⟨n, hn, h2, fun w v hw => ?_⟩
  rw [(h3 w hw).mem_iff]
  simp only [List.mem_map, List.mem_filter, decide_eq_true_eq, and_assoc]

/-- What can be read from the root of the automaton. -/
theorem LexerOf.alive {s addr t L} (h : LexerOf s addr t L) (hs : s.Sensible) (hinj : ∀ a b, addr a = addr b → a = b)
    {c : Nat} {v : List Nat} (hr : (L.dfa.run 0 (c :: v)).isSome) :
    AllBytes (c :: v) ∧ ∃ n re, RuleKind s n re ∧ re.firstOf c = true ∧ ∀ d ∈ v, re.restOf d = true := by
  have hb := run_allBytes (dfa_shape h.gen).1 _ _ hr
  refine ⟨hb, ?_⟩
  obtain ⟨n, hn, h2, _⟩ := h.nfa hinj
  have : ¬ ∀ y, ¬ n.ReachBy (c :: v) y := by
    intro hc
    rw [(h2 _ hb).mpr hc] at hr; cases hr
  simp only [not_forall, Classical.not_not] at this
  obtain ⟨y, w, hp, hw⟩ := this
  obtain ⟨own, hR⟩ := buildNfa_regions (fun r hr => by
    obtain ⟨_, hk, _⟩ := h.kind r hr
    exact (hk.headed hs).1) hn
  obtain ⟨ends, hI⟩ := buildNfa_inv hn
  rw [hI.root] at hp
  rcases hR.root_path hI.wf hp with ⟨rfl, _⟩ | ⟨r, hr', c', v', h4, h5, h6⟩
  · cases hw
  · rw [hw] at h4; cases h4
    obtain ⟨m, hk, _⟩ := h.kind r hr'
    exact ⟨m, _, hk, h5, h6⟩

/-- The rest of a variable rule cannot contain a delimiter. -/
theorem LexerOf.rest_delim {s addr t L} (h : LexerOf s addr t L) {v : SchemaVar} (hv : v ∈ s.vars)
    (hts : v.name ≠ "timestamp") {d : Nat} (hd : (v.regex.removeDelims s.delimBytes).possible d = true) :
    L.isDelim d = false := by
  obtain ⟨ds, _, _, _, _, _, _, _, _, h9⟩ := addRules_ok h.tables
  cases hl : L.isDelim d with
  | false => rfl
  | true => rw [h9 v hv hts d (h.delimByte hl)] at hd; cases hd

theorem possible_singletons {l : List Nat} {c : Nat} :
    (Regex.group [] false false (l.map fun d => (d, d))).possible c = true ↔ c ∈ l := by
  rw [← inRanges_singletons]
  simp [Regex.possible, InRanges]

theorem LexerOf.idsOn_nil {s addr t L} (h : LexerOf s addr t L) (hs : s.Sensible)
    (hinj : ∀ a b, addr a = addr b → a = b) {w : List Nat} (hw : w ≠ [newline]) (hl : w.length < 2) (hb : AllBytes w) :
    L.dfa.idsOn w = [] := by
  obtain ⟨n, hn, _, h3⟩ := h.nfa hinj
  apply List.eq_nil_iff_forall_not_mem.mpr
  intro v hv
  obtain ⟨r, hr, ha, _⟩ := (h3 w v hb).mp hv
  obtain ⟨x, hx, rfl⟩ := (acceptsAlone_iff hn hr w).mp ha
  obtain ⟨m, hk, _⟩ := h.kind r hr
  rcases hk.words hs x hx with ⟨_, h4⟩ | h4
  · exact hw h4
  · omega

theorem LexerOf.schemaLike {s addr t L} (h : LexerOf s addr t L) (hs : s.Sensible)
    (hinj : ∀ a b, addr a = addr b → a = b) (hnl : s.IsDelim newline) : SchemaLike L where
  delims := by
    obtain ⟨ds, _, _, _, _, h6, _⟩ := addRules_ok h.tables
    rw [h.hasDelims, h6]
  nlDelim := (h.delim _).mpr hnl
  nlRule := by
    obtain ⟨n, hn, _, h3⟩ := h.nfa hinj
    obtain ⟨r, hr, hre, _⟩ := h.rule .newLine
    have : r.id ∈ L.dfa.idsOn [newline] := (h3 _ _ (by simp [AllBytes, newline, cSizeOfByte])).mpr
      ⟨r, hr, (acceptsAlone_iff hn hr _).mpr (lang_complete r.regex (by rw [hre]; trivial) _
        (by simp [AllBytes, newline, cSizeOfByte]) (by rw [hre]; rfl)), rfl⟩
    exact List.ne_nil_of_mem this
  root := h.idsOn_nil hs hinj (by simp) (by simp) (by intro c hc; cases hc)
  inner := by
    intro c v hr hc1 hc2
    obtain ⟨_, n, re, hk, h1, h2⟩ := h.alive hs hinj hr
    cases hk with
    | newLine => simp [Regex.firstOf] at h1; exact absurd h1 hc1
    | first _ _ => simp [Regex.firstOf, Regex.possible] at h1; exact absurd h1 hc2
    | newLineTs _ _ => simp [Regex.firstOf, Regex.possible] at h1; exact absurd h1 hc1
    | var hv hts =>
      refine ⟨(h.delim c).mpr (mem_delimBytes.mp (possible_singletons.mp h1)).2, fun d hd => ?_⟩
      exact h.rest_delim hv hts (h2 d hd)

/-- The virtual start-of-file character can be read iff the schema declares a variable. -/
theorem LexerOf.sof {s addr t L} (h : LexerOf s addr t L) (hs : s.Sensible)
    (hinj : ∀ a b, addr a = addr b → a = b) :
    (s.vars = [] → L.dfa.next 0 cCharStartOfFile = none) ∧
    (s.vars ≠ [] → ∃ q, L.dfa.next 0 cCharStartOfFile = some q ∧ L.dfa.isAccepting q = false) := by
  have hbs : AllBytes [cCharStartOfFile] := by simp [AllBytes, cCharStartOfFile, cSizeOfByte]
  constructor
  · intro hv
    cases hn : L.dfa.next 0 cCharStartOfFile with
    | none => rfl
    | some q =>
      obtain ⟨_, n, re, hk, h1, _⟩ := h.alive hs hinj (c := cCharStartOfFile) (v := []) (by simp [Dfa.run, hn])
      cases hk with
      | newLine => exact absurd h1 (by decide)
      | first hv' _ => rw [hv] at hv'; cases hv'
      | newLineTs hv' _ => rw [hv] at hv'; cases hv'
      | var hv' _ => rw [hv] at hv'; cases hv'
  · intro hv
    obtain ⟨v, hv⟩ := List.exists_mem_of_ne_nil _ hv
    have hex : ∃ r ∈ t.rules, r.regex.firstOf cCharStartOfFile = true := by
      by_cases hts : v.name = "timestamp"
      · obtain ⟨r, hr, hre, _⟩ := h.rule (.first hv hts)
        exact ⟨r, hr, by rw [hre]; rfl⟩
      · obtain ⟨r, hr, hre, _⟩ := h.rule (.var hv hts)
        refine ⟨r, hr, ?_⟩
        rw [hre]
        exact possible_singletons.mpr (mem_delimBytes.mpr ⟨by decide, .inl rfl⟩)
    obtain ⟨r, hr, hf⟩ := hex
    obtain ⟨n, hn, h2, _⟩ := h.nfa hinj
    obtain ⟨own, hR⟩ := buildNfa_regions (fun r hr => by
      obtain ⟨_, hk, _⟩ := h.kind r hr
      exact (hk.headed hs).1) hn
    obtain ⟨ends, hI⟩ := buildNfa_inv hn
    obtain ⟨q', hq'⟩ := hR.first r hr cCharStartOfFile (by decide) hf
    have hsome : L.dfa.run 0 [cCharStartOfFile] ≠ none := by
      intro hc
      refine (h2 _ hbs).mp hc q' ⟨[.byte cCharStartOfFile], ?_, rfl⟩
      rw [hI.root]
      exact .cons hq' (.nil _)
    cases hnx : L.dfa.next 0 cCharStartOfFile with
    | none => simp [Dfa.run, hnx] at hsome
    | some q =>
      refine ⟨q, rfl, ?_⟩
      have := h.idsOn_nil hs hinj (w := [cCharStartOfFile]) (by decide) (by simp) hbs
      simp only [Dfa.idsOn, Dfa.run, hnx, Option.bind_some, Option.map_some, Option.getD_some] at this
      simp [Dfa.isAccepting, this]

/-- Without a timestamp rule nothing can be hidden at the start of the file. -/
theorem LexerOf.sofClear {s addr t L} (h : LexerOf s addr t L) (hs : s.Sensible)
    (hinj : ∀ a b, addr a = addr b → a = b) (hnl : s.IsDelim newline) (hno : ∀ v ∈ s.vars, v.name ≠ "timestamp")
    (text : List Nat) : SofClear L text := by
  have key : ∀ j, (L.dfa.run 0 (cCharStartOfFile :: text.take j)).isSome → ∀ d ∈ text.take j, L.isDelim d = false := by
    intro j hj d hd
    obtain ⟨_, n, re, hk, h1, h2⟩ := h.alive hs hinj hj
    cases hk with
    | newLine => exact absurd h1 (by decide)
    | first hv hts => exact absurd hts (hno _ hv)
    | newLineTs hv hts => exact absurd hts (hno _ hv)
    | var hv hts => exact h.rest_delim hv hts (h2 d hd)
  refine ⟨fun j hj hm => ?_, .inr key⟩
  have := key j hj _ hm
  rw [(h.delim _).mpr hnl] at this
  cases this

/-! ### End to end: token types of a text -/

theorem ruleKind_gives {s : SchemaAST} (hs : s.Sensible) {n : String} {re : Regex} (hk : RuleKind s n re)
    {w : List Nat} (hm : MatchesWith False re w) : s.Gives n w := by
  cases hk with
  | newLine => cases hm; exact .newLine
  | first hv hts =>
    obtain ⟨_, p, hp, hps⟩ := hs _ hv
    obtain ⟨x, y, rfl, rfl, h2⟩ := hm
    exact .firstTimestamp hv hts hp hps (((elab_spec p hp hps).2.2.2.2.2 _).mp h2)
  | newLineTs hv hts =>
    obtain ⟨_, p, hp, hps⟩ := hs _ hv
    obtain ⟨x, y, rfl, rfl, h2⟩ := hm
    exact .newLineTimestamp hv hts hp hps (((elab_spec p hp hps).2.2.2.2.2 _).mp h2)
  | var hv hts =>
    obtain ⟨_, p, hp, hps⟩ := hs _ hv
    obtain ⟨x, y, rfl, ⟨c, rfl, h1⟩, h2⟩ := hm
    obtain ⟨a1, r2, a3, a4⟩ := removeDelims_spec (delimBytes_ne s) (delimBytes_max s) p hp hps
    refine .var hv hts hp hps (mem_delimBytes.mp (inRanges_singletons.mp h1)).2 ?_
    exact ((elab_spec _ a3 a1).2.2.2.2.2 _).mp ((a4 _ _).mp h2)

theorem gives_ruleKind {s : SchemaAST} {n : String} {w : List Nat} (hb : AllBytes w) (h : s.Gives n w) :
    ∃ re, RuleKind s n re ∧ MatchesWith False re w := by
  cases h with
  | newLine => exact ⟨_, .newLine, rfl⟩
  | @firstTimestamp v p u hv hts hp hps hm =>
    exact ⟨_, .first hv hts, [_], u, rfl, rfl, ((elab_spec p hp hps).2.2.2.2.2 _).mpr hm⟩
  | @newLineTimestamp v p u hv hts hp hps hm =>
    exact ⟨_, .newLineTs hv hts, [_], u, rfl, rfl, ((elab_spec p hp hps).2.2.2.2.2 _).mpr hm⟩
  | @var v p d u hv hts hp hps hd hm =>
    obtain ⟨a1, r2, a3, a4⟩ := removeDelims_spec (delimBytes_ne s) (delimBytes_max s) p hp hps
    refine ⟨_, .var hv hts, [d], u, rfl, ⟨d, rfl, ?_⟩, (a4 _ _).mpr (((elab_spec _ a3 a1).2.2.2.2.2 _).mpr hm)⟩
    exact inRanges_singletons.mpr (mem_delimBytes.mpr ⟨hb d (by simp), hd⟩)

theorem LexerOf.gives_complete {s addr t L} (h : LexerOf s addr t L) (hs : s.Sensible)
    (hinj : ∀ a b, addr a = addr b → a = b) {n : String} {w : List Nat} (hb : AllBytes w) (hg : s.Gives n w) :
    ∃ id, t.getSymbolId n = some id ∧ id ∈ L.dfa.idsOn w := by
  obtain ⟨re, hk, hm⟩ := gives_ruleKind hb hg
  obtain ⟨r, hr, hre, hid⟩ := h.rule hk
  obtain ⟨m, hn, _, h3⟩ := h.nfa hinj
  refine ⟨r.id, hid, (h3 w _ hb).mpr ⟨r, hr, (acceptsAlone_iff hn hr w).mpr ?_, rfl⟩⟩
  have hc : r.regex.ClassesOk := by
    have := (hk.headed hs).1
    rw [hre]
    cases hk with
    | newLine => trivial
    | first _ _ => exact ⟨trivial, this.2.2.2⟩
    | newLineTs _ _ => exact ⟨trivial, this.2.2.2⟩
    | var _ _ => exact ⟨this.2.2.1, this.2.2.2⟩
  exact lang_complete r.regex hc w hb (by rw [hre]; exact hm)

theorem LexerOf.gives_sound {s addr t L} (h : LexerOf s addr t L) (hs : s.Sensible)
    (hls : ∀ v ∈ s.vars, v.regex.LoopSafe)
    (hinj : ∀ a b, addr a = addr b → a = b) {id : Nat} {w : List Nat} (hb : AllBytes w) (hg : id ∈ L.dfa.idsOn w) :
    ∃ n, t.getSymbolId n = some id ∧ s.Gives n w := by
  obtain ⟨m, hn, _, h3⟩ := h.nfa hinj
  obtain ⟨r, hr, ha, rfl⟩ := (h3 w id hb).mp hg
  obtain ⟨x, hx, rfl⟩ := (acceptsAlone_iff hn hr w).mp ha
  obtain ⟨n, hk, hid⟩ := h.kind r hr
  refine ⟨n, hid, ruleKind_gives hs hk ?_⟩
  have key : r.regex.LoopSafe ∧ r.regex.BoundsOk ∧ r.regex.ClassesOk := by
    have := (hk.headed hs).1
    revert this
    generalize r.regex = re at hk
    intro this
    cases hk with
    | newLine => exact ⟨trivial, trivial, trivial⟩
    | first hv _ =>
      obtain ⟨_, p, hp, hps⟩ := hs _ hv
      exact ⟨⟨trivial, hls _ hv⟩, ⟨trivial, (elab_spec p hp hps).1⟩, trivial, this.2.2.2⟩
    | newLineTs hv _ =>
      obtain ⟨_, p, hp, hps⟩ := hs _ hv
      exact ⟨⟨trivial, hls _ hv⟩, ⟨trivial, (elab_spec p hp hps).1⟩, trivial, this.2.2.2⟩
    | var hv _ =>
      obtain ⟨_, p, hp, hps⟩ := hs _ hv
      exact ⟨⟨trivial, removeDelims_loopSafe _ _ (hls _ hv)⟩, ⟨trivial, removeDelims_boundsOk _ _ (elab_spec p hp hps).1⟩,
        this.2.2.1, this.2.2.2⟩
  exact lang_sound r.regex key.1 key.2.1 key.2.2 x hx

/-- Texts of a type that is none of the three special ones. -/
theorem LexerOf.var_text {s addr t L} (h : LexerOf s addr t L) (hs : s.Sensible)
    (hinj : ∀ a b, addr a = addr b → a = b) {n : String} {id : Nat} (hid : t.getSymbolId n = some id)
    (hn : n ≠ "newLine" ∧ n ≠ "firstTimestamp" ∧ n ≠ "newLineTimestamp")
    {w : List Nat} (hb : AllBytes w) (hg : id ∈ L.dfa.idsOn w) :
    ∃ c v, w = c :: v ∧ v ≠ [] ∧ L.isDelim c = true ∧ ∀ d ∈ v, L.isDelim d = false := by
  obtain ⟨m, hm, _, h3⟩ := h.nfa hinj
  obtain ⟨r, hr, ha, rfl⟩ := (h3 w id hb).mp hg
  obtain ⟨n', hk, hid'⟩ := h.kind r hr
  obtain ⟨ds, _, _, _, _, _, hsym, _⟩ := addRules_ok h.tables
  have hnn : n' = n := by
    have h1 := (hsym.inverse _ _).mp hid
    have h2 := (hsym.inverse _ _).mp hid'
    rw [h1] at h2; simpa using h2.symm
  subst hnn
  obtain ⟨m1, hb1, hacc⟩ := ha
  obtain ⟨x, q, hp, hx, hq⟩ := hacc
  obtain ⟨own, hR⟩ := buildNfa_regions (rules := [r]) (fun r' hr' => by
    simp only [List.mem_singleton] at hr'; subst hr'; exact (hk.headed hs).1) hb1
  obtain ⟨ends, hI⟩ := buildNfa_inv hb1
  have hw := (acceptsAlone_iff hm hr w).mp ⟨m1, hb1, x, q, hp, hx, hq⟩
  obtain ⟨y, hy, hyw⟩ := hw
  have hlen := hk.words hs y hy
  rw [hyw] at hlen
  rw [hI.root] at hp
  rcases hR.root_path hI.wf hp with ⟨rfl, _⟩ | ⟨r', hr', c, v, h4, h5, h6⟩
  · cases hx
    rcases hlen with ⟨_, h⟩ | h
    · cases h
    · cases h
  · simp only [List.mem_singleton] at hr'; subst hr'
    rw [hx] at h4
    generalize r'.regex = re at hk h5 h6 hlen
    cases hk with
    | newLine => exact absurd rfl hn.1
    | first _ _ => exact absurd rfl hn.2.1
    | newLineTs _ _ => exact absurd rfl hn.2.2
    | var hv hts =>
      have hc := (h.delim c).mpr (mem_delimBytes.mp (possible_singletons.mp h5)).2
      have hv' : ∀ d ∈ v, L.isDelim d = false := fun d hd => h.rest_delim hv hts (h6 d hd)
      refine ⟨c, v, h4, ?_, hc, hv'⟩
      rintro rfl
      rw [h4] at hlen
      rcases hlen with ⟨hl, _⟩ | hl
      · cases hl
      · simp at hl

end LogSurgeon
