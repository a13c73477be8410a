import Verif.Proofs.SchemaLexer
import Verif.Props.Dfa
/-
C05 (types), C07 and C08 (schemas), C13, C15, C16, C17, C18: what a schema is turned into.

The reader needs: `Spec/Schema.lean` (`IsDelim`, `delimBytes`, `Sensible`, `dotAs`, `Gives`), `Spec/Pattern.lean`
(meaning of schema regexes) and from the model `SchemaAST`, `SchemaAST.addSchemaVar`, `buildLexer` (the `LogParser`
constructor), `getSymbolId`, `getIdSymbol`; `L.dfa.idsOn w` are the types the lexer reports for the text `w`.
-/
namespace LogSurgeon

/-! ### A concrete schema used to show that the hypotheses can be met -/

/-- `delimiters: \n`, then `timestamp:\d\d`, `num:\d+`, `path:/.+`. -/
def exSchema : SchemaAST where
  delims := [[44], [32, 10]]
  vars := [⟨"timestamp", ((Pat.cat .digit .digit).elab).getD (.empty [])⟩,
    ⟨"num", ((Pat.plus .digit).elab).getD (.empty [])⟩,
    ⟨"path", ((Pat.cat (.lit 47) (.plus .wild)).elab).getD (.empty [])⟩]

theorem exSchema_sensible : exSchema.Sensible := by
  intro v hv
  simp only [exSchema, List.mem_cons, List.not_mem_nil, or_false] at hv
  rcases hv with rfl | rfl | rfl
  · exact ⟨(by decide : '$' ∉ "timestamp".toList), .cat .digit .digit, rfl, trivial, trivial⟩
  · exact ⟨(by decide : '$' ∉ "num".toList), .plus .digit, rfl, trivial⟩
  · exact ⟨(by decide : '$' ∉ "path".toList), .cat (.lit 47) (.plus .wild), rfl, trivial, trivial⟩

/-- The constructor succeeds whenever the rules are accepted. -/
theorem buildLexer_total {s : SchemaAST} (hs : s.Sensible) {t : ParserTables} (h : ParserTables.addRules s = .ok t)
    {addr : Nat → Nat} (hinj : ∀ a b, addr a = addr b → a = b) : ∃ L, buildLexer s addr = .ok (t, L) := by
  have hno : ∀ r ∈ t.rules, r.regex.NoInteger := by
    obtain ⟨ds, _, _, _, _, _, _, _, h8, _⟩ := addRules_ok h
    intro r hr
    obtain ⟨⟨n, re⟩, h1, h2, h3⟩ := forall₂_right h8 r hr
    rw [h3]
    exact ((ruleKind_iff.mp h1).headed hs).2
  obtain ⟨n, hn⟩ := buildNfa_total t.rules hno
  obtain ⟨d, hd, _⟩ := dfa_ids_spec hn hinj
  refine ⟨{ dfa := d, isDelim := t.isDelim, hasDelims := t.hasDelims }, ?_⟩
  simp only [buildLexer, h, generateDfa, hn, Option.bind_some, hd]

theorem exSchema_accepted (addr : Nat → Nat) (hinj : ∀ a b, addr a = addr b → a = b) :
    ∃ t L, buildLexer exSchema addr = .ok (t, L) := by
  have : ∃ t, ParserTables.addRules exSchema = .ok t := by
    have h : (match ParserTables.addRules exSchema with | .ok _ => true | .error _ => false) = true := by decide +kernel
    cases hh : ParserTables.addRules exSchema with
    | ok t => exact ⟨t, rfl⟩
    | error e => rw [hh] at h; cases h
  obtain ⟨t, ht⟩ := this
  obtain ⟨L, hL⟩ := buildLexer_total exSchema_sensible ht hinj
  exact ⟨t, L, hL⟩

/-! ### C18 delimiters -/

/-- C18: the delimiters of the lexer are exactly the characters of the last `delimiters:` line and the virtual
start-of-file character. -/
theorem C18_delimiters {s : SchemaAST} {addr : Nat → Nat} {t : ParserTables} {L : Lexer}
    (h : buildLexer s addr = .ok (t, L)) (c : Nat) :
    L.isDelim c = true ↔ c = cCharStartOfFile ∨ ∃ ds, s.delims.getLast? = some ds ∧ c ∈ ds :=
  (buildLexer_ok h).delim c

/-- C18: a schema without delimiters is rejected with an exception. -/
theorem C18_none_rejected {s : SchemaAST} (h : s.delims = []) (addr : Nat → Nat) :
    buildLexer s addr = .error .throws := by
  have : ParserTables.addRules s = .error .throws := by
    unfold ParserTables.addRules
    rw [h]
    have : ParserTables.init.delimList = [] := by
      unfold ParserTables.delimList ParserTables.init; simp
    simp [ParserTables.addAllDelimiters, this]
  simp [buildLexer, this]

/-- C18: earlier `delimiters:` lines leave no residue: the parser is exactly the one for the schema with the last
line only. -/
theorem C18_no_residue {vars : List SchemaVar} {l : List (List Nat)} {ds : List Nat}
    (hl : ∀ d ∈ l, d ≠ [] ∧ ∀ c ∈ d, c < cSizeOfByte) (addr : Nat → Nat) :
    buildLexer ⟨vars, l ++ [ds]⟩ addr = buildLexer ⟨vars, [ds]⟩ addr := by
  have key : ∀ t : ParserTables, ParserTables.addAllDelimiters (l ++ [ds]) t = ParserTables.addAllDelimiters [ds] t := by
    induction l with
    | nil => intro t; rfl
    | cons d l ih =>
      intro t
      have hd := hl d (.head _)
      have hany : (d.any fun d => decide (cSizeOfByte ≤ d)) = false := by
        rw [List.any_eq_false]
        intro c hc
        have := hd.2 c hc
        simp; omega
      have : t.addDelimiters d = some { t with isDelim := delimTable d, hasDelims := true } := by
        unfold ParserTables.addDelimiters
        rw [hany]
        simp [hd.1]
      simp only [List.cons_append, ParserTables.addAllDelimiters, this, Option.bind_some]
      rw [ih (fun x hx => hl x (.tail _ hx))]
      simp only [ParserTables.addAllDelimiters, ParserTables.addDelimiters]
  simp only [buildLexer, ParserTables.addRules, key]

/-- The example schema has two `delimiters:` lines; a comma is no delimiter. -/
example (addr : Nat → Nat) (hinj : ∀ a b, addr a = addr b → a = b) :
    ∃ t L, buildLexer exSchema addr = .ok (t, L) ∧ L.isDelim 32 = true ∧ L.isDelim 44 = false := by
  obtain ⟨t, L, h⟩ := exSchema_accepted addr hinj
  refine ⟨t, L, h, (C18_delimiters h 32).mpr (.inr ⟨[32, 10], rfl, by decide⟩), ?_⟩
  cases hh : L.isDelim 44 with
  | false => rfl
  | true =>
    rcases (C18_delimiters h 44).mp hh with h | ⟨ds, h1, h2⟩
    · revert h; decide
    · have : ds = [32, 10] := by
        have h1 : some [32, 10] = some ds := h1
        simpa using h1.symm
      subst this; revert h2; decide

/-! ### C16 symbol ids -/

/-- C16: names and ids are in bijection; the ids are `0 .. n-1`; the reserved names have their ids; a name has an id iff
it is reserved or declared (`timestamp` only stands for the two reserved timestamp types). -/
theorem C16_bijection {s : SchemaAST} {addr : Nat → Nat} {t : ParserTables} {L : Lexer}
    (h : buildLexer s addr = .ok (t, L)) :
    (∀ name id, t.getSymbolId name = some id ↔ t.getIdSymbol id = some name) ∧
    (∃ n, ∀ id, (∃ name, t.getIdSymbol id = some name) ↔ id < n) ∧
    (∀ p ∈ [("$end", 0), ("$UncaughtString", 1), ("int", 2), ("float", 3), ("hex", 4), ("firstTimestamp", 5),
        ("newLineTimestamp", 6), ("newLine", 7)], t.getSymbolId p.1 = some p.2) ∧
    (∀ name, (∃ id, t.getSymbolId name = some id) ↔
      name ∈ ["$end", "$UncaughtString", "int", "float", "hex", "firstTimestamp", "newLineTimestamp", "newLine"] ∨
      ∃ v ∈ s.vars, v.name = name ∧ name ≠ "timestamp") := by
  obtain ⟨ds, _, _, _, _, _, hsym, h7, _⟩ := addRules_ok (buildLexer_ok h).tables
  refine ⟨hsym.inverse, ⟨t.symbolId.length, fun id => ?_⟩, ?_, ?_⟩
  · rw [hsym.ids id]
    unfold ParserTables.getIdSymbol
    rw [lookup_isSome_iff, hsym.swap, List.map_map]
    rfl
  · intro p hp
    exact (lookup_eq_some_of_nodup hsym.names).mpr (hsym.reserved p hp)
  · intro name
    have h7 := h7 name
    show (∃ id, t.symbolId.lookup name = some id) ↔ _
    rw [h7]
    have e1 : (∃ i, (name, i) ∈ reserved) ↔ name ∈ ["$end", "$UncaughtString", "int", "float", "hex", "firstTimestamp",
        "newLineTimestamp", "newLine"] := by
      simp only [reserved, List.mem_cons, Prod.mk.injEq, List.not_mem_nil, or_false]
      constructor
      · rintro ⟨i, h⟩
        rcases h with ⟨h, _⟩ | ⟨h, _⟩ | ⟨h, _⟩ | ⟨h, _⟩ | ⟨h, _⟩ | ⟨h, _⟩ | ⟨h, _⟩ | ⟨h, _⟩ <;> simp [h]
      · rintro (h | h | h | h | h | h | h | h)
        exacts [⟨0, by simp [h]⟩, ⟨1, by simp [h]⟩, ⟨2, by simp [h]⟩, ⟨3, by simp [h]⟩, ⟨4, by simp [h]⟩, ⟨5, by simp [h]⟩,
          ⟨6, by simp [h]⟩, ⟨7, by simp [h]⟩]
    rw [e1]
    constructor
    · rintro (h | ⟨v, hv, rfl, hts⟩)
      · exact .inl h
      · exact .inr ⟨v, hv, rfl, hts⟩
    · rintro (h | ⟨v, hv, rfl, hts⟩)
      · exact .inl h
      · exact .inr ⟨v, hv, rfl, hts⟩

/-- C16: ids of new names are given in order of declaration: the first name that is not reserved gets 8. -/
theorem C16_every_rule_has_its_id {s : SchemaAST} {addr : Nat → Nat} {t : ParserTables} {L : Lexer}
    (h : buildLexer s addr = .ok (t, L)) :
    List.Forall₂ (fun nr r => t.getSymbolId nr.1 = some r.id ∧ r.regex = nr.2) s.namedRules t.rules := by
  obtain ⟨ds, _, _, _, _, _, _, _, h8, _⟩ := addRules_ok (buildLexer_ok h).tables
  exact h8

example (addr : Nat → Nat) (hinj : ∀ a b, addr a = addr b → a = b) :
    ∃ t L id, buildLexer exSchema addr = .ok (t, L) ∧ t.getSymbolId "path" = some id ∧ t.getIdSymbol id = some "path" := by
  obtain ⟨t, L, h⟩ := exSchema_accepted addr hinj
  obtain ⟨h1, _, _, h4⟩ := C16_bijection h
  obtain ⟨id, hid⟩ := (h4 "path").mpr (.inr ⟨_, .tail _ (.tail _ (.head _)), rfl, by decide⟩)
  exact ⟨t, L, id, h, hid, (h1 _ _).mp hid⟩

/-! ### C17 insertion order -/

/-- C17: `add_variable(text, p)` inserts before the `p`-th variable: afterwards the new variable is at index `p`, the
earlier ones are where they were, the later ones are shifted by one; `-1` appends. -/
theorem C17_insert {s parsed s' : SchemaAST} {v : SchemaVar} {vs : List SchemaVar} {p : Int} (hp : parsed.vars = v :: vs)
    (h : s.addVariable parsed p = some s') :
    s'.delims = s.delims ∧ s'.vars.length = s.vars.length + 1 ∧
    ∃ k : Nat, (p = -1 → k = s.vars.length) ∧ (p ≠ -1 → (k : Int) = p) ∧ k ≤ s.vars.length ∧
      s'.vars[k]? = some v ∧ (∀ i, i < k → s'.vars[i]? = s.vars[i]?) ∧ (∀ i, k ≤ i → s'.vars[i + 1]? = s.vars[i]?) := by
  unfold SchemaAST.addVariable at h
  rw [hp] at h
  simp only [SchemaAST.addSchemaVar] at h
  split at h
  · rename_i h1
    cases h
    refine ⟨rfl, by simp, s.vars.length, fun _ => rfl, fun h => absurd h1 h, Nat.le_refl _, by simp, ?_, ?_⟩
    · intro i hi; exact List.getElem?_append_left hi
    · intro i hi
      rw [List.getElem?_eq_none (by simp; omega), List.getElem?_eq_none hi]
  · rename_i h1
    split at h
    · rename_i h2
      cases h
      have hlen : (s.vars.take p.toNat).length = p.toNat := by simp; omega
      refine ⟨rfl, ?_, p.toNat, fun h => absurd h h1, fun _ => Int.toNat_of_nonneg h2.1, h2.2, ?_, ?_, ?_⟩
      · simp; omega
      · rw [List.getElem?_append_right (by omega), hlen]; simp
      · intro i hi
        rw [List.getElem?_append_left (by omega), List.getElem?_take_of_lt hi]
      · intro i hi
        rw [List.getElem?_append_right (by omega), hlen, show i + 1 - p.toNat = (i - p.toNat) + 1 by omega,
          List.getElem?_cons_succ, List.getElem?_drop]
        congr 1; omega
    · cases h

/-- C17: the call is defined exactly for positions `-1 .. size` (otherwise it inserts outside of the vector). -/
theorem C17_defined {s parsed : SchemaAST} {v : SchemaVar} {vs : List SchemaVar} {p : Int} (hp : parsed.vars = v :: vs) :
    (∃ s', s.addVariable parsed p = some s') ↔ -1 ≤ p ∧ p ≤ s.vars.length := by
  unfold SchemaAST.addVariable
  rw [hp]
  simp only [SchemaAST.addSchemaVar]
  by_cases h1 : p = -1
  · simp [h1]
  · rw [if_neg h1]
    by_cases h2 : 0 ≤ p ∧ p.toNat ≤ s.vars.length
    · rw [if_pos h2]; simp; omega
    · rw [if_neg h2]; simp; omega

/-- C17: the generated rules follow the order of the schema: the newline rule, then for every variable in order its rule
(two rules for a timestamp), and nothing else. -/
theorem C17_rule_order {s : SchemaAST} {addr : Nat → Nat} {t : ParserTables} {L : Lexer}
    (h : buildLexer s addr = .ok (t, L)) :
    t.rules.map (fun r => t.getIdSymbol r.id) =
      some "newLine" :: s.vars.flatMap fun v =>
        if v.name = "timestamp" then [some "firstTimestamp", some "newLineTimestamp"] else [some v.name] := by
  obtain ⟨ds, _, _, _, _, _, hsym, _, h8, _⟩ := addRules_ok (buildLexer_ok h).tables
  have h9 : t.rules.map (fun r => t.getIdSymbol r.id) = s.namedRules.map fun nr => some nr.1 := by
    revert h8
    generalize s.namedRules = nrs
    generalize t.rules = rs
    intro h8
    induction h8 with
    | nil => rfl
    | cons h _ ih =>
      simp only [List.map_cons, ih]
      rw [(hsym.inverse _ _).mp h.1]
  rw [h9]
  simp only [SchemaAST.namedRules, List.map_cons, List.map_flatMap]
  congr 1
  congr 1
  funext v
  unfold SchemaVar.rules
  split <;> rfl

example : ∃ s', SchemaAST.addVariable exSchema ⟨[⟨"x", .literal [] 120⟩], []⟩ 1 = some s' ∧
    s'.vars.map (·.name) = ["timestamp", "x", "num", "path"] := ⟨_, rfl, rfl⟩

/-! ### C13 wildcard -/

/-- C13: after schema processing the `.` of a schema matches exactly the code points that are no delimiters. -/
theorem C13_wildcard {s : SchemaAST} {addr : Nat → Nat} {t : ParserTables} {L : Lexer}
    (h : buildLexer s addr = .ok (t, L)) {re : Regex} (hre : Pat.wild.elab = some re) (c : Nat) :
    Matches (re.removeDelims t.delimList) [c] ↔ c ≤ cUnicodeMax ∧ L.isDelim c = false := by
  have hL := buildLexer_ok h
  obtain ⟨ds, h1, _, _, h4, _⟩ := addRules_ok hL.tables
  have hdl : t.delimList = s.delimBytes := by
    unfold ParserTables.delimList SchemaAST.delimBytes
    rw [h4, h1]
    simp only [Option.getD_some]
    congr 1
    funext c
    exact delimTable_eq ds c
  rw [hdl]
  obtain ⟨a1, r2, a3, a4⟩ := removeDelims_spec (delimBytes_ne s) (delimBytes_max s) .wild hre trivial
  unfold Matches
  rw [a4, (elab_spec _ a3 a1).2.2.2.2.1]
  simp only [Pat.dotAs, Pat.Matches, List.cons.injEq, and_true, if_true, List.mem_map, forall_exists_index, and_imp,
    forall_apply_eq_imp_iff₂, ClassItem.Has]
  constructor
  · rintro ⟨_, rfl, h5, h6⟩
    refine ⟨h5, ?_⟩
    cases hd : L.isDelim c with
    | false => rfl
    | true => exact absurd rfl (h6 c (hL.delimByte hd))
  · rintro ⟨h5, h6⟩
    refine ⟨c, rfl, h5, fun d hd hcd => ?_⟩
    subst hcd
    rw [(hL.delim c).mpr (mem_delimBytes.mp hd).2] at h6; cases h6

/-- C13, for whole variables: the regex of a variable with its wildcards processed means the pattern with `.` written
as `[^delimiters]`. -/
theorem C13_pattern {s : SchemaAST} {p : Pat} {re : Regex} (hp : p.elab = some re) (hs : p.Sensible) (w : List Nat) :
    Matches (re.removeDelims s.delimBytes) w ↔ (p.dotAs s.delimBytes).Matches w := by
  obtain ⟨a1, r2, a3, a4⟩ := removeDelims_spec (delimBytes_ne s) (delimBytes_max s) p hp hs
  unfold Matches
  rw [a4, (elab_spec _ a3 a1).2.2.2.2.1]

example : (Pat.cat (.lit 47) (.plus .wild)).dotAs exSchema.delimBytes =
    .cat (.lit 47) (.plus (.cls true [.lit 10, .lit 32, .lit 253])) := by decide +kernel

/-! ### C15 variables never contain delimiters -/

/-- C15: a text recognised as a variable (any type but the newline and the two timestamp types) consists of one
delimiter (possibly the virtual start-of-file character) and at least one more character, none of them a delimiter. -/
theorem C15_no_delimiter {s : SchemaAST} (hs : s.Sensible) {addr : Nat → Nat} (hinj : ∀ a b, addr a = addr b → a = b)
    {t : ParserTables} {L : Lexer} (h : buildLexer s addr = .ok (t, L)) {name : String} {id : Nat}
    (hid : t.getSymbolId name = some id) (hn : name ≠ "newLine" ∧ name ≠ "firstTimestamp" ∧ name ≠ "newLineTimestamp")
    {w : List Nat} (hw : AllBytes w) (hmatch : id ∈ L.dfa.idsOn w) :
    ∃ c v, w = c :: v ∧ v ≠ [] ∧ s.IsDelim c ∧ ∀ d ∈ v, ¬ s.IsDelim d := by
  have hL := buildLexer_ok h
  obtain ⟨c, v, h1, h2, h3, h4⟩ := hL.var_text hs hinj hid hn hw hmatch
  refine ⟨c, v, h1, h2, (hL.delim c).mp h3, fun d hd hc => ?_⟩
  have := h4 d hd
  rw [(hL.delim d).mpr hc] at this; cases this

/-- C15: a schema in which some variable could match a text containing a delimiter is rejected. -/
theorem C15_rejected {s : SchemaAST} (hs : s.Sensible) {v : SchemaVar} (hv : v ∈ s.vars)
    (hn : v.name ∉ ["timestamp", "newLine", "firstTimestamp", "newLineTimestamp"])
    {p : Pat} (hp : p.elab = some v.regex) (hps : p.Sensible) {w : List Nat} (hw : AllBytes w)
    (hm : (p.dotAs s.delimBytes).atLeastOne.Matches w) {d : Nat} (hd : d ∈ w) (hdel : s.IsDelim d)
    {addr : Nat → Nat} (hinj : ∀ a b, addr a = addr b → a = b) : ∃ e, buildLexer s addr = .error e := by
  cases hb : buildLexer s addr with
  | error e => exact ⟨e, rfl⟩
  | ok x =>
    obtain ⟨t, L⟩ := x
    have hL := buildLexer_ok hb
    simp only [List.mem_cons, List.not_mem_nil, or_false, not_or] at hn
    have hb' : AllBytes (cCharStartOfFile :: w) := by
      intro c hc
      rcases List.mem_cons.mp hc with rfl | hc
      · decide
      · exact hw c hc
    obtain ⟨id, hid, hmem⟩ := hL.gives_complete hs hinj hb' (.var hv hn.1 hp hps (.inl rfl) hm)
    obtain ⟨c, u, h1, _, _, h4⟩ := C15_no_delimiter hs hinj hb hid hn.2 hb' hmem
    cases h1
    exact absurd hdel (h4 d hd)

/-- The hypotheses of `C15_rejected` hold for `x: a,+` with delimiters `,\n`. -/
example : ∃ s : SchemaAST, s.Sensible ∧ ∃ v ∈ s.vars, v.name ∉ ["timestamp", "newLine", "firstTimestamp", "newLineTimestamp"] ∧
    ∃ p : Pat, p.elab = some v.regex ∧ p.Sensible ∧ (p.dotAs s.delimBytes).atLeastOne.Matches [97, 44] ∧ s.IsDelim 44 := by
  refine ⟨⟨[⟨"x", .cat [] (.literal [] 97) (.mult [] (.literal [] 44) 1 0)⟩], [[44, 10]]⟩, ?_, _, .head _, by simp,
    .cat (.lit 97) (.plus (.lit 44)), rfl, ⟨trivial, trivial⟩, ?_, .inr ⟨_, rfl, by simp⟩⟩
  · intro v hv
    simp only [List.mem_cons, List.not_mem_nil, or_false] at hv
    subst hv
    exact ⟨(by decide : '$' ∉ "x".toList), .cat (.lit 97) (.plus (.lit 44)), rfl, trivial, trivial⟩
  · exact ⟨[97], [44], rfl, rfl, 1, Nat.le_refl _,
      .succ (s := [44]) (t := []) rfl .zero⟩

/-! ### C05, from the schema to the reported types -/

/-- C05 (schema level): the types the lexer reports for a text are exactly those of the rules of the schema (in the order of their
declaration: `namedRules`) whose automaton, built alone, accepts the text: rules neither disturb each other nor get lost.  (What
the automaton of a rule accepts is the subject of C07 and C08.) -/
theorem C05_types_exact {s : SchemaAST} {addr : Nat → Nat} (hinj : ∀ a b, addr a = addr b → a = b)
    {t : ParserTables} {L : Lexer} (h : buildLexer s addr = .ok (t, L)) {name : String} {id : Nat}
    (hid : t.getSymbolId name = some id) {w : List Nat} (hw : AllBytes w) :
    id ∈ L.dfa.idsOn w ↔ ∃ nr ∈ s.namedRules, nr.1 = name ∧ Rule.AcceptsAlone ⟨id, nr.2⟩ w := by
  classical
  have hL := buildLexer_ok h
  obtain ⟨hinv, _⟩ := C16_bijection h
  have hall := C16_every_rule_has_its_id h
  rw [(C10_ids_complete hinj hL.gen hw).mem_iff]
  simp only [List.mem_map, List.mem_filter, decide_eq_true_eq]
  constructor
  · rintro ⟨r, ⟨hr, ha⟩, rfl⟩
    obtain ⟨nr, h1, h2, h3⟩ := forall₂_right hall r hr
    have e1 := (hinv _ _).mp hid
    have e2 := (hinv _ _).mp h2
    rw [e1] at e2
    cases e2
    exact ⟨nr, h1, rfl, by rw [← h3]; exact ha⟩
  · rintro ⟨nr, h1, rfl, ha⟩
    obtain ⟨r, hr, h2, h3⟩ := forall₂_left hall nr h1
    rw [hid] at h2
    cases h2
    exact ⟨r, ⟨hr, by rw [← h3] at ha; exact ha⟩, rfl⟩

/-- C08 at the level of schemas: the types the lexer reports for a text are exactly the ones the schema gives it, under the
restriction of C08 (`LoopSafe`) on the regexes. -/
theorem C08_schema_types_partial {s : SchemaAST} (hs : s.Sensible) (hls : ∀ v ∈ s.vars, v.regex.LoopSafe)
    {addr : Nat → Nat} (hinj : ∀ a b, addr a = addr b → a = b)
    {t : ParserTables} {L : Lexer} (h : buildLexer s addr = .ok (t, L)) {name : String} {id : Nat}
    (hid : t.getSymbolId name = some id) {w : List Nat} (hw : AllBytes w) :
    id ∈ L.dfa.idsOn w ↔ s.Gives name w := by
  have hL := buildLexer_ok h
  obtain ⟨hinv, _⟩ := C16_bijection h
  constructor
  · intro hm
    obtain ⟨n, h1, h2⟩ := hL.gives_sound hs hls hinj hw hm
    have e1 := (hinv _ _).mp hid
    have e2 := (hinv _ _).mp h1
    rw [e1] at e2
    cases e2
    exact h2
  · intro hg
    obtain ⟨id', h1, h2⟩ := hL.gives_complete hs hinj hw hg
    rw [hid] at h1; cases h1; exact h2

/-- C07 at the level of schemas: every type the schema gives a text is reported. -/
theorem C07_schema_types {s : SchemaAST} (hs : s.Sensible)
    {addr : Nat → Nat} (hinj : ∀ a b, addr a = addr b → a = b)
    {t : ParserTables} {L : Lexer} (h : buildLexer s addr = .ok (t, L)) {name : String}
    {w : List Nat} (hw : AllBytes w) (hg : s.Gives name w) : ∃ id, t.getSymbolId name = some id ∧ id ∈ L.dfa.idsOn w :=
  (buildLexer_ok h).gives_complete hs hinj hw hg

/-- The example schema is loop-safe, and it gives ` 42` the type `num`. -/
example : (∀ v ∈ exSchema.vars, v.regex.LoopSafe) ∧ exSchema.Gives "num" [32, 52, 50] := by
  constructor
  · intro v hv
    simp only [exSchema, List.mem_cons, List.not_mem_nil, or_false] at hv
    rcases hv with rfl | rfl | rfl <;>
    simp [Pat.elab, plusRule, Regex.mkMult, Regex.mkCat, Regex.LoopSafe]
  · refine .var (v := ⟨"num", ((Pat.plus .digit).elab).getD (.empty [])⟩) (p := .plus .digit) (.tail _ (.head _)) (by decide) rfl
      trivial (.inr ⟨_, rfl, by decide⟩) ⟨2, by omega, ?_⟩
    exact .succ (s := [52]) (t := [50]) ⟨52, rfl, by omega, by omega⟩
      (.succ (s := [50]) (t := []) ⟨50, rfl, by omega, by omega⟩ .zero)

end LogSurgeon
