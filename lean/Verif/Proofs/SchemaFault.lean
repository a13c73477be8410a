import Verif.Proofs.SchemaReject
/-
Which schema texts lead to undefined behaviour in the semantic rules.
-/
namespace LogSurgeon
open Grammar

theorem Kinds.get : ∀ {xs : List Kind} {i : Nat} {x : Kind} {k : Nat} {ls : List Lexeme} {vs : List SemChild}, xs[i]? = some x → Kinds xs k ls vs →
    ∃ k' l' v pre post, vs[i]? = some v ∧ x.Is k' l' v ∧ ls = pre ++ l' ++ post
  | [], _, _, _, _, _, h, _ => by simp at h
  | y :: ys, 0, x, k, ls, vs, h, hk => by
    obtain ⟨l1, v, l2, vs2, rfl, rfl, h1, _⟩ := hk
    simp only [List.getElem?_cons_zero, Option.some.injEq] at h
    subst h
    exact ⟨k, l1, v, [], l2, rfl, h1, by simp⟩
  | y :: ys, i + 1, x, k, ls, vs, h, hk => by
    obtain ⟨l1, v, l2, vs2, rfl, rfl, _, h2⟩ := hk
    obtain ⟨k', l', v', pre, post, a, b, rfl⟩ := Kinds.get (i := i) (by simpa using h) h2
    exact ⟨k', l', v', l1 ++ pre, post, by simpa using a, b, by simp⟩

def Kind.isRegex : Kind → Bool
  | .pat _ | .openC | .range | .digit | .white | .wild | .int => true
  | _ => false
def Kind.isGroup : Kind → Bool
  | .openC | .range | .digit => true
  | _ => false
def Kind.isOne : Kind → Bool
  | .range | .digit => true
  | _ => false
def Kind.isInt : Kind → Bool
  | .int => true
  | _ => false
def Kind.isName : Kind → Bool
  | .name => true
  | _ => false
def Kind.isDelims : Kind → Bool
  | .delims => true
  | _ => false
def Kind.isVar : Kind → Bool
  | .var => true
  | _ => false
def Kind.isFile : Kind → Bool
  | .file => true
  | _ => false
def Kind.isTok : Kind → Bool
  | .tok _ => true
  | _ => false
def Kind.isChar : Kind → Bool
  | .tok s => s != "Delimiters"
  | _ => false

def kindAt (xs : List Kind) (i : Nat) (f : Kind → Bool) : Bool := (xs[i]?).any f

theorem kindAt_get {xs : List Kind} {i : Nat} {f : Kind → Bool} (h : kindAt xs i f = true) {k : Nat} {ls : List Lexeme} {vs : List SemChild}
    (hk : Kinds xs k ls vs) : ∃ x k' l' v, f x = true ∧ vs[i]? = some v ∧ x.Is k' l' v := by
  unfold kindAt at h
  cases hx : xs[i]? with
  | none => rw [hx] at h; cases h
  | some x =>
    rw [hx] at h
    obtain ⟨k', l', v, _, _, h1, h2, _⟩ := hk.get hx
    exact ⟨x, k', l', v, h, h1, h2⟩

section
variable {xs : List Kind} {i : Nat} {k : Nat} {ls : List Lexeme} {vs : List SemChild}

theorem get_regex (h : kindAt xs i Kind.isRegex = true) (hk : Kinds xs k ls vs) : ∃ r, childRegex vs i = .ok r := by
  obtain ⟨x, k', l', v, h1, h2, h3⟩ := kindAt_get h hk
  unfold childRegex
  rw [h2]
  cases x <;> try (cases h1; done)
  · obtain ⟨w, p, r, _, rfl, _⟩ := h3; exact ⟨_, rfl⟩
  · obtain ⟨w, n, is, rs, _, rfl, _⟩ := h3; exact ⟨_, rfl⟩
  · obtain ⟨w, a, b, _, rfl, _⟩ := h3; exact ⟨_, rfl⟩
  · obtain ⟨_, rfl⟩ := h3; exact ⟨_, rfl⟩
  · obtain ⟨_, rfl⟩ := h3; exact ⟨_, rfl⟩
  · obtain ⟨_, rfl⟩ := h3; exact ⟨_, rfl⟩
  · obtain ⟨ds, _, _, rfl⟩ := h3; exact ⟨_, rfl⟩

theorem get_group (h : kindAt xs i Kind.isGroup = true) (hk : Kinds xs k ls vs) : ∃ t w n rs, childRegex vs i = .ok (.group t w n rs) := by
  obtain ⟨x, k', l', v, h1, h2, h3⟩ := kindAt_get h hk
  unfold childRegex
  rw [h2]
  cases x <;> try (cases h1; done)
  · obtain ⟨w, n, is, rs, _, rfl, _⟩ := h3; exact ⟨_, _, _, _, rfl⟩
  · obtain ⟨w, a, b, _, rfl, _⟩ := h3; exact ⟨_, _, _, _, rfl⟩
  · obtain ⟨_, rfl⟩ := h3; exact ⟨_, _, _, _, rfl⟩

theorem get_one (h : kindAt xs i Kind.isOne = true) (hk : Kinds xs k ls vs) : ∃ t w n r, childRegex vs i = .ok (.group t w n [r]) := by
  obtain ⟨x, k', l', v, h1, h2, h3⟩ := kindAt_get h hk
  unfold childRegex
  rw [h2]
  cases x <;> try (cases h1; done)
  · obtain ⟨w, a, b, _, rfl, _⟩ := h3; exact ⟨_, _, _, _, rfl⟩
  · obtain ⟨_, rfl⟩ := h3; exact ⟨_, _, _, _, rfl⟩

theorem get_int (h : kindAt xs i Kind.isInt = true) (hk : Kinds xs k ls vs) : ∃ t ds, childRegex vs i = .ok (.integer t ds) := by
  obtain ⟨x, k', l', v, h1, h2, h3⟩ := kindAt_get h hk
  unfold childRegex
  rw [h2]
  cases x <;> try (cases h1; done)
  obtain ⟨ds, _, _, rfl⟩ := h3; exact ⟨_, _, rfl⟩

theorem get_name (h : kindAt xs i Kind.isName = true) (hk : Kinds xs k ls vs) : ∃ n, childIdent vs i = .ok n := by
  obtain ⟨x, k', l', v, h1, h2, h3⟩ := kindAt_get h hk
  unfold childIdent
  rw [h2]
  cases x <;> try (cases h1; done)
  obtain ⟨n, _, _, rfl⟩ := h3; exact ⟨_, rfl⟩

theorem get_delims (h : kindAt xs i Kind.isDelims = true) (hk : Kinds xs k ls vs) : ∃ n, childDelims vs i = .ok n := by
  obtain ⟨x, k', l', v, h1, h2, h3⟩ := kindAt_get h hk
  unfold childDelims
  rw [h2]
  cases x <;> try (cases h1; done)
  obtain ⟨w, cs, _, rfl, _⟩ := h3; exact ⟨_, rfl⟩

theorem get_var (h : kindAt xs i Kind.isVar = true) (hk : Kinds xs k ls vs) : ∃ n, childVar vs i = .ok n := by
  obtain ⟨x, k', l', v, h1, h2, h3⟩ := kindAt_get h hk
  unfold childVar
  rw [h2]
  cases x <;> try (cases h1; done)
  obtain ⟨_, n, w, p, r, _, rfl, _⟩ := h3; exact ⟨_, rfl⟩

theorem get_file (h : kindAt xs i Kind.isFile = true) (hk : Kinds xs k ls vs) : ∃ n, childSchema vs i = .ok n := by
  obtain ⟨x, k', l', v, h1, h2, h3⟩ := kindAt_get h hk
  unfold childSchema
  rw [h2]
  cases x <;> try (cases h1; done)
  obtain ⟨s, a, rfl, _⟩ := h3; exact ⟨_, rfl⟩

theorem get_tok (h : kindAt xs i Kind.isTok = true) (hk : Kinds xs k ls vs) : ∃ c, childChar vs i = .ok c := by
  obtain ⟨x, k', l', v, h1, h2, h3⟩ := kindAt_get h hk
  unfold childChar
  rw [h2]
  cases x <;> try (cases h1; done)
  obtain ⟨l, _, rfl, _⟩ := h3
  cases l with
  | char c => exact ⟨c, rfl⟩
  | delimiters => exact ⟨100, rfl⟩

theorem get_char (h : kindAt xs i Kind.isChar = true) (hk : Kinds xs k ls vs) : ∃ c, childOneChar vs i = .ok c := by
  obtain ⟨x, k', l', v, h1, h2, h3⟩ := kindAt_get h hk
  unfold childOneChar
  rw [h2]
  cases x <;> try (cases h1; done)
  obtain ⟨l, _, rfl, hs⟩ := h3
  cases l with
  | char c => exact ⟨c, rfl⟩
  | delimiters =>
    have hs : _ = "Delimiters" := hs
    rw [hs] at h1
    exact absurd h1 (by decide)

/-- The kinds of the children rule out undefined behaviour. -/
def safeRule (xs : List Kind) : SemRule → Bool
  | .null | .newSchema | .complement | .digit | .wildcard | .const _ | .whiteSpace => true
  | .newIdentifier => kindAt xs 0 Kind.isTok
  | .existingIdentifier => kindAt xs 0 Kind.isName && kindAt xs 1 Kind.isTok
  | .schemaVar => kindAt xs 1 Kind.isName && kindAt xs 3 Kind.isRegex
  | .newSchemaWithVar => kindAt xs 0 Kind.isVar
  | .newSchemaWithDelimiters => kindAt xs 2 Kind.isDelims
  | .existingSchemaWithDelimiter => kindAt xs 0 Kind.isFile && kindAt xs 4 Kind.isDelims
  | .existingSchema => kindAt xs 0 Kind.isFile && kindAt xs 2 Kind.isVar
  | .capture => kindAt xs 3 Kind.isName && kindAt xs 5 Kind.isRegex
  | .schemaIdentity => kindAt xs 0 Kind.isFile
  | .identity | .star | .plus => kindAt xs 0 Kind.isRegex
  | .cat => kindAt xs 0 Kind.isRegex && kindAt xs 1 Kind.isRegex
  | .or => kindAt xs 0 Kind.isRegex && kindAt xs 2 Kind.isRegex
  | .addLiteralExisting => kindAt xs 0 Kind.isGroup && kindAt xs 1 Kind.isRegex
  | .addRangeExisting => kindAt xs 0 Kind.isGroup && kindAt xs 1 Kind.isOne
  | .addLiteralNew => kindAt xs 1 Kind.isRegex
  | .addRangeNew => kindAt xs 1 Kind.isOne
  | .middleIdentity => kindAt xs 1 Kind.isRegex
  | .literal | .newInteger => kindAt xs 0 Kind.isChar
  | .cancelLiteral => kindAt xs 1 Kind.isChar
  | .existingInteger => kindAt xs 0 Kind.isInt && kindAt xs 1 Kind.isChar
  | _ => false

theorem literalChar_no_ub (r : Regex) : literalChar .throws r ≠ .error .ub := by
  unfold literalChar; split <;> simp

theorem safe_spec {r : SemRule} (h : safeRule xs r = true) (hk : Kinds xs k ls vs) : r.apply k vs ≠ .error .ub := by
  cases r <;> simp only [safeRule, Bool.and_eq_true, Bool.false_eq_true] at h <;> unfold SemRule.apply
  case null => simp
  case newSchema => simp
  case complement => simp
  case digit => simp
  case wildcard => simp
  case const => simp
  case whiteSpace => simp
  case newIdentifier => obtain ⟨a, ha⟩ := get_tok h hk; simp [ha, bind, Except.bind]
  case existingIdentifier => obtain ⟨a, ha⟩ := get_name h.1 hk; obtain ⟨b, hb⟩ := get_tok h.2 hk; simp [ha, hb, bind, Except.bind]
  case schemaVar => obtain ⟨a, ha⟩ := get_name h.1 hk; obtain ⟨b, hb⟩ := get_regex h.2 hk; simp [ha, hb, bind, Except.bind]
  case newSchemaWithVar => obtain ⟨a, ha⟩ := get_var h hk; simp [ha, bind, Except.bind]
  case newSchemaWithDelimiters => obtain ⟨a, ha⟩ := get_delims h hk; simp [ha, bind, Except.bind]
  case existingSchemaWithDelimiter => obtain ⟨a, ha⟩ := get_file h.1 hk; obtain ⟨b, hb⟩ := get_delims h.2 hk; simp [ha, hb, bind, Except.bind]
  case existingSchema => obtain ⟨a, ha⟩ := get_file h.1 hk; obtain ⟨b, hb⟩ := get_var h.2 hk; simp [ha, hb, bind, Except.bind, SchemaAST.addSchemaVar]
  case capture => obtain ⟨a, ha⟩ := get_name h.1 hk; obtain ⟨b, hb⟩ := get_regex h.2 hk; simp [ha, hb, bind, Except.bind]
  case schemaIdentity => obtain ⟨a, ha⟩ := get_file h hk; simp [ha, bind, Except.bind]
  case identity => obtain ⟨a, ha⟩ := get_regex h hk; simp [ha, bind, Except.bind]
  case star => obtain ⟨a, ha⟩ := get_regex h hk; simp [ha, bind, Except.bind]
  case plus => obtain ⟨a, ha⟩ := get_regex h hk; simp [ha, bind, Except.bind]
  case cat => obtain ⟨a, ha⟩ := get_regex h.1 hk; obtain ⟨b, hb⟩ := get_regex h.2 hk; simp [ha, hb, bind, Except.bind]
  case or => obtain ⟨a, ha⟩ := get_regex h.1 hk; obtain ⟨b, hb⟩ := get_regex h.2 hk; simp [ha, hb, bind, Except.bind]
  case addLiteralExisting =>
    obtain ⟨t, w, n, rs, ha⟩ := get_group h.1 hk
    obtain ⟨b, hb⟩ := get_regex h.2 hk
    simp only [ha, hb, bind, Except.bind, groupParts]
    intro he
    split at he
    · rename_i e he'
      cases he
      exact literalChar_no_ub _ he'
    · cases he
  case addRangeExisting =>
    obtain ⟨t, w, n, rs, ha⟩ := get_group h.1 hk
    obtain ⟨t', w', n', r, hb⟩ := get_one h.2 hk
    simp [ha, hb, bind, Except.bind, groupParts, onlyRange]
  case addLiteralNew =>
    obtain ⟨b, hb⟩ := get_regex h hk
    simp only [hb, bind, Except.bind]
    intro he
    split at he
    · rename_i e he'
      cases he
      exact literalChar_no_ub _ he'
    · cases he
  case addRangeNew =>
    obtain ⟨t', w', n', r, hb⟩ := get_one h hk
    simp [hb, bind, Except.bind, groupParts, onlyRange]
  case middleIdentity => obtain ⟨a, ha⟩ := get_regex h hk; simp [ha, bind, Except.bind]
  case literal => obtain ⟨a, ha⟩ := get_char h hk; simp [ha, bind, Except.bind]
  case newInteger => obtain ⟨a, ha⟩ := get_char h hk; simp [ha, bind, Except.bind]
  case cancelLiteral => obtain ⟨a, ha⟩ := get_char h hk; simp [ha, bind, Except.bind]
  case existingInteger =>
    obtain ⟨t, ds, ha⟩ := get_int h.1 hk
    obtain ⟨b, hb⟩ := get_char h.2 hk
    simp [ha, hb, bind, Except.bind, integerDigits]
end

/-- The other rules and their productions. -/
def riskyDecls : List ((String × List String) × SemRule) :=
  [(("DelimiterString", ["DelimiterString", "Literal"]), .existingDelimiterString), (("DelimiterString", ["Literal"]), .newDelimiterString),
    (("MatchExact", ["CompleteGroup", "Lbrace", "Integer", "Rbrace"]), .exactly),
    (("MatchRange", ["CompleteGroup", "Lbrace", "Integer", "Comma", "Integer", "Rbrace"]), .between),
    (("LiteralRange", ["Literal", "Dash", "Literal"]), .literalRange)]

set_option maxRecDepth 100000 in
theorem D0_safe : ∀ x ∈ D0, x ∈ riskyDecls ∨ safeRule (x.1.2.map kindOf) x.2 = true := by decide +kernel

/-- The fault is in the units, or the units belong to a delimiters line. -/
def FaultIn (ss : List String) (ls : List Lexeme) : Prop :=
  Faulty ls ∨ ("DelimiterString" ∈ ss ∧ ∃ pre w post k p, ls = pre ++ chars w ++ post ∧ Written .literal k w p ∧ ∀ c, p ≠ .lit c)

theorem ub_literalRange {k ls vs} (hk : Kinds [.pat .literal, .tok "Dash", .pat .literal] k ls vs)
    (ha : SemRule.literalRange.apply k vs = .error .ub) : Faulty ls := by
  obtain ⟨_, _, _, _, rfl, rfl, ⟨w, p, r, rfl, rfl, h1, h2⟩, _, _, _, _, rfl, rfl, ⟨l', rfl, rfl, h5⟩,
    _, _, _, _, rfl, rfl, ⟨w', p', r', rfl, rfl, h3, h4⟩, rfl, rfl⟩ := hk
  obtain rfl := stands_Dash h5
  cases r <;> try (exfalso; cases r' <;> cases ha; done)
  rename_i t a
  cases r' <;> try (exfalso; cases ha; done)
  rename_i t b
  obtain rfl := elab_literal h1
  obtain rfl := elab_literal h3
  change (if a < b then Except.ok _ else Except.error _) = _ at ha
  by_cases hab : a < b
  · rw [if_pos hab] at ha
    cases ha
  · exact .range (pre := []) (u := w) (v := w') (post := []) (by simp) h2 h4 (by omega)

theorem count_none {ds : List Nat} (h : repetitionCount ds = none) : 10 < ds.length := by
  unfold repetitionCount at h
  split at h
  · assumption
  · cases h

theorem ub_exactly {k ls vs} (hk : Kinds [.pat .single, .tok "Lbrace", .int, .tok "Rbrace"] k ls vs)
    (ha : SemRule.exactly.apply k vs = .error .ub) : Faulty ls := by
  obtain ⟨_, _, _, _, rfl, rfl, ⟨w, p, r, rfl, rfl, h1, h2⟩, _, _, _, _, rfl, rfl, ⟨l', rfl, rfl, h5⟩,
    _, _, _, _, rfl, rfl, ⟨ds, h3, rfl, rfl⟩, _, _, _, _, rfl, rfl, ⟨l'', rfl, rfl, h6⟩, rfl, rfl⟩ := hk
  obtain rfl := stands_Lbrace h5
  cases hc : repetitionCount ds with
  | none => exact .count (pre := chars w) (c := 123) (ds := ds) (post := [l'']) (by simp) (.inl rfl) h3 (count_none hc)
  | some n =>
    exfalso
    simp [SemRule.apply, childRegex, integerDigits, countOf, hc, bind, Except.bind] at ha

theorem ub_between {k ls vs} (hk : Kinds [.pat .single, .tok "Lbrace", .int, .tok "Comma", .int, .tok "Rbrace"] k ls vs)
    (ha : SemRule.between.apply k vs = .error .ub) : Faulty ls := by
  obtain ⟨_, _, _, _, rfl, rfl, ⟨w, p, r, rfl, rfl, h1, h2⟩, _, _, _, _, rfl, rfl, ⟨l', rfl, rfl, h5⟩,
    _, _, _, _, rfl, rfl, ⟨ds, h3, rfl, rfl⟩, _, _, _, _, rfl, rfl, ⟨l'', rfl, rfl, h6⟩,
    _, _, _, _, rfl, rfl, ⟨ds', h7, rfl, rfl⟩, _, _, _, _, rfl, rfl, ⟨l3, rfl, rfl, h8⟩, rfl, rfl⟩ := hk
  obtain rfl := stands_Lbrace h5
  obtain rfl := stands_Comma h6
  cases hc : repetitionCount ds with
  | none => exact .count (pre := chars w) (c := 123) (ds := ds) (post := .char 44 :: chars (digitsText ds') ++ [l3]) (by simp) (.inl rfl) h3 (count_none hc)
  | some n =>
    cases hc' : repetitionCount ds' with
    | none =>
      exact .count (pre := chars w ++ .char 123 :: chars (digitsText ds)) (c := 44) (ds := ds') (post := [l3]) (by simp) (.inr rfl) h7 (count_none hc')
    | some m =>
      exfalso
      simp [SemRule.apply, childRegex, integerDigits, countOf, hc, hc', bind, Except.bind] at ha

theorem ub_delim {k : Nat} {w : List Nat} {p : Pat} {r : Regex} (h1 : p.elab = some r) (h2 : Written .literal k w p)
    (hr : literalChar .ub r = .error .ub) : ∀ c, p ≠ .lit c := by
  rintro c rfl
  simp only [Pat.elab, Option.some.injEq] at h1
  subst h1
  cases hr

/-- A rule that leads to undefined behaviour stands on a fault. -/
theorem apply_ub {d : String × List String} {r : SemRule} (hd : (d, r) ∈ D0) {k : Nat} {ls : List Lexeme} {vs : List SemChild}
    (hk : DerL d.2 k ls vs) (ha : r.apply k vs = .error .ub) : FaultIn [d.1] ls := by
  have hk := hk.kinds
  rcases D0_safe _ hd with h | h
  · simp only [riskyDecls, List.mem_cons, List.not_mem_nil, or_false, Prod.mk.injEq] at h
    rcases h with ⟨rfl, rfl⟩ | ⟨rfl, rfl⟩ | ⟨rfl, rfl⟩ | ⟨rfl, rfl⟩ | ⟨rfl, rfl⟩
    · obtain ⟨_, _, _, _, rfl, rfl, ⟨w, cs, rfl, rfl, h1⟩, _, _, _, _, rfl, rfl, ⟨w', p, r, rfl, rfl, h2, h3⟩, rfl, rfl⟩ := hk
      refine .inr ⟨by simp, chars w, w', [], _, p, by simp, h3, ub_delim h2 h3 ?_⟩
      cases hr : literalChar .ub r with
      | ok c => simp [SemRule.apply, childRegex, childDelims, hr, bind, Except.bind] at ha
      | error e => simp only [SemRule.apply, childRegex, childDelims, hr, bind, Except.bind, List.getElem?_cons_zero, List.getElem?_cons_succ] at ha; cases ha; rfl
    · obtain ⟨_, _, _, _, rfl, rfl, ⟨w', p, r, rfl, rfl, h2, h3⟩, rfl, rfl⟩ := hk
      refine .inr ⟨by simp, [], w', [], _, p, by simp, h3, ub_delim h2 h3 ?_⟩
      cases hr : literalChar .ub r with
      | ok c => simp [SemRule.apply, childRegex, hr, bind, Except.bind] at ha
      | error e => simp only [SemRule.apply, childRegex, hr, bind, Except.bind, List.getElem?_cons_zero] at ha; cases ha; rfl
    · exact .inl (ub_exactly hk ha)
    · exact .inl (ub_between hk ha)
    · exact .inl (ub_literalRange hk ha)
  · exact absurd ha (safe_spec h hk)

theorem Faulty.context {ls : List Lexeme} (h : Faulty ls) (a b : List Lexeme) : Faulty (a ++ ls ++ b) := by
  cases h with
  | @range pre u v post k k' x y h1 h2 h3 h4 => exact .range (pre := a ++ pre) (post := post ++ b) (by rw [h1]; simp) h2 h3 h4
  | @count pre c ds post h1 h2 h3 h4 => exact .count (pre := a ++ pre) (post := post ++ b) (by rw [h1]; simp) h2 h3 h4
  | @delims pre w post k p h0 h1 h2 h3 => exact .delims (pre := a ++ pre) (post := post ++ b) (by simp [h0]) (by rw [h1]; simp) h2 h3

theorem FaultIn.context {ss : List String} {ls : List Lexeme} (h : FaultIn ss ls) (a b : List Lexeme) : FaultIn ss (a ++ ls ++ b) := by
  rcases h with h | ⟨h1, pre, w, post, k, p, rfl, h3, h4⟩
  · exact .inl (h.context a b)
  · exact .inr ⟨h1, a ++ pre, w, post ++ b, k, p, by simp, h3, h4⟩

theorem FaultIn.sub {ss ss' : List String} {ls : List Lexeme} (h : FaultIn ss ls) (hs : ∀ s ∈ ss, s ∈ ss') : FaultIn ss' ls := by
  rcases h with h | ⟨h1, h2⟩
  · exact .inl h
  · exact .inr ⟨hs _ h1, h2⟩

section
variable {decls : List (String × List String)} {isTok : Token → String → Prop} {text : Token → List Nat} {ruleOf : Nat → Option SemRule}

/-- The keyword is a unit of the text wherever the symbol is. -/
theorem delimiters_unit (hd : ∀ (i : Nat) d, decls[i]? = some d → d.1 ≠ "Delimiters") {ss : List String} {ts : List Tree} {w : List Token}
    (h : Derivation decls isTok ss ts w) : "Delimiters" ∈ ss → ∀ {ls : List Lexeme}, List.Forall₂ (SameUnit isTok text) w ls → .delimiters ∈ ls := by
  induction h with
  | nil => intro h; simp at h
  | tok ht _ ih =>
    intro hm ls hl
    cases hl with
    | @cons _ l _ ls hx hl =>
      rcases List.mem_cons.mp hm with rfl | hm
      · have := (hx.2 _).mp ht
        cases l with
        | char c =>
          exfalso
          obtain ⟨x, h1, h2, _⟩ := this
          have key : ∀ x ∈ charToks, x.1 ≠ "Delimiters" := by decide +kernel
          exact key x h1 h2
        | delimiters => simp
      · exact List.mem_cons_of_mem _ (ih hm hl)
  | @prod i head body cs ss ts w w' hdi _ _ _ ih2 =>
    intro hm ls hl
    obtain ⟨l1, l2, rfl, _, hl2⟩ := forall₂_append_inv hl
    rcases List.mem_cons.mp hm with h | hm
    · exact absurd h.symm (hd i _ hdi)
    · exact List.mem_append_right _ (ih2 hm hl2)

theorem D0_delims : ∀ x ∈ D0, "DelimiterString" ∈ x.1.2 → "Delimiters" ∈ x.1.2 ∨ x.1.1 = "DelimiterString" := by decide +kernel

/-- Undefined behaviour in the semantic rules comes from a fault. -/
theorem evals_ub (hr : ∀ (i : Nat) d r, decls[i]? = some d → ruleOf i = some r → (d, r) ∈ D0)
    (hh : ∀ (i : Nat) d, decls[i]? = some d → d.1 = "$START_PRIME" ∨ ∃ r, (d, r) ∈ D0 ∧ ruleOf i = some r)
    (hd : ∀ (i : Nat) d, decls[i]? = some d → d.1 ≠ "Delimiters") (hno : ∀ x ∈ D0, "$START_PRIME" ∉ x.1.2)
    {ss : List String} {ts : List Tree} {w : List Token}
    (h : Derivation decls isTok ss ts w) : "$START_PRIME" ∉ ss → ∀ {ls : List Lexeme} {k : Nat}, List.Forall₂ (SameUnit isTok text) w ls →
    Tree.eval.evals ruleOf text ts k = .error .ub → FaultIn ss ls := by
  induction h with
  | nil => intro _ ls k _ he; cases he
  | @tok t0 s0 ss0 ts0 w0 ht _ ih =>
    intro hss ls k hl he
    simp only [List.mem_cons, not_or] at hss
    cases hl with
    | @cons _ l _ ls hx hl =>
      simp only [Tree.eval.evals, Tree.eval] at he
      split at he
      · rename_i e he'
        cases he
        have := ((ih hss.2 hl he').context [l] []).sub (ss' := s0 :: ss0) (fun s hs => List.mem_cons_of_mem _ hs)
        simpa using this
      · cases he
  | @prod i head body cs ss ts w w' hdi hb _ ih1 ih2 =>
    intro hss ls k hl he
    simp only [List.mem_cons, not_or] at hss
    obtain ⟨l1, l2, rfl, hl1, hl2⟩ := forall₂_append_inv hl
    rcases hh i _ hdi with h | ⟨r, hm, hri⟩
    · exact absurd h.symm hss.1
    simp only [Tree.eval.evals, Tree.eval] at he
    split at he
    · rename_i e he1
      cases he
      split at he1
      · rename_i e he2
        cases he1
        have hf := ih1 (hno _ hm) hl1 he2
        have : FaultIn [head] l1 := by
          rcases hf with h | ⟨h1, pre, w, post, k', p, h2, h3, h4⟩
          · exact .inl h
          · rcases D0_delims _ hm h1 with h5 | h5
            · exact .inl (.delims (delimiters_unit hd hb h5 hl1) h2 h3 h4)
            · exact .inr ⟨by simpa using h5.symm, pre, w, post, k', p, h2, h3, h4⟩
        have := (this.context [] l2).sub (ss' := head :: ss) (fun s hs => by simp at hs; simp [hs])
        simpa using this
      · rename_i vs k1 he2
        rw [hri] at he1
        simp only at he1
        split at he1
        · rename_i e ha
          cases he1
          obtain ⟨a1, _⟩ := der_of_tree hr hb hl1 he2
          have := ((apply_ub hm a1 ha).context [] l2).sub (ss' := head :: ss) (fun s hs => by simp at hs; simp [hs])
          simpa using this
        · cases he1
    · split at he
      · rename_i e he3
        cases he
        have := ((ih2 hss.2 hl2 he3).context l1 []).sub (ss' := head :: ss) (fun s hs => List.mem_cons_of_mem _ hs)
        simpa using this
      · cases he

end

/-- The value of the tree of a schema file is a schema. -/
theorem schema_value {sp : List String} (hsp : sp.Perm schemaSpecials) {isTok : Token → String → Prop} {text : Token → List Nat} {tree : Tree} {toks : List Token}
    {ls : List Lexeme} (hl : List.Forall₂ (SameUnit isTok text) toks ls)
    (hd : Derivation (schemaGrammar sp).decls isTok ["Schema"] [tree] toks) (h : schemaOfTree sp text tree = .error .ub) : Faulty ls := by
  have hno : ∀ x ∈ D0, "$START_PRIME" ∉ x.1.2 := fun x hx => (schema_checks.2.2.1 x.1 (List.mem_map.mpr ⟨x, hx, rfl⟩)).2
  have hnd : ∀ x ∈ D0, x.1.1 ≠ "Delimiters" := by decide +kernel
  have hh : ∀ (i : Nat) d, (schemaGrammar sp).decls[i]? = some d → d.1 = "$START_PRIME" ∨ ∃ r, (d, r) ∈ D0 ∧ schemaRuleOf sp i = some r := by
    intro i d hi
    rcases decl_cases hsp i d hi with h | ⟨r, h⟩
    · exact .inl h
    · refine .inr ⟨r, h, ?_⟩
      unfold schemaRuleOf
      rw [hi]
      exact (semRule_iff hsp d r).mpr h
  have hde : ∀ (i : Nat) d, (schemaGrammar sp).decls[i]? = some d → d.1 ≠ "Delimiters" := by
    intro i d hi
    rcases decl_cases hsp i d hi with h | ⟨r, h⟩
    · rw [h]; decide
    · exact hnd _ h
  unfold schemaOfTree at h
  cases he : tree.eval (schemaRuleOf sp) text 0 with
  | error e =>
    rw [he] at h
    cases h
    have hev : Tree.eval.evals (schemaRuleOf sp) text [tree] 0 = .error .ub := by simp [Tree.eval.evals, he]
    rcases evals_ub (ruleOf_mem hsp) hh hde hno hd (by decide) hl hev with h | ⟨h, _⟩
    · exact h
    · simp at h
  | ok x =>
    exfalso
    obtain ⟨v, k'⟩ := x
    have hev : Tree.eval.evals (schemaRuleOf sp) text [tree] 0 = .ok ([v], k') := by simp [Tree.eval.evals, he]
    obtain ⟨a1, _⟩ := der_of_tree (ruleOf_mem hsp) hd hl hev
    obtain ⟨_, _, _, _, _, h1, ⟨s, a, h2, _⟩, _⟩ := a1.kinds
    cases h1
    rw [he, h2] at h
    cases h

/-! ### Texts that fail -/

/-- A derivation in which a semantic rule fails. -/
inductive FailL : List String → Nat → List Lexeme → Fail → Prop
  | here {head body r ss k ls vs e ls'} : ((head, body), r) ∈ D0 → DerL body k ls vs → r.apply k vs = .error e →
      Derives (D0.map (·.1)) (fun l s => Stands s l) ss ls' → FailL (head :: ss) k (ls ++ ls') e
  | inside {head body r ss k ls e ls'} : ((head, body), r) ∈ D0 → FailL body k ls e →
      Derives (D0.map (·.1)) (fun l s => Stands s l) ss ls' → FailL (head :: ss) k (ls ++ ls') e
  | after {s ss k ls v ls' e} : DerL [s] k ls [v] → FailL ss (k + (textOf ls).length) ls' e → FailL (s :: ss) k (ls ++ ls') e

theorem Derives.append {α : Type} {prods : List (String × List String)} {isTok : α → String → Prop} {a b : List String} {u v : List α}
    (h : Derives prods isTok a u) (h' : Derives prods isTok b v) : Derives prods isTok (a ++ b) (u ++ v) := by
  induction h with
  | nil => exact h'
  | tok h1 _ ih => exact .tok h1 ih
  | prod h1 h2 _ _ ih2 =>
    have := Derives.prod h1 h2 ih2
    simpa using this

theorem derives_of_der {ss : List String} {k : Nat} {ls : List Lexeme} {vs : List SemChild} (h : DerL ss k ls vs) :
    Derives (D0.map (·.1)) (fun l s => Stands s l) ss ls := by
  induction h with
  | nil => exact .nil
  | tok h _ ih => exact .tok h ih
  | prod h _ _ _ ih1 ih2 => exact .prod (List.mem_map.mpr ⟨_, h, rfl⟩) ih1 ih2

theorem derives_of_fail {ss : List String} {k : Nat} {ls : List Lexeme} {e : Fail} (h : FailL ss k ls e) :
    Derives (D0.map (·.1)) (fun l s => Stands s l) ss ls := by
  induction h with
  | here h hd _ hr => exact .prod (List.mem_map.mpr ⟨_, h, rfl⟩) (derives_of_der hd) hr
  | inside h _ hr ih => exact .prod (List.mem_map.mpr ⟨_, h, rfl⟩) ih hr
  | after hd _ ih => exact (derives_of_der hd).append ih

section
variable {decls : List (String × List String)} {isTok : Token → String → Prop} {text : Token → List Nat} {ruleOf : Nat → Option SemRule}

theorem Derivation.append' {a b : List String} {ta tb : List Tree} {wa wb : List Token} (h : Derivation decls isTok a ta wa)
    (h' : Derivation decls isTok b tb wb) : Derivation decls isTok (a ++ b) (ta ++ tb) (wa ++ wb) := by
  induction h with
  | nil => exact h'
  | tok h1 _ ih => exact .tok h1 ih
  | prod h1 h2 _ _ ih2 =>
    have := Derivation.prod h1 h2 ih2
    simpa using this

theorem tree_of_fail (hr : ∀ d r, (d, r) ∈ D0 → ∃ i : Nat, decls[i]? = some d ∧ ruleOf i = some r) {ss : List String} {k : Nat} {ls : List Lexeme}
    {e : Fail} (h : FailL ss k ls e) : ∀ {w : List Token}, List.Forall₂ (SameUnit isTok text) w ls →
    ∃ ts, Derivation decls isTok ss ts w ∧ Tree.eval.evals ruleOf text ts k = .error e := by
  have hall : ∀ d ∈ D0.map (·.1), ∃ i : Nat, decls[i]? = some d := by
    intro d hd
    obtain ⟨⟨d', r⟩, h1, rfl⟩ := List.mem_map.mp hd
    obtain ⟨i, hi, _⟩ := hr d' r h1
    exact ⟨i, hi⟩
  induction h with
  | @here head body r ss k ls vs e ls' hm hd ha hrest =>
    intro w hw
    obtain ⟨w1, w2, rfl, hw1, hw2⟩ := forall₂_append_inv' hw
    obtain ⟨cs, h1, h2⟩ := tree_of_der hr hd hw1
    obtain ⟨ts, h3⟩ := tree_of_derives hall hrest hw2
    obtain ⟨i, hi, hri⟩ := hr _ _ hm
    exact ⟨.node i cs :: ts, .prod hi h1 h3, by simp [Tree.eval.evals, Tree.eval, h2, hri, ha]⟩
  | @inside head body r ss k ls e ls' hm _ hrest ih =>
    intro w hw
    obtain ⟨w1, w2, rfl, hw1, hw2⟩ := forall₂_append_inv' hw
    obtain ⟨cs, h1, h2⟩ := ih hw1
    obtain ⟨ts, h3⟩ := tree_of_derives hall hrest hw2
    obtain ⟨i, hi, hri⟩ := hr _ _ hm
    exact ⟨.node i cs :: ts, .prod hi h1 h3, by simp [Tree.eval.evals, Tree.eval, h2]⟩
  | @after s ss k ls v ls' e hd _ ih =>
    intro w hw
    obtain ⟨w1, w2, rfl, hw1, hw2⟩ := forall₂_append_inv' hw
    obtain ⟨cs, h1, h2⟩ := tree_of_der hr hd hw1
    obtain ⟨ts, h3, h4⟩ := ih hw2
    refine ⟨cs ++ ts, h1.append' h3, ?_⟩
    have hlen : ∃ c, cs = [c] := by
      cases h1 with
      | tok _ h => cases h; exact ⟨_, rfl⟩
      | prod _ _ h => cases h; exact ⟨_, rfl⟩
    obtain ⟨c, rfl⟩ := hlen
    simp only [Tree.eval.evals] at h2
    split at h2
    · cases h2
    · rename_i v' k' he
      cases h2
      simp [Tree.eval.evals, he, h4]

end

/-- Symbols that need a unit of some kind. -/
theorem derives_potential {prods : List (String × List String)} {φ : String → Nat} (hφ : ∀ d ∈ prods, φ d.1 ≤ (d.2.map φ).sum) {ss : List String}
    {ls : List Lexeme} (h : Derives prods (fun l s => Stands s l) ss ls) : (∀ l ∈ ls, ∀ s, Stands s l → φ s = 0) → (ss.map φ).sum = 0 := by
  induction h with
  | nil => intro _; rfl
  | tok h1 _ ih =>
    intro h
    simp only [List.map_cons, List.sum_cons]
    rw [h _ (by simp) _ h1, ih (fun l hl => h l (by simp [hl]))]
  | prod hm _ _ ih1 ih2 =>
    intro h
    simp only [List.map_cons, List.sum_cons]
    have h0 := hφ _ hm
    have h1 := ih1 (fun l hl => h l (by simp [hl]))
    have h2 := ih2 (fun l hl => h l (by simp [hl]))
    simp only at h0
    omega

/-! ### Exceptions -/

/-- The rules that can throw. -/
def throwingDecls : List ((String × List String) × SemRule) :=
  [(("IncompleteGroup", ["IncompleteGroup", "Literal"]), .addLiteralExisting), (("IncompleteGroup", ["IncompleteGroup", "WhiteSpace"]), .addLiteralExisting),
    (("IncompleteGroup", ["Lbracket", "Literal"]), .addLiteralNew), (("IncompleteGroup", ["Lbracket", "WhiteSpace"]), .addLiteralNew),
    (("LiteralRange", ["Literal", "Dash", "Literal"]), .literalRange)]

/-- The rule can throw. -/
def canThrow : SemRule → Bool
  | .addLiteralExisting | .addLiteralNew | .literalRange => true
  | _ => false

set_option maxRecDepth 100000 in
theorem D0_throwing : ∀ x ∈ D0, x ∈ throwingDecls ∨ canThrow x.2 = false := by decide +kernel

/-- Fails only with undefined behaviour. -/
def Rough {α : Type} (x : Except Fail α) : Prop := ∀ e, x = .error e → e = .ub

theorem Rough.ok {α : Type} (a : α) : Rough (.ok a : Except Fail α) := fun _ h => by cases h

theorem Rough.err {α : Type} : Rough (.error .ub : Except Fail α) := fun _ h => by cases h; rfl

theorem Rough.bind {α β : Type} {x : Except Fail α} {f : α → Except Fail β} (hx : Rough x) (hf : ∀ a, Rough (f a)) : Rough (x >>= f) := by
  intro e h
  cases x with
  | error e' => exact hx e (by cases h; rfl)
  | ok a => exact hf a e h

theorem rough_childRegex (cs : List SemChild) (i : Nat) : Rough (childRegex cs i) := by
  unfold childRegex; split <;> first | exact .ok _ | exact .err
theorem rough_childSchema (cs : List SemChild) (i : Nat) : Rough (childSchema cs i) := by
  unfold childSchema; split <;> first | exact .ok _ | exact .err
theorem rough_childVar (cs : List SemChild) (i : Nat) : Rough (childVar cs i) := by
  unfold childVar; split <;> first | exact .ok _ | exact .err
theorem rough_childDelims (cs : List SemChild) (i : Nat) : Rough (childDelims cs i) := by
  unfold childDelims; split <;> first | exact .ok _ | exact .err
theorem rough_childIdent (cs : List SemChild) (i : Nat) : Rough (childIdent cs i) := by
  unfold childIdent; split <;> first | exact .ok _ | exact .err
theorem rough_childChar (cs : List SemChild) (i : Nat) : Rough (childChar cs i) := by
  unfold childChar; split <;> first | exact .ok _ | exact .err
theorem rough_childOneChar (cs : List SemChild) (i : Nat) : Rough (childOneChar cs i) := by
  unfold childOneChar; split <;> first | exact .ok _ | exact .err
theorem rough_literalChar (r : Regex) : Rough (literalChar .ub r) := by
  unfold literalChar; split <;> first | exact .ok _ | exact .err
theorem rough_groupParts (r : Regex) : Rough (groupParts r) := by
  unfold groupParts; split <;> first | exact .ok _ | exact .err
theorem rough_integerDigits (r : Regex) : Rough (integerDigits r) := by
  unfold integerDigits; split <;> first | exact .ok _ | exact .err
theorem rough_onlyRange (r : List Range) : Rough (onlyRange r) := by
  unfold onlyRange; split <;> first | exact .ok _ | exact .err
theorem rough_countOf (r : List Nat) : Rough (countOf r) := by
  unfold countOf; split <;> first | exact .ok _ | exact .err

theorem apply_rough (r : SemRule) (k : Nat) (cs : List SemChild) (h : canThrow r = false) : Rough (r.apply k cs) := by
  cases r <;> try (cases h; done)
  all_goals
    unfold SemRule.apply
    repeat' first
      | exact .ok _
      | exact .err
      | refine Rough.bind (rough_childRegex _ _) fun _ => ?_
      | refine Rough.bind (rough_childSchema _ _) fun _ => ?_
      | refine Rough.bind (rough_childVar _ _) fun _ => ?_
      | refine Rough.bind (rough_childDelims _ _) fun _ => ?_
      | refine Rough.bind (rough_childIdent _ _) fun _ => ?_
      | refine Rough.bind (rough_childChar _ _) fun _ => ?_
      | refine Rough.bind (rough_childOneChar _ _) fun _ => ?_
      | refine Rough.bind (rough_literalChar _) fun _ => ?_
      | refine Rough.bind (rough_groupParts _) fun _ => ?_
      | refine Rough.bind (rough_integerDigits _) fun _ => ?_
      | refine Rough.bind (rough_onlyRange _) fun _ => ?_
      | refine Rough.bind (rough_countOf _) fun _ => ?_
      | split

/-- A bracket expression has an opening bracket. -/
theorem openClass_bracket {k : Nat} {w : List Nat} {p : Pat} (h : Written .openClass k w p) : 91 ∈ w := by
  generalize hl : Level.openClass = l at h
  induction h <;> try (cases hl; done)
  case opened => simp
  case openedHat => simp
  case more ih _ => simp [ih rfl]

theorem throws_lit {k : Nat} {w : List Nat} {p : Pat} {r : Regex} (h1 : p.elab = some r) (h2 : Written .literal k w p)
    (hr : literalChar .throws r = .error .throws) : ∀ c, p ≠ .lit c := by
  rintro c rfl
  simp only [Pat.elab, Option.some.injEq] at h1
  subst h1
  cases hr

/-- A rule that throws stands on something unsuitable. -/
theorem apply_throws {d : String × List String} {r : SemRule} (hd : (d, r) ∈ D0) {k : Nat} {ls : List Lexeme} {vs : List SemChild}
    (hk : DerL d.2 k ls vs) (ha : r.apply k vs = .error .throws) : Unsuitable ls := by
  have hk := hk.kinds
  rcases D0_throwing _ hd with h | h
  · simp only [throwingDecls, List.mem_cons, List.not_mem_nil, or_false, Prod.mk.injEq] at h
    rcases h with ⟨rfl, rfl⟩ | ⟨rfl, rfl⟩ | ⟨rfl, rfl⟩ | ⟨rfl, rfl⟩ | ⟨rfl, rfl⟩
    · obtain ⟨_, _, _, _, rfl, rfl, ⟨w, n, is, rs, rfl, rfl, h1, h1'⟩, _, _, _, _, rfl, rfl, ⟨w', p, r, rfl, rfl, h2, h3⟩, rfl, rfl⟩ := hk
      refine .item (pre := chars w) (w := w') (post := []) (by simp [chars, openClass_bracket h1']) (by simp) h3 (throws_lit h2 h3 ?_)
      cases hr : literalChar .throws r with
      | ok c => simp [SemRule.apply, childRegex, groupParts, hr, bind, Except.bind] at ha
      | error e => simp only [SemRule.apply, childRegex, hr, bind, Except.bind, List.getElem?_cons_zero, List.getElem?_cons_succ] at ha; cases ha; rfl
    · obtain ⟨_, _, _, _, rfl, rfl, ⟨w, n, is, rs, rfl, rfl, h1, h1'⟩, _, _, _, _, rfl, rfl, ⟨rfl, rfl⟩, rfl, rfl⟩ := hk
      exact .space (pre := chars w) (post := []) (by simp [chars, openClass_bracket h1']) (by simp)
    · obtain ⟨_, _, _, _, rfl, rfl, ⟨l, rfl, rfl, h1⟩, _, _, _, _, rfl, rfl, ⟨w', p, r, rfl, rfl, h2, h3⟩, rfl, rfl⟩ := hk
      obtain rfl := stands_Lbracket h1
      refine .item (pre := [.char 91]) (w := w') (post := []) (by simp) (by simp) h3 (throws_lit h2 h3 ?_)
      cases hr : literalChar .throws r with
      | ok c => simp [SemRule.apply, childRegex, hr, bind, Except.bind] at ha
      | error e => simp only [SemRule.apply, childRegex, hr, bind, Except.bind, List.getElem?_cons_zero, List.getElem?_cons_succ] at ha; cases ha; rfl
    · obtain ⟨_, _, _, _, rfl, rfl, ⟨l, rfl, rfl, h1⟩, _, _, _, _, rfl, rfl, ⟨rfl, rfl⟩, rfl, rfl⟩ := hk
      obtain rfl := stands_Lbracket h1
      exact .space (pre := [.char 91]) (post := []) (by simp) (by simp)
    · obtain ⟨_, _, _, _, rfl, rfl, ⟨w, p, r, rfl, rfl, h1, h2⟩, _, _, _, _, rfl, rfl, ⟨l', rfl, rfl, h5⟩,
        _, _, _, _, rfl, rfl, ⟨w', p', r', rfl, rfl, h3, h4⟩, rfl, rfl⟩ := hk
      obtain rfl := stands_Dash h5
      cases hr : literalChar .throws r with
      | error e =>
        have he : e = .throws := by
          simp only [SemRule.apply, childRegex, hr, bind, Except.bind, List.getElem?_cons_zero, List.getElem?_cons_succ] at ha; cases ha; rfl
        subst he
        exact .rangeEnd (pre := []) (w := w) (post := .char 45 :: chars w') (by simp) h2 (throws_lit h1 h2 hr) (.inr rfl)
      | ok c =>
        cases hr' : literalChar .throws r' with
        | error e =>
          have he : e = .throws := by
            simp only [SemRule.apply, childRegex, hr, hr', bind, Except.bind, List.getElem?_cons_zero, List.getElem?_cons_succ] at ha; cases ha; rfl
          subst he
          exact .rangeEnd (pre := chars w ++ [.char 45]) (w := w') (post := []) (by simp) h4 (throws_lit h3 h4 hr') (.inl (by simp))
        | ok c' =>
          exfalso
          simp only [SemRule.apply, childRegex, hr, hr', bind, Except.bind, List.getElem?_cons_zero, List.getElem?_cons_succ] at ha
          split at ha <;> cases ha
  · exact absurd (apply_rough r k vs h .throws ha) (by simp)

theorem Unsuitable.context {ls : List Lexeme} (h : Unsuitable ls) (a b : List Lexeme) : Unsuitable (a ++ ls ++ b) := by
  cases h with
  | @item pre w post k p h0 h1 h2 h3 => exact .item (pre := a ++ pre) (post := post ++ b) (by simp [h0]) (by rw [h1]; simp) h2 h3
  | @space pre post h0 h1 => exact .space (pre := a ++ pre) (post := post ++ b) (by simp [h0]) (by rw [h1]; simp)
  | @rangeEnd pre w post k p h1 h2 h3 h4 =>
    refine .rangeEnd (pre := a ++ pre) (post := post ++ b) (by rw [h1]; simp) h2 h3 ?_
    rcases h4 with h4 | h4
    · left
      rw [List.getLast?_append, h4]
      rfl
    · right
      rw [List.head?_append, h4]
      rfl

section
variable {decls : List (String × List String)} {isTok : Token → String → Prop} {ruleOf : Nat → Option SemRule} {text : Token → List Nat}

/-- If a rule throws, there is something unsuitable. -/
theorem evals_throws (hr : ∀ (i : Nat) d r, decls[i]? = some d → ruleOf i = some r → (d, r) ∈ D0)
    (hh : ∀ (i : Nat) d, decls[i]? = some d → d.1 = "$START_PRIME" ∨ ∃ r, (d, r) ∈ D0 ∧ ruleOf i = some r)
    (hno : ∀ x ∈ D0, "$START_PRIME" ∉ x.1.2)
    {ss : List String} {ts : List Tree} {w : List Token}
    (h : Derivation decls isTok ss ts w) : "$START_PRIME" ∉ ss → ∀ {ls : List Lexeme} {k : Nat}, List.Forall₂ (SameUnit isTok text) w ls →
    Tree.eval.evals ruleOf text ts k = .error .throws → Unsuitable ls := by
  induction h with
  | nil => intro _ ls k _ he; cases he
  | @tok t0 s0 ss0 ts0 w0 ht _ ih =>
    intro hss ls k hl he
    simp only [List.mem_cons, not_or] at hss
    cases hl with
    | @cons _ l _ ls hx hl =>
      simp only [Tree.eval.evals, Tree.eval] at he
      split at he
      · rename_i e he'
        cases he
        simpa using (ih hss.2 hl he').context [l] []
      · cases he
  | @prod i head body cs ss ts w w' hdi hb _ ih1 ih2 =>
    intro hss ls k hl he
    simp only [List.mem_cons, not_or] at hss
    obtain ⟨l1, l2, rfl, hl1, hl2⟩ := forall₂_append_inv hl
    rcases hh i _ hdi with h | ⟨r, hm, hri⟩
    · exact absurd h.symm hss.1
    simp only [Tree.eval.evals, Tree.eval] at he
    split at he
    · rename_i e he1
      cases he
      split at he1
      · rename_i e he2
        cases he1
        simpa using (ih1 (hno _ hm) hl1 he2).context [] l2
      · rename_i vs k1 he2
        rw [hri] at he1
        simp only at he1
        split at he1
        · rename_i e ha
          cases he1
          obtain ⟨a1, _⟩ := der_of_tree hr hb hl1 he2
          simpa using (apply_throws hm a1 ha).context [] l2
        · cases he1
    · split at he
      · rename_i e he3
        cases he
        simpa using (ih2 hss.2 hl2 he3).context l1 []
      · cases he

end

/-! ### The trees on the stack -/

section
variable {sp : List String} (hsp : sp.Perm schemaSpecials)
include hsp

theorem decl_rule (i : Nat) (d : String × List String) (hi : (schemaGrammar sp).decls[i]? = some d) :
    d.1 = "$START_PRIME" ∨ ∃ r, (d, r) ∈ D0 ∧ schemaRuleOf sp i = some r := by
  rcases decl_cases hsp i d hi with h | ⟨r, h⟩
  · exact .inl h
  · refine .inr ⟨r, h, ?_⟩
    unfold schemaRuleOf
    rw [hi]
    exact (semRule_iff hsp d r).mpr h

/-- If a rule fails with undefined behaviour, the units are faulty. -/
theorem stack_fault {isTok : Token → String → Prop} {text : Token → List Nat} {ns : List String} {ts : List Tree} {toks : List Token} {ls : List Lexeme}
    (hl : List.Forall₂ (SameUnit isTok text) toks ls) (hd : Derivation (schemaGrammar sp).decls isTok ns ts toks) (hp : "$START_PRIME" ∉ ns)
    (hg : "DelimiterString" ∈ ns → "Delimiters" ∈ ns) {k : Nat} (h : Tree.eval.evals (schemaRuleOf sp) text ts k = .error .ub) : Faulty ls := by
  have hno : ∀ x ∈ D0, "$START_PRIME" ∉ x.1.2 := fun x hx => (schema_checks.2.2.1 x.1 (List.mem_map.mpr ⟨x, hx, rfl⟩)).2
  have hnd : ∀ x ∈ D0, x.1.1 ≠ "Delimiters" := by decide +kernel
  have hde : ∀ (i : Nat) d, (schemaGrammar sp).decls[i]? = some d → d.1 ≠ "Delimiters" := by
    intro i d hi
    rcases decl_cases hsp i d hi with h | ⟨r, h⟩
    · rw [h]; decide
    · exact hnd _ h
  rcases evals_ub (ruleOf_mem hsp) (decl_rule hsp) hde hno hd hp hl h with h | ⟨h1, pre, w, post, k', p, h2, h3, h4⟩
  · exact h
  · exact .delims (delimiters_unit hde hd (hg h1) hl) h2 h3 h4

/-- If a rule throws, there is something unsuitable. -/
theorem stack_throws {isTok : Token → String → Prop} {text : Token → List Nat} {ns : List String} {ts : List Tree} {toks : List Token} {ls : List Lexeme}
    (hl : List.Forall₂ (SameUnit isTok text) toks ls) (hd : Derivation (schemaGrammar sp).decls isTok ns ts toks) (hp : "$START_PRIME" ∉ ns)
    {k : Nat} (h : Tree.eval.evals (schemaRuleOf sp) text ts k = .error .throws) : Unsuitable ls := by
  have hno : ∀ x ∈ D0, "$START_PRIME" ∉ x.1.2 := fun x hx => (schema_checks.2.2.1 x.1 (List.mem_map.mpr ⟨x, hx, rfl⟩)).2
  exact evals_throws (ruleOf_mem hsp) (decl_rule hsp) hno hd hp hl h

/-- If the evaluation of a whole file throws, there is something unsuitable. -/
theorem schema_throws {isTok : Token → String → Prop} {text : Token → List Nat} {tree : Tree} {toks : List Token} {ls : List Lexeme}
    (hl : List.Forall₂ (SameUnit isTok text) toks ls) (hd : Derivation (schemaGrammar sp).decls isTok ["Schema"] [tree] toks)
    (h : schemaOfTree sp text tree = .error .throws) : Unsuitable ls := by
  refine stack_throws hsp hl hd (by decide) (k := 0) ?_
  unfold schemaOfTree at h
  cases he : tree.eval (schemaRuleOf sp) text 0 with
  | error e =>
    rw [he] at h
    cases h
    simp [Tree.eval.evals, he]
  | ok v =>
    rw [he] at h
    split at h
    · cases h
    · cases h
    · rename_i h2; cases h2

/-- Symbols that need a unit. -/
def needsUnit (s : String) : Nat := if s = "WhitespaceStar" then 0 else 1

omit hsp in
theorem needsUnit_prods : ∀ x ∈ D0, (x.1.2.map needsUnit).sum = 0 → needsUnit x.1.1 = 0 ∧ x.1.2 = [] ∧ x.2 = .null := by decide +kernel

/-- Before the first unit nothing fails. -/
theorem evals_empty {isTok : Token → String → Prop} {text : Token → List Nat} {ns : List String} {ts : List Tree} {toks : List Token}
    (hd : Derivation (schemaGrammar sp).decls isTok ns ts toks) : "$START_PRIME" ∉ ns → toks = [] →
    (ns.map needsUnit).sum = 0 ∧ ∀ k, ∃ v, Tree.eval.evals (schemaRuleOf sp) text ts k = .ok v := by
  induction hd with
  | nil => exact fun _ _ => ⟨rfl, fun k => ⟨([], k), rfl⟩⟩
  | tok _ _ _ => intro _ h; cases h
  | @prod i head body cs ss ts w w' hdi hb _ ih1 ih2 =>
    intro hss hw
    simp only [List.mem_cons, not_or] at hss
    obtain ⟨rfl, rfl⟩ := List.append_eq_nil_iff.mp hw
    obtain ⟨g1, g2⟩ := ih2 hss.2 rfl
    rcases decl_rule hsp i _ hdi with h | ⟨r, hm, hri⟩
    · exact absurd h.symm hss.1
    have hno : "$START_PRIME" ∉ body := (schema_checks.2.2.1 (head, body) (List.mem_map.mpr ⟨_, hm, rfl⟩)).2
    obtain ⟨g3, _⟩ := ih1 hno rfl
    obtain ⟨g4, g5, g6⟩ := needsUnit_prods _ hm g3
    simp only at g5 g6
    subst g5 g6
    cases hb
    refine ⟨by simp only [List.map_cons, List.sum_cons, g1]; simpa using g4, fun k => ?_⟩
    obtain ⟨v, hv⟩ := g2 k
    refine ⟨(.val .null :: v.1, v.2), ?_⟩
    simp only [Tree.eval.evals, Tree.eval, hri, SemRule.apply, hv]

end

end LogSurgeon
