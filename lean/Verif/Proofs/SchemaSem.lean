import Verif.Proofs.SchemaStands
/-
From derivations of schema files by the grammar, with the values of the semantic rules, to the specification of schema texts and back.
-/
namespace LogSurgeon

/-- The productions with their rules. -/
def D0 : List ((String × List String) × SemRule) := schemaDecls schemaSpecials

/-- Derivations together with values: the symbols derive the units, which begin at position `k`, and have these values. -/
inductive DerL : List String → Nat → List Lexeme → List SemChild → Prop
  | nil {k} : DerL [] k [] []
  | tok {s l ss k ls vs} : Stands s l → DerL ss (k + l.text.length) ls vs → DerL (s :: ss) k (l :: ls) (.tok l.text :: vs)
  | prod {head body r ss k ls vs v ls' vs'} : ((head, body), r) ∈ D0 → DerL body k ls vs → r.apply k vs = .ok v →
      DerL ss (k + (textOf ls).length) ls' vs' → DerL (head :: ss) k (ls ++ ls') (.val v :: vs')

/-- What the symbols of the grammar stand for. -/
inductive Kind where
  | tok (s : String)
  | pat (l : Level)
  | openC | range | digit | white | wild | int | name | spaces | text | comment | nl | delims | var | file

def digitRegex : Regex := .group [] false false [(48, 57)]
def whiteRegex : Regex := .group [] false false [(32, 32), (9, 9), (13, 13), (10, 10), (11, 11), (12, 12)]
def wildRegex : Regex := .group [] true false [(0, cUnicodeMax)]

def Kind.Is : Kind → Nat → List Lexeme → SemChild → Prop
  | .tok s => fun _ ls v => ∃ l, ls = [l] ∧ v = .tok l.text ∧ Stands s l
  | .pat l => fun k ls v => ∃ w p r, ls = chars w ∧ v = .val (.regex r) ∧ p.elab = some r ∧ Written l k w p
  | .openC => fun k ls v => ∃ w n is rs, ls = chars w ∧ v = .val (.regex (.group [] false n rs)) ∧ addItems [] is = some rs ∧
      Written .openClass k w (.cls n is)
  | .range => fun k ls v => ∃ w a b, ls = chars w ∧ v = .val (.regex (.group [] false false [(a, b)])) ∧ a < b ∧
      Written .item k w (.cls false [.range a b])
  | .digit => fun _ ls v => ls = chars [92, 100] ∧ v = .val (.regex digitRegex)
  | .white => fun _ ls v => ls = chars [92, 115] ∧ v = .val (.regex whiteRegex)
  | .wild => fun _ ls v => ls = chars [46] ∧ v = .val (.regex wildRegex)
  | .int => fun _ ls v => ∃ ds, IsNumeral ds ∧ ls = chars (digitsText ds) ∧ v = .val (.regex (.integer [] ds))
  | .name => fun _ ls v => ∃ n, IsName n ∧ ls = chars n ∧ v = .val (.ident n)
  | .spaces => fun _ ls _ => ∃ i, ls = chars (List.replicate i 32)
  | .text => fun _ ls _ => ls ≠ [] ∧ ∀ l ∈ ls, l ≠ .char 10 ∧ l ≠ .char 13
  | .comment => fun _ ls _ => ∃ ls', ls = chars [47, 47] ++ ls' ∧ ls' ≠ [] ∧ ∀ l ∈ ls', l ≠ .char 10 ∧ l ≠ .char 13
  | .nl => fun _ ls _ => WrittenNewline ls
  | .delims => fun k ls v => ∃ w cs, ls = chars w ∧ v = .val (.delims cs) ∧ WrittenChars k w cs
  | .var => fun k ls v => ∃ i n w p r, ls = chars (List.replicate i 32 ++ n ++ 58 :: w) ∧ v = .val (.var ⟨asString n, r⟩) ∧ p.elab = some r ∧
      IsName n ∧ Written .seq (k + i + n.length + 1) w p
  | .file => fun k ls v => ∃ s a, v = .val (.schema a) ∧ s.Builds a ∧ WrittenFile k ls s

def Kinds : List Kind → Nat → List Lexeme → List SemChild → Prop
  | [], _, ls, vs => ls = [] ∧ vs = []
  | x :: xs, k, ls, vs => ∃ ls1 v ls2 vs2, ls = ls1 ++ ls2 ∧ vs = v :: vs2 ∧ x.Is k ls1 v ∧ Kinds xs (k + (textOf ls1).length) ls2 vs2

/-- The rule gives a value of the kind. -/
def Sem (xs : List Kind) (r : SemRule) (x : Kind) : Prop :=
  ∀ k ls vs v, Kinds xs k ls vs → r.apply k vs = .ok v → x.Is k ls (.val v)

def kindTable : List (String × Kind) :=
  [("Schema", .file), ("DelimiterString", .delims), ("PortableNewLine", .nl), ("Comment", .comment), ("Text", .text), ("SchemaVar", .var),
    ("Identifier", .name), ("WhitespaceStar", .spaces), ("Regex", .pat .seq), ("Concat", .pat .seq), ("Or", .pat .choice), ("MatchStar", .pat .repeated),
    ("MatchPlus", .pat .repeated), ("MatchExact", .pat .repeated), ("MatchRange", .pat .repeated), ("CompleteGroup", .pat .single),
    ("IncompleteGroup", .openC), ("LiteralRange", .range), ("Literal", .pat .literal), ("Integer", .int), ("Digit", .digit), ("Wildcard", .wild),
    ("WhiteSpace", .white)]

def kindOf (s : String) : Kind := (kindTable.lookup s).getD (.tok s)

@[simp] theorem textOf_nil : textOf [] = [] := rfl
@[simp] theorem textOf_cons (l : Lexeme) (ls : List Lexeme) : textOf (l :: ls) = l.text ++ textOf ls := rfl
@[simp] theorem textOf_append (a b : List Lexeme) : textOf (a ++ b) = textOf a ++ textOf b := by simp [textOf]
@[simp] theorem chars_nil : chars [] = [] := rfl
@[simp] theorem chars_cons (c : Nat) (w : List Nat) : chars (c :: w) = .char c :: chars w := rfl
@[simp] theorem chars_append (a b : List Nat) : chars (a ++ b) = chars a ++ chars b := by simp [chars]
@[simp] theorem chars_length (a : List Nat) : (chars a).length = a.length := by simp [chars]
@[simp] theorem textOf_chars (w : List Nat) : textOf (chars w) = w := by
  induction w with
  | nil => rfl
  | cons c w ih => simp [Lexeme.text, ih]
@[simp] theorem text_char (c : Nat) : (Lexeme.char c).text = [c] := rfl
@[simp] theorem text_delimiters : Lexeme.delimiters.text.length = 10 := rfl

theorem chars_inj {a b : List Nat} (h : chars a = chars b) : a = b := by
  have := congrArg textOf h
  simpa using this

theorem addItems_append (is js : List ClassItem) : ∀ rs, addItems rs (is ++ js) = (addItems rs is).bind fun r => addItems r js := by
  induction is with
  | nil => intro rs; rfl
  | cons i is ih =>
    intro rs
    simp only [List.cons_append, addItems]
    cases addItem rs i with
    | none => rfl
    | some r => exact ih r

theorem elab_literal {p : Pat} {t : List Tag} {c : Nat} (h : p.elab = some (.literal t c)) : p = .lit c := by
  have hm : ∀ {α} {o : Option α} {f : α → Regex}, o.map f = some (.literal t c) → ∃ a, f a = .literal t c := by
    intro α o f h
    cases o with
    | none => cases h
    | some a => exact ⟨a, by simpa using h⟩
  cases p <;> simp only [Pat.elab] at h
  · simp at h; rw [h.2]
  · obtain ⟨a, ha⟩ := hm h; cases ha
  · cases h
  · cases h
  · cases h
  · simp [Option.bind_eq_some_iff, Regex.mkCat] at h
  · simp [Option.bind_eq_some_iff, Regex.mkOr] at h
  · obtain ⟨a, ha⟩ := hm h; cases ha
  · obtain ⟨a, ha⟩ := hm h; cases ha
  · simp [Option.bind_eq_some_iff, exactRule, Regex.mkMult] at h
  · simp only [Option.bind_eq_some_iff, Option.map_eq_some_iff, rangeRule] at h
    obtain ⟨a, _, b, _, d, _, e⟩ := h
    split at e <;> cases e
  · obtain ⟨a, ha⟩ := hm h; cases ha

/-! ### From derivations to the specification -/

theorem kinds_nil {k ls vs} (h : Kinds [] k ls vs) : ls = [] ∧ vs = [] := h

theorem sem_newSchema : Sem [.comment] .newSchema .file := by
  rintro k ls vs v ⟨l1, v1, l2, vs2, rfl, rfl, ⟨l', rfl, h1, h2⟩, rfl, rfl⟩ ha
  cases ha
  refine ⟨{}, {}, rfl, ⟨rfl, .nil⟩, ?_⟩
  simp only [List.append_nil]
  exact .first (.comment h1 h2)

theorem sem_newSchemaWithVar : Sem [.var] .newSchemaWithVar .file := by
  rintro k ls vs v ⟨l1, v1, l2, vs2, rfl, rfl, ⟨i, n, w, p, r, rfl, rfl, h1, h2, h3⟩, rfl, rfl⟩ ha
  cases ha
  refine ⟨{ vars := [(asString n, p)] }, _, rfl, ⟨rfl, .cons ⟨rfl, h1⟩ .nil⟩, ?_⟩
  simp only [List.append_nil]
  exact .first (.var h2 h3)

theorem sem_newSchemaWithDelimiters : Sem [.tok "Delimiters", .tok "Colon", .delims] .newSchemaWithDelimiters .file := by
  rintro k ls vs v ⟨_, _, _, _, rfl, rfl, ⟨l, rfl, rfl, h1⟩, _, _, _, _, rfl, rfl, ⟨l', rfl, rfl, h2⟩, _, _, _, _, rfl, rfl, ⟨w, cs, rfl, rfl, h3⟩, rfl, rfl⟩ ha
  obtain rfl := stands_Delimiters h1
  obtain rfl := stands_Colon h2
  cases ha
  refine ⟨{ delims := [cs] }, _, rfl, ⟨rfl, .nil⟩, .first ?_⟩
  have := WrittenLine.delims (k := k) (w := w) (cs := cs) (by simpa [Lexeme.text, Nat.add_assoc, delimitersWord] using h3)
  simpa using this

theorem sem_schemaIdentity : Sem [.file, .nl] .schemaIdentity .file := by
  rintro k ls vs v ⟨l1, _, _, _, rfl, rfl, ⟨s, a, rfl, h1, h2⟩, _, _, _, _, rfl, rfl, h3, rfl, rfl⟩ ha
  cases ha
  exact ⟨s, a, rfl, h1, by simpa using WrittenFile.blank h2 h3⟩

theorem sem_schemaIdentity' : Sem [.file, .nl, .comment] .schemaIdentity .file := by
  rintro k ls vs v ⟨l1, _, _, _, rfl, rfl, ⟨s, a, rfl, h1, h2⟩, _, _, _, _, rfl, rfl, h3, _, _, _, _, rfl, rfl, ⟨l', rfl, h4, h5⟩, rfl, rfl⟩ ha
  cases ha
  refine ⟨s, a, rfl, h1, ?_⟩
  have := WrittenFile.line h2 h3 (.comment h4 h5)
  simpa using this

theorem sem_existingSchema : Sem [.file, .nl, .var] .existingSchema .file := by
  rintro k ls vs v ⟨l1, _, _, _, rfl, rfl, ⟨s, a, rfl, h1, h2⟩, _, _, _, _, rfl, rfl, h3, _, _, _, _, rfl, rfl, ⟨i, n, w, p, r, rfl, rfl, h4, h5, h6⟩, rfl, rfl⟩ ha
  cases ha
  refine ⟨{ vars := s.vars ++ [(asString n, p)], delims := s.delims }, { vars := a.vars ++ [⟨asString n, r⟩], delims := a.delims }, ?_, ⟨h1.1, ?_⟩, ?_⟩
  · rfl
  · exact List.rel_append h1.2 (.cons ⟨rfl, h4⟩ .nil)
  · have := WrittenFile.line h2 h3 (.var (i := i) (k := k + (textOf (_ ++ _)).length) h5 (by simpa [Nat.add_assoc] using h6))
    simpa using this

theorem sem_existingSchemaWithDelimiter : Sem [.file, .nl, .tok "Delimiters", .tok "Colon", .delims] .existingSchemaWithDelimiter .file := by
  rintro k ls vs v ⟨l1, _, _, _, rfl, rfl, ⟨s, a, rfl, h1, h2⟩, _, _, _, _, rfl, rfl, h3, _, _, _, _, rfl, rfl, ⟨l, rfl, rfl, h4⟩,
    _, _, _, _, rfl, rfl, ⟨l', rfl, rfl, h5⟩, _, _, _, _, rfl, rfl, ⟨w, cs, rfl, rfl, h6⟩, rfl, rfl⟩ ha
  obtain rfl := stands_Delimiters h4
  obtain rfl := stands_Colon h5
  cases ha
  refine ⟨{ vars := s.vars, delims := s.delims ++ [cs] }, _, rfl, ⟨?_, h1.2⟩, ?_⟩
  · simp [SchemaAST.addDelimiters, h1.1]
  · have := WrittenFile.line h2 h3 (.delims (k := k + (textOf (_ ++ _)).length) (w := w) (cs := cs) (by simpa [Nat.add_assoc, Lexeme.text, delimitersWord] using h6))
    simpa using this

theorem sem_existingDelimiterString : Sem [.delims, .pat .literal] .existingDelimiterString .delims := by
  rintro k ls vs v ⟨_, _, _, _, rfl, rfl, ⟨w, cs, rfl, rfl, h1⟩, _, _, _, _, rfl, rfl, ⟨w', p, r, rfl, rfl, h2, h3⟩, rfl, rfl⟩ ha
  cases r <;> try (exfalso; cases ha; done)
  obtain rfl := elab_literal h2
  cases ha
  exact ⟨w ++ w', _, by simp, rfl, .snoc h1 (by simpa using h3)⟩

theorem sem_newDelimiterString : Sem [.pat .literal] .newDelimiterString .delims := by
  rintro k ls vs v ⟨_, _, _, _, rfl, rfl, ⟨w', p, r, rfl, rfl, h2, h3⟩, rfl, rfl⟩ ha
  cases r <;> try (exfalso; cases ha; done)
  obtain rfl := elab_literal h2
  cases ha
  exact ⟨w', _, by simp, rfl, .one h3⟩

theorem sem_crlf : Sem [.tok "CarriageReturn", .tok "NewLine"] .null .nl := by
  rintro k ls vs v ⟨_, _, _, _, rfl, rfl, ⟨l, rfl, rfl, h1⟩, _, _, _, _, rfl, rfl, ⟨l', rfl, rfl, h2⟩, rfl, rfl⟩ _
  obtain rfl := stands_CarriageReturn h1
  obtain rfl := stands_NewLine h2
  exact .inr rfl

theorem sem_lf : Sem [.tok "NewLine"] .null .nl := by
  rintro k ls vs v ⟨_, _, _, _, rfl, rfl, ⟨l, rfl, rfl, h1⟩, rfl, rfl⟩ _
  obtain rfl := stands_NewLine h1
  exact .inl rfl

theorem sem_comment : Sem [.tok "ForwardSlash", .tok "ForwardSlash", .text] .null .comment := by
  rintro k ls vs v ⟨_, _, _, _, rfl, rfl, ⟨l, rfl, rfl, h1⟩, _, _, _, _, rfl, rfl, ⟨l', rfl, rfl, h2⟩, l3, _, _, _, rfl, rfl, ⟨h3, h4⟩, rfl, rfl⟩ _
  obtain rfl := stands_ForwardSlash h1
  obtain rfl := stands_ForwardSlash h2
  exact ⟨l3, by simp, h3, h4⟩

theorem stands_comment {l : Lexeme} (h : Stands "CommentCharacters" l) : l ≠ .char 10 ∧ l ≠ .char 13 := by
  obtain ⟨c, rfl, r, hr, h1, h2⟩ := stands_char (rs := [(0, 9), (11, 12), (14, 255)]) (by decide +kernel) (by decide) h
  simp only [List.mem_cons, List.not_mem_nil, or_false] at hr
  simp only [ne_eq, Lexeme.char.injEq]
  rcases hr with rfl | rfl | rfl <;> simp only at h1 h2 <;> omega

theorem stands_delims_ok {l : Lexeme} (h : Stands "Delimiters" l) : l ≠ .char 10 ∧ l ≠ .char 13 := by
  obtain rfl := stands_Delimiters h
  exact ⟨by simp, by simp⟩

theorem sem_text {s : String} (hs : ∀ l, Stands s l → l ≠ .char 10 ∧ l ≠ .char 13) : Sem [.text, .tok s] .null .text := by
  rintro k ls vs v ⟨_, _, _, _, rfl, rfl, ⟨h1, h2⟩, _, _, _, _, rfl, rfl, ⟨l', rfl, rfl, h3⟩, rfl, rfl⟩ _
  refine ⟨by simp, ?_⟩
  intro l hl
  simp only [List.append_nil, List.mem_append, List.mem_singleton] at hl
  rcases hl with hl | rfl
  · exact h2 l hl
  · exact hs _ h3

theorem sem_text1 {s : String} (hs : ∀ l, Stands s l → l ≠ .char 10 ∧ l ≠ .char 13) : Sem [.tok s] .null .text := by
  rintro k ls vs v ⟨_, _, _, _, rfl, rfl, ⟨l', rfl, rfl, h3⟩, rfl, rfl⟩ _
  refine ⟨by simp, ?_⟩
  intro l hl
  simp only [List.append_nil, List.mem_singleton] at hl
  subst hl
  exact hs _ h3

theorem sem_schemaVar : Sem [.spaces, .name, .tok "Colon", .pat .seq] .schemaVar .var := by
  rintro k ls vs v ⟨_, _, _, _, rfl, rfl, ⟨i, rfl⟩, _, _, _, _, rfl, rfl, ⟨n, h1, rfl, rfl⟩, _, _, _, _, rfl, rfl, ⟨l', rfl, rfl, h2⟩,
    _, _, _, _, rfl, rfl, ⟨w, p, r, rfl, rfl, h3, h4⟩, rfl, rfl⟩ ha
  obtain rfl := stands_Colon h2
  cases ha
  exact ⟨i, n, w, p, r, by simp, rfl, h3, h1, by simpa [Nat.add_assoc] using h4⟩

theorem stands_alnum {l : Lexeme} (h : Stands "AlphaNumeric" l) : ∃ c, l = .char c ∧ AlphaNum c := by
  obtain ⟨c, rfl, r, hr, h1, h2⟩ := stands_char (rs := [(97, 122), (65, 90), (48, 57)]) (by decide +kernel) (by decide) h
  refine ⟨c, rfl, ?_⟩
  simp only [List.mem_cons, List.not_mem_nil, or_false] at hr
  unfold AlphaNum
  rcases hr with rfl | rfl | rfl <;> simp only at h1 h2 <;> omega

theorem sem_existingIdentifier : Sem [.name, .tok "AlphaNumeric"] .existingIdentifier .name := by
  rintro k ls vs v ⟨_, _, _, _, rfl, rfl, ⟨n, h1, rfl, rfl⟩, _, _, _, _, rfl, rfl, ⟨l', rfl, rfl, h2⟩, rfl, rfl⟩ ha
  obtain ⟨c, rfl, h3⟩ := stands_alnum h2
  cases ha
  refine ⟨n ++ [c], ⟨by simp, ?_⟩, by simp, rfl⟩
  intro d hd
  rcases List.mem_append.mp hd with hd | hd
  · exact h1.2 d hd
  · rw [List.mem_singleton.mp hd]; exact h3

theorem sem_newIdentifier : Sem [.tok "AlphaNumeric"] .newIdentifier .name := by
  rintro k ls vs v ⟨_, _, _, _, rfl, rfl, ⟨l', rfl, rfl, h2⟩, rfl, rfl⟩ ha
  obtain ⟨c, rfl, h3⟩ := stands_alnum h2
  cases ha
  exact ⟨[c], ⟨by simp, by simpa using h3⟩, by simp, rfl⟩

theorem sem_spaces : Sem [.spaces, .tok "Space"] .null .spaces := by
  rintro k ls vs v ⟨_, _, _, _, rfl, rfl, ⟨i, rfl⟩, _, _, _, _, rfl, rfl, ⟨l', rfl, rfl, h2⟩, rfl, rfl⟩ _
  obtain rfl := stands_Space h2
  refine ⟨i + 1, ?_⟩
  rw [List.replicate_succ']
  simp

theorem sem_nospace : Sem [] .null .spaces := by
  rintro k ls vs v ⟨rfl, rfl⟩ _
  exact ⟨0, rfl⟩

theorem sem_identity {a b : Level} (h : ∀ k w p, Written a k w p → Written b k w p) : Sem [.pat a] .identity (.pat b) := by
  rintro k ls vs v ⟨_, _, _, _, rfl, rfl, ⟨w, p, r, rfl, rfl, h1, h2⟩, rfl, rfl⟩ ha
  cases ha
  exact ⟨w, p, r, by simp, rfl, h1, h _ _ _ h2⟩

theorem sem_cat : Sem [.pat .seq, .pat .choice] .cat (.pat .seq) := by
  rintro k ls vs v ⟨_, _, _, _, rfl, rfl, ⟨w, p, r, rfl, rfl, h1, h2⟩, _, _, _, _, rfl, rfl, ⟨w', p', r', rfl, rfl, h3, h4⟩, rfl, rfl⟩ ha
  cases ha
  exact ⟨w ++ w', .cat p p', _, by simp, rfl, by simp [Pat.elab, h1, h3], .cat h2 (by simpa using h4)⟩

theorem sem_or : Sem [.pat .choice, .tok "Vbar", .pat .literal] .or (.pat .choice) := by
  rintro k ls vs v ⟨_, _, _, _, rfl, rfl, ⟨w, p, r, rfl, rfl, h1, h2⟩, _, _, _, _, rfl, rfl, ⟨l', rfl, rfl, h5⟩,
    _, _, _, _, rfl, rfl, ⟨w', p', r', rfl, rfl, h3, h4⟩, rfl, rfl⟩ ha
  obtain rfl := stands_Vbar h5
  cases ha
  exact ⟨w ++ 124 :: w', .or p p', _, by simp, rfl, by simp [Pat.elab, h1, h3], .or h2 (by simpa using h4)⟩

theorem sem_star : Sem [.pat .single, .tok "Star"] .star (.pat .repeated) := by
  rintro k ls vs v ⟨_, _, _, _, rfl, rfl, ⟨w, p, r, rfl, rfl, h1, h2⟩, _, _, _, _, rfl, rfl, ⟨l', rfl, rfl, h5⟩, rfl, rfl⟩ ha
  obtain rfl := stands_Star h5
  cases ha
  exact ⟨w ++ [42], .star p, _, by simp, rfl, by simp [Pat.elab, h1], .star h2⟩

theorem sem_plus : Sem [.pat .single, .tok "Plus"] .plus (.pat .repeated) := by
  rintro k ls vs v ⟨_, _, _, _, rfl, rfl, ⟨w, p, r, rfl, rfl, h1, h2⟩, _, _, _, _, rfl, rfl, ⟨l', rfl, rfl, h5⟩, rfl, rfl⟩ ha
  obtain rfl := stands_Plus h5
  cases ha
  exact ⟨w ++ [43], .plus p, _, by simp, rfl, by simp [Pat.elab, h1], .plus h2⟩

theorem sem_exactly : Sem [.pat .single, .tok "Lbrace", .int, .tok "Rbrace"] .exactly (.pat .repeated) := by
  rintro k ls vs v ⟨_, _, _, _, rfl, rfl, ⟨w, p, r, rfl, rfl, h1, h2⟩, _, _, _, _, rfl, rfl, ⟨l', rfl, rfl, h5⟩,
    _, _, _, _, rfl, rfl, ⟨ds, h3, rfl, rfl⟩, _, _, _, _, rfl, rfl, ⟨l'', rfl, rfl, h6⟩, rfl, rfl⟩ ha
  obtain rfl := stands_Lbrace h5
  obtain rfl := stands_Rbrace h6
  cases hc : repetitionCount ds with
  | none =>
    exfalso
    simp [SemRule.apply, childRegex, integerDigits, countOf, hc, bind, Except.bind] at ha
  | some n =>
    simp [SemRule.apply, childRegex, integerDigits, countOf, hc, bind, Except.bind] at ha
    subst ha
    exact ⟨_, .exact p ds, _, by simp, rfl, by simp [Pat.elab, h1, hc], .exact h2 h3⟩

theorem sem_between : Sem [.pat .single, .tok "Lbrace", .int, .tok "Comma", .int, .tok "Rbrace"] .between (.pat .repeated) := by
  rintro k ls vs v ⟨_, _, _, _, rfl, rfl, ⟨w, p, r, rfl, rfl, h1, h2⟩, _, _, _, _, rfl, rfl, ⟨l', rfl, rfl, h5⟩,
    _, _, _, _, rfl, rfl, ⟨ds, h3, rfl, rfl⟩, _, _, _, _, rfl, rfl, ⟨l'', rfl, rfl, h6⟩,
    _, _, _, _, rfl, rfl, ⟨ds', h7, rfl, rfl⟩, _, _, _, _, rfl, rfl, ⟨l3, rfl, rfl, h8⟩, rfl, rfl⟩ ha
  obtain rfl := stands_Lbrace h5
  obtain rfl := stands_Comma h6
  obtain rfl := stands_Rbrace h8
  cases hc : repetitionCount ds with
  | none =>
    exfalso
    simp [SemRule.apply, childRegex, integerDigits, countOf, hc, bind, Except.bind] at ha
  | some n =>
    cases hc' : repetitionCount ds' with
    | none =>
      exfalso
      simp [SemRule.apply, childRegex, integerDigits, countOf, hc, hc', bind, Except.bind] at ha
    | some m =>
      simp [SemRule.apply, childRegex, integerDigits, countOf, hc, hc', bind, Except.bind] at ha
      subst ha
      exact ⟨_, .range p ds ds', _, by simp, rfl, by simp [Pat.elab, h1, hc, hc'], .range h2 h3 h7⟩

theorem sem_closed : Sem [.openC, .tok "Rbracket"] .identity (.pat .single) := by
  rintro k ls vs v ⟨_, _, _, _, rfl, rfl, ⟨w, n, is, rs, rfl, rfl, h1, h2⟩, _, _, _, _, rfl, rfl, ⟨l', rfl, rfl, h5⟩, rfl, rfl⟩ ha
  obtain rfl := stands_Rbracket h5
  cases ha
  exact ⟨w ++ [93], .cls n is, _, by simp, rfl, by simp [Pat.elab, h1], .closed h2⟩

theorem sem_singleDigit : Sem [.digit] .identity (.pat .single) := by
  rintro k ls vs v ⟨_, _, _, _, rfl, rfl, ⟨rfl, rfl⟩, rfl, rfl⟩ ha
  cases ha
  exact ⟨_, .digit, _, by simp, rfl, rfl, .digit⟩

theorem sem_singleWhite : Sem [.white] .identity (.pat .single) := by
  rintro k ls vs v ⟨_, _, _, _, rfl, rfl, ⟨rfl, rfl⟩, rfl, rfl⟩ ha
  cases ha
  exact ⟨_, .space, _, by simp, rfl, rfl, .space⟩

theorem sem_singleWild : Sem [.wild] .identity (.pat .single) := by
  rintro k ls vs v ⟨_, _, _, _, rfl, rfl, ⟨rfl, rfl⟩, rfl, rfl⟩ ha
  cases ha
  exact ⟨_, .wild, _, by simp, rfl, rfl, .wild⟩

theorem sem_addRangeExisting : Sem [.openC, .range] .addRangeExisting .openC := by
  rintro k ls vs v ⟨_, _, _, _, rfl, rfl, ⟨w, n, is, rs, rfl, rfl, h1, h2⟩, _, _, _, _, rfl, rfl, ⟨w', a, b, rfl, rfl, h3, h4⟩, rfl, rfl⟩ ha
  cases ha
  exact ⟨w ++ w', n, is ++ [.range a b], _, by simp, rfl, by simp [addItems_append, h1, addItems, addItem, h3], .more h2 (by simpa using h4)⟩

theorem sem_addDigitExisting : Sem [.openC, .digit] .addRangeExisting .openC := by
  rintro k ls vs v ⟨_, _, _, _, rfl, rfl, ⟨w, n, is, rs, rfl, rfl, h1, h2⟩, _, _, _, _, rfl, rfl, ⟨rfl, rfl⟩, rfl, rfl⟩ ha
  cases ha
  exact ⟨w ++ [92, 100], n, is ++ [.digit], _, by simp, rfl, by simp [addItems_append, h1, addItems, addItem], .more h2 .itemDigit⟩

theorem sem_addLiteralExisting : Sem [.openC, .pat .literal] .addLiteralExisting .openC := by
  rintro k ls vs v ⟨_, _, _, _, rfl, rfl, ⟨w, n, is, rs, rfl, rfl, h1, h2⟩, _, _, _, _, rfl, rfl, ⟨w', p, r, rfl, rfl, h3, h4⟩, rfl, rfl⟩ ha
  cases r <;> try (exfalso; cases ha; done)
  rename_i t c
  obtain rfl := elab_literal h3
  cases ha
  exact ⟨w ++ w', n, is ++ [.lit c], _, by simp, rfl, by simp [addItems_append, h1, addItems, addItem], .more h2 (.itemChar (by simpa using h4))⟩

theorem sem_addWhiteExisting : Sem [.openC, .white] .addLiteralExisting .openC := by
  rintro k ls vs v ⟨_, _, _, _, rfl, rfl, ⟨w, n, is, rs, rfl, rfl, h1, h2⟩, _, _, _, _, rfl, rfl, ⟨rfl, rfl⟩, rfl, rfl⟩ ha
  cases ha

theorem sem_addRangeNew : Sem [.tok "Lbracket", .range] .addRangeNew .openC := by
  rintro k ls vs v ⟨_, _, _, _, rfl, rfl, ⟨l', rfl, rfl, h5⟩, _, _, _, _, rfl, rfl, ⟨w', a, b, rfl, rfl, h3, h4⟩, rfl, rfl⟩ ha
  obtain rfl := stands_Lbracket h5
  cases ha
  exact ⟨91 :: w', false, [.range a b], _, by simp, rfl, by simp [addItems, addItem, h3], .opened (by simpa using h4)⟩

theorem sem_addDigitNew : Sem [.tok "Lbracket", .digit] .addRangeNew .openC := by
  rintro k ls vs v ⟨_, _, _, _, rfl, rfl, ⟨l', rfl, rfl, h5⟩, _, _, _, _, rfl, rfl, ⟨rfl, rfl⟩, rfl, rfl⟩ ha
  obtain rfl := stands_Lbracket h5
  cases ha
  exact ⟨[91, 92, 100], false, [.digit], _, by simp, rfl, by simp [addItems, addItem], .opened .itemDigit⟩

theorem sem_addLiteralNew : Sem [.tok "Lbracket", .pat .literal] .addLiteralNew .openC := by
  rintro k ls vs v ⟨_, _, _, _, rfl, rfl, ⟨l', rfl, rfl, h5⟩, _, _, _, _, rfl, rfl, ⟨w', p, r, rfl, rfl, h3, h4⟩, rfl, rfl⟩ ha
  obtain rfl := stands_Lbracket h5
  cases r <;> try (exfalso; cases ha; done)
  rename_i t c
  obtain rfl := elab_literal h3
  cases ha
  exact ⟨91 :: w', false, [.lit c], _, by simp, rfl, by simp [addItems, addItem], .opened (.itemChar (by simpa using h4))⟩

theorem sem_addWhiteNew : Sem [.tok "Lbracket", .white] .addLiteralNew .openC := by
  rintro k ls vs v ⟨_, _, _, _, rfl, rfl, ⟨l', rfl, rfl, h5⟩, _, _, _, _, rfl, rfl, ⟨rfl, rfl⟩, rfl, rfl⟩ ha
  cases ha

theorem sem_complement : Sem [.tok "Lbracket", .tok "Hat"] .complement .openC := by
  rintro k ls vs v ⟨_, _, _, _, rfl, rfl, ⟨l', rfl, rfl, h5⟩, _, _, _, _, rfl, rfl, ⟨l'', rfl, rfl, h6⟩, rfl, rfl⟩ ha
  obtain rfl := stands_Lbracket h5
  obtain rfl := stands_Hat h6
  cases ha
  exact ⟨[91, 94], true, [], _, by simp, rfl, rfl, .openedHat⟩

theorem sem_literalRange : Sem [.pat .literal, .tok "Dash", .pat .literal] .literalRange .range := by
  rintro k ls vs v ⟨_, _, _, _, rfl, rfl, ⟨w, p, r, rfl, rfl, h1, h2⟩, _, _, _, _, rfl, rfl, ⟨l', rfl, rfl, h5⟩,
    _, _, _, _, rfl, rfl, ⟨w', p', r', rfl, rfl, h3, h4⟩, rfl, rfl⟩ ha
  obtain rfl := stands_Dash h5
  cases r <;> try (exfalso; cases ha; done)
  rename_i t a
  cases r' <;> try (exfalso; cases ha; done)
  rename_i t b
  obtain rfl := elab_literal h1
  obtain rfl := elab_literal h3
  change (if a < b then Except.ok _ else Except.error _) = _ at ha
  by_cases hab : a < b
  · rw [if_pos hab] at ha
    cases ha
    exact ⟨w ++ 45 :: w', a, b, by simp, rfl, hab, .itemRange h2 (by simpa using h4)⟩
  · rw [if_neg hab] at ha
    cases ha

theorem sem_const {s : String} {d c : Nat} (hs : ∀ l, Stands s l → l = .char d) (hw : WrittenChar [92, d] c) :
    Sem [.tok "Backslash", .tok s] (.const c) (.pat .literal) := by
  rintro k ls vs v ⟨_, _, _, _, rfl, rfl, ⟨l', rfl, rfl, h5⟩, _, _, _, _, rfl, rfl, ⟨l'', rfl, rfl, h6⟩, rfl, rfl⟩ ha
  obtain rfl := stands_Backslash h5
  obtain rfl := hs _ h6
  cases ha
  exact ⟨[92, d], .lit c, _, by simp, rfl, rfl, .char hw⟩

theorem sem_literal {s : String} (hs : ∀ l, Stands s l → ∃ c, l = .char c ∧ Plain c) : Sem [.tok s] .literal (.pat .literal) := by
  rintro k ls vs v ⟨_, _, _, _, rfl, rfl, ⟨l', rfl, rfl, h5⟩, rfl, rfl⟩ ha
  obtain ⟨c, rfl, hc⟩ := hs _ h5
  cases ha
  exact ⟨[c], .lit c, _, by simp, rfl, rfl, .char (.plain hc)⟩

theorem sem_cancel {s : String} {c : Nat} (hs : ∀ l, Stands s l → l = .char c) (hc : Special c) :
    Sem [.tok "Backslash", .tok s] .cancelLiteral (.pat .literal) := by
  rintro k ls vs v ⟨_, _, _, _, rfl, rfl, ⟨l', rfl, rfl, h5⟩, _, _, _, _, rfl, rfl, ⟨l'', rfl, rfl, h6⟩, rfl, rfl⟩ ha
  obtain rfl := stands_Backslash h5
  obtain rfl := hs _ h6
  cases ha
  exact ⟨[92, c], .lit c, _, by simp, rfl, rfl, .char (.escaped hc)⟩

theorem sem_capture : Sem [.tok "Lparen", .tok "QuestionMark", .tok "Langle", .name, .tok "Rangle", .pat .seq, .tok "Rparen"] .capture (.pat .literal) := by
  rintro k ls vs v ⟨_, _, _, _, rfl, rfl, ⟨l1, rfl, rfl, h1⟩, _, _, _, _, rfl, rfl, ⟨l2, rfl, rfl, h2⟩,
    _, _, _, _, rfl, rfl, ⟨l3, rfl, rfl, h3⟩, _, _, _, _, rfl, rfl, ⟨n, h4, rfl, rfl⟩, _, _, _, _, rfl, rfl, ⟨l5, rfl, rfl, h5⟩,
    _, _, _, _, rfl, rfl, ⟨w, p, r, rfl, rfl, h6, h7⟩, _, _, _, _, rfl, rfl, ⟨l8, rfl, rfl, h8⟩, rfl, rfl⟩ ha
  obtain rfl := stands_Lparen h1
  obtain rfl := stands_QuestionMark h2
  obtain rfl := stands_Langle h3
  obtain rfl := stands_Rangle h5
  obtain rfl := stands_Rparen h8
  cases ha
  refine ⟨[40, 63, 60] ++ n ++ 62 :: w ++ [41], .capture p ⟨k, asString n⟩, _, by simp, rfl, by simp [Pat.elab, h6], .capture h4 ?_⟩
  have e : k + n.length + 4 = k + 1 + 1 + 1 + n.length + 1 := by omega
  rw [e]
  simpa using h7

theorem sem_parens : Sem [.tok "Lparen", .pat .seq, .tok "Rparen"] .middleIdentity (.pat .literal) := by
  rintro k ls vs v ⟨_, _, _, _, rfl, rfl, ⟨l1, rfl, rfl, h1⟩,
    _, _, _, _, rfl, rfl, ⟨w, p, r, rfl, rfl, h6, h7⟩, _, _, _, _, rfl, rfl, ⟨l8, rfl, rfl, h8⟩, rfl, rfl⟩ ha
  obtain rfl := stands_Lparen h1
  obtain rfl := stands_Rparen h8
  cases ha
  exact ⟨40 :: w ++ [41], p, _, by simp, rfl, h6, .parens (by simpa using h7)⟩

theorem stands_numeric {l : Lexeme} (h : Stands "Numeric" l) : ∃ d, l = .char (48 + d) ∧ d ≤ 9 := by
  obtain ⟨c, rfl, r, hr, h1, h2⟩ := stands_char (rs := [(48, 57)]) (by decide +kernel) (by decide) h
  rw [List.mem_singleton] at hr
  subst hr
  simp only at h1 h2
  exact ⟨c - 48, by congr 1; omega, by omega⟩

theorem sem_existingInteger : Sem [.int, .tok "Numeric"] .existingInteger .int := by
  rintro k ls vs v ⟨_, _, _, _, rfl, rfl, ⟨ds, h1, rfl, rfl⟩, _, _, _, _, rfl, rfl, ⟨l', rfl, rfl, h2⟩, rfl, rfl⟩ ha
  obtain ⟨d, rfl, hd⟩ := stands_numeric h2
  have e : 48 + d - 48 = d := by omega
  cases ha
  refine ⟨ds ++ [d], ⟨by simp, ?_⟩, by simp [digitsText], by simp⟩
  intro x hx
  rcases List.mem_append.mp hx with hx | hx
  · exact h1.2 x hx
  · rw [List.mem_singleton.mp hx]; exact hd

theorem sem_newInteger : Sem [.tok "Numeric"] .newInteger .int := by
  rintro k ls vs v ⟨_, _, _, _, rfl, rfl, ⟨l', rfl, rfl, h2⟩, rfl, rfl⟩ ha
  obtain ⟨d, rfl, hd⟩ := stands_numeric h2
  cases ha
  exact ⟨[d], ⟨by simp, by simpa using hd⟩, by simp [digitsText], by simp⟩

theorem sem_digit : Sem [.tok "Backslash", .tok "d"] .digit .digit := by
  rintro k ls vs v ⟨_, _, _, _, rfl, rfl, ⟨l', rfl, rfl, h5⟩, _, _, _, _, rfl, rfl, ⟨l'', rfl, rfl, h6⟩, rfl, rfl⟩ ha
  obtain rfl := stands_Backslash h5
  obtain rfl := stands_d h6
  cases ha
  exact ⟨by simp, rfl⟩

theorem sem_white : Sem [.tok "Backslash", .tok "s"] .whiteSpace .white := by
  rintro k ls vs v ⟨_, _, _, _, rfl, rfl, ⟨l', rfl, rfl, h5⟩, _, _, _, _, rfl, rfl, ⟨l'', rfl, rfl, h6⟩, rfl, rfl⟩ ha
  obtain rfl := stands_Backslash h5
  obtain rfl := stands_s h6
  cases ha
  exact ⟨by simp, rfl⟩

theorem sem_wild : Sem [.tok "Dot"] .wildcard .wild := by
  rintro k ls vs v ⟨_, _, _, _, rfl, rfl, ⟨l', rfl, rfl, h5⟩, rfl, rfl⟩ ha
  obtain rfl := stands_Dot h5
  cases ha
  exact ⟨by simp, rfl⟩


theorem kind_Schema : kindOf "Schema" = .file := rfl
theorem kind_Comment : kindOf "Comment" = .comment := rfl
theorem kind_SchemaVar : kindOf "SchemaVar" = .var := rfl
theorem kind_Delimiters : kindOf "Delimiters" = .tok "Delimiters" := rfl
theorem kind_Colon : kindOf "Colon" = .tok "Colon" := rfl
theorem kind_DelimiterString : kindOf "DelimiterString" = .delims := rfl
theorem kind_PortableNewLine : kindOf "PortableNewLine" = .nl := rfl
theorem kind_Literal : kindOf "Literal" = .pat .literal := rfl
theorem kind_CarriageReturn : kindOf "CarriageReturn" = .tok "CarriageReturn" := rfl
theorem kind_NewLine : kindOf "NewLine" = .tok "NewLine" := rfl
theorem kind_ForwardSlash : kindOf "ForwardSlash" = .tok "ForwardSlash" := rfl
theorem kind_Text : kindOf "Text" = .text := rfl
theorem kind_CommentCharacters : kindOf "CommentCharacters" = .tok "CommentCharacters" := rfl
theorem kind_WhitespaceStar : kindOf "WhitespaceStar" = .spaces := rfl
theorem kind_Identifier : kindOf "Identifier" = .name := rfl
theorem kind_Regex : kindOf "Regex" = .pat .seq := rfl
theorem kind_AlphaNumeric : kindOf "AlphaNumeric" = .tok "AlphaNumeric" := rfl
theorem kind_Space : kindOf "Space" = .tok "Space" := rfl
theorem kind_Concat : kindOf "Concat" = .pat .seq := rfl
theorem kind_Or : kindOf "Or" = .pat .choice := rfl
theorem kind_Vbar : kindOf "Vbar" = .tok "Vbar" := rfl
theorem kind_MatchStar : kindOf "MatchStar" = .pat .repeated := rfl
theorem kind_MatchPlus : kindOf "MatchPlus" = .pat .repeated := rfl
theorem kind_MatchExact : kindOf "MatchExact" = .pat .repeated := rfl
theorem kind_MatchRange : kindOf "MatchRange" = .pat .repeated := rfl
theorem kind_CompleteGroup : kindOf "CompleteGroup" = .pat .single := rfl
theorem kind_Star : kindOf "Star" = .tok "Star" := rfl
theorem kind_Plus : kindOf "Plus" = .tok "Plus" := rfl
theorem kind_Lbrace : kindOf "Lbrace" = .tok "Lbrace" := rfl
theorem kind_Integer : kindOf "Integer" = .int := rfl
theorem kind_Rbrace : kindOf "Rbrace" = .tok "Rbrace" := rfl
theorem kind_Comma : kindOf "Comma" = .tok "Comma" := rfl
theorem kind_IncompleteGroup : kindOf "IncompleteGroup" = .openC := rfl
theorem kind_Rbracket : kindOf "Rbracket" = .tok "Rbracket" := rfl
theorem kind_Digit : kindOf "Digit" = .digit := rfl
theorem kind_Wildcard : kindOf "Wildcard" = .wild := rfl
theorem kind_WhiteSpace : kindOf "WhiteSpace" = .white := rfl
theorem kind_LiteralRange : kindOf "LiteralRange" = .range := rfl
theorem kind_Lbracket : kindOf "Lbracket" = .tok "Lbracket" := rfl
theorem kind_Hat : kindOf "Hat" = .tok "Hat" := rfl
theorem kind_Dash : kindOf "Dash" = .tok "Dash" := rfl
theorem kind_Backslash : kindOf "Backslash" = .tok "Backslash" := rfl
theorem kind_t : kindOf "t" = .tok "t" := rfl
theorem kind_n : kindOf "n" = .tok "n" := rfl
theorem kind_v : kindOf "v" = .tok "v" := rfl
theorem kind_f : kindOf "f" = .tok "f" := rfl
theorem kind_r : kindOf "r" = .tok "r" := rfl
theorem kind_Bang : kindOf "Bang" = .tok "Bang" := rfl
theorem kind_Quotation : kindOf "Quotation" = .tok "Quotation" := rfl
theorem kind_Hash : kindOf "Hash" = .tok "Hash" := rfl
theorem kind_DollarSign : kindOf "DollarSign" = .tok "DollarSign" := rfl
theorem kind_Percent : kindOf "Percent" = .tok "Percent" := rfl
theorem kind_Ampersand : kindOf "Ampersand" = .tok "Ampersand" := rfl
theorem kind_Apostrophe : kindOf "Apostrophe" = .tok "Apostrophe" := rfl
theorem kind_Lparen : kindOf "Lparen" = .tok "Lparen" := rfl
theorem kind_Rparen : kindOf "Rparen" = .tok "Rparen" := rfl
theorem kind_Dot : kindOf "Dot" = .tok "Dot" := rfl
theorem kind_SemiColon : kindOf "SemiColon" = .tok "SemiColon" := rfl
theorem kind_Equal : kindOf "Equal" = .tok "Equal" := rfl
theorem kind_At : kindOf "At" = .tok "At" := rfl
theorem kind_Underscore : kindOf "Underscore" = .tok "Underscore" := rfl
theorem kind_Backtick : kindOf "Backtick" = .tok "Backtick" := rfl
theorem kind_Langle : kindOf "Langle" = .tok "Langle" := rfl
theorem kind_Rangle : kindOf "Rangle" = .tok "Rangle" := rfl
theorem kind_QuestionMark : kindOf "QuestionMark" = .tok "QuestionMark" := rfl
theorem kind_Tilde : kindOf "Tilde" = .tok "Tilde" := rfl
theorem kind_Numeric : kindOf "Numeric" = .tok "Numeric" := rfl
theorem kind_d : kindOf "d" = .tok "d" := rfl
theorem kind_s : kindOf "s" = .tok "s" := rfl

/-- The kind of the head is right for every production. -/
def SemOk (x : (String × List String) × SemRule) : Prop := Sem (x.1.2.map kindOf) x.2 (kindOf x.1.1)

theorem semOk_all : List.Forall SemOk D0 := by
  refine ⟨sem_newSchema,
    sem_newSchemaWithVar,
    sem_newSchemaWithDelimiters,
    sem_schemaIdentity,
    sem_schemaIdentity',
    sem_existingSchema,
    sem_existingSchemaWithDelimiter,
    sem_existingDelimiterString,
    sem_newDelimiterString,
    sem_crlf,
    sem_lf,
    sem_comment,
    sem_text (fun _ => stands_comment),
    sem_text1 (fun _ => stands_comment),
    sem_text (fun _ => stands_delims_ok),
    sem_text1 (fun _ => stands_delims_ok),
    sem_schemaVar,
    sem_existingIdentifier,
    sem_newIdentifier,
    sem_spaces,
    sem_nospace,
    sem_identity (fun _ _ _ h => h),
    sem_cat,
    sem_identity (fun _ _ _ h => .ofChoice h),
    sem_or,
    sem_identity (fun _ _ _ h => .ofRepeated h),
    sem_identity (fun _ _ _ h => .ofRepeated h),
    sem_identity (fun _ _ _ h => .ofRepeated h),
    sem_identity (fun _ _ _ h => .ofRepeated h),
    sem_identity (fun _ _ _ h => .ofSingle h),
    sem_star,
    sem_plus,
    sem_exactly,
    sem_between,
    sem_closed,
    sem_identity (fun _ _ _ h => .ofLiteral h),
    sem_singleDigit,
    sem_singleWild,
    sem_singleWhite,
    sem_addRangeExisting,
    sem_addDigitExisting,
    sem_addLiteralExisting,
    sem_addWhiteExisting,
    sem_addRangeNew,
    sem_addDigitNew,
    sem_addLiteralNew,
    sem_addWhiteNew,
    sem_complement,
    sem_literalRange,
    sem_const (fun _ => stands_t) .tab,
    sem_const (fun _ => stands_n) .newline,
    sem_const (fun _ => stands_v) .verticalTab,
    sem_const (fun _ => stands_f) .formFeed,
    sem_const (fun _ => stands_r) .carriageReturn,
    sem_literal (fun _ h => ⟨_, stands_Space h, .inr (by decide)⟩),
    sem_literal (fun _ h => ⟨_, stands_Bang h, .inr (by decide)⟩),
    sem_literal (fun _ h => ⟨_, stands_Quotation h, .inr (by decide)⟩),
    sem_literal (fun _ h => ⟨_, stands_Hash h, .inr (by decide)⟩),
    sem_literal (fun _ h => ⟨_, stands_DollarSign h, .inr (by decide)⟩),
    sem_literal (fun _ h => ⟨_, stands_Percent h, .inr (by decide)⟩),
    sem_literal (fun _ h => ⟨_, stands_Ampersand h, .inr (by decide)⟩),
    sem_literal (fun _ h => ⟨_, stands_Apostrophe h, .inr (by decide)⟩),
    sem_cancel (fun _ => stands_Lparen) (by unfold Special; decide),
    sem_cancel (fun _ => stands_Rparen) (by unfold Special; decide),
    sem_cancel (fun _ => stands_Star) (by unfold Special; decide),
    sem_cancel (fun _ => stands_Plus) (by unfold Special; decide),
    sem_literal (fun _ h => ⟨_, stands_Comma h, .inr (by decide)⟩),
    sem_cancel (fun _ => stands_Dash) (by unfold Special; decide),
    sem_cancel (fun _ => stands_Dot) (by unfold Special; decide),
    sem_literal (fun _ h => ⟨_, stands_ForwardSlash h, .inr (by decide)⟩),
    sem_literal (fun _ h => let ⟨c, e, hc⟩ := stands_alnum h; ⟨c, e, .inl hc⟩),
    sem_literal (fun _ h => ⟨_, stands_Colon h, .inr (by decide)⟩),
    sem_literal (fun _ h => ⟨_, stands_SemiColon h, .inr (by decide)⟩),
    sem_literal (fun _ h => ⟨_, stands_Equal h, .inr (by decide)⟩),
    sem_literal (fun _ h => ⟨_, stands_At h, .inr (by decide)⟩),
    sem_cancel (fun _ => stands_Lbracket) (by unfold Special; decide),
    sem_cancel (fun _ => stands_Backslash) (by unfold Special; decide),
    sem_cancel (fun _ => stands_Rbracket) (by unfold Special; decide),
    sem_cancel (fun _ => stands_Hat) (by unfold Special; decide),
    sem_literal (fun _ h => ⟨_, stands_Underscore h, .inr (by decide)⟩),
    sem_literal (fun _ h => ⟨_, stands_Backtick h, .inr (by decide)⟩),
    sem_cancel (fun _ => stands_Lbrace) (by unfold Special; decide),
    sem_cancel (fun _ => stands_Vbar) (by unfold Special; decide),
    sem_cancel (fun _ => stands_Rbrace) (by unfold Special; decide),
    sem_cancel (fun _ => stands_Langle) (by unfold Special; decide),
    sem_cancel (fun _ => stands_Rangle) (by unfold Special; decide),
    sem_cancel (fun _ => stands_QuestionMark) (by unfold Special; decide),
    sem_literal (fun _ h => ⟨_, stands_Tilde h, .inr (by decide)⟩),
    sem_capture,
    sem_parens,
    sem_cancel (fun _ => stands_Lparen) (by unfold Special; decide),
    sem_cancel (fun _ => stands_Rparen) (by unfold Special; decide),
    sem_cancel (fun _ => stands_Star) (by unfold Special; decide),
    sem_cancel (fun _ => stands_Plus) (by unfold Special; decide),
    sem_cancel (fun _ => stands_Dash) (by unfold Special; decide),
    sem_cancel (fun _ => stands_Dot) (by unfold Special; decide),
    sem_cancel (fun _ => stands_Lbracket) (by unfold Special; decide),
    sem_cancel (fun _ => stands_Rbracket) (by unfold Special; decide),
    sem_cancel (fun _ => stands_Backslash) (by unfold Special; decide),
    sem_cancel (fun _ => stands_Hat) (by unfold Special; decide),
    sem_cancel (fun _ => stands_Lbrace) (by unfold Special; decide),
    sem_cancel (fun _ => stands_Rbrace) (by unfold Special; decide),
    sem_cancel (fun _ => stands_Vbar) (by unfold Special; decide),
    sem_cancel (fun _ => stands_Langle) (by unfold Special; decide),
    sem_cancel (fun _ => stands_Rangle) (by unfold Special; decide),
    sem_cancel (fun _ => stands_QuestionMark) (by unfold Special; decide),
    sem_existingInteger,
    sem_newInteger,
    sem_digit,
    sem_wild,
    sem_white⟩

end LogSurgeon
