import Verif.Proofs.SchemaOutcome
import Verif.Props.SchemaReject
import Mathlib.Tactic.Tauto
/-
C47: what is said about a syntax error.
-/
namespace LogSurgeon
open Grammar

/-! ### Any grammar -/

/-- C47, where the parser stops, for any grammar under the conditions of C42 (`Decent`).  If the parser throws on the tokens `w`, which are clear, followed
by an end token, it stops at the first token that does not fit: the tokens `u` before it can be continued to something derivable; if
it is one of `w`, there is no continuation with it; if it is the end token, `w` is not derivable. -/
theorem C47_first_offending_token {terms : List String} {start : String} {bd : List String} {ds : List (String × List String)} {g : Grammar}
    (D : Decent terms start bd ds g) {o : Orders} (ho : o.Ok g) {fuel : Nat} {tb : Table} (hgen : g.generate o fuel = .ok tb)
    {resets : Nat → Bool} {w : List Token} (hcl : ∀ x ∈ w, g.Clear tb x) {e : Token} (he : e.types = some [tokenEnd]) (het : tokenEnd ∈ g.terminals)
    {k kids : Nat} (h : g.parse tb resets k kids (w ++ [e]) = .error .throws) :
    ∃ s u tok rest, g.stop tb resets k kids (w ++ [e]) = .ok (.rejected s tok rest) ∧ w ++ [e] = u ++ tok :: rest ∧
      (∃ z tree, Derivation g.decls (g.IsTok (reserved.map (·.1) ++ terms)) [start] [tree] (u ++ z)) ∧
      (rest ≠ [] → ∀ z, (∀ x ∈ z, g.Clear tb x) → ¬ ∃ tree, Derivation g.decls (g.IsTok (reserved.map (·.1) ++ terms)) [start] [tree] (u ++ tok :: z)) ∧
      (rest = [] → u = w ∧ ¬ ∃ tree, Derivation g.decls (g.IsTok (reserved.map (·.1) ++ terms)) [start] [tree] w) := by
  have hty : ∀ x ∈ w ++ [e], Typed g x := by
    intro x hx
    rcases List.mem_append.mp hx with hx | hx
    · exact (hcl x hx).typed
    · rw [List.mem_singleton.mp hx]
      exact ⟨[tokenEnd], he, fun ty hty => by rw [List.mem_singleton.mp hty]; exact het⟩
  obtain ⟨s, tok, rest, hs⟩ := throws_rejected D ho hgen hty ⟨e, by simp, he⟩ h
  obtain ⟨u, t, h1, -, -, -, -, ⟨z, tree, h2, -⟩, h3, h4⟩ := rejected_names D ho hgen (fun x hx => by
    rcases List.mem_append.mp hx with hx | hx
    · exact .inl (hcl x hx)
    · exact .inr (by rw [List.mem_singleton.mp hx]; exact he)) hs
  refine ⟨s, u, tok, rest, hs, h1, ⟨z, tree, h2⟩, fun hr z hz => ?_, fun hr => ?_⟩
  · have htok : tok ∈ w := by
      rcases List.eq_nil_or_concat rest with rfl | ⟨r', y, rfl⟩
      · exact absurd rfl hr
      · rw [List.concat_eq_append, show u ++ tok :: (r' ++ [y]) = (u ++ tok :: r') ++ [y] by simp] at h1
        rw [(List.append_inj' h1 rfl).1]
        simp
    exact h4 (hcl tok htok) z hz
  · subst hr
    obtain ⟨rfl, h5⟩ := List.append_inj' (show w ++ [e] = u ++ [tok] from h1) rfl
    have : e = tok := by simpa using h5
    subst this
    exact ⟨rfl, h3 he⟩

/-! ### Schema files -/

/-- C47 (partial: short texts).  What `try_schema_string` says about a syntax error.  If the text is derivable from the productions, nothing.
Otherwise: the message names the line and the column of the first unit that does not fit (`FirstOffending`), shows the line and has a caret below the unit; or,
if the text ends too early (`EndsEarly`), it says so; the names listed as expected are those of symbols that may come next, unless a phrase ends
there (`SchemaExpected`).  (`MessageFor` describes the message as it is: the line is one too high if the unit is a newline; see also the other
theorems.)  There is no message if the text before the unit contains something for which the parser fails otherwise (`StopsBefore`). -/
theorem C47_message_string_partial {E : SchemaEnv} (hE : E.Ok) (ho : E.orders.Ok (schemaGrammar (E.specials.map (·.2)))) {kids : Nat} {text : List Nat}
    (hw : text.length < 24000) (hb : AllBytes text) (hk : Fit kids (lexemes text)) :
    ∃ n res, (∀ fuel steps, n ≤ fuel → n ≤ steps → schemaStringComplaint { E with fuel := fuel, steps := steps } kids text = res) ∧
      ((SchemaSyntax (lexemes text) ∧ res = .ok none) ∨
       (¬ SchemaSyntax (lexemes text) ∧ ((∃ e, res = .error e ∧ StopsBefore text e) ∨ ∃ m, res = .ok (some m) ∧ MessageFor SchemaSyntax SchemaExpected text m))) :=
  schema_complaint hE ho hw hb (string_delivers hw) hk

/-- C47 (partial: short texts) for files. -/
theorem C47_message_file_partial {E : SchemaEnv} (hE : E.Ok) (ho : E.orders.Ok (schemaGrammar (E.specials.map (·.2)))) {kids : Nat} {text : List Nat}
    (hw : text.length < 24000) (hb : AllBytes text) (hk : Fit kids (lexemes text)) :
    ∃ n res, (∀ fuel steps, n ≤ fuel → n ≤ steps → schemaFileComplaint { E with fuel := fuel, steps := steps } kids text = res) ∧
      ((SchemaSyntax (lexemes text) ∧ res = .ok none) ∨
       (¬ SchemaSyntax (lexemes text) ∧ ((∃ e, res = .error e ∧ StopsBefore text e) ∨ ∃ m, res = .ok (some m) ∧ MessageFor SchemaSyntax SchemaExpected text m))) :=
  schema_complaint hE ho hw hb (file_delivers hw) hk

/-- C47: a call that complains about the syntax throws (the message is that of the exception); and it throws the exception for the same text and environment. -/
theorem C47_complaint_throws {E : SchemaEnv} {kids : Nat} {text m : List Nat} (h : schemaStringComplaint E kids text = .ok (some m)) :
    trySchemaString E kids text = .error .throws := parse_of_message h

/-- C47 (partial: short texts): if the text contains nothing faulty and nothing unsuitable and is not derivable, there is a message. -/
theorem C47_message_exists_partial {E : SchemaEnv} (hE : E.Ok) (ho : E.orders.Ok (schemaGrammar (E.specials.map (·.2)))) {kids : Nat} {text : List Nat}
    (hw : text.length < 24000) (hb : AllBytes text) (hk : Fit kids (lexemes text)) (hno : ¬ SchemaSyntax (lexemes text))
    (hf : ¬ Faulty (lexemes text)) (hu : ¬ Unsuitable (lexemes text)) :
    ∃ n m, (∀ fuel steps, n ≤ fuel → n ≤ steps → schemaStringComplaint { E with fuel := fuel, steps := steps } kids text = .ok (some m)) ∧
      MessageFor SchemaSyntax SchemaExpected text m := by
  obtain ⟨n, res, hres, h⟩ := C47_message_string_partial hE ho hw hb hk
  rcases h with ⟨h, _⟩ | ⟨_, ⟨e, rfl, pre, post, h1, _, _, h2⟩ | ⟨m, rfl, hm⟩⟩
  · exact absurd h hno
  · exfalso
    rw [h1] at hf hu
    rcases h2 with ⟨_, h2⟩ | ⟨_, h2⟩
    · exact hu (by simpa using h2.context [] post)
    · exact hf (by simpa using h2.context [] post)
  · exact ⟨n, m, hres, hm⟩

/-! ### Which texts are no schema files -/

section
variable {prods : List (String × List String)} {l0 : Lexeme} {N : String → Bool}

/-- If the last symbol cannot end with a unit, the units do not. -/
theorem derives_last (hN : ∀ d ∈ prods, N d.1 = true → ∃ s, d.2.getLast? = some s ∧ N s = true) (hl : ∀ s, N s = true → ¬ Stands s l0) {ss : List String}
    {ls : List Lexeme} (h : Derives prods (fun l s => Stands s l) ss ls) : ∀ s, ss.getLast? = some s → N s = true → ∃ x, ls.getLast? = some x ∧ x ≠ l0 := by
  induction h with
  | nil => intro s hs; cases hs
  | @tok t s0 ss0 w0 ht hd ih =>
    intro s hs hn
    cases ss0 with
    | nil =>
      cases hd
      simp only [List.getLast?_singleton, Option.some.injEq] at hs
      subst hs
      exact ⟨t, rfl, fun h => hl _ hn (h ▸ ht)⟩
    | cons a r =>
      rw [List.getLast?_cons_cons] at hs
      obtain ⟨x, h1, h2⟩ := ih s hs hn
      refine ⟨x, ?_, h2⟩
      rw [List.getLast?_cons, h1]
      rfl
  | @prod head body ss0 w w' hm hb hd ih1 ih2 =>
    intro s hs hn
    cases ss0 with
    | nil =>
      cases hd
      simp only [List.getLast?_singleton, Option.some.injEq] at hs
      subst hs
      obtain ⟨s', h1, h2⟩ := hN _ hm hn
      rw [List.append_nil]
      exact ih1 s' h1 h2
    | cons a r =>
      rw [List.getLast?_cons_cons] at hs
      obtain ⟨x, h1, h2⟩ := ih2 s hs hn
      exact ⟨x, by rw [List.getLast?_append, h1]; rfl, h2⟩

/-- Only symbols that can be empty derive nothing. -/
theorem derives_empty {Z : String → Bool} (hZ : ∀ d ∈ prods, d.2.all Z = true → Z d.1 = true) {ss : List String} {ls : List Lexeme}
    (h : Derives prods (fun l s => Stands s l) ss ls) : ls = [] → ss.all Z = true := by
  induction h with
  | nil => intro _; rfl
  | tok _ _ _ => intro h; cases h
  | prod hm _ _ ih1 ih2 =>
    intro h
    obtain ⟨h1, h2⟩ := List.append_eq_nil_iff.mp h
    simp only [List.all_cons, Bool.and_eq_true]
    exact ⟨hZ _ hm (ih1 h1), ih2 h2⟩

/-- The symbols cannot begin with the unit. -/
def okHead (N Z : String → Bool) : List String → Bool
  | [] => true
  | s :: ss => N s && (!Z s || okHead N Z ss)

/-- If the first symbols cannot begin with a unit, the units do not. -/
theorem derives_head {Z : String → Bool} (hZ : ∀ d ∈ prods, d.2.all Z = true → Z d.1 = true) (hN : ∀ d ∈ prods, N d.1 = true → okHead N Z d.2 = true)
    (hl : ∀ s, N s = true → ¬ Stands s l0) {ss : List String} {ls : List Lexeme} (h : Derives prods (fun l s => Stands s l) ss ls) :
    okHead N Z ss = true → ls.head? ≠ some l0 := by
  induction h with
  | nil => intro _ h; cases h
  | @tok t s0 ss0 w0 ht hd ih =>
    intro hs h
    simp only [List.head?_cons, Option.some.injEq] at h
    subst h
    simp only [okHead, Bool.and_eq_true] at hs
    exact hl _ hs.1 ht
  | @prod head body ss0 w w' hm hb hd ih1 ih2 =>
    intro hs
    simp only [okHead, Bool.and_eq_true] at hs
    have h1 := ih1 (hN _ hm hs.1)
    cases w with
    | cons a r => exact h1
    | nil =>
      have h2 := hZ _ hm (derives_empty hZ hb rfl)
      have h3 : okHead N Z ss0 = true := by
        have := hs.2
        simp only at h2
        simpa [h2] using this
      exact ih2 h3

end

theorem stands_char_only {N : String → Bool} {c : Nat} (h : ∀ x ∈ charToks, N x.1 = true → ∀ r ∈ x.2, ¬ (r.1 ≤ c ∧ c ≤ r.2)) :
    ∀ s, N s = true → ¬ Stands s (.char c) := by
  rintro s hs ⟨x, hx, rfl, r, hr, h1⟩
  exact h x hx hs r hr h1

/-- No schema file ends with a carriage return. -/
theorem syntax_no_cr {ls : List Lexeme} : ¬ SchemaSyntax (ls ++ [.char 13]) := by
  intro h
  obtain ⟨x, h1, h2⟩ := derives_last (N := fun s => decide (s ∉ ["CarriageReturn", "WhitespaceStar"])) (l0 := .char 13) (by
      have : ∀ d ∈ schemaProductions schemaSpecials, decide (d.1 ∉ ["CarriageReturn", "WhitespaceStar"]) = true →
        ∃ s ∈ d.2.getLast?, decide (s ∉ ["CarriageReturn", "WhitespaceStar"]) = true := by decide +kernel
      intro d hd hn
      obtain ⟨s, h1, h2⟩ := this d hd hn
      exact ⟨s, h1, h2⟩)
    (stands_char_only (by decide +kernel)) h "Schema" rfl (by decide)
  rw [List.getLast?_concat] at h1
  exact h2 (Option.some.inj h1).symm

/-- No schema file begins with a newline. -/
theorem syntax_no_newline {ls : List Lexeme} : ¬ SchemaSyntax (.char 10 :: ls) := by
  intro h
  exact derives_head (N := fun s => decide (s ∉ ["NewLine", "PortableNewLine"])) (Z := fun s => decide (s = "WhitespaceStar")) (l0 := .char 10)
    (by decide +kernel) (by decide +kernel) (stands_char_only (by decide +kernel)) h (by decide) rfl

/-- What is written like a schema file is derivable. -/
theorem syntax_of_written {ls : List Lexeme} {s : SchemaText} {a : SchemaAST} (hb : ∀ l ∈ ls, l.Byte) (h1 : WrittenFile 0 ls s) (h2 : s.Builds a) :
    SchemaSyntax ls := derives_of_der ((der_iff hb).mpr ⟨s, h1, h2⟩)

/-- A schema file followed by a line end is one. -/
theorem syntax_newline {ls : List Lexeme} (h : SchemaSyntax ls) : SchemaSyntax (ls ++ [.char 13, .char 10]) := by
  have h13 : Stands "CarriageReturn" (.char 13) := stands_of [(13, 13)] (by decide +kernel) (13, 13) (by simp) (Nat.le_refl _) (Nat.le_refl _)
  have h10 : Stands "NewLine" (.char 10) := stands_of [(10, 10)] (by decide +kernel) (10, 10) (by simp) (Nat.le_refl _) (Nat.le_refl _)
  have hm : ("PortableNewLine", ["CarriageReturn", "NewLine"]) ∈ schemaProductions schemaSpecials := by decide +kernel
  have h0 : Derives (schemaProductions schemaSpecials) (fun l s => Stands s l) ["CarriageReturn", "NewLine"] [Lexeme.char 13, .char 10] :=
    .tok h13 (.tok h10 .nil)
  have h1 : Derives (schemaProductions schemaSpecials) (fun l s => Stands s l) ["PortableNewLine"] [Lexeme.char 13, .char 10] := .prod hm h0 .nil
  have h2 : Derives (schemaProductions schemaSpecials) (fun l s => Stands s l) ["Schema", "PortableNewLine"] (ls ++ [.char 13, .char 10]) := h.append h1
  have := Derives.prod (prods := schemaProductions schemaSpecials) (isTok := fun l s => Stands s l) (head := "Schema") (by decide +kernel) h2 .nil
  rwa [List.append_nil] at this

theorem lexemes_cr (w : List Nat) : lexemes (w ++ [13]) = lexemes w ++ [.char 13] := by
  suffices h : ∀ (n : Nat) (w : List Nat), n ≤ w.length → lexemesFrom n (w ++ [13]) = lexemesFrom n w ++ [.char 13] from h 0 w (Nat.zero_le _)
  intro n w
  induction w generalizing n with
  | nil =>
    intro h
    obtain rfl : n = 0 := by simpa using h
    rfl
  | cons c r ih =>
    intro h
    cases n with
    | succ n => exact ih n (by simpa using h)
    | zero =>
      rw [List.cons_append, lexemesFrom, lexemesFrom]
      have key : delimitersWord.isPrefixOf (c :: (r ++ [13])) = delimitersWord.isPrefixOf (c :: r) := by
        rw [Bool.eq_iff_iff, List.isPrefixOf_iff_prefix, List.isPrefixOf_iff_prefix, ← List.cons_append]
        constructor
        · rintro ⟨t, ht⟩
          rcases List.eq_nil_or_concat t with rfl | ⟨t', y, rfl⟩
          · exfalso
            rw [List.append_nil] at ht
            have : (13 : Nat) ∈ delimitersWord := by rw [ht]; simp
            exact absurd this (by decide)
          · rw [List.concat_eq_append, ← List.append_assoc] at ht
            exact ⟨t', (List.append_inj' ht rfl).1⟩
        · intro h
          exact h.trans (List.prefix_append _ _)
      rw [key]
      split
      · rename_i hp
        have hl := (List.isPrefixOf_iff_prefix.mp hp).length_le
        have : delimitersWord.length = 10 := rfl
        rw [ih 9 (by simp at hl; omega), List.cons_append]
      · rw [ih 0 (Nat.zero_le _), List.cons_append]

/-! ### The message is misleading -/

/-- If no schema file begins with the first unit, the message is about this unit, in any case. -/
theorem C47_first_unit_partial {E : SchemaEnv} (hE : E.Ok) (ho : E.orders.Ok (schemaGrammar (E.specials.map (·.2)))) {kids : Nat} {text : List Nat}
    (hw : text.length < 24000) (hb : AllBytes text) (hk : Fit kids (lexemes text)) {e : Lexeme} {post : List Lexeme}
    (hl : lexemes text = e :: post) (hno : ∀ more, ¬ SchemaSyntax (e :: more)) :
    ∃ n names, (∀ x ∈ names, SchemaExpected [] x) ∧ ∀ fuel steps, n ≤ fuel → n ≤ steps → schemaStringComplaint { E with fuel := fuel, steps := steps } kids text =
      .ok (some (unitMessage (1 + if e = .char 10 then 1 else 0) names [] e.text (textOf post))) := by
  obtain ⟨n, res, hres, h⟩ := C47_message_string_partial hE ho hw hb hk
  rw [hl] at h
  rcases h with ⟨h, _⟩ | ⟨_, ⟨e', rfl, pre, post', h1, hne, ⟨more, hm⟩, _⟩ | ⟨m, rfl, hm⟩⟩
  · exact absurd h (hno _)
  · exfalso
    rw [hl] at h1
    cases pre with
    | nil => exact hne rfl
    | cons a r =>
      cases h1
      exact hno _ hm
  · rcases hm with ⟨pre, e', post', names, ⟨h1, ⟨more, h2⟩, h3⟩, hlisted, rfl⟩ | ⟨⟨_, more, h2⟩, _⟩
    · rw [hl] at h1
      cases pre with
      | cons a r =>
        cases h1
        exact absurd h2 (hno _)
      | nil =>
        cases h1
        exact ⟨n, names, hlisted, hres⟩
    · rw [hl] at h2
      exact absurd h2 (hno _)

/-- C47 fails: the message about an empty line at the beginning (which schema files may not have) is about line 2, although it is line 1. -/
theorem C47_leading_newline_refuted {E : SchemaEnv} (hE : E.Ok) (ho : E.orders.Ok (schemaGrammar (E.specials.map (·.2)))) {kids : Nat} {rest : List Nat}
    (hw : (10 :: rest).length < 24000) (hb : AllBytes (10 :: rest)) (hk : Fit kids (lexemes (10 :: rest))) :
    lineNumber [] = 1 ∧ ∃ n m, (∀ fuel steps, n ≤ fuel → n ≤ steps →
      schemaStringComplaint { E with fuel := fuel, steps := steps } kids (10 :: rest) = .ok (some m)) ∧ messageHead 2 1 <+: m := by
  refine ⟨rfl, ?_⟩
  have hl : lexemes (10 :: rest) = .char 10 :: lexemes rest := by
    unfold lexemes
    rw [lexemesFrom, if_neg]
    intro h
    obtain ⟨t, ht⟩ := List.isPrefixOf_iff_prefix.mp h
    have h2 : (delimitersWord ++ t).head? = some 100 := rfl
    rw [ht] at h2
    exact absurd h2 (by simp)
  obtain ⟨n, names, -, h⟩ := C47_first_unit_partial hE ho hw hb hk hl (fun _ => syntax_no_newline)
  refine ⟨n, _, h, ?_⟩
  simp only [unitMessage, List.append_assoc]
  exact ⟨_, rfl⟩

/-- C47 fails: of a message about a text that ends too early the caller does not see the line and the caret: behind `before '` there is a NUL character, at which `what()` ends. -/
theorem C47_end_message_refuted (names : List (List Nat)) (text : List Nat) :
    whatText (endMessage names text) <+:
      messageHead (lineNumber text) ((lineBefore text).length + 1) ++ expectedPhrase names ++ asciiBytes " before '" := by
  have key : ∀ (a b : List Nat), (a ++ 0 :: b).takeWhile (· ≠ 0) <+: a := by
    intro a b
    induction a with
    | nil => exact ⟨[], rfl⟩
    | cons x a ih =>
      rw [List.cons_append, List.takeWhile_cons]
      split
      · exact (List.prefix_cons_inj x).mpr ih
      · exact List.nil_prefix
  unfold whatText endMessage
  have : shown 0 = [0] := rfl
  rw [this]
  simp only [List.append_assoc]
  have := key (messageHead (lineNumber text) ((lineBefore text).length + 1) ++ (expectedPhrase names ++ asciiBytes " before '"))
    (asciiBytes "' token\n" ++ (asciiBytes "          " ++ (lineBefore text ++ (asciiBytes "\n" ++ (List.replicate ((lineBefore text).length + 10) 32 ++ asciiBytes "^\n")))))
  simpa only [List.append_assoc, List.singleton_append, List.cons_append, List.nil_append] using this

/-- C47 fails: about a text which is a schema file followed by a carriage return, it is said that the file is empty. -/
theorem C47_empty_file_refuted {E : SchemaEnv} (hE : E.Ok) (ho : E.orders.Ok (schemaGrammar (E.specials.map (·.2)))) {kids : Nat} {text : List Nat}
    (hw : (text ++ [13]).length < 24000) (hb : AllBytes (text ++ [13])) (hk : Fit kids (lexemes (text ++ [13])))
    (hsyn : SchemaSyntax (lexemes text)) (hf : ¬ Faulty (lexemes (text ++ [13]))) (hu : ¬ Unsuitable (lexemes (text ++ [13]))) :
    ∃ n, ∀ fuel steps, n ≤ fuel → n ≤ steps →
      schemaStringComplaint { E with fuel := fuel, steps := steps } kids (text ++ [13]) = .ok (some (emptyMessage (text ++ [13]))) := by
  have hl := lexemes_cr text
  have hbad : ¬ SchemaSyntax (lexemes (text ++ [13])) := by rw [hl]; exact syntax_no_cr
  obtain ⟨n, m, hres, hm⟩ := C47_message_exists_partial hE ho hw hb hk hbad hf hu
  rcases hm with ⟨pre, e, post, names, ⟨h1, _, h3⟩, _⟩ | ⟨_, ⟨_, rfl⟩ | ⟨names, h1, _⟩⟩
  · exfalso
    refine h3 (post ++ [.char 10]) ?_
    have := syntax_newline hsyn
    rw [show pre ++ e :: (post ++ [Lexeme.char 10]) = (pre ++ e :: post) ++ [.char 10] by simp, ← h1, hl]
    simpa using this
  · exact ⟨n, hres⟩
  · exfalso
    apply h1
    unfold lineBefore
    rw [List.reverse_append]
    rfl

/-! ### The hypotheses are met -/

/-- `//x` is a schema file, and there is nothing faulty or unsuitable in it, followed by a carriage return or not (also for `C43_syntax_partial`). -/
example : SchemaSyntax (lexemes [47, 47, 120]) ∧ ¬ Faulty (lexemes ([47, 47, 120] ++ [13])) ∧ ¬ Unsuitable (lexemes ([47, 47, 120] ++ [13])) ∧
    ([47, 47, 120] ++ [13]).length < 24000 ∧ AllBytes ([47, 47, 120] ++ [13]) ∧ Fit 0 (lexemes ([47, 47, 120] ++ [13])) := by
  have hb : ∀ c ∈ ([47, 47, 120] ++ [13] : List Nat), c < 256 := by decide
  refine ⟨syntax_of_written (s := {}) (a := {}) (lexemes_bytes (fun c hc => hb c (by simp at hc ⊢; tauto))) ?_ ⟨rfl, .nil⟩, fun h => ?_, fun h => ?_, by decide, hb, by decide⟩
  · exact .first (.comment (ls := [.char 120]) (by simp) (by decide))
  · rcases h.chars with h | h | h | h <;> revert h <;> decide
  · rcases h.chars with h | h <;> revert h <;> decide

/-- The text that consists of a newline. -/
example : (10 :: ([] : List Nat)).length < 24000 ∧ AllBytes (10 :: []) ∧ Fit 0 (lexemes (10 :: [])) := by
  refine ⟨by decide, fun c hc => ?_, by decide⟩
  rw [List.mem_singleton.mp hc]
  decide

/-- The grammar of schema files meets the conditions. -/
example : Decent (schemaTerminals schemaSpecials) "Schema" ["Comment"] (schemaProductions schemaSpecials).tail (schemaGrammar schemaSpecials) :=
  schema_decent (List.Perm.refl _)

end LogSurgeon
