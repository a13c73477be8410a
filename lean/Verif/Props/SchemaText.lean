import Verif.Proofs.SchemaTextComplete
import Verif.Proofs.ErrorSchema
import Verif.Props.LalrComplete
import Verif.Model.SchemaParse
import Verif.Props.Schema
/-
C43: schema texts and what is made of them.
-/
namespace LogSurgeon
open Grammar

/-! ### What the readers deliver -/

theorem string_delivers {text : List Nat} (h : text.length < 24000) :
    Delivers (fun (_ : Unit) n => ((), schemaStringRead text n)) () 24000 text := by
  unfold Delivers schemaStringRead
  have : 0 + 24000 > text.length := by omega
  simp only [this, if_true, Nat.sub_zero, List.drop_zero, List.take_length]
  cases text <;> simp

theorem file_delivers {content : List Nat} (h : content.length < 24000) :
    Delivers schemaFileRead (({} : FileReader).tryOpen (some content)).1 24000 content := by
  have ht : content.take 24000 = content := List.take_of_length_le (by omega)
  cases content with
  | nil => rfl
  | cons c r =>
    unfold Delivers schemaFileRead
    simp only [FileReader.tryOpen, FileReader.read, OpenFile.fread, OpenFile.rest, List.drop_zero, ht]
    simp

/-! ### The parser on a text -/

/-- C43 (partial: short texts).  Whatever the order of the special characters in their map, the addresses of the NFA states, the orders in
which the containers are traversed and the content of the memory: `try_schema_string` returns an AST exactly for the
texts that are schema files by the syntax of Spec/SchemaText.lean, and the AST says what the text says.  The text has less than
24000 bytes (see `C35_refuted` for longer ones), and there is room for it in the array for children, of which `kids` entries are used
before the call (`Fit`; see `C43_long_line_refuted` and `C43_repeated_use_refuted`). -/
theorem C43_schema_string_partial {E : SchemaEnv} (hE : E.Ok) (ho : E.orders.Ok (schemaGrammar (E.specials.map (·.2)))) {kids : Nat} {text : List Nat}
    (hw : text.length < 24000) (hb : AllBytes text) (hk : Fit kids (lexemes text)) (a : SchemaAST) :
    ∃ n, ∀ fuel steps, n ≤ fuel → n ≤ steps →
      ((∃ kids', trySchemaString { E with fuel := fuel, steps := steps } kids text = .ok (a, kids')) ↔
        ∃ s, WrittenFile 0 (lexemes text) s ∧ s.Builds a) := by
  by_cases hs : ∃ s, WrittenFile 0 (lexemes text) s ∧ s.Builds a
  · obtain ⟨s, h1, h2⟩ := hs
    obtain ⟨n, kids', h⟩ := schema_complete hE ho hw hb (string_delivers hw) hk h1 h2
    exact ⟨n, fun fuel steps hf hst => ⟨fun _ => ⟨s, h1, h2⟩, fun _ => ⟨kids', h fuel steps hf hst⟩⟩⟩
  · refine ⟨0, fun fuel steps _ _ => ⟨fun ⟨kids', h⟩ => ?_, fun h => absurd h hs⟩⟩
    exact schema_sound (E := { E with fuel := fuel, steps := steps }) ⟨hE.specials, hE.addr⟩ hw hb (string_delivers hw) h

/-- C43 (partial: short texts) for files. -/
theorem C43_schema_file_partial {E : SchemaEnv} (hE : E.Ok) (ho : E.orders.Ok (schemaGrammar (E.specials.map (·.2)))) {kids : Nat} {text : List Nat}
    (hw : text.length < 24000) (hb : AllBytes text) (hk : Fit kids (lexemes text)) (a : SchemaAST) :
    ∃ n, ∀ fuel steps, n ≤ fuel → n ≤ steps →
      ((∃ kids', trySchemaFile { E with fuel := fuel, steps := steps } kids (some text) = .ok (a, kids')) ↔
        ∃ s, WrittenFile 0 (lexemes text) s ∧ s.Builds a) := by
  by_cases hs : ∃ s, WrittenFile 0 (lexemes text) s ∧ s.Builds a
  · obtain ⟨s, h1, h2⟩ := hs
    obtain ⟨n, kids', h⟩ := schema_complete hE ho hw hb (file_delivers hw) hk h1 h2
    exact ⟨n, fun fuel steps hf hst => ⟨fun _ => ⟨s, h1, h2⟩, fun _ => ⟨kids', h fuel steps hf hst⟩⟩⟩
  · refine ⟨0, fun fuel steps _ _ => ⟨fun ⟨kids', h⟩ => ?_, fun h => absurd h hs⟩⟩
    exact schema_sound (E := { E with fuel := fuel, steps := steps }) ⟨hE.specials, hE.addr⟩ hw hb (file_delivers hw) h

/-- C43: if there is no file at the path the call throws. -/
theorem C43_no_file (E : SchemaEnv) (kids : Nat) : trySchemaFile E kids none = .error .throws := rfl

/-- C43: whatever the state of the children array, a text of less than 24000 bytes that is not a schema file gives no AST. -/
theorem C43_sound {E : SchemaEnv} (hE : E.Ok) {kids kids' : Nat} {text : List Nat} (hw : text.length < 24000) (hb : AllBytes text)
    {a : SchemaAST} (h : trySchemaString E kids text = .ok (a, kids') ∨ trySchemaFile E kids (some text) = .ok (a, kids')) :
    ∃ s, WrittenFile 0 (lexemes text) s ∧ s.Builds a := by
  rcases h with h | h
  · exact schema_sound hE hw hb (string_delivers hw) h
  · exact schema_sound hE hw hb (file_delivers hw) h

/-- C43: the parse table of schema files is generated without conflict, whatever the orders. -/
theorem C43_table {E : SchemaEnv} (hE : E.Ok) (ho : E.orders.Ok (schemaGrammar (E.specials.map (·.2)))) :
    ∃ n tb, ∀ fuel, n ≤ fuel → (schemaGrammar (E.specials.map (·.2))).generate E.orders fuel = .ok tb := by
  obtain ⟨L, _, hL⟩ := schemaLexer_ok hE.specials hE.addr
  obtain ⟨n, tb, h, _⟩ := schema_table hE.specials hL (o := E.orders) (fun ks i h => (ho.sets ks i).mp h)
  exact ⟨n, tb, h⟩

/-! ### The conditions on the environment can be met -/

/-- Containers in order of creation. -/
def plainOrders (g : Grammar) : Grammar.Orders := ⟨g.prods.map (·.head), fun s => List.range s.length⟩

theorem plainOrders_ok (g : Grammar) : (plainOrders g).Ok g :=
  ⟨fun _ h => List.mem_map.mpr ⟨_, h, rfl⟩, fun ks i => by simp [plainOrders]⟩

/-- The special characters as listed, states at increasing addresses, containers in order of creation. -/
def exEnv : SchemaEnv where
  specials := schemaSpecialChars
  addr := id
  orders := plainOrders (schemaGrammar (schemaSpecialChars.map (·.2)))
  fuel := 0
  steps := 0
  mem := fun _ => []
  nextId := 1

theorem exEnv_ok : exEnv.Ok := ⟨.refl _, fun _ _ h => h⟩

theorem exEnv_orders : exEnv.orders.Ok (schemaGrammar (exEnv.specials.map (·.2))) :=
  plainOrders_ok _

/-- C43: a text that can be read in two ways says the same in both, however long it is. -/
theorem C43_unambiguous {text : List Nat} (hb : AllBytes text) {s1 s2 : SchemaText}
    (h1 : WrittenFile 0 (lexemes text) s1) (h2 : WrittenFile 0 (lexemes text) s2) {a1 a2 : SchemaAST} (b1 : s1.Builds a1) (b2 : s2.Builds a2) :
    a1 = a2 := by
  obtain ⟨L, hlex, hL⟩ := schemaLexer_ok exEnv_ok.specials exEnv_ok.addr
  have hsc := exEnv_ok.specials
  have hsp := perm_names hsc
  obtain ⟨n, tb, hgen, hclear⟩ := schema_table hsc hL (o := exEnv.orders) (fun ks i h => (exEnv_orders.sets ks i).mp h)
  have ho := exEnv_orders
  generalize exEnv.orders = o at *
  generalize exEnv.specials = sc at *
  have hlb : ∀ l ∈ lexemes text, AllBytes l.text := by
    intro l hl
    have := lexemes_bytes hb l hl
    cases l with
    | char c => intro x hx; rw [List.mem_singleton.mp hx]; exact this
    | delimiters =>
      have h : ∀ x ∈ delimitersWord, x < 256 := by decide
      exact h
  obtain ⟨toks, txt, hsame, hcl⟩ : ∃ (toks : List Token) (txt : Token → List Nat),
      List.Forall₂ (SameUnit ((schemaGrammar (sc.map (·.2))).IsTok (reserved.map (·.1) ++ schemaTerminals (sc.map (·.2)))) txt) toks (lexemes text) ∧
      ∀ x ∈ toks, (schemaGrammar (sc.map (·.2))).Clear tb x := by
    refine ⟨(lexemes text).mapIdx fun i l => { types := some (L.dfa.idsOn l.text), startPos := i },
      fun t => (((lexemes text)[t.startPos]?).map Lexeme.text).getD [], ?_, ?_⟩
    · refine List.forall₂_iff_get.mpr ⟨by simp, fun i hi hj => ⟨?_, fun s => ?_⟩⟩
      · simp only [List.get_eq_getElem, List.getElem_mapIdx]
        rw [List.getElem?_eq_getElem hj]
        rfl
      · exact isTok_unit hsc hL (hlb _ (List.get_mem _ _)) (by simp) s
    · intro x hx
      obtain ⟨i, hi, rfl⟩ := List.mem_mapIdx.mp hx
      exact hclear _ _ (hlb _ (List.getElem_mem hi)) rfl
  have tree : ∀ {s : SchemaText} {a : SchemaAST}, WrittenFile 0 (lexemes text) s → s.Builds a →
      ∃ t, Derivation (schemaGrammar (sc.map (·.2))).decls ((schemaGrammar (sc.map (·.2))).IsTok (reserved.map (·.1) ++ schemaTerminals (sc.map (·.2))))
        ["Schema"] [t] toks ∧ ∃ k, Tree.eval.evals (schemaRuleOf (sc.map (·.2))) txt [t] 0 = .ok ([.val (.schema a)], k) := by
    intro s a hs ha
    obtain ⟨ts, d1, d2⟩ := tree_of_der (ruleOf_has hsp) ((der_iff (lexemes_bytes hb)).mpr ⟨s, hs, ha⟩) hsame
    obtain ⟨t, rfl⟩ : ∃ t, ts = [t] := by
      cases d1 with
      | tok _ h => cases h; exact ⟨_, rfl⟩
      | prod _ _ h => cases h; exact ⟨_, rfl⟩
    exact ⟨t, d1, _, d2⟩
  obtain ⟨t1, d1, k1, v1⟩ := tree h1 b1
  obtain ⟨t2, d2, k2, v2⟩ := tree h2 b2
  have D := schema_decent hsp
  have e : t1 = t2 := C42_unambiguous D.build D.prime D.primeT D.sep D.fin D.productive D.clean D.size ho (hgen n (Nat.le_refl _)) d1 d2 hcl D.short
  rw [e, v2] at v1
  simp only [Except.ok.injEq, Prod.mk.injEq, List.cons.injEq, SemChild.val.injEq, SemVal.schema.injEq, and_true] at v1
  exact v1.1.symm

/-! ### A schema file -/

/-- A comment, `delimiters: \n`, `v:a[b-d\d]+|(?<n>e{2,3})` and an empty line. -/
def exText : List Nat :=
  [47, 47, 99, 10, 100, 101, 108, 105, 109, 105, 116, 101, 114, 115, 58, 32, 92, 110, 13, 10,
    118, 58, 97, 91, 98, 45, 100, 92, 100, 93, 43, 124, 40, 63, 60, 110, 62, 101, 123, 50, 44, 51, 125, 41, 10]

def exPat : Pat := .cat (.lit 97) (.or (.plus (.cls false [.range 98 100, .digit])) (.capture (.range (.lit 101) [2] [3]) ⟨32, "n"⟩))

theorem exText_bytes : AllBytes exText := by
  have : ∀ c ∈ exText, c < 256 := by decide
  exact this

theorem exText_written : WrittenFile 0 (lexemes exText) { vars := [("v", exPat)], delims := [[32, 10]] } := by
  have plain : ∀ {k c}, c ∈ [32, 97, 98, 99, 100, 101] → Written .literal k [c] (.lit c) := by
    intro k c h
    refine .char (.plain ?_)
    simp only [List.mem_cons, List.not_mem_nil, or_false] at h
    rcases h with rfl | rfl | rfl | rfl | rfl | rfl <;> simp [Plain, AlphaNum]
  have h1 : WrittenLine 0 (chars [47, 47] ++ [.char 99]) {} := .comment (by simp) (by simp)
  have h2 : WrittenLine 4 (.delimiters :: chars (58 :: ([32] ++ [92, 110]))) { delims := [[32] ++ [10]] } :=
    .delims (.snoc (.one (plain (by simp))) (.char .newline))
  have c1 : Written .openClass 23 (91 :: ([98] ++ 45 :: [100])) (.cls false [.range 98 100]) := .opened (.itemRange (plain (by simp)) (plain (by simp)))
  have c2 : Written .repeated 23 ((91 :: ([98] ++ 45 :: [100]) ++ [92, 100] ++ [93]) ++ [43]) (.plus (.cls false ([.range 98 100] ++ [.digit]))) :=
    .plus (.closed (.more c1 .itemDigit))
  have c3 : Written .seq (32 + 1 + 4) ([101] ++ 123 :: digitsText [2] ++ 44 :: digitsText [3] ++ [125]) (.range (.lit 101) [2] [3]) :=
    .ofChoice (.ofRepeated (.range (.ofLiteral (plain (by simp))) ⟨by simp, by simp⟩ ⟨by simp, by simp⟩))
  have c4 : Written .literal 32 ([40, 63, 60] ++ [110] ++ 62 :: ([101] ++ 123 :: digitsText [2] ++ 44 :: digitsText [3] ++ [125]) ++ [41])
      (.capture (.range (.lit 101) [2] [3]) ⟨32, asString [110]⟩) := .capture ⟨by simp, by simp [AlphaNum]⟩ c3
  have c5 := Written.cat (.ofChoice (.ofSingle (.ofLiteral (plain (k := 22) (c := 97) (by simp))))) (.or (.ofRepeated c2) c4)
  have h3 : WrittenLine 20 _ _ := .var (i := 0) (n := [118]) ⟨by simp, by simp [AlphaNum]⟩ c5
  have f := WrittenFile.blank (.line (.line (.first h1) (.inl rfl) h2) (.inr rfl) h3) (.inl rfl)
  exact f

/-- The conditions of C43 are met by this text, and it has an AST. -/
example : exText.length < 24000 ∧ AllBytes exText ∧ Fit 0 (lexemes exText) ∧
    ∃ s a, WrittenFile 0 (lexemes exText) s ∧ s.Builds a ∧ a.vars.length = 1 ∧ a.delims = [[32, 10]] := by
  have h : exPat.elab.isSome = true := by decide
  obtain ⟨re, hre⟩ := Option.isSome_iff_exists.mp h
  exact ⟨by decide, exText_bytes, by decide, _, { vars := [⟨"v", re⟩], delims := [[32, 10]] }, exText_written, ⟨rfl, .cons ⟨rfl, hre⟩ .nil⟩, rfl, rfl⟩

/-- What the parser returns for it, with the environment above and enough steps. -/
example : ∃ re kids' n, exPat.elab = some re ∧ ∀ fuel steps, n ≤ fuel → n ≤ steps →
    trySchemaString { exEnv with fuel := fuel, steps := steps } 0 exText = .ok ({ vars := [⟨"v", re⟩], delims := [[32, 10]] }, kids') := by
  have h : exPat.elab.isSome = true := by decide
  obtain ⟨re, hre⟩ := Option.isSome_iff_exists.mp h
  obtain ⟨n, k, h⟩ := schema_complete exEnv_ok exEnv_orders (by decide) exText_bytes (string_delivers (text := exText) (by decide)) (kids := 0)
    (by decide) exText_written (a := { vars := [⟨"v", re⟩], delims := [[32, 10]] }) ⟨rfl, .cons ⟨rfl, hre⟩ .nil⟩
  exact ⟨re, k, n, hre, h⟩

/-! ### `Schema::add_variable` from the text -/

/-- No line ends inside a pattern. -/
theorem written_line {l : Level} {k : Nat} {w : List Nat} {p : Pat} (h : Written l k w p) : 10 ∉ w := by
  have name : ∀ {n : List Nat}, IsName n → 10 ∉ n := by
    intro n hn h
    have := hn.2 _ h
    unfold AlphaNum at this
    omega
  have digits : ∀ {ds : List Nat}, 10 ∉ digitsText ds := by
    intro ds h
    obtain ⟨d, _, e⟩ := List.mem_map.mp h
    omega
  induction h with
  | char h =>
    cases h with
    | plain h => intro e; rw [← List.mem_singleton.mp e] at h; simp [Plain, AlphaNum] at h
    | escaped h =>
      intro e
      rcases List.mem_cons.mp e with e | e
      · cases e
      · rw [← List.mem_singleton.mp e] at h; simp [Special] at h
    | _ => decide
  | capture hn _ ih => simp [name hn, ih]
  | _ => simp_all

/-- C17: `add_variable(name:pattern, p)` inserts the variable with the regex of the pattern before the `p`-th one (-1: at the end), if
the text is short and does not contain the keyword `delimiters`.  (`kids'`: the entries of the array for children used afterwards, see `Fit`.) -/
theorem C17_text_partial {E : SchemaEnv} (hE : E.Ok) (ho : E.orders.Ok (schemaGrammar (E.specials.map (·.2)))) {kids : Nat} {name w : List Nat} {p : Pat}
    (hn : IsName name) (hp : Written .seq (name.length + 1) w p) {re : Regex} (hre : p.elab = some re)
    (hkey : lexemes (name ++ 58 :: w) = chars (name ++ 58 :: w)) (hb : AllBytes w) (hk : kids + 5 * (name.length + 1 + w.length) ≤ 10000)
    (s : SchemaAST) {pos : Int} (hpos : -1 ≤ pos ∧ pos ≤ s.vars.length) :
    ∃ n kids' k, kids' ≤ kids + 5 * (name.length + 1 + w.length) ∧ (pos = -1 → k = s.vars.length) ∧ (pos ≠ -1 → (k : Int) = pos) ∧ ∀ fuel steps, n ≤ fuel → n ≤ steps →
      schemaAddVariable { E with fuel := fuel, steps := steps } kids s (name ++ 58 :: w) pos =
        .ok ({ vars := s.vars.take k ++ ⟨asString name, re⟩ :: s.vars.drop k, delims := s.delims }, kids') := by
  have hlen : (lexemes (name ++ 58 :: w)).length = name.length + 1 + w.length := by
    rw [hkey]; simp [chars]; omega
  have hbn : AllBytes (name ++ 58 :: w) := by
    intro c hc
    rcases List.mem_append.mp hc with hc | hc
    · have := hn.2 c hc
      unfold AlphaNum at this
      show c < 256
      omega
    · rcases List.mem_cons.mp hc with rfl | hc
      · decide
      · exact hb c hc
  have hl : (name ++ 58 :: w).length < 24000 := by simp; omega
  have hnl : Lexeme.char 10 ∉ lexemes (name ++ 58 :: w) := by
    rw [hkey]
    intro h
    obtain ⟨c, hc, e⟩ := List.mem_map.mp h
    cases e
    rcases List.mem_append.mp hc with hc | hc
    · have := hn.2 _ hc
      unfold AlphaNum at this
      omega
    · rcases List.mem_cons.mp hc with hc | hc
      · cases hc
      · exact written_line hp hc
  have hf : WrittenFile 0 (lexemes (name ++ 58 :: w)) { vars := [(asString name, p)] } := by
    rw [hkey]
    have := WrittenLine.var (k := 0) (i := 0) hn (by simpa using hp)
    simpa using WrittenFile.first this
  obtain ⟨n, kids', hle, h⟩ := schema_complete_room hE ho hl hbn (string_delivers hl) (kids := kids) ((fit_one hnl).1.mpr (by omega)) hf (a := { vars := [⟨asString name, re⟩], delims := [] })
    ⟨rfl, .cons ⟨rfl, hre⟩ .nil⟩
  rw [(fit_one hnl).2, hlen] at hle
  refine ⟨n, kids', if pos = -1 then s.vars.length else pos.toNat, hle, ?_, ?_, fun fuel steps h1 h2 => ?_⟩
  · intro e; rw [if_pos e]
  · intro e; rw [if_neg e]; omega
  · have he : trySchemaString { E with fuel := fuel, steps := steps } kids (name ++ 58 :: w) = _ := h fuel steps h1 h2
    unfold schemaAddVariable
    rw [he]
    simp only [SchemaAST.addVariable, SchemaAST.addSchemaVar]
    by_cases e : pos = -1
    · simp [e]
    · rw [if_neg e, if_pos (by omega), if_neg e]

/-! ### The array for children -/

theorem lexemes_chars {w : List Nat} (h : 100 ∉ w) : lexemes w = chars w := by
  induction w with
  | nil => rfl
  | cons c r ih =>
    have hc : 100 ≠ c := fun e => h (by simp [e])
    have : delimitersWord.isPrefixOf (c :: r) = false := by
      simp [delimitersWord, List.isPrefixOf, hc]
    rw [lexemes, lexemesFrom, this]
    simp only [Bool.false_eq_true, if_false]
    show _ :: lexemes r = _
    rw [ih fun h' => h (by simp [h'])]
    rfl

/-- The statement of C43 without the bound on the units is false: a comment of 10000 characters in one line is a schema file, and no call on it
returns an AST (the parser writes beyond the array for children), whatever has been parsed before. -/
theorem C43_long_line_refuted : ∃ text, text.length < 24000 ∧ AllBytes text ∧ (∃ s a, WrittenFile 0 (lexemes text) s ∧ s.Builds a) ∧
    ∀ E : SchemaEnv, E.Ok → ∀ kids, kids ≤ 10000 → ∀ r, trySchemaString E kids text ≠ .ok r := by
  have hn : ∀ {n : Nat}, 100 ∉ [47, 47] ++ List.replicate n 97 := by
    intro n h
    rcases List.mem_append.mp h with h | h
    · simp at h
    · exact absurd (List.eq_of_mem_replicate h) (by decide)
  have hnl : 10 ∉ [47, 47] ++ List.replicate 10000 97 := by
    intro h
    rcases List.mem_append.mp h with h | h
    · simp at h
    · exact absurd (List.eq_of_mem_replicate h) (by decide)
  have hlen : ([47, 47] ++ List.replicate 10000 97).length < 24000 := by
    rw [List.length_append, List.length_replicate]; decide
  have hb : AllBytes ([47, 47] ++ List.replicate 10000 97) := by
    intro c h
    rcases List.mem_append.mp h with h | h
    · simp at h; rw [h]; decide
    · rw [List.eq_of_mem_replicate h]; decide
  refine ⟨[47, 47] ++ List.replicate 10000 97, hlen, hb, ⟨{}, {}, ?_, rfl, .nil⟩, ?_⟩
  · rw [lexemes_chars hn]
    refine .first ?_
    rw [chars, List.map_append]
    refine .comment ?_ ?_
    · intro h
      have := congrArg List.length h
      rw [List.length_map, List.length_replicate] at this
      exact absurd this (by decide)
    intro l hl
    obtain ⟨c, hc, rfl⟩ := List.mem_map.mp hl
    rw [List.eq_of_mem_replicate hc]
    decide
  · rintro E hE kids hk ⟨a, kids'⟩ h
    obtain ⟨h1, h2⟩ := schema_long hE hlen hb (string_delivers hlen) hnl hk h
    rw [lexemes_chars hn, chars, List.length_map, List.length_append, List.length_replicate] at h1
    simp only [List.length_cons, List.length_nil] at h1
    omega

/-- The entries of the array used by one-line texts are never freed: no sequence of calls (`try_schema_string`, or `add_variable`) on texts of at least two
units each is longer than 10000, as the parser would write beyond the array.  (`texts i`: the text of the `i`-th call; `ks i`: the
entries used before.) -/
theorem C43_repeated_use_refuted {texts : Nat → List Nat} (ht : ∀ i, (texts i).length < 24000 ∧ AllBytes (texts i) ∧ 10 ∉ texts i ∧ 2 ≤ (lexemes (texts i)).length)
    {Es : Nat → SchemaEnv} (hE : ∀ i, (Es i).Ok) {ks : Nat → Nat} (h0 : ks 0 ≤ 10000) :
    ¬ ∀ i, i ≤ 10000 → ∃ a, trySchemaString (Es i) (ks i) (texts i) = .ok (a, ks (i + 1)) := by
  intro h
  have key : ∀ i, i ≤ 10001 → i ≤ ks i ∧ ks i ≤ 10000 := by
    intro i
    induction i with
    | zero => intro _; exact ⟨Nat.zero_le _, h0⟩
    | succ i ih =>
      intro hi
      obtain ⟨g1, g2⟩ := ih (by omega)
      obtain ⟨a, ha⟩ := h i (by omega)
      obtain ⟨t1, t2, t3, t4⟩ := ht i
      obtain ⟨h1, h2⟩ := schema_long (hE i) t1 t2 (string_delivers t1) t3 g2 ha
      omega
  have := key 10001 (by omega)
  omega

end LogSurgeon
