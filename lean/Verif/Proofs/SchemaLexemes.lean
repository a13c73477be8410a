import Verif.Proofs.Munch
import Verif.Proofs.SchemaTree
import Verif.Props.Dfa
/-
The tokens of the schema lexer are the units of the text.
-/
namespace LogSurgeon

/-! ### Ids of the rules -/

theorem addRule_ids (t : ParserTables) (g : Grammar) (he : t.symbolId = g.symbolId) (n : String) (re : Regex) :
    (t.addRule n re).symbolId = (g.addTerminal n).symbolId ∧
    (t.addRule n re).rules = t.rules ++ [⟨(g.intern n).2, re⟩] := by
  unfold ParserTables.addRule Grammar.addTerminal Grammar.intern
  rw [he]
  cases g.symbolId.lookup n <;> exact ⟨rfl, rfl⟩

theorem addRules_ids {all : List String} : ∀ (ds : List (String × Regex)) (t : ParserTables) (g : Grammar), t.symbolId = g.symbolId →
    Grammar.NamesOk all g → (∀ d ∈ ds, d.1 ∈ all) →
    (ds.foldl (fun t d => t.addRule d.1 d.2) t).symbolId = ((ds.map (·.1)).foldl Grammar.addTerminal g).symbolId ∧
    ∀ r, r ∈ (ds.foldl (fun t d => t.addRule d.1 d.2) t).rules ↔ r ∈ t.rules ∨
      ∃ d ∈ ds, ((ds.map (·.1)).foldl Grammar.addTerminal g).symbolId.lookup d.1 = some r.id ∧ r.regex = d.2
  | [], t, g, he, _, _ => ⟨he, fun r => by simp⟩
  | d :: ds, t, g, he, hN, hall => by
    obtain ⟨h1, h2⟩ := addRule_ids t g he d.1 d.2
    have hN' := (Grammar.addTerminal_spec hN (hall d (by simp))).1
    obtain ⟨k1, k2⟩ := addRules_ids ds (t.addRule d.1 d.2) (g.addTerminal d.1) h1 hN' (fun x hx => hall x (by simp [hx]))
    simp only [List.foldl_cons, List.map_cons]
    refine ⟨k1, fun r => ?_⟩
    rw [k2, h2]
    have hlk : ((ds.map (·.1)).foldl Grammar.addTerminal (g.addTerminal d.1)).symbolId.lookup d.1 = some (g.intern d.1).2 := by
      refine Grammar.terminals_le hN' (fun n hn => ?_) _ _ (Grammar.intern_spec hN d.1).2.2.1
      obtain ⟨x, hx, rfl⟩ := List.mem_map.mp hn
      exact hall x (by simp [hx])
    constructor
    · rintro (h | ⟨x, hx, h⟩)
      · rcases List.mem_append.mp h with h | h
        · exact .inl h
        · rw [List.mem_singleton.mp h]
          exact .inr ⟨d, by simp, hlk, rfl⟩
      · exact .inr ⟨x, by simp [hx], h⟩
    · rintro (h | ⟨x, hx, h3, h4⟩)
      · exact .inl (List.mem_append_left _ h)
      · rcases List.mem_cons.mp hx with rfl | hx
        · rw [hlk] at h3
          refine .inl (List.mem_append_right _ ?_)
          obtain ⟨i, re⟩ := r
          simp only [Option.some.injEq] at h3 h4
          simp [h3, h4]
        · exact .inr ⟨x, hx, h3, h4⟩

/-! ### What the rules match -/

/-- What a lexical rule matches: one character out of ranges, or the keyword. -/
def RuleText : Option (List Range) → List Nat → Prop
  | some rs, u => ∃ c, u = [c] ∧ ∃ r ∈ rs, r.1 ≤ c ∧ c ≤ r.2
  | none, u => u = delimitersWord

/-- The lexical rules in the order of their declaration. -/
def lexSpec : List (String × Option (List Range)) :=
  (charToks.dropLast.map fun x => (x.1, some x.2)) ++ [("Delimiters", none), ("CommentCharacters", some [(0, 9), (11, 12), (14, 255)])]

/-- A regex is simple and matches what it should. -/
structure RuleOk (d : String × Regex) (x : String × Option (List Range)) : Prop where
  name : d.1 = x.1
  loop : d.2.LoopSafe
  bounds : d.2.BoundsOk
  classes : d.2.ClassesOk
  noInt : d.2.NoInteger
  spec : ∀ u, AllBytes u → (MatchesIgnoringEmpty d.2 u ↔ RuleText x.2 u)

theorem ruleOk_lit (n : String) (c : Nat) : RuleOk (n, .mkLiteral c) (n, some [(c, c)]) := by
  refine ⟨rfl, trivial, trivial, trivial, trivial, fun u _ => ?_⟩
  show u = [c] ↔ _
  simp only [RuleText, List.mem_singleton, exists_eq_left]
  constructor
  · rintro rfl; exact ⟨c, rfl, Nat.le_refl _, Nat.le_refl _⟩
  · rintro ⟨d, rfl, h1, h2⟩
    have : d = c := Nat.le_antisymm h2 h1
    rw [this]

theorem ruleOk_range (n : String) (rs : List Range) : RuleOk (n, rangesRegex rs) (n, some rs) := by
  refine ⟨rfl, trivial, trivial, fun h => by simp at h, trivial, fun u _ => ?_⟩
  exact Iff.rfl

theorem ruleOk_comment : RuleOk ("CommentCharacters", .group [] false true [(13, 13), (10, 10)])
    ("CommentCharacters", some [(0, 9), (11, 12), (14, 255)]) := by
  refine ⟨rfl, trivial, trivial, fun _ => by simp, trivial, fun u hu => ?_⟩
  show (∃ c, u = [c] ∧ c ≤ cUnicodeMax ∧ ¬ InRanges [(13, 13), (10, 10)] c) ↔ ∃ c, u = [c] ∧ _
  apply exists_congr
  intro c
  apply and_congr_right
  rintro rfl
  have hc : c < 256 := hu c (by simp)
  have : c ≤ cUnicodeMax := by unfold cUnicodeMax; omega
  simp only [this, true_and, InRanges, List.mem_cons, List.not_mem_nil, or_false, exists_eq_or_imp, exists_eq_left]
  omega

theorem matches_cat_lit {r : Regex} {w : List Nat} {c : Nat} (h : ∀ u, MatchesWith False r u ↔ u = w) (u : List Nat) :
    MatchesWith False (.mkCat r (.mkLiteral c)) u ↔ u = w ++ [c] := by
  show (∃ s₁ s₂, u = s₁ ++ s₂ ∧ MatchesWith False r s₁ ∧ s₂ = [c]) ↔ _
  constructor
  · rintro ⟨a, b, rfl, h1, rfl⟩
    rw [(h a).mp h1]
  · rintro rfl
    exact ⟨w, [c], rfl, (h w).mpr rfl, rfl⟩

theorem ruleOk_chain : RuleOk ("Delimiters", chainRegex [100, 101, 108, 105, 109, 105, 116, 101, 114, 115]) ("Delimiters", none) := by
  refine ⟨rfl, ?_, ?_, ?_, ?_, fun u _ => ?_⟩
  · simp [chainRegex, Regex.LoopSafe, Regex.mkCat, Regex.mkLiteral]
  · simp [chainRegex, Regex.BoundsOk, Regex.mkCat, Regex.mkLiteral]
  · simp [chainRegex, Regex.ClassesOk, Regex.mkCat, Regex.mkLiteral]
  · simp [chainRegex, Regex.NoInteger, Regex.mkCat, Regex.mkLiteral]
  · have h0 : ∀ u, MatchesWith False (.mkLiteral 100) u ↔ u = [100] := fun u => Iff.rfl
    exact matches_cat_lit (matches_cat_lit (matches_cat_lit (matches_cat_lit (matches_cat_lit (matches_cat_lit (matches_cat_lit
      (matches_cat_lit (matches_cat_lit h0 (c := 101)) (c := 108)) (c := 105)) (c := 109)) (c := 105)) (c := 116)) (c := 101)) (c := 114)) (c := 115) u

theorem lexDecls_ok : List.Forall₂ RuleOk (schemaLexDecls schemaSpecialChars) lexSpec := by
  unfold schemaLexDecls lexSpec charToks schemaSpecialChars
  simp only [List.dropLast, List.map_cons, List.map_nil, List.cons_append, List.nil_append]
  repeat' first
    | exact .nil
    | refine .cons (ruleOk_lit _ _) ?_
    | refine .cons (ruleOk_range _ _) ?_
    | refine .cons ruleOk_chain ?_
    | refine .cons ruleOk_comment ?_

theorem mem_lexDecls {sc : List (Nat × String)} (h : sc.Perm schemaSpecialChars) (d : String × Regex) :
    d ∈ schemaLexDecls sc ↔ d ∈ schemaLexDecls schemaSpecialChars := by
  unfold schemaLexDecls
  simp only [List.mem_append, List.mem_map, h.mem_iff]

theorem mem_lexSpec (s : String) (x : Option (List Range)) :
    (s, x) ∈ lexSpec ↔ (∃ rs, x = some rs ∧ (s, rs) ∈ charToks) ∨ (s = "Delimiters" ∧ x = none) := by
  have hc : charToks = charToks.dropLast ++ [("CommentCharacters", [(0, 9), (11, 12), (14, 255)])] := rfl
  rw [hc]
  unfold lexSpec
  generalize charToks.dropLast = l
  simp only [List.mem_append, List.mem_map, List.mem_cons, List.not_mem_nil, or_false, Prod.mk.injEq]
  constructor
  · rintro (⟨y, hy, rfl, rfl⟩ | h | ⟨rfl, rfl⟩)
    · exact .inl ⟨_, rfl, .inl hy⟩
    · exact .inr h
    · exact .inl ⟨_, rfl, .inr ⟨rfl, rfl⟩⟩
  · rintro (⟨rs, rfl, h | ⟨rfl, rfl⟩⟩ | h)
    · exact .inl ⟨_, h, rfl, rfl⟩
    · exact .inr (.inr ⟨rfl, rfl⟩)
    · exact .inr (.inl h)

/-- `Stands` in terms of the rules. -/
theorem stands_spec (s : String) (l : Lexeme) : Stands s l ↔ ∃ x, (s, x) ∈ lexSpec ∧ RuleText x l.text := by
  constructor
  · intro h
    cases l with
    | char c =>
      obtain ⟨⟨s', rs⟩, h1, rfl, r, h2, h3⟩ := h
      exact ⟨some rs, (mem_lexSpec _ _).mpr (.inl ⟨rs, rfl, h1⟩), c, rfl, r, h2, h3⟩
    | delimiters =>
      have h : s = "Delimiters" := h
      exact ⟨none, (mem_lexSpec _ _).mpr (.inr ⟨h, rfl⟩), rfl⟩
  · rintro ⟨x, h1, h2⟩
    rcases (mem_lexSpec _ _).mp h1 with ⟨rs, rfl, h3⟩ | ⟨rfl, rfl⟩
    · obtain ⟨c, h4, r, h5, h6⟩ := h2
      cases l with
      | char c' =>
        simp only [Lexeme.text, List.cons.injEq, and_true] at h4
        subst h4
        exact ⟨_, h3, rfl, r, h5, h6⟩
      | delimiters => simp [Lexeme.text, delimitersWord] at h4
    · cases l with
      | char c => simp [RuleText, Lexeme.text, delimitersWord] at h2
      | delimiters => rfl

/-! ### The lexer -/

/-- The facts about the schema lexer used below. -/
structure SchemaLexOk (L : Lexer) (g : Grammar) : Prop where
  delims : L.hasDelims = false
  ids : ∀ u, AllBytes u → ∀ v, v ∈ L.dfa.idsOn u ↔ ∃ s x, (s, x) ∈ lexSpec ∧ g.symbolId.lookup s = some v ∧ RuleText x u

theorem perm_names {sc : List (Nat × String)} (h : sc.Perm schemaSpecialChars) : (sc.map (·.2)).Perm schemaSpecials := h.map _

theorem lexDecls_names (sc : List (Nat × String)) : (schemaLexDecls sc).map (·.1) = schemaTerminals (sc.map (·.2)) := by
  unfold schemaLexDecls schemaTerminals
  simp only [List.map_append, List.map_map]
  rfl

theorem schemaLexer_ok {sc : List (Nat × String)} (hsc : sc.Perm schemaSpecialChars) {addr : Nat → Nat} (hinj : ∀ a b, addr a = addr b → a = b) :
    ∃ L, schemaLexer sc addr = .ok L ∧ SchemaLexOk L (schemaGrammar (sc.map (·.2))) := by
  obtain ⟨hid, hrules⟩ := addRules_ids (schemaLexDecls sc) ParserTables.init {} rfl
    (Grammar.init_ok (terms := schemaTerminals (sc.map (·.2)))) (fun d hd => by
      refine List.mem_append_right _ ?_
      rw [← lexDecls_names]
      exact List.mem_map_of_mem hd)
  rw [lexDecls_names] at hid hrules
  have hrules' : ∀ r, r ∈ (schemaLexTables sc).rules ↔ ∃ d ∈ schemaLexDecls sc,
      ((schemaTerminals (sc.map (·.2))).foldl Grammar.addTerminal {}).symbolId.lookup d.1 = some r.id ∧ r.regex = d.2 := by
    intro r
    have := hrules r
    rw [show ParserTables.init.rules = [] from rfl] at this
    rw [List.mem_nil_iff, false_or] at this
    exact this
  have hok : ∀ r ∈ (schemaLexTables sc).rules, r.regex.LoopSafe ∧ r.regex.BoundsOk ∧ r.regex.ClassesOk ∧ r.regex.NoInteger := by
    intro r hr
    obtain ⟨d, hd, _, e⟩ := (hrules' r).mp hr
    obtain ⟨x, _, hx⟩ := forall₂_mem_left lexDecls_ok ((mem_lexDecls hsc d).mp hd)
    rw [e]
    exact ⟨hx.loop, hx.bounds, hx.classes, hx.noInt⟩
  obtain ⟨n, hn⟩ : ∃ n, buildNfa (schemaLexTables sc).rules = some n := buildNfa_total _ fun r hr => (hok r hr).2.2.2
  obtain ⟨d, hd, hids⟩ := C10_dfa_equiv_nfa hn hinj
  have hL : schemaLexer sc addr = .ok { dfa := d, isDelim := fun _ => false, hasDelims := false } := by
    unfold schemaLexer
    rw [hd]
  refine ⟨_, hL, rfl, fun u hu v => ?_⟩
  obtain ⟨hN, _⟩ := Grammar.terminals_ok (ts := schemaTerminals (sc.map (·.2))) (Grammar.init_ok (terms := schemaTerminals (sc.map (·.2))))
    (fun n hn => List.mem_append_right _ hn)
  have hle := (Grammar.addProductions_le (ds := schemaProductions (sc.map (·.2))) hN).1
  have hhas := Grammar.terminals_has (ts := schemaTerminals (sc.map (·.2))) (Grammar.init_ok (terms := schemaTerminals (sc.map (·.2))))
    (fun n hn => List.mem_append_right _ hn) Grammar.init_has
  show v ∈ d.idsOn u ↔ _
  rw [hids u hu, C08_sound_partial hn (fun r hr _ => ⟨(hok r hr).1, (hok r hr).2.1, (hok r hr).2.2.1⟩)]
  constructor
  · rintro ⟨_, r, hr, rfl, hm⟩
    obtain ⟨d, hd, e1, e2⟩ := (hrules' r).mp hr
    obtain ⟨⟨s, x⟩, hx1, hx⟩ := forall₂_mem_left lexDecls_ok ((mem_lexDecls hsc d).mp hd)
    have hnm : d.1 = s := hx.name
    rw [hnm] at e1
    exact ⟨s, x, hx1, hle _ _ e1, (hx.spec u hu).mp (e2 ▸ hm)⟩
  · rintro ⟨s, x, hx1, e1, hm⟩
    obtain ⟨d, hd, hx⟩ := forall₂_mem_right lexDecls_ok hx1
    have hd' := (mem_lexDecls hsc d).mpr hd
    have hnm : d.1 = s := hx.name
    obtain ⟨v', _, hv'⟩ := hhas s (List.mem_append_right _ (by rw [← lexDecls_names, ← hnm]; exact List.mem_map_of_mem hd'))
    have : some v' = some v := (hle _ _ hv').symm.trans e1
    rw [Option.some.inj this] at hv'
    exact ⟨hu, ⟨v, d.2⟩, (hrules' _).mpr ⟨d, hd', by rw [hnm]; exact hv', rfl⟩, rfl, (hx.spec u hu).mpr hm⟩

/-! ### Units -/

theorem lexemesFrom_drop : ∀ (n : Nat) (w : List Nat), lexemesFrom n w = lexemes (w.drop n)
  | 0, _ => rfl
  | _ + 1, [] => by simp [lexemesFrom, lexemes]
  | n + 1, _ :: r => by rw [lexemesFrom, lexemesFrom_drop n r]; rfl

theorem lexemes_cons (c : Nat) (r : List Nat) : ∃ l, lexemes (c :: r) = l :: lexemes ((c :: r).drop l.text.length) ∧
    (c :: r).take l.text.length = l.text ∧ 0 < l.text.length ∧ (l = .delimiters ∨ (l = .char c ∧ ¬ delimitersWord <+: c :: r)) := by
  unfold lexemes
  rw [lexemesFrom]
  split
  · rename_i h
    refine ⟨.delimiters, ?_, ?_, by decide, .inl rfl⟩
    · rw [lexemesFrom_drop]; rfl
    · have := List.isPrefixOf_iff_prefix.mp h
      exact (List.prefix_iff_eq_take.mp this).symm
  · rename_i h
    exact ⟨.char c, rfl, rfl, Nat.one_pos, .inr ⟨rfl, fun hp => h (List.isPrefixOf_iff_prefix.mpr hp)⟩⟩

theorem allBytes_slice {s : List Nat} (h : AllBytes s) (a e : Nat) : AllBytes (slice s a e) :=
  fun c hc => h c (List.mem_of_mem_drop (List.mem_of_mem_take hc))

theorem slice_length_at {s : List Nat} {a n : Nat} (h : a + n ≤ s.length) : (slice s a (a + n)).length = n := by
  unfold slice
  simp
  omega

theorem lookup_spec {sc : List (Nat × String)} (hsc : sc.Perm schemaSpecialChars) {s : String} {x : Option (List Range)} (h : (s, x) ∈ lexSpec) :
    s ∈ schemaTerminals (sc.map (·.2)) ∧ ∃ v ∈ (schemaGrammar (sc.map (·.2))).terminals, (schemaGrammar (sc.map (·.2))).symbolId.lookup s = some v := by
  obtain ⟨d, hd, hx⟩ := forall₂_mem_right lexDecls_ok h
  have hnm : d.1 = s := hx.name
  have hs : s ∈ schemaTerminals (sc.map (·.2)) := by
    rw [← lexDecls_names, ← hnm]
    exact List.mem_map_of_mem ((mem_lexDecls hsc d).mpr hd)
  refine ⟨hs, ?_⟩
  obtain ⟨v, hv, e⟩ := (Grammar.build_has (terms := schemaTerminals (sc.map (·.2))) (all := schemaProductions (sc.map (·.2)))).2.1 s
    (List.mem_append_right _ hs)
  exact ⟨v, hv, e⟩

theorem ids_nonempty {L : Lexer} {sc : List (Nat × String)} (hsc : sc.Perm schemaSpecialChars) (hL : SchemaLexOk L (schemaGrammar (sc.map (·.2))))
    {u : List Nat} (hu : AllBytes u) : L.dfa.idsOn u ≠ [] ↔ (∃ c, u = [c]) ∨ u = delimitersWord := by
  constructor
  · intro h
    obtain ⟨v, hv⟩ := List.exists_mem_of_ne_nil _ h
    obtain ⟨s, x, h1, _, h2⟩ := (hL.ids u hu v).mp hv
    cases x with
    | none => exact .inr h2
    | some rs => obtain ⟨c, rfl, _⟩ := h2; exact .inl ⟨c, rfl⟩
  · intro h
    have : ∃ s x, (s, x) ∈ lexSpec ∧ RuleText x u := by
      rcases h with ⟨c, rfl⟩ | rfl
      · have hc : c < 256 := hu c (by simp)
        by_cases h1 : c = 10
        · subst h1
          exact ⟨"NewLine", some [(10, 10)], (mem_lexSpec _ _).mpr (.inl ⟨_, rfl, by decide⟩), 10, rfl, (10, 10), by simp⟩
        · by_cases h2 : c = 13
          · subst h2
            exact ⟨"CarriageReturn", some [(13, 13)], (mem_lexSpec _ _).mpr (.inl ⟨_, rfl, by decide⟩), 13, rfl, (13, 13), by simp⟩
          · refine ⟨"CommentCharacters", some [(0, 9), (11, 12), (14, 255)], (mem_lexSpec _ _).mpr (.inl ⟨_, rfl, by decide⟩), c, rfl, ?_⟩
            by_cases h3 : c ≤ 9
            · exact ⟨(0, 9), by simp, by simp, h3⟩
            · by_cases h4 : c ≤ 12
              · exact ⟨(11, 12), by simp, by simp; omega, h4⟩
              · exact ⟨(14, 255), by simp, by simp; omega, by simp; omega⟩
      · exact ⟨"Delimiters", none, (mem_lexSpec _ _).mpr (.inr ⟨rfl, rfl⟩), rfl⟩
    obtain ⟨s, x, h1, h2⟩ := this
    obtain ⟨_, v, _, e⟩ := lookup_spec hsc h1
    intro he
    have := (hL.ids u hu v).mpr ⟨s, x, h1, e, h2⟩
    rw [he] at this
    cases this

/-- A token is the unit `l` at position `p`. -/
def TokAt (L : Lexer) (b : InBuf) (t : Token) (p : Nat) (l : Lexeme) : Prop :=
  ∃ line, IsTok b t p (p + l.text.length) (L.dfa.idsOn l.text) line

/-- Each call of the lexer gives the next unit; at the end it gives the end token, again and again. -/
theorem scan_unit {L : Lexer} {sc : List (Nat × String)} (hsc : sc.Perm schemaSpecialChars) (hL : SchemaLexOk L (schemaGrammar (sc.map (·.2))))
    {s : List Nat} (hs : AllBytes s) {st : LexState} {b : InBuf} {p : Nat} (h : Ready L s st b p) (hp : p ≤ s.length)
    {st' : LexState} {b' : InBuf} {res : Except Fail Token} (hscan : L.scan st b = (st', b', res)) :
    (∃ pos' c', b' = { b with pos := pos', consumed := c' }) ∧
    ((p = s.length ∧ Ready L s st' b' p ∧ ∃ t l, res = .ok t ∧ IsTok b t p p [tokenEnd] l) ∨
      ∃ l t, res = .ok t ∧ p + l.text.length ≤ s.length ∧ lexemes (s.drop p) = l :: lexemes (s.drop (p + l.text.length)) ∧
        slice s p (p + l.text.length) = l.text ∧ Ready L s st' b' (p + l.text.length) ∧ TokAt L b t p l) := by
  have hroot : L.dfa.ids 0 = [] := by
    have h0 : L.dfa.idsOn [] = L.dfa.ids 0 := rfl
    rw [← h0]
    refine Decidable.byContradiction fun hne => ?_
    rcases (ids_nonempty hsc hL (u := []) (fun c hc => by cases hc)).mp hne with ⟨c, h⟩ | h
    · cases h
    · cases h
  obtain ⟨hb, hm, he⟩ := scan_munch hL.delims hroot h hp hscan
  refine ⟨hb, ?_⟩
  rcases Nat.lt_or_eq_of_le hp with hlt | heq
  · right
    have hdrop : s.drop p = s[p] :: s.drop (p + 1) := List.drop_eq_getElem_cons hlt
    obtain ⟨l, h1, h2, h3, h4⟩ := lexemes_cons s[p] (s.drop (p + 1))
    rw [← hdrop] at h1 h2
    have hle : p + l.text.length ≤ s.length := by
      have := congrArg List.length h2
      simp only [List.length_take, List.length_drop] at this
      omega
    have hsl : slice s p (p + l.text.length) = l.text := by
      unfold slice
      rw [Nat.add_sub_cancel_left, h2]
    rw [List.drop_drop] at h1
    have hne : L.dfa.idsOn (slice s p (p + l.text.length)) ≠ [] := by
      refine (ids_nonempty hsc hL (allBytes_slice hs _ _)).mpr ?_
      rw [hsl]
      rcases h4 with rfl | ⟨rfl, _⟩
      · exact .inr rfl
      · exact .inl ⟨_, rfl⟩
    obtain ⟨r1, t, line, r2, r3⟩ := hm l.text.length h3 hle hne (by
      intro n' hn' hle'
      refine Decidable.byContradiction fun hne' => ?_
      have hlen := slice_length_at hle'
      rcases (ids_nonempty hsc hL (allBytes_slice hs _ _)).mp hne' with ⟨c, hc⟩ | hc
      · rw [hc] at hlen
        simp only [List.length_singleton] at hlen
        omega
      · rw [hc] at hlen
        have h10 : n' = 10 := hlen.symm
        rcases h4 with rfl | ⟨rfl, hnp⟩
        · rw [h10] at hn'
          exact absurd hn' (by decide)
        · apply hnp
          rw [← hdrop, ← hc]
          exact List.take_prefix _ _)
    refine ⟨l, t, r2, hle, h1, hsl, r1, line, ?_⟩
    rw [hsl] at r3
    exact r3
  · left
    obtain ⟨r1, t, l, r2, r3⟩ := he heq
    exact ⟨heq, r1, t, l, r2, r3⟩

theorem schema_names {sp : List String} (hsp : sp.Perm schemaSpecials) {n m : String} {id : Nat}
    (h1 : (schemaGrammar sp).symbolId.lookup n = some id) (h2 : (schemaGrammar sp).symbolId.lookup m = some id) : n = m := by
  have hB : Grammar.BuildOk _ "Schema" (schemaProductions sp) (schemaGrammar sp) :=
    Grammar.build_ok (terms := schemaTerminals sp) (start := "Schema") (bd := ["Comment"]) (ds := (schemaProductions sp).tail)
      (schema_conditions hsp).1
  exact hB.names.inj _ _ _ h1 h2

/-- Which terminals a token stands for. -/
theorem isTok_unit {L : Lexer} {sc : List (Nat × String)} (hsc : sc.Perm schemaSpecialChars) (hL : SchemaLexOk L (schemaGrammar (sc.map (·.2))))
    {l : Lexeme} (hl : AllBytes l.text) {t : Token} (ht : t.types = some (L.dfa.idsOn l.text)) (s : String) :
    (schemaGrammar (sc.map (·.2))).IsTok (reserved.map (·.1) ++ schemaTerminals (sc.map (·.2))) t s ↔ Stands s l := by
  rw [stands_spec]
  have hinj := fun n m id => @schema_names _ (perm_names hsc) n m id
  have hlk := fun s x => @lookup_spec sc hsc s x
  have hids := hL.ids _ hl
  clear hL
  generalize schemaGrammar (sc.map (·.2)) = g at *
  constructor
  · rintro ⟨_, id, tys, h1, h2, h3⟩
    rw [ht] at h2
    rw [← Option.some.inj h2] at h3
    obtain ⟨s', x, h4, h5, h6⟩ := (hids id).mp h3
    rw [hinj _ _ _ h1 h5]
    exact ⟨x, h4, h6⟩
  · rintro ⟨x, h1, h2⟩
    obtain ⟨h3, v, _, h4⟩ := hlk _ _ h1
    exact ⟨List.mem_append_right _ h3, v, _, h4, ht, (hids v).mpr ⟨s, x, h1, h4, h2⟩⟩

theorem schema_end (sp : List String) : (schemaGrammar sp).symbolId.lookup "$end" = some tokenEnd := by
  have h0 : ({} : Grammar).symbolId.lookup "$end" = some tokenEnd := by decide
  have := (Grammar.build_has (terms := schemaTerminals sp) (all := schemaProductions sp)).2.2 "$end" tokenEnd h0
  exact this

/-- The types are terminals. -/
theorem types_terminals {L : Lexer} {sc : List (Nat × String)} (hsc : sc.Perm schemaSpecialChars) (hL : SchemaLexOk L (schemaGrammar (sc.map (·.2))))
    {l : Lexeme} (hl : AllBytes l.text) : ∀ ty ∈ L.dfa.idsOn l.text, ty ∈ (schemaGrammar (sc.map (·.2))).terminals ∧ ty ≠ tokenEnd := by
  intro ty hty
  have hinj := fun n m id => @schema_names _ (perm_names hsc) n m id
  have hlk := fun s x => @lookup_spec sc hsc s x
  have hids := hL.ids _ hl
  have hend := schema_end (sc.map (·.2))
  clear hL
  generalize schemaGrammar (sc.map (·.2)) = g at *
  obtain ⟨s, x, h1, h2, _⟩ := (hids ty).mp hty
  obtain ⟨h3, v, hv, h4⟩ := hlk _ _ h1
  have : v = ty := Option.some.inj (h4.symm.trans h2)
  subst this
  refine ⟨hv, fun he => ?_⟩
  rw [he] at h4
  have := hinj _ _ _ h4 hend
  rw [this, mem_schemaTerminals (perm_names hsc)] at h3
  have key : "$end" ∉ schemaTerminals schemaSpecials := by decide
  exact key h3

end LogSurgeon
