import Verif.Proofs.SchemaParse
import Verif.Proofs.LexLine
import Verif.Model.RuleLines
import Verif.Props.LalrComplete
import Verif.Props.Lalr
/-
`SchemaParser` on a text, from the characters to the AST.
-/
namespace LogSurgeon
open Grammar

/-- The reader answers the first request for `n` bytes with the whole text (with the end of the file if it is empty). -/
def Delivers {σ : Type} (rd : σ → Nat → σ × InBuf.ReadRes) (src : σ) (n : Nat) (w : List Nat) : Prop :=
  (rd src n).2 = if w = [] then .eof else .bytes w

theorem nlCount_zero (s : List Nat) : nlCount s 0 = 0 := by simp [nlCount]

/-- The first read fills the buffer. -/
theorem first_read {σ : Type} {rd : σ → Nat → σ × InBuf.ReadRes} {src : σ} {w : List Nat} {mem : Mem} {nid N : Nat}
    (hw : w.length < N / 2) (hN : 2 < N) (hrd : Delivers rd src (N / 2) w) (L : Lexer) :
    ∃ src' b1, (InBuf.init mem N nid).reset.readIfSafe rd src = (src', b1, true) ∧ Ready L w {} b1 0 := by
  have hsafe : (InBuf.init mem N nid).reset.readIsSafe = true := by
    simp [InBuf.readIsSafe, InBuf.reset, InBuf.init]; omega
  have hsize : (InBuf.init mem N nid).reset.size / 2 = N / 2 := rfl
  unfold InBuf.readIfSafe
  rw [if_pos hsafe, hsize]
  cases hr : rd src (N / 2) with
  | mk src' a =>
    unfold Delivers at hrd
    rw [hr] at hrd
    simp only at hrd ⊢
    by_cases he : w = []
    · subst he
      rw [if_pos rfl] at hrd
      subst hrd
      refine ⟨src', _, rfl, View.of rfl (fun i hi => by simp at hi) rfl (by simp) (.inl rfl) (fun h => by cases h),
        ⟨rfl, rfl, rfl, rfl, fun _ => (nlCount_zero _).symm, fun _ => (nlCount_zero _).symm⟩, fun h => by cases h⟩
    · rw [if_neg he] at hrd
      subst hrd
      refine ⟨src', _, rfl, View.of ?_ ?_ ?_ ?_ (.inr rfl) (fun h => by cases h),
        ⟨rfl, rfl, rfl, rfl, fun _ => (nlCount_zero _).symm, fun _ => (nlCount_zero _).symm⟩, fun h => by cases h⟩
      · show (if 0 + w.length > N then 0 + w.length - N else 0 + w.length) = w.length
        rw [if_neg (by omega)]; omega
      · intro i hi
        show (InBuf.overwrite (mem 0) 0 w)[i]? = w[i]?
        unfold InBuf.overwrite
        simp only [List.take_zero, List.nil_append]
        rw [List.getElem?_append_left hi]
      · show (false || decide (w.length < N / 2)) = true
        simp; omega
      · show w.length ≤ N / 2
        omega

/-- The units are bytes. -/
theorem lexemes_bytes {w : List Nat} (hw : AllBytes w) : ∀ l ∈ lexemes w, l.Byte := by
  suffices h : ∀ (n : Nat) (w : List Nat), AllBytes w → ∀ l ∈ lexemesFrom n w, l.Byte from h 0 w hw
  intro n w
  induction w generalizing n with
  | nil => intro _ l hl; cases n <;> cases hl
  | cons c r ih =>
    intro hw l hl
    have hr : AllBytes r := fun x hx => hw x (List.mem_cons_of_mem _ hx)
    cases n with
    | zero =>
      rw [lexemesFrom] at hl
      split at hl
      · rcases List.mem_cons.mp hl with rfl | hl
        · trivial
        · exact ih _ hr l hl
      · rcases List.mem_cons.mp hl with rfl | hl
        · exact hw c (by simp)
        · exact ih _ hr l hl
    | succ n => exact ih _ hr l hl

theorem prefix_unique {α} {P : α → Prop} : ∀ {a : List α} {b : List α} {u : List α} {e : α} {r : List α}, (∀ x ∈ a, ¬ P x) → (∀ x ∈ b, P x) →
    (∀ x ∈ u, ¬ P x) → P e → a ++ b = u ++ e :: r → u = a
  | [], b, [], _, _, _, _, _, _, _ => rfl
  | [], b, y :: u, e, r, _, hb, hu, _, h => by
    have : y ∈ b := by
      simp only [List.nil_append] at h
      rw [h]; simp
    exact absurd (hb y this) (hu y (by simp))
  | x :: a, b, [], e, r, ha, _, _, he, h => by
    simp only [List.nil_append, List.cons_append, List.cons.injEq] at h
    exact absurd (h.1 ▸ he) (ha x (by simp))
  | x :: a, b, y :: u, e, r, ha, hb, hu, he, h => by
    simp only [List.cons_append, List.cons.injEq] at h
    rw [h.1, prefix_unique (fun z hz => ha z (by simp [hz])) hb (fun z hz => hu z (by simp [hz])) he h.2]

theorem derivation_toks {decls : List (String × List String)} {isTok : Token → String → Prop} (hd : ∀ (i : Nat) d, decls[i]? = some d → "$end" ∉ d.2)
    {ss : List String} {ts : List Tree} {w : List Token} (h : Derivation decls isTok ss ts w) : "$end" ∉ ss → ∀ t ∈ w, ∃ s, isTok t s ∧ s ≠ "$end" := by
  induction h with
  | nil => intro _ t ht; cases ht
  | tok h1 _ ih =>
    intro hs t ht
    rcases List.mem_cons.mp ht with rfl | ht
    · exact ⟨_, h1, fun e => hs (by simp [e])⟩
    · exact ih (fun h => hs (by simp [h])) t ht
  | prod hi _ _ ih1 ih2 =>
    intro hs t ht
    rcases List.mem_append.mp ht with ht | ht
    · exact ih1 (hd _ _ hi) t ht
    · exact ih2 (fun h => hs (by simp [h])) t ht

theorem scanToks_prefix (L : Lexer) : ∀ (k j : Nat) (st : LexState) (b : InBuf), L.scanToks k st b <+: L.scanToks (k + j) st b
  | 0, _, _, _ => List.nil_prefix
  | k + 1, j, st, b => by
    rw [Nat.add_right_comm, Lexer.scanToks, Lexer.scanToks]
    split
    · obtain ⟨m, hm⟩ := scanToks_prefix L k j _ _
      exact ⟨m, by rw [← hm]; rfl⟩
    · exact List.prefix_refl _

/-- The line numbers are those of the tree. -/
theorem generateSchemaLines_tree {σ : Type} {L : Lexer} {rules : List (Nat × Regex)} {specials : List String} {tb : Table} {fuel kids : Nat}
    {rd : σ → Nat → σ × InBuf.ReadRes} {src : σ} {b : InBuf} {t : Tree} {kids' : Nat} {b' : InBuf}
    (h : parseFrom L (schemaGrammar specials) tb (schemaResets (schemaGrammar specials)) (schemaHasRule specials) rd fuel
      { states := [tb.root], matched := [], next := none, kids := kids } src {} b.reset = .ok (t, kids', b')) :
    generateSchemaLines L rules specials tb fuel kids rd src b =
      match schemaOfTree specials (tokenText b'.mem) t with
      | .error e => .error e
      | .ok a => .ok (a, childLines [t.varLines (schemaRuleOf specials)] 0, kids') := by
  rw [parseFrom_stop] at h
  unfold generateSchemaLines
  generalize stopFrom L (schemaGrammar specials) tb (schemaResets (schemaGrammar specials)) (schemaHasRule specials) rd fuel
      { states := [tb.root], matched := [], next := none, kids := kids } src {} b.reset = r at h
  cases r with
  | error e => cases h
  | ok r =>
    cases r with
    | rejected _ _ _ _ => cases h
    | accepted t1 k1 b1 =>
      simp only [Stop.result, Except.ok.injEq, Prod.mk.injEq] at h
      obtain ⟨rfl, rfl, rfl⟩ := h
      rfl

/-- The lines of the tokens. -/
theorem scanToks_lines {L : Lexer} {sc : List (Nat × String)} (hsc : sc.Perm schemaSpecialChars) (hL : SchemaLexOk L (schemaGrammar (sc.map (·.2))))
    {s : List Nat} (hs : AllBytes s) : ∀ (k : Nat) (st : LexState) (b : InBuf) (p : Nat), Ready L s st b p → p ≤ s.length → st.line = nlCount s p →
    ∀ (i : Nat) t, (L.scanToks k st b)[i]? = some t → i < (lexemes (s.drop p)).length →
      t.line = nlCount s p + (textOf ((lexemes (s.drop p)).take (i + 1))).count newline
  | 0, _, _, _, _, _, _, i, t, h, _ => by simp [Lexer.scanToks] at h
  | k + 1, st, b, p, hr, hp, hl, i, t, h, hi => by
    have hone : ∀ c ∈ s, L.dfa.idsOn [c] ≠ [] := fun c hc =>
      (ids_nonempty hsc hL (u := [c]) (fun x hx => by rw [List.mem_singleton.mp hx]; exact hs c hc)).mpr (.inl ⟨c, rfl⟩)
    have hline := scan_line hL.delims hone hr hp hl
    rw [Lexer.scanToks] at h
    cases hscan : L.scan st b with
    | mk st' x =>
      obtain ⟨b', r⟩ := x
      rw [hscan] at h hline
      obtain ⟨hl1, hl2⟩ := hline
      simp only at hl1 hl2
      obtain ⟨_, ⟨he, _⟩ | ⟨l, t', h2, h3, h4, h5, h6, line, h7⟩⟩ := scan_unit hsc hL hs hr hp hscan
      · rw [he, List.drop_length] at hi
        exact absurd hi (Nat.not_lt_zero _)
      · subst h2
        have hnl : nlCount s (p + l.text.length) = nlCount s p + l.text.count newline := by
          unfold nlCount
          have h5' : (s.drop p).take l.text.length = l.text := by
            have := h5
            unfold slice at this
            rwa [Nat.add_sub_cancel_left] at this
          rw [List.take_add, List.count_append, h5']
        rw [h4] at hi ⊢
        simp only [List.length_cons] at hi
        cases i with
        | zero =>
          simp only [List.getElem?_cons_zero, Option.some.injEq] at h
          subst h
          rw [hl2 t' rfl, h7.stop, hnl]
          simp
        | succ i =>
          simp only [List.getElem?_cons_succ] at h
          have := scanToks_lines hsc hL hs k st' b' _ h6 h3 (by rw [hl1, h6.at'.pos]) i t h (by omega)
          rw [this, hnl]
          simp [Nat.add_assoc]

section
variable {σ : Type} {sc : List (Nat × String)} (hsc : sc.Perm schemaSpecialChars) {L : Lexer} (hL : SchemaLexOk L (schemaGrammar (sc.map (·.2))))
  {mem : Mem} {nid : Nat} {rd : σ → Nat → σ × InBuf.ReadRes} {src : σ} {w : List Nat} {N : Nat} (hN : 2 < N) (hw : w.length < N / 2)
  (hb : AllBytes w) (hrd : Delivers rd src (N / 2) w) {tb : Table} {resets hasRule : Nat → Bool}
include hsc hL hN hw hb hrd

/-- The parse of a text is the parse of the tokens of its units. -/
theorem parse_units : ∃ (m1 : Mem) (toks : List Token) (e0 : Token),
    List.Forall₂ (fun t l => t.types = some (L.dfa.idsOn l.text) ∧ tokenText m1 t = l.text ∧ AllBytes l.text) toks (lexemes w) ∧
    (∀ (i : Nat) t, toks[i]? = some t → t.line = (textOf ((lexemes w).take (i + 1))).count newline) ∧
    ∀ (k : Nat) (s : PState), ∃ ends : List Token, (∀ t ∈ ends, t.types = some [tokenEnd]) ∧ (∃ more, ends = e0 :: more) ∧
      SameResult m1 (parseFrom L (schemaGrammar (sc.map (·.2))) tb resets hasRule rd (k + 1) s src {} (InBuf.init mem N nid).reset)
        ((schemaGrammar (sc.map (·.2))).parseLoop tb resets (k + 1) s (toks ++ ends)) := by
  obtain ⟨src', b1, h1, h2⟩ := first_read (mem := mem) (nid := nid) (N := N) hw hN hrd L
  obtain ⟨toks, t1, t2⟩ := scanToks_units hsc hL hb (lexemes w) {} b1 0 h2 (Nat.zero_le _) rfl
  obtain ⟨ends0, z1, z2, -⟩ := t2 1
  obtain ⟨e0, rfl⟩ : ∃ e0, ends0 = [e0] := List.length_eq_one_iff.mp z2
  refine ⟨b1.mem, toks, e0, t1, fun i t ht => ?_, fun k s => ?_⟩
  · have hi : i < toks.length := (List.getElem?_eq_some_iff.mp ht).1
    have := scanToks_lines hsc hL hb ((lexemes w).length + 1) {} b1 0 h2 (Nat.zero_le _) (by simp [nlCount]) i t
      (by rw [z1, List.getElem?_append_left hi]; exact ht) (by rw [List.drop_zero, ← t1.length_eq]; exact hi)
    simpa [nlCount] using this
  obtain ⟨ends, e1, e2, e3⟩ := t2 (k + 1)
  refine ⟨ends, e3, ?_, ?_⟩
  · obtain ⟨more, hm⟩ := scanToks_prefix L ((lexemes w).length + 1) k {} b1
    rw [z1, Nat.add_assoc, Nat.add_comm 1 k, e1, List.append_assoc, List.append_cancel_left_eq] at hm
    exact ⟨more, hm.symm⟩
  have hfin : b1.finished = true := h2.view.finished
  have hsame : parseFrom L (schemaGrammar (sc.map (·.2))) tb resets hasRule rd (k + 1) s src {} (InBuf.init mem N nid).reset
      = parseFrom L (schemaGrammar (sc.map (·.2))) tb resets hasRule rd (k + 1) s src' {} b1 := by
    generalize schemaGrammar (sc.map (·.2)) = g
    rw [parseFrom, parseFrom, h1, readIfSafe_fin hfin]
  rw [hsame, ← e1]
  refine parseFrom_toks (fun st b => ∃ p, p ≤ w.length ∧ Ready L w st b p) ?_ _ _ _ _ _ _ ⟨0, Nat.zero_le _, h2⟩ (by omega)
  rintro st b ⟨p, hp, hr⟩
  refine ⟨hr.view.finished, fun c => ⟨p, hp, hr.consumedPos c⟩, ?_⟩
  cases hscan : L.scan st b with
  | mk st' x =>
    obtain ⟨b', r⟩ := x
    obtain ⟨⟨pos', c', hb'⟩, ⟨he, h1, t, l, h2, h3⟩ | ⟨l', t, h2, h3, h4, h5, h6, line, h7⟩⟩ := scan_unit hsc hL hb hr hp hscan
    · exact ⟨st', b', t, by rw [h2], ⟨p, hp, h1⟩, by rw [hb']⟩
    · exact ⟨st', b', t, by rw [h2], ⟨_, h3, h6⟩, by rw [hb']⟩

end

/-- Everything but the text. -/
structure SchemaEnv.Ok (E : SchemaEnv) : Prop where
  specials : E.specials.Perm schemaSpecialChars
  addr : ∀ a b, E.addr a = E.addr b → a = b

theorem end_not_in {sp : List String} (hsp : sp.Perm schemaSpecials) (i : Nat) (d : String × List String) (h : (schemaGrammar sp).decls[i]? = some d) :
    "$end" ∉ d.2 := by
  have hp := (schema_conditions hsp).1
  have hB : Grammar.BuildOk _ "Schema" (schemaProductions sp) (schemaGrammar sp) :=
    Grammar.build_ok (terms := schemaTerminals sp) (start := "Schema") (bd := ["Comment"]) (ds := (schemaProductions sp).tail) hp
  by_cases hi : i = 1
  · subst hi
    rw [hB.prime] at h
    cases h
    decide
  · exact (schema_conditions hsp).2.2.2.1 d (hB.decls i d h hi)

theorem same_units {sc : List (Nat × String)} (hsc : sc.Perm schemaSpecialChars) {L : Lexer} (hL : SchemaLexOk L (schemaGrammar (sc.map (·.2)))) {m : Mem}
    {toks : List Token} {ls : List Lexeme}
    (h : List.Forall₂ (fun t l => t.types = some (L.dfa.idsOn l.text) ∧ tokenText m t = l.text ∧ AllBytes l.text) toks ls) :
    List.Forall₂ (SameUnit ((schemaGrammar (sc.map (·.2))).IsTok (reserved.map (·.1) ++ schemaTerminals (sc.map (·.2)))) (tokenText m)) toks ls :=
  h.imp fun _ _ hx => ⟨hx.2.1, fun s => isTok_unit hsc hL hx.2.2 hx.1 s⟩

/-- Whatever is parsed is derivable, fits and evaluates to the AST. -/
theorem schema_run_in {σ : Type} {E : SchemaEnv} (hE : E.Ok) {kids kids' : Nat} {rd : σ → Nat → σ × InBuf.ReadRes} {src : σ} {w : List Nat}
    {N : Nat} (hN : 2 < N) (hw : w.length < N / 2) (hb : AllBytes w) (hrd : Delivers rd src (N / 2) w) {a : SchemaAST} (h : E.parseIn N kids rd src = .ok (a, kids')) :
    ∃ (L : Lexer) (m : Mem) (toks : List Token) (tree : Tree) (p : Nat),
      SchemaLexOk L (schemaGrammar (E.specials.map (·.2))) ∧
      List.Forall₂ (fun t l => t.types = some (L.dfa.idsOn l.text) ∧ tokenText m t = l.text ∧ AllBytes l.text) toks (lexemes w) ∧
      Derivation (schemaGrammar (E.specials.map (·.2))).decls
        ((schemaGrammar (E.specials.map (·.2))).IsTok (reserved.map (·.1) ++ schemaTerminals (E.specials.map (·.2)))) ["Schema"] [tree] toks ∧
      tree.counter (schemaResets (schemaGrammar (E.specials.map (·.2)))) kids = some kids' ∧
      tree.eval (schemaRuleOf (E.specials.map (·.2))) (tokenText m) 0 = .ok (.val (.schema a), p) ∧
      (∀ (i : Nat) t, toks[i]? = some t → t.line = (textOf ((lexemes w).take (i + 1))).count newline) ∧
      E.parseLinesIn N kids rd src = .ok (a, childLines [tree.varLines (schemaRuleOf (E.specials.map (·.2)))] 0, kids') := by
  unfold SchemaEnv.parseIn at h
  obtain ⟨L, hlex, hL⟩ := schemaLexer_ok hE.specials hE.addr
  rw [hlex] at h
  simp only at h
  have hsc := hE.specials
  have hsp := perm_names hsc
  generalize hS : E.specials = sc at *
  cases hgen : (schemaGrammar (sc.map (·.2))).generate E.orders E.fuel with
  | error e => rw [hgen] at h; cases h
  | ok tb =>
    rw [hgen] at h
    simp only at h
    obtain ⟨m1, toks, e0, h1, hli, h2⟩ := parse_units hsc hL (mem := E.mem) (nid := E.nextId) hN hw hb hrd (tb := tb)
      (resets := schemaResets (schemaGrammar (sc.map (·.2)))) (hasRule := schemaHasRule (sc.map (·.2)))
    obtain ⟨steps, hst⟩ : ∃ k, E.steps = k + 1 := by
      cases hs : E.steps with
      | zero => rw [hs] at h; simp only [generateSchemaAst, stopFrom] at h; cases h
      | succ k => exact ⟨k, rfl⟩
    rw [hst] at h
    obtain ⟨ends, e1, e2, e3⟩ := h2 steps { states := [tb.root], matched := [], next := none, kids := kids }
    cases hres : parseFrom L (schemaGrammar (sc.map (·.2))) tb (schemaResets (schemaGrammar (sc.map (·.2)))) (schemaHasRule (sc.map (·.2))) rd (steps + 1)
      { states := [tb.root], matched := [], next := none, kids := kids } src {} (InBuf.init E.mem N E.nextId).reset with
    | error e =>
      obtain ⟨e', he'⟩ := generateSchemaAst_error (rules := E.rules) hres
      rw [he'] at h
      cases h
    | ok x =>
      rw [hres] at e3
      obtain ⟨t, kk, b⟩ := x
      rw [generateSchemaAst_tree hres] at h
      cases hv : schemaOfTree (sc.map (·.2)) (tokenText b.mem) t with
      | error e => rw [hv] at h; cases h
      | ok a' =>
        rw [hv] at h
        cases h
        have hlines : E.parseLinesIn N kids rd src = .ok (a, childLines [t.varLines (schemaRuleOf (sc.map (·.2)))] 0, kids') := by
          unfold SchemaEnv.parseLinesIn
          simp only [hS, hlex, hgen, hst]
          rw [generateSchemaLines_tree hres, hv]
        cases hp : (schemaGrammar (sc.map (·.2))).parseLoop tb (schemaResets (schemaGrammar (sc.map (·.2)))) (steps + 1)
            { states := [tb.root], matched := [], next := none, kids := kids } (toks ++ ends) with
        | error e => rw [hp] at e3; exact e3.elim
        | ok y =>
          obtain ⟨t', rest, k'⟩ := y
          rw [hp] at e3
          obtain ⟨rfl, rfl, hm⟩ := e3
          have htypes : ∀ t ∈ toks, ∃ l, l ∈ lexemes w ∧ t.types = some (L.dfa.idsOn l.text) ∧ AllBytes l.text := by
            intro t ht
            obtain ⟨l, h3, h4⟩ := forall₂_mem_left h1 ht
            exact ⟨l, h3, h4.1, h4.2.2⟩
          have hend : ∀ t ∈ ends, t.types = some [tokenEnd] := e1
          have hterm : ∀ t ∈ toks ++ ends, ∀ tys, t.types = some tys → ∀ ty ∈ tys, ty ∈ (schemaGrammar (sc.map (·.2))).terminals := by
            intro t ht tys htys ty hty
            rcases List.mem_append.mp ht with ht | ht
            · obtain ⟨l, _, h4, h5⟩ := htypes t ht
              rw [h4] at htys
              cases htys
              exact (types_terminals hsc hL h5 ty hty).1
            · rw [hend t ht] at htys
              cases htys
              rw [List.mem_singleton.mp hty]
              obtain ⟨id, h6, h7⟩ := (Grammar.build_has (terms := schemaTerminals (sc.map (·.2))) (all := schemaProductions (sc.map (·.2)))).2.1 "$end"
                (List.mem_append_left _ (by decide))
              have h8 := schema_end (sc.map (·.2))
              have : id = tokenEnd := Option.some.inj (h7.symm.trans h8)
              rw [← this]; exact h6
          obtain ⟨ds, hg, hpr⟩ := C34_schema_grammar (sc.map (·.2)) (fun h => absurd (hsp.mem_iff.mp h) (by decide))
          obtain ⟨used, e, u1, ⟨tys, u2, u3⟩, u4, u5⟩ := Grammar.parse_sound hg hpr hgen hterm hp
          have hused : used = toks := by
            refine prefix_unique (P := fun t => ∃ tys, t.types = some tys ∧ tokenEnd ∈ tys) ?_ ?_ ?_ ⟨tys, u2, u3⟩ u1
            · rintro t ht ⟨tys, h3, h4⟩
              obtain ⟨l, _, h5, h6⟩ := htypes t ht
              rw [h5] at h3
              cases h3
              exact (types_terminals hsc hL h6 _ h4).2 rfl
            · intro t ht
              exact ⟨_, hend t ht, by simp⟩
            · rintro t ht ⟨tys, h3, h4⟩
              obtain ⟨s, hs, hne⟩ := derivation_toks (end_not_in hsp) u4 (by decide) t ht
              obtain ⟨_, id, tys', h5, h6, h7⟩ := hs
              rw [h3] at h6
              cases h6
              have hin : t ∈ toks ++ ends := by rw [u1]; exact List.mem_append_left _ ht
              rcases List.mem_append.mp hin with ht' | ht'
              · obtain ⟨l, _, h8, h9⟩ := htypes t ht'
                rw [h8] at h3
                cases h3
                exact (types_terminals hsc hL h9 _ h4).2 rfl
              · rw [hend t ht'] at h3
                cases h3
                rw [List.mem_singleton.mp h7] at h5
                exact hne (schema_names hsp h5 (schema_end _))
          subst hused
          rw [hm] at hv
          unfold schemaOfTree at hv
          cases hev : t.eval (schemaRuleOf (sc.map (·.2))) (tokenText m1) 0 with
          | error e => rw [hev] at hv; cases hv
          | ok y =>
            obtain ⟨v, p⟩ := y
            rw [hev] at hv
            have hv' : v = .val (.schema a) := by
              split at hv
              · rename_i heq
                cases heq
                cases hv
                rfl
              · cases hv
              · cases hv
            subst hv'
            exact ⟨L, m1, _, t, p, hL, h1, u4, u5, hev, hli, hlines⟩

/-- Whatever is parsed is a schema text that says what the AST says. -/
theorem schema_sound_in {σ : Type} {E : SchemaEnv} (hE : E.Ok) {kids kids' : Nat} {rd : σ → Nat → σ × InBuf.ReadRes} {src : σ} {w : List Nat}
    {N : Nat} (hN : 2 < N) (hw : w.length < N / 2) (hb : AllBytes w) (hrd : Delivers rd src (N / 2) w) {a : SchemaAST} (h : E.parseIn N kids rd src = .ok (a, kids')) :
    ∃ s, WrittenFile 0 (lexemes w) s ∧ s.Builds a := by
  obtain ⟨L, m, toks, t, p, hL, h1, u4, -, hev, -⟩ := schema_run_in hE hN hw hb hrd h
  have hsc := hE.specials
  have hsp := perm_names hsc
  have hevs : Tree.eval.evals (schemaRuleOf (E.specials.map (·.2))) (tokenText m) [t] 0 = .ok ([.val (.schema a)], p) := by
    simp only [Tree.eval.evals, hev]
  exact (der_iff (lexemes_bytes hb)).mp (der_of_tree (ruleOf_mem hsp) u4 (same_units hsc hL h1) hevs).1

theorem schema_run {σ : Type} {E : SchemaEnv} (hE : E.Ok) {kids kids' : Nat} {rd : σ → Nat → σ × InBuf.ReadRes} {src : σ} {w : List Nat}
    (hw : w.length < 24000) (hb : AllBytes w) (hrd : Delivers rd src 24000 w) {a : SchemaAST} (h : E.parse kids rd src = .ok (a, kids')) :
    ∃ (L : Lexer) (m : Mem) (toks : List Token) (tree : Tree) (p : Nat),
      SchemaLexOk L (schemaGrammar (E.specials.map (·.2))) ∧
      List.Forall₂ (fun t l => t.types = some (L.dfa.idsOn l.text) ∧ tokenText m t = l.text ∧ AllBytes l.text) toks (lexemes w) ∧
      Derivation (schemaGrammar (E.specials.map (·.2))).decls
        ((schemaGrammar (E.specials.map (·.2))).IsTok (reserved.map (·.1) ++ schemaTerminals (E.specials.map (·.2)))) ["Schema"] [tree] toks ∧
      tree.counter (schemaResets (schemaGrammar (E.specials.map (·.2)))) kids = some kids' ∧
      tree.eval (schemaRuleOf (E.specials.map (·.2))) (tokenText m) 0 = .ok (.val (.schema a), p) :=
  let ⟨L, m, toks, t, p, hL, h1, u4, u5, hev, _⟩ := schema_run_in hE (N := 48000) (by decide) hw hb hrd h
  ⟨L, m, toks, t, p, hL, h1, u4, u5, hev⟩

theorem schema_sound {σ : Type} {E : SchemaEnv} (hE : E.Ok) {kids kids' : Nat} {rd : σ → Nat → σ × InBuf.ReadRes} {src : σ} {w : List Nat}
    (hw : w.length < 24000) (hb : AllBytes w) (hrd : Delivers rd src 24000 w) {a : SchemaAST} (h : E.parse kids rd src = .ok (a, kids')) :
    ∃ s, WrittenFile 0 (lexemes w) s ∧ s.Builds a :=
  schema_sound_in hE (N := 48000) (by decide) hw hb hrd h

/-! ### The children array -/

/-- Where no newline is read, the production that resets the counter is not used. -/
theorem no_newline {sp : List String} (hsp : sp.Perm schemaSpecials) {ss : List String} {ts : List Tree} {w : List Token}
    (hd : Derivation (schemaGrammar sp).decls ((schemaGrammar sp).IsTok (reserved.map (·.1) ++ schemaTerminals sp)) ss ts w) :
    (∀ t ∈ w, ¬ (schemaGrammar sp).IsTok (reserved.map (·.1) ++ schemaTerminals sp) t "NewLine") →
    "NewLine" ∉ ss ∧ "PortableNewLine" ∉ ss := by
  have key : (∀ x ∈ D0, x.1.1 ≠ "NewLine" ∧ (x.1.1 = "PortableNewLine" → "NewLine" ∈ x.1.2)) ∧
    "PortableNewLine" ∉ reserved.map (·.1) ∧ "PortableNewLine" ∉ schemaTerminals schemaSpecials := by decide +kernel
  induction hd with
  | nil => simp
  | @tok t s ss ts w a _ ih =>
    intro hw
    obtain ⟨h1, h2⟩ := ih fun t ht => hw t (by simp [ht])
    refine ⟨?_, ?_⟩
    · rw [List.mem_cons, not_or]
      exact ⟨fun h => hw t (by simp) (h ▸ a), h1⟩
    · rw [List.mem_cons, not_or]
      refine ⟨fun h => ?_, h2⟩
      have := a.1
      rw [List.mem_append, mem_schemaTerminals hsp, ← h] at this
      exact this.elim key.2.1 key.2.2
  | @prod i hd bd ss cs ts w w' a _ _ ih1 ih2 =>
    intro hw
    obtain ⟨h1, h2⟩ := ih1 fun t ht => hw t (by simp [ht])
    obtain ⟨h3, h4⟩ := ih2 fun t ht => hw t (by simp [ht])
    rcases decl_cases hsp _ _ a with h | ⟨r, h⟩
    · simp only at h
      subst h
      simp only [List.mem_cons, not_or]
      exact ⟨⟨by decide, h3⟩, by decide, h4⟩
    · obtain ⟨k1, k2⟩ := key.1 _ h
      simp only [List.mem_cons, not_or]
      exact ⟨⟨fun e => k1 e.symm, h3⟩, fun e => h1 (k2 e.symm), h4⟩

theorem counter_exact {sp : List String} (hsp : sp.Perm schemaSpecials) {ss : List String} {ts : List Tree} {w : List Token}
    (hd : Derivation (schemaGrammar sp).decls ((schemaGrammar sp).IsTok (reserved.map (·.1) ++ schemaTerminals sp)) ss ts w) :
    (∀ t ∈ w, ¬ (schemaGrammar sp).IsTok (reserved.map (·.1) ++ schemaTerminals sp) t "NewLine") →
    w.length ≤ Tree.edges.edgesAll ts + ts.length ∧ ts.length = ss.length ∧
    ∀ k k', Tree.counter.counters (schemaResets (schemaGrammar sp)) ts k = some k' →
      k' = k + Tree.edges.edgesAll ts ∧ (k ≤ 10000 → k' ≤ 10000) := by
  induction hd with
  | nil => intro _; simp [Tree.counter.counters, Tree.edges.edgesAll]
  | @tok t s ss ts w a _ ih =>
    intro hw
    obtain ⟨h1, h2, h3⟩ := ih fun t ht => hw t (by simp [ht])
    refine ⟨by simp [Tree.edges.edgesAll, Tree.edges]; omega, by simp [h2], fun k k' h => ?_⟩
    simp only [Tree.counter.counters, Tree.counter] at h
    obtain ⟨h4, h5⟩ := h3 k k' h
    exact ⟨by simp [Tree.edges.edgesAll, Tree.edges, h4], h5⟩
  | @prod i hd bd ss cs ts w w' a d _ ih1 ih2 =>
    intro hw
    have hw1 : ∀ t ∈ w, ¬ (schemaGrammar sp).IsTok (reserved.map (·.1) ++ schemaTerminals sp) t "NewLine" := fun t ht => hw t (by simp [ht])
    obtain ⟨h1, h2, h3⟩ := ih1 hw1
    obtain ⟨g1, g2, g3⟩ := ih2 fun t ht => hw t (by simp [ht])
    have hr : schemaResets (schemaGrammar sp) i = false := by
      unfold schemaResets
      rw [a]
      rw [beq_eq_false_iff_ne]
      intro e
      cases e
      exact (no_newline hsp d hw1).2 (by simp)
    refine ⟨by simp [Tree.edges.edgesAll, Tree.edges]; omega, by simp [g2], fun k k' h => ?_⟩
    simp only [Tree.counter.counters, Tree.counter, hr] at h
    split at h
    · cases h
    rename_i k1 hk1
    split at hk1
    · cases hk1
    rename_i k2 hk2
    obtain ⟨h4, h5⟩ := h3 _ _ hk2
    split at hk1
    · cases hk1
    rename_i hc
    simp only [Bool.false_eq_true, false_and, if_false, Option.some.injEq] at hk1
    obtain ⟨h6, h7⟩ := g3 _ _ h
    simp only [Tree.edges.edgesAll, Tree.edges]
    refine ⟨by omega, fun hk => h7 ?_⟩
    have := h5 hk
    omega

theorem lexemes_mem {c : Nat} {w : List Nat} : Lexeme.char c ∈ lexemes w → c ∈ w := by
  suffices h : ∀ (n : Nat) (w : List Nat), Lexeme.char c ∈ lexemesFrom n w → c ∈ w from h 0 w
  intro n w
  induction w generalizing n with
  | nil => intro hl; cases n <;> cases hl
  | cons x r ih =>
    intro hl
    cases n with
    | zero =>
      rw [lexemesFrom] at hl
      split at hl
      · rcases List.mem_cons.mp hl with h | hl
        · cases h
        · exact List.mem_cons_of_mem _ (ih _ hl)
      · rcases List.mem_cons.mp hl with h | hl
        · cases h; simp
        · exact List.mem_cons_of_mem _ (ih _ hl)
    | succ n => exact List.mem_cons_of_mem _ (ih _ hl)

/-- A text without newline that is parsed uses at least as many entries of the children array as it has units, but one, and they fit. -/
theorem schema_long {σ : Type} {E : SchemaEnv} (hE : E.Ok) {kids kids' : Nat} {rd : σ → Nat → σ × InBuf.ReadRes} {src : σ} {w : List Nat}
    (hw : w.length < 24000) (hb : AllBytes w) (hrd : Delivers rd src 24000 w) (hn : 10 ∉ w) (hk : kids ≤ 10000) {a : SchemaAST}
    (h : E.parse kids rd src = .ok (a, kids')) : kids + (lexemes w).length ≤ kids' + 1 ∧ kids' ≤ 10000 := by
  obtain ⟨L, m, toks, t, p, hL, h1, u4, u5, hev⟩ := schema_run hE hw hb hrd h
  have hsc := hE.specials
  have hsp := perm_names hsc
  have hu := same_units hsc hL h1
  have hnl : ∀ t ∈ toks, ¬ (schemaGrammar (E.specials.map (·.2))).IsTok (reserved.map (·.1) ++ schemaTerminals (E.specials.map (·.2))) t "NewLine" := by
    intro t ht hh
    obtain ⟨l, h3, h4⟩ := forall₂_mem_left hu ht
    have hst := (h4.2 _).mp hh
    cases l with
    | delimiters => exact absurd (show "NewLine" = "Delimiters" from hst) (by decide)
    | char c =>
      obtain ⟨x, hx, hs, r, hr, r1, r2⟩ := hst
      have key : ∀ x ∈ charToks, x.1 = "NewLine" → ∀ r ∈ x.2, r = (10, 10) := by decide +kernel
      have := key x hx hs r hr
      subst this
      have hc : c = 10 := by simp only at r1 r2; omega
      subst hc
      exact hn (lexemes_mem h3)
  obtain ⟨c1, _, c2⟩ := counter_exact hsp u4 hnl
  obtain ⟨c3, c4⟩ := c2 kids kids' (by simp only [Tree.counter.counters, u5])
  have := c4 hk
  simp only [List.length_singleton] at c1
  rw [h1.length_eq] at c1
  omega

end LogSurgeon
