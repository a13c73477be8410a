import Verif.Proofs.SchemaRoom
import Verif.Proofs.SchemaText
import Verif.Proofs.RuleError
/-
The line numbers of the variables of a schema.
-/
namespace LogSurgeon

/-! ### The lines that declare something -/

/-- The lines that declare variables, the first being number `c`. -/
def declaredFrom (c : Nat) (xs : List (List Lexeme)) : List Nat :=
  (xs.zipIdx c).filterMap fun x => if Declares x.1 then some x.2 else none

theorem declaredFrom_append (c : Nat) (xs ys : List (List Lexeme)) :
    declaredFrom c (xs ++ ys) = declaredFrom c xs ++ declaredFrom (c + xs.length) ys := by
  unfold declaredFrom
  rw [List.zipIdx_append, List.filterMap_append]

theorem declaredFrom_one (c : Nat) (x : List Lexeme) : declaredFrom c [x] = if Declares x then [c] else [] := by
  unfold declaredFrom
  cases h : Declares x <;> simp [h]

theorem declared_line {c : Nat} {a b : List Lexeme} (hb : .char 10 ∉ b) :
    declaredFrom c (unitLines (a ++ .char 10 :: b)) = declaredFrom c (unitLines a) ++ if Declares b then [c + (unitLines a).length] else [] := by
  rw [unitLines_append, unitLines_one hb, declaredFrom_append, declaredFrom_one]

theorem declared_cr {c : Nat} (a : List Lexeme) : declaredFrom c (unitLines (a ++ [.char 13])) = declaredFrom c (unitLines a) ∧
    (unitLines (a ++ [.char 13])).length = (unitLines a).length := by
  obtain ⟨xs, x, h1, h2⟩ := unitLines_snoc (b := [.char 13]) (by simp) a
  rw [h1, h2, declaredFrom_append, declaredFrom_append, declaredFrom_one, declaredFrom_one, declares_cr]
  simp

/-- The number of lines. -/
theorem unitLines_length (a : List Lexeme) : (unitLines a).length = (textOf a).count 10 + 1 := by
  induction a with
  | nil => rfl
  | cons l a ih =>
    by_cases h : l = .char 10
    · subst h
      rw [unitLines_newline, textOf_cons, List.count_append]
      simp [ih, Lexeme.text]
      omega
    · obtain ⟨x, xs, h1, h2⟩ := unitLines_cons h a
      have h0 : l.text.count 10 = 0 := by
        cases l with
        | char c =>
          have : c ≠ 10 := fun e => h (by rw [e])
          simp [Lexeme.text, this]
        | delimiters => decide
      rw [h2, textOf_cons, List.count_append, h0, Nat.zero_add, ← ih, h1]
      rfl

/-! ### The tree -/

/-- The tokens carry the numbers of the lines in which they end, the first line being number `c`. -/
def LinesAt (c : Nat) (w : List Token) (ls : List Lexeme) : Prop :=
  ∀ (i : Nat) t, w[i]? = some t → t.line = c + (textOf (ls.take (i + 1))).count 10

theorem linesAt_left {c : Nat} {w1 w2 : List Token} {l1 l2 : List Lexeme} (hl : w1.length = l1.length) (h : LinesAt c (w1 ++ w2) (l1 ++ l2)) :
    LinesAt c w1 l1 := by
  intro i t ht
  have hi : i < w1.length := (List.getElem?_eq_some_iff.mp ht).1
  have := h i t (by rw [List.getElem?_append_left hi]; exact ht)
  rwa [List.take_append_of_le_length (by omega)] at this

theorem linesAt_right {c : Nat} {w1 w2 : List Token} {l1 l2 : List Lexeme} (hl : w1.length = l1.length) (h : LinesAt c (w1 ++ w2) (l1 ++ l2)) :
    LinesAt (c + (textOf l1).count 10) w2 l2 := by
  intro i t ht
  have := h (w1.length + i) t (by rw [List.getElem?_append_right (by omega), Nat.add_sub_cancel_left]; exact ht)
  rw [hl, Nat.add_assoc, List.take_length_add_append, textOf_append, List.count_append] at this
  omega

theorem count_zero {ls : List Lexeme} (h : .char 10 ∉ ls) : (textOf ls).count 10 = 0 := by
  have h1 := unitLines_length ls
  rw [unitLines_one h] at h1
  simpa using h1.symm

theorem take_no_newline {ls : List Lexeme} (h : .char 10 ∉ ls) (n : Nat) : (textOf (ls.take n)).count 10 = 0 :=
  count_zero fun hm => h (List.mem_of_mem_take hm)

theorem schema_rules : ∀ x ∈ D0, x.1.1 = "Schema" →
    x = (("Schema", ["Comment"]), .newSchema) ∨ x = (("Schema", ["SchemaVar"]), .newSchemaWithVar) ∨
    x = (("Schema", ["Delimiters", "Colon", "DelimiterString"]), .newSchemaWithDelimiters) ∨
    x = (("Schema", ["Schema", "PortableNewLine"]), .schemaIdentity) ∨
    x = (("Schema", ["Schema", "PortableNewLine", "Comment"]), .schemaIdentity) ∨
    x = (("Schema", ["Schema", "PortableNewLine", "SchemaVar"]), .existingSchema) ∨
    x = (("Schema", ["Schema", "PortableNewLine", "Delimiters", "Colon", "DelimiterString"]), .existingSchemaWithDelimiter) := by decide +kernel

theorem var_rules : ∀ x ∈ D0, x.1.1 = "SchemaVar" → x = (("SchemaVar", ["WhitespaceStar", "Identifier", "Colon", "Regex"]), .schemaVar) := by decide +kernel

/-- The symbols in front of the colon. -/
def beforeColon (s : String) : Bool := ["WhitespaceStar", "Identifier", "Space", "AlphaNumeric", "Colon"].contains s

theorem beforeColon_checks :
    (∀ x ∈ D0, beforeColon x.1.1 = true → ∀ s ∈ x.1.2, beforeColon s = true) ∧
    (∀ x ∈ charToks, beforeColon x.1 = true → ∀ r ∈ x.2, ¬ (r.1 ≤ 13 ∧ 13 ≤ r.2) ∧ ¬ (r.1 ≤ 47 ∧ 47 ≤ r.2)) ∧
    (∀ x ∈ charToks, x.1 ≠ "SchemaVar") := by decide +kernel

theorem stands_beforeColon {s : String} (hs : beforeColon s = true) {l : Lexeme} (h : Stands s l) : ∃ c, l = .char c ∧ c ≠ 47 ∧ c ≠ 13 := by
  cases l with
  | delimiters =>
    have : s = "Delimiters" := h
    subst this
    exact absurd hs (by decide)
  | char c =>
    obtain ⟨x, hx, rfl, r, hr, h1, h2⟩ := h
    obtain ⟨k1, k2⟩ := beforeColon_checks.2.1 x hx hs r hr
    refine ⟨c, rfl, ?_, ?_⟩
    · rintro rfl; exact k2 ⟨h1, h2⟩
    · rintro rfl; exact k1 ⟨h1, h2⟩

section
variable {decls : List (String × List String)} {isTok : Token → String → Prop} {text : Token → List Nat} {ruleOf : Nat → Option SemRule}

theorem beforeColon_units (hall : ∀ (i : Nat) d, decls[i]? = some d → d.1 = "$START_PRIME" ∨ ∃ r, (d, r) ∈ D0) {ss : List String} {ts : List Tree} {w : List Token}
    (h : Derivation decls isTok ss ts w) : (∀ s ∈ ss, beforeColon s = true) → ∀ {ls : List Lexeme}, List.Forall₂ (SameUnit isTok text) w ls →
    ∀ l ∈ ls, ∃ c, l = .char c ∧ c ≠ 47 ∧ c ≠ 13 := by
  induction h with
  | nil => intro _ ls hu; cases hu; simp
  | @tok t s ss ts w ht _ ih =>
    intro hs ls hu
    cases hu with
    | @cons _ l _ ls hl hu =>
      intro l' hl'
      rcases List.mem_cons.mp hl' with rfl | hl'
      · exact stands_beforeColon (hs s (by simp)) ((hl.2 s).mp ht)
      · exact ih (fun s h => hs s (by simp [h])) hu l' hl'
  | @prod i head body cs ss ts w w' hd _ _ ih1 ih2 =>
    intro hs ls hu
    obtain ⟨l1, l2, rfl, h1, h2⟩ := forall₂_append_inv hu
    have hh := hs head (by simp)
    intro l hl
    rcases hall i _ hd with hp | ⟨r, hr⟩
    · simp only at hp; subst hp; exact absurd hh (by decide)
    · rcases List.mem_append.mp hl with hl | hl
      · exact ih1 (beforeColon_checks.1 _ hr hh) h1 l hl
      · exact ih2 (fun s h => hs s (by simp [h])) h2 l hl

/-- A line that declares a variable. -/
theorem var_line (hall : ∀ (i : Nat) d, decls[i]? = some d → d.1 = "$START_PRIME" ∨ ∃ r, (d, r) ∈ D0)
    (hrule : ∀ (i : Nat) d r, decls[i]? = some d → (d, r) ∈ D0 → ruleOf i = some r) {ts : List Tree} {w : List Token}
    (h : Derivation decls isTok ["SchemaVar"] ts w) {ls : List Lexeme} (hu : List.Forall₂ (SameUnit isTok text) w ls) {c : Nat} (hl : LinesAt c w ls) :
    Declares ls = true ∧ ∃ t, ts = [t] ∧ t.varLines ruleOf = .val [c] := by
  have hno := inLine_units hall h (by decide) hu
  cases h with
  | tok ht h =>
    exfalso
    cases hu with
    | @cons _ l _ _ hx _ =>
      have := (hx.2 _).mp ht
      cases l with
      | delimiters => exact absurd (show "SchemaVar" = "Delimiters" from this) (by decide)
      | char d =>
        obtain ⟨x, hx, e, _⟩ := this
        exact beforeColon_checks.2.2 x hx e
  | @prod i head body cs _ _ w w' hd hb h =>
    obtain ⟨rfl, rfl⟩ := derivation_nil h
    rw [List.append_nil] at hu hl
    rcases hall i _ hd with hp | ⟨r, hr⟩
    · exact absurd hp (by simp)
    have hx := var_rules _ hr rfl
    simp only [Prod.mk.injEq, true_and] at hx
    obtain ⟨rfl, rfl⟩ := hx
    have hri := hrule i _ _ hd hr
    obtain ⟨t1, ts1, w1, w2, rfl, rfl, d1, d2⟩ := derivation_cons hb
    obtain ⟨t2, ts2, w3, w4, rfl, rfl, d3, d4⟩ := derivation_cons d2
    have colon : ∃ x ts3 w5, ts2 = .leaf x :: ts3 ∧ w4 = x :: w5 ∧ isTok x "Colon" := by
      cases d4 with
      | tok ht _ => exact ⟨_, _, _, rfl, rfl, ht⟩
      | @prod j _ body _ _ _ _ _ hd' _ _ =>
        exfalso
        rcases hall j _ hd' with hp | ⟨r, hr⟩
        · exact absurd hp (by simp)
        · exact absurd rfl ((by decide +kernel : ∀ x ∈ D0, x.1.1 ≠ "Colon") _ hr)
    obtain ⟨x, ts3, w5, rfl, rfl, hx⟩ := colon
    obtain ⟨l1, l2, rfl, u1, u2⟩ := forall₂_append_inv hu
    obtain ⟨l3, l4, rfl, u3, u4⟩ := forall₂_append_inv u2
    cases u4 with
    | @cons _ lc _ l5 hc u5 =>
      refine ⟨?_, .node i _, rfl, ?_⟩
      · have b1 := beforeColon_units hall d1 (by decide) u1
        have b2 := beforeColon_units hall d3 (by decide) u3
        obtain ⟨cc, rfl, c1, c2⟩ := stands_beforeColon (s := "Colon") (by decide) ((hc.2 _).mp hx)
        have hall' : ∀ l ∈ l1 ++ (l3 ++ [.char cc]), ∃ c, l = .char c ∧ c ≠ 47 ∧ c ≠ 13 := by
          intro l hl
          simp only [List.mem_append, List.mem_singleton] at hl
          rcases hl with hl | hl | rfl
          · exact b1 l hl
          · exact b2 l hl
          · exact ⟨cc, rfl, c1, c2⟩
        have hsplit : l1 ++ (l3 ++ .char cc :: l5) = (l1 ++ (l3 ++ [.char cc])) ++ l5 := by simp
        rw [hsplit]
        cases hf : l1 ++ (l3 ++ [.char cc]) with
        | nil => simp at hf
        | cons y ys =>
          obtain ⟨c, rfl, k1, k2⟩ := hall' y (by rw [hf]; simp)
          simp [Declares, k1, k2]
      · have hline := hl (w1.length + w3.length) x (by
          rw [List.getElem?_append_right (by omega), List.getElem?_append_right (by omega)]
          simp)
        rw [take_no_newline hno] at hline
        simp only [Tree.varLines, hri, SemRule.varLines, Tree.varLines.all]
        simp [hline]

/-- The line numbers in the value of a schema file. -/
theorem schema_lines (hall : ∀ (i : Nat) d, decls[i]? = some d → d.1 = "$START_PRIME" ∨ ∃ r, (d, r) ∈ D0)
    (hrule : ∀ (i : Nat) d r, decls[i]? = some d → (d, r) ∈ D0 → ruleOf i = some r) {c : Nat}
    {ss : List String} {ts : List Tree} {w : List Token}
    (h : Derivation decls isTok ss ts w) : ∀ ss', ss = "Schema" :: ss' → ∀ {ls : List Lexeme}, List.Forall₂ (SameUnit isTok text) w ls →
    ∃ t ts' w1 w2 l1 l2, ts = t :: ts' ∧ w = w1 ++ w2 ∧ ls = l1 ++ l2 ∧ List.Forall₂ (SameUnit isTok text) w1 l1 ∧
      List.Forall₂ (SameUnit isTok text) w2 l2 ∧ Derivation decls isTok ss' ts' w2 ∧
      (LinesAt c w1 l1 → t.varLines ruleOf = .val (declaredFrom c (unitLines l1))) := by
  have hcr : ∀ t, isTok t "CarriageReturn" → ∀ l, SameUnit isTok text t l → l = .char 13 :=
    fun t ht l hl => stands_only inLine_checks.2.2.2.1 (by decide) ((hl.2 _).mp ht)
  have hnl : ∀ t, isTok t "NewLine" → ∀ l, SameUnit isTok text t l → l = .char 10 :=
    fun t ht l hl => stands_only inLine_checks.2.2.1 (by decide) ((hl.2 _).mp ht)
  induction h with
  | nil => intro _ e; cases e
  | @tok t s ss ts w ht _ _ =>
    intro ss' e ls hu
    exfalso
    cases e
    cases hu with
    | @cons _ l _ _ hl _ =>
      have := (hl.2 _).mp ht
      cases l with
      | delimiters => exact absurd (show "Schema" = "Delimiters" from this) (by decide)
      | char c =>
        obtain ⟨x, hx, e, _⟩ := this
        exact (inLine_checks.2.2.2.2.2.2.1 x hx).1 e
  | @prod i head body cs ss ts w w' hd hb h ih1 _ =>
    intro ss' e ls hu
    simp only [List.cons.injEq] at e
    obtain ⟨rfl, rfl⟩ := e
    obtain ⟨l1, l2, rfl, h1, h2⟩ := forall₂_append_inv hu
    refine ⟨_, _, _, _, _, _, rfl, rfl, rfl, h1, h2, h, fun hla => ?_⟩
    rcases hall i _ hd with hp | ⟨r, hr⟩
    · exact absurd hp (by simp)
    have hri := hrule i _ _ hd hr
    -- a single line
    have single : ∀ {r' : List String} {tr : List Tree} {wr : List Token} {lr : List Lexeme},
        (r' = [] ∨ r' = ["Comment"] ∨ r' = ["Delimiters", "Colon", "DelimiterString"]) →
        Derivation decls isTok r' tr wr → List.Forall₂ (SameUnit isTok text) wr lr → .char 10 ∉ lr ∧ Declares lr = false := by
      intro r' tr wr lr hr' d u
      refine ⟨inLine_units hall d ?_ u, not_declares hall hr' d u⟩
      rcases hr' with rfl | rfl | rfl <;> decide
    -- the file above
    have above : ∀ {r' : List String}, body = "Schema" :: "PortableNewLine" :: r' →
        ∃ t1 t2 tr wr lr c' l', cs = t1 :: t2 :: tr ∧ Derivation decls isTok r' tr wr ∧ List.Forall₂ (SameUnit isTok text) wr lr ∧
          LinesAt c' wr lr ∧ t1.varLines ruleOf = .val l' ∧
          (.char 10 ∉ lr → declaredFrom c (unitLines l1) = l' ++ if Declares lr then [c'] else []) := by
      intro r' hbody
      obtain ⟨t1, ts1, wa, wb, la, lb, rfl, rfl, rfl, u1, u2, d1, hc⟩ := ih1 _ hbody h1
      obtain ⟨t2, ts2, wn, wc, rfl, rfl, d2, d3⟩ := derivation_cons d1
      obtain ⟨ln, lc, rfl, u3, u4⟩ := forall₂_append_inv u2
      have hln := newline_units hall hcr hnl (.inl rfl) d2 u3
      have a1 := linesAt_left u1.length_eq hla
      have a2 := linesAt_right u3.length_eq (linesAt_right u1.length_eq hla)
      refine ⟨t1, t2, ts2, wc, lc, _, _, rfl, d3, u4, a2, hc a1, fun hn => ?_⟩
      have hlen := unitLines_length la
      rcases hln with rfl | rfl
      · have : la ++ ([.char 10] ++ lc) = la ++ .char 10 :: lc := rfl
        rw [this, declared_line hn, hlen]
        simp [Lexeme.text, Nat.add_assoc]
      · have : la ++ ([.char 13, .char 10] ++ lc) = (la ++ [.char 13]) ++ .char 10 :: lc := by simp
        rw [this, declared_line hn, (declared_cr la).1, (declared_cr (c := 0) la).2, hlen]
        simp [Lexeme.text, Nat.add_assoc]
    have one : .char 10 ∉ l1 → declaredFrom c (unitLines l1) = if Declares l1 then [c] else [] := by
      intro hn
      rw [unitLines_one hn, declaredFrom_one]
    rcases schema_rules _ hr rfl with hx | hx | hx | hx | hx | hx | hx <;> simp only [Prod.mk.injEq, true_and] at hx <;> obtain ⟨rfl, rfl⟩ := hx
    · obtain ⟨g1, g2⟩ := single (.inr (.inl rfl)) hb h1
      rw [one g1, g2]
      simp [Tree.varLines, hri, SemRule.varLines]
    · obtain ⟨g1, t, rfl, g2⟩ := var_line hall hrule hb h1 hla
      rw [one (inLine_units hall hb (by decide) h1), g1]
      simp [Tree.varLines, hri, SemRule.varLines, Tree.varLines.all, g2, childLines]
    · obtain ⟨g1, g2⟩ := single (.inr (.inr rfl)) hb h1
      rw [one g1, g2]
      simp [Tree.varLines, hri, SemRule.varLines]
    · obtain ⟨t1, t2, tr, wr, lr, c', l', rfl, d, u, a, g1, g2⟩ := above rfl
      obtain ⟨g3, g4⟩ := single (.inl rfl) d u
      rw [g2 g3, g4]
      simp [Tree.varLines, hri, SemRule.varLines, Tree.varLines.all, g1, childLines]
    · obtain ⟨t1, t2, tr, wr, lr, c', l', rfl, d, u, a, g1, g2⟩ := above rfl
      obtain ⟨g3, g4⟩ := single (.inr (.inl rfl)) d u
      rw [g2 g3, g4]
      simp [Tree.varLines, hri, SemRule.varLines, Tree.varLines.all, g1, childLines]
    · obtain ⟨t1, t2, tr, wr, lr, c', l', rfl, d, u, a, g1, g2⟩ := above rfl
      obtain ⟨g3, t, rfl, g4⟩ := var_line hall hrule d u a
      rw [g2 (inLine_units hall d (by decide) u), g3]
      simp [Tree.varLines, hri, SemRule.varLines, Tree.varLines.all, g1, g4, childLines]
    · obtain ⟨t1, t2, tr, wr, lr, c', l', rfl, d, u, a, g1, g2⟩ := above rfl
      obtain ⟨g3, g4⟩ := single (.inr (.inr rfl)) d u
      rw [g2 g3, g4]
      simp [Tree.varLines, hri, SemRule.varLines, Tree.varLines.all, g1, childLines]

end

/-! ### The lines of a written file -/

theorem alphaNum_ne {c : Nat} (h : AlphaNum c) : c ≠ 10 ∧ c ≠ 47 ∧ c ≠ 13 := by
  unfold AlphaNum at h
  omega

theorem name_no_newline {n : List Nat} (h : IsName n) : 10 ∉ n := fun hm => (alphaNum_ne (h.2 _ hm)).1 rfl

theorem digits_no_newline (n : List Nat) : 10 ∉ digitsText n := by
  intro h
  obtain ⟨d, _, e⟩ := List.mem_map.mp h
  omega

/-- A pattern is written in one line. -/
theorem written_no_newline {l : Level} {k : Nat} {w : List Nat} {p : Pat} (h : Written l k w p) : 10 ∉ w := by
  induction h with
  | char h =>
    cases h with
    | plain h =>
      intro hm
      simp only [List.mem_singleton] at hm
      subst hm
      rcases h with h | h
      · exact (alphaNum_ne h).1 rfl
      · exact absurd h (by decide)
    | escaped h =>
      intro hm
      simp only [List.mem_cons, List.not_mem_nil, or_false] at hm
      rcases hm with hm | hm
      · omega
      · subst hm; unfold Special at h; exact absurd h (by decide)
    | _ => decide
  | parens _ ih => simp [ih]
  | capture hn _ ih => simp [ih, name_no_newline hn]
  | itemChar _ ih => exact ih
  | itemRange _ _ ih1 ih2 => simp [ih1, ih2]
  | opened _ ih => simp [ih]
  | more _ _ ih1 ih2 => simp [ih1, ih2]
  | ofLiteral _ ih => exact ih
  | closed _ ih => simp [ih]
  | star _ ih => simp [ih]
  | plus _ ih => simp [ih]
  | exact _ hn ih => simp [ih, digits_no_newline]
  | range _ hn hm ih => simp [ih, digits_no_newline]
  | ofSingle _ ih => exact ih
  | ofRepeated _ ih => exact ih
  | or _ _ ih1 ih2 => simp [ih1, ih2]
  | ofChoice _ ih => exact ih
  | cat _ _ ih1 ih2 => simp [ih1, ih2]
  | _ => decide

theorem writtenChars_no_newline {k : Nat} {w cs : List Nat} (h : WrittenChars k w cs) : 10 ∉ w := by
  induction h with
  | one h => exact written_no_newline h
  | snoc _ h ih => simp [ih, written_no_newline h]

theorem chars_no_newline {w : List Nat} (h : 10 ∉ w) : .char 10 ∉ chars w := by
  intro hm
  obtain ⟨c, hc, e⟩ := List.mem_map.mp hm
  cases e
  exact h hc

/-- A line of a schema file declares at most one variable. -/
theorem writtenLine_declares {k : Nat} {l : List Lexeme} {s : SchemaText} (h : WrittenLine k l s) :
    .char 10 ∉ l ∧ ((s.vars = [] ∧ Declares l = false) ∨ ∃ v, s = { vars := [v] } ∧ Declares l = true) := by
  cases h with
  | @comment ls _ h2 =>
    refine ⟨?_, .inl ⟨rfl, rfl⟩⟩
    intro hm
    rcases List.mem_append.mp hm with hm | hm
    · revert hm; decide
    · exact (h2 _ hm).1 rfl
  | @var i n w p hn hw =>
    refine ⟨chars_no_newline ?_, .inr ⟨_, rfl, ?_⟩⟩
    · have := name_no_newline hn
      have := written_no_newline hw
      simp [*]
    · cases i with
      | succ i => rfl
      | zero =>
        obtain ⟨h1, h2⟩ := hn
        cases n with
        | nil => exact absurd rfl h1
        | cons c n =>
          have := alphaNum_ne (h2 c (by simp))
          simp [chars, Declares, this.2.1, this.2.2]
  | @delims w cs hw =>
    refine ⟨?_, .inl ⟨rfl, rfl⟩⟩
    have := chars_no_newline (writtenChars_no_newline hw)
    simp [chars] at this ⊢
    exact this

/-- Line number `n` of `xs` declares the variable; if it is the last one, it has no carriage return. -/
def DeclaresAt (xs : List (List Lexeme)) (v : String × Pat) (n : Nat) : Prop :=
  ∃ x, xs[n]? = some x ∧ ((∃ k, WrittenLine k x { vars := [v] }) ∨
    (n + 1 < xs.length ∧ ∃ k y, x = y ++ [.char 13] ∧ WrittenLine k y { vars := [v] }))

theorem DeclaresAt.append {xs ys : List (List Lexeme)} {v : String × Pat} {n : Nat} (h : DeclaresAt xs v n) : DeclaresAt (xs ++ ys) v n := by
  obtain ⟨x, h1, h2⟩ := h
  have hlt := (List.getElem?_eq_some_iff.mp h1).1
  refine ⟨x, by rw [List.getElem?_append_left hlt]; exact h1, ?_⟩
  rcases h2 with h2 | ⟨h2, h3⟩
  · exact .inl h2
  · exact .inr ⟨by simp; omega, h3⟩

theorem DeclaresAt.cr {xs ys : List (List Lexeme)} {x : List Lexeme} {v : String × Pat} {n : Nat} (h : DeclaresAt (xs ++ [x]) v n) (hy : ys ≠ []) :
    DeclaresAt (xs ++ [x ++ [.char 13]] ++ ys) v n := by
  obtain ⟨z, h1, h2⟩ := h
  have hlt := (List.getElem?_eq_some_iff.mp h1).1
  have hpos : 0 < ys.length := List.length_pos_iff.mpr hy
  simp only [List.length_append, List.length_cons, List.length_nil] at hlt h2
  by_cases hn : n < xs.length
  · rw [List.getElem?_append_left hn] at h1
    refine ⟨z, ?_, ?_⟩
    · rw [List.append_assoc, List.getElem?_append_left hn]; exact h1
    · rcases h2 with h2 | ⟨_, h3⟩
      · exact .inl h2
      · exact .inr ⟨by simp; omega, h3⟩
  · obtain rfl : n = xs.length := by omega
    have hz : z = x := by simpa using h1.symm
    subst hz
    refine ⟨z ++ [.char 13], by simp, .inr ⟨by simp; omega, ?_⟩⟩
    rcases h2 with ⟨k, h2⟩ | ⟨h2, _⟩
    · exact ⟨k, z, rfl, h2⟩
    · omega

theorem declaredLines_from (ls : List Lexeme) : declaredLines ls = declaredFrom 0 (unitLines ls) := rfl

theorem writtenLine_at {k : Nat} {l : List Lexeme} {s : SchemaText} (h : WrittenLine k l s) (xs : List (List Lexeme)) :
    List.Forall₂ (DeclaresAt (xs ++ [l])) s.vars (if Declares l then [xs.length] else []) := by
  obtain ⟨-, ⟨h1, h2⟩ | ⟨v, rfl, h2⟩⟩ := writtenLine_declares h
  · rw [h1, h2]; exact .nil
  · rw [h2]
    exact .cons ⟨l, by simp, .inl ⟨k, h⟩⟩ .nil

theorem forall₂_append {α β : Type} {R : α → β → Prop} {a c : List α} {b d : List β} (h1 : List.Forall₂ R a b) (h2 : List.Forall₂ R c d) :
    List.Forall₂ R (a ++ c) (b ++ d) := by
  induction h1 with
  | nil => exact h2
  | cons h _ ih => exact .cons h ih

theorem written_lines_at {k : Nat} {ls : List Lexeme} {s : SchemaText} (h : WrittenFile k ls s) :
    List.Forall₂ (DeclaresAt (unitLines ls)) s.vars (declaredLines ls) := by
  -- one more line
  have add : ∀ {ls nl l' : List Lexeme} {s : SchemaText} {vs : List (String × Pat)}, List.Forall₂ (DeclaresAt (unitLines ls)) s.vars (declaredLines ls) →
      WrittenNewline nl → .char 10 ∉ l' → (∀ xs : List (List Lexeme), List.Forall₂ (DeclaresAt (xs ++ [l'])) vs (if Declares l' then [xs.length] else [])) →
      List.Forall₂ (DeclaresAt (unitLines (ls ++ nl ++ l'))) (s.vars ++ vs) (declaredLines (ls ++ nl ++ l')) := by
    intro ls nl l' s vs h hnl hl' hv
    rcases hnl with rfl | rfl
    · have e : ls ++ chars [10] ++ l' = ls ++ .char 10 :: l' := by simp [chars]
      rw [e, declaredLines_from, declared_line hl', unitLines_append, unitLines_one hl', Nat.zero_add]
      exact forall₂_append (h.imp fun _ _ h => h.append) (hv _)
    · have e : ls ++ chars [13, 10] ++ l' = (ls ++ [.char 13]) ++ .char 10 :: l' := by simp [chars]
      obtain ⟨xs, x, h1, h2⟩ := unitLines_snoc (b := [.char 13]) (by simp) ls
      rw [e, declaredLines_from, declared_line hl', unitLines_append, unitLines_one hl', Nat.zero_add, (declared_cr ls).1]
      refine forall₂_append (h.imp fun v n h => ?_) (hv _)
      rw [h1] at h
      rw [h2]
      exact h.cr (by simp)
  induction h with
  | @first ls s h =>
    have hn := (writtenLine_declares h).1
    rw [declaredLines_from, unitLines_one hn, declaredFrom_one]
    exact writtenLine_at h []
  | @blank ls nl s _ hnl ih =>
    have := add (l' := []) (vs := []) ih hnl (by simp) (fun xs => by simp [Declares])
    simpa using this
  | @line ls nl ls' s s' _ hnl h ih => exact add ih hnl (writtenLine_declares h).1 (writtenLine_at h)

/-- The lines that declare variables, in the order of the variables. -/
theorem written_lines {k : Nat} {ls : List Lexeme} {s : SchemaText} (h : WrittenFile k ls s) :
    List.Forall₂ (fun v (n : Nat) => ∃ x, (unitLines ls)[n]? = some x ∧ DeclaresVar x v) s.vars (declaredLines ls) :=
  (written_lines_at h).imp fun v n ⟨x, h1, h2⟩ => ⟨x, h1, by
    rcases h2 with ⟨k, h2⟩ | ⟨_, k, y, h2, h3⟩
    · exact ⟨k, x, .inl rfl, h2⟩
    · exact ⟨k, y, .inr h2, h3⟩⟩

end LogSurgeon
