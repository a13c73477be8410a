import Verif.Proofs.SchemaTotal
import Verif.Props.LalrComplete
/-
The children array while a schema file is parsed.
-/
namespace LogSurgeon

/-! ### Lines -/

theorem unitLines_ne (ls : List Lexeme) : unitLines ls ≠ [] := by
  induction ls with
  | nil => simp [unitLines]
  | cons l r ih =>
    unfold unitLines
    split
    · simp
    · simp
    · split <;> simp

theorem unitLines_cons {l : Lexeme} (h : l ≠ .char 10) (r : List Lexeme) : ∃ x xs, unitLines r = x :: xs ∧ unitLines (l :: r) = (l :: x) :: xs := by
  cases hr : unitLines r with
  | nil => exact absurd hr (unitLines_ne r)
  | cons x xs =>
    refine ⟨x, xs, rfl, ?_⟩
    rw [unitLines.eq_def]
    split
    · rename_i e; cases e
    · rename_i e; cases e; exact absurd rfl h
    · rename_i l' r' _ e
      cases e
      rw [hr]

theorem unitLines_newline (r : List Lexeme) : unitLines (.char 10 :: r) = [] :: unitLines r := by rw [unitLines]

theorem unitLines_append (a b : List Lexeme) : unitLines (a ++ .char 10 :: b) = unitLines a ++ unitLines b := by
  induction a with
  | nil => simp [unitLines]
  | cons l a ih =>
    by_cases h : l = .char 10
    · subst h
      rw [List.cons_append, unitLines_newline, unitLines_newline, ih, List.cons_append]
    · rw [List.cons_append]
      obtain ⟨x, xs, h1, h2⟩ := unitLines_cons h (a ++ .char 10 :: b)
      obtain ⟨y, ys, h3, h4⟩ := unitLines_cons h a
      rw [h2, h4]
      rw [ih, h3] at h1
      simp only [List.cons_append, List.cons.injEq] at h1
      rw [← h1.1, ← h1.2]
      rfl

theorem unitLines_one : ∀ {a : List Lexeme}, .char 10 ∉ a → unitLines a = [a]
  | [], _ => rfl
  | l :: a, h => by
    simp only [List.mem_cons, not_or] at h
    obtain ⟨x, xs, h1, h2⟩ := unitLines_cons (Ne.symm h.1) a
    rw [unitLines_one h.2] at h1
    cases h1
    exact h2

/-- Something without newline behind: the last line gets longer. -/
theorem unitLines_snoc {b : List Lexeme} (hb : .char 10 ∉ b) : ∀ a : List Lexeme, ∃ xs x, unitLines a = xs ++ [x] ∧ unitLines (a ++ b) = xs ++ [x ++ b]
  | [] => ⟨[], [], rfl, by simpa using unitLines_one hb⟩
  | l :: a => by
    obtain ⟨xs, x, h1, h2⟩ := unitLines_snoc hb a
    by_cases h : l = .char 10
    · subst h
      refine ⟨[] :: xs, x, ?_, ?_⟩
      · rw [unitLines_newline, h1]; rfl
      · rw [List.cons_append, unitLines_newline, h2]; rfl
    · obtain ⟨y, ys, e1, e2⟩ := unitLines_cons h a
      obtain ⟨z, zs, e3, e4⟩ := unitLines_cons h (a ++ b)
      rw [h1] at e1
      rw [h2] at e3
      cases xs with
      | nil =>
        simp only [List.nil_append, List.cons.injEq] at e1 e3
        obtain ⟨rfl, rfl⟩ := e1
        obtain ⟨rfl, rfl⟩ := e3
        exact ⟨[], l :: x, e2, e4⟩
      | cons w ws =>
        simp only [List.cons_append, List.cons.injEq] at e1 e3
        obtain ⟨rfl, rfl⟩ := e1
        obtain ⟨rfl, rfl⟩ := e3
        exact ⟨(l :: w) :: ws, x, e2, e4⟩

/-! ### The bound -/

/-- The entries used behind a line. -/
def lineBound (k : Nat) (x : List Lexeme) : Nat := if Declares x then min (k + 5 * (x.length + 2)) 5000 else k + 5 * (x.length + 2)

theorem linesFit_append : ∀ (xs ys : List (List Lexeme)) (k : Nat), LinesFit k (xs ++ ys) ↔ LinesFit k xs ∧ LinesFit (xs.foldl lineBound k) ys
  | [], ys, k => by simp [LinesFit]
  | x :: xs, ys, k => by
    simp only [List.cons_append, LinesFit, List.foldl_cons]
    rw [linesFit_append xs ys]
    unfold lineBound
    rw [and_assoc]

/-- The entries used behind the units. -/
def roomBound (k : Nat) (ls : List Lexeme) : Nat :=
  match unitLines ls with
  | x :: xs => xs.foldl lineBound (k + 5 * x.length)
  | [] => k

theorem fit_one {k : Nat} {ls : List Lexeme} (h : .char 10 ∉ ls) : (Fit k ls ↔ k + 5 * ls.length ≤ 10000) ∧ roomBound k ls = k + 5 * ls.length := by
  unfold Fit roomBound
  simp [unitLines_one h, LinesFit]

theorem fit_line {k : Nat} {a b : List Lexeme} (hb : .char 10 ∉ b) :
    (Fit k (a ++ .char 10 :: b) ↔ Fit k a ∧ roomBound k a + 5 * (b.length + 2) ≤ 10000) ∧
    roomBound k (a ++ .char 10 :: b) = lineBound (roomBound k a) b := by
  unfold Fit roomBound
  rw [unitLines_append, unitLines_one hb]
  cases ha : unitLines a with
  | nil => exact absurd ha (unitLines_ne a)
  | cons x xs =>
    simp only [List.cons_append]
    rw [linesFit_append]
    simp only [LinesFit, and_true, List.foldl_append, List.foldl_cons, List.foldl_nil, and_assoc]

theorem lineBound_mono {k k' : Nat} (h : k ≤ k') (x y : List Lexeme) (hd : Declares (x ++ y) = Declares x) : lineBound k x ≤ lineBound k' (x ++ y) := by
  unfold lineBound
  rw [hd]
  simp only [List.length_append]
  split <;> omega

theorem declares_cr (x : List Lexeme) : Declares (x ++ [.char 13]) = Declares x := by
  cases x with
  | nil => rfl
  | cons l x => cases l <;> rfl

/-- A carriage return behind the text. -/
theorem fit_cr {k : Nat} {a : List Lexeme} (h : Fit k (a ++ [.char 13])) : Fit k a ∧ roomBound k a ≤ roomBound k (a ++ [.char 13]) := by
  obtain ⟨xs, x, h1, h2⟩ := unitLines_snoc (b := [.char 13]) (by simp) a
  unfold Fit roomBound at *
  rw [h2] at h
  rw [h1, h2]
  cases xs with
  | nil =>
    simp only [List.nil_append, List.length_append, List.length_cons, List.length_nil, LinesFit, and_true, List.foldl_nil] at h ⊢
    omega
  | cons y ys =>
    simp only [List.cons_append, linesFit_append, LinesFit, and_true, List.length_append, List.length_cons, List.length_nil, List.foldl_append,
      List.foldl_cons, List.foldl_nil] at h ⊢
    refine ⟨⟨h.1, h.2.1, by omega⟩, lineBound_mono (Nat.le_refl _) _ _ (declares_cr x)⟩

theorem linesFit_prefix {b : List Lexeme} : ∀ {xs : List (List Lexeme)} {k : Nat} {x : List Lexeme} {ys : List (List Lexeme)},
    LinesFit k (xs ++ (x ++ b) :: ys) → LinesFit k (xs ++ [x])
  | [], k, x, ys, h => by
    simp only [List.nil_append, LinesFit, List.length_append] at h ⊢
    exact ⟨by omega, trivial⟩
  | y :: xs, k, x, ys, h => by
    simp only [List.cons_append, LinesFit] at h ⊢
    exact ⟨h.1, linesFit_prefix h.2⟩

/-- There is room for the beginning of a text for which there is room. -/
theorem fit_prefix {k : Nat} {a b : List Lexeme} (h : Fit k (a ++ b)) : Fit k a := by
  have key : ∃ xs x y ys, unitLines a = xs ++ [x] ∧ unitLines (a ++ b) = xs ++ (x ++ y) :: ys := by
    clear h
    induction a with
    | nil =>
      cases hb : unitLines b with
      | nil => exact absurd hb (unitLines_ne b)
      | cons y ys => exact ⟨[], [], y, ys, rfl, by simpa using hb⟩
    | cons l a ih =>
      obtain ⟨xs, x, y, ys, h1, h2⟩ := ih
      by_cases h : l = .char 10
      · subst h
        refine ⟨[] :: xs, x, y, ys, ?_, ?_⟩
        · rw [unitLines_newline, h1]; rfl
        · rw [List.cons_append, unitLines_newline, h2]; rfl
      · obtain ⟨z, zs, e1, e2⟩ := unitLines_cons h a
        obtain ⟨w, ws, e3, e4⟩ := unitLines_cons h (a ++ b)
        rw [h1] at e1
        rw [h2] at e3
        cases xs with
        | nil =>
          simp only [List.nil_append, List.cons.injEq] at e1 e3
          obtain ⟨rfl, rfl⟩ := e1
          obtain ⟨rfl, rfl⟩ := e3
          exact ⟨[], l :: x, y, ys, e2, e4⟩
        | cons v vs =>
          simp only [List.cons_append, List.cons.injEq] at e1 e3
          obtain ⟨rfl, rfl⟩ := e1
          obtain ⟨rfl, rfl⟩ := e3
          exact ⟨(l :: v) :: vs, x, y, ys, e2, e4⟩
  obtain ⟨xs, x, y, ys, h1, h2⟩ := key
  unfold Fit at *
  rw [h2] at h
  rw [h1]
  cases xs with
  | nil =>
    simp only [List.nil_append, List.length_append, LinesFit, and_true] at h ⊢
    omega
  | cons z zs =>
    simp only [List.cons_append] at h ⊢
    exact ⟨h.1, linesFit_prefix h.2⟩

/-! ### The trees of schema files -/

/-- The symbols of a single line. -/
def inLine (s : String) : Bool := !(["Schema", "PortableNewLine", "NewLine", "CarriageReturn", "$START_PRIME"].contains s)

theorem inLine_checks :
    (∀ x ∈ D0, inLine x.1.1 = true → ∀ s ∈ x.1.2, inLine s = true) ∧
    (∀ x ∈ charToks, inLine x.1 = true → ∀ r ∈ x.2, ¬ (r.1 ≤ 10 ∧ 10 ≤ r.2)) ∧
    (∀ x ∈ charToks, x.1 = "NewLine" → ∀ r ∈ x.2, r = (10, 10)) ∧
    (∀ x ∈ charToks, x.1 = "CarriageReturn" → ∀ r ∈ x.2, r = (13, 13)) ∧
    (∀ x ∈ charToks, x.1 = "ForwardSlash" → ∀ r ∈ x.2, r = (47, 47)) ∧
    (∀ x ∈ charToks, x.1 ≠ "Delimiters") ∧
    (∀ x ∈ charToks, x.1 ≠ "Schema" ∧ x.1 ≠ "PortableNewLine" ∧ x.1 ≠ "Comment") ∧
    (∀ x ∈ D0, "$START_PRIME" ∉ x.1.2) := by decide +kernel

theorem schema_bodies : ∀ x ∈ D0, x.1.1 = "Schema" →
    (x.1.2 = ["Comment"] ∨ x.1.2 = ["SchemaVar"] ∨ x.1.2 = ["Delimiters", "Colon", "DelimiterString"]) ∨
    ∃ r, x.1.2 = "Schema" :: "PortableNewLine" :: r ∧ (r = [] ∨ r = ["Comment"] ∨ r = ["SchemaVar"] ∨ r = ["Delimiters", "Colon", "DelimiterString"]) := by
  have : ∀ x ∈ D0, x.1.1 = "Schema" →
    (x.1.2 = ["Comment"] ∨ x.1.2 = ["SchemaVar"] ∨ x.1.2 = ["Delimiters", "Colon", "DelimiterString"]) ∨
    x.1.2 = ["Schema", "PortableNewLine"] ∨ x.1.2 = ["Schema", "PortableNewLine", "Comment"] ∨
    x.1.2 = ["Schema", "PortableNewLine", "SchemaVar"] ∨ x.1.2 = ["Schema", "PortableNewLine", "Delimiters", "Colon", "DelimiterString"] := by
    decide +kernel
  intro x hx h
  rcases this x hx h with h | h | h | h | h
  · exact .inl h
  · exact .inr ⟨_, h, by simp⟩
  · exact .inr ⟨_, h, by simp⟩
  · exact .inr ⟨_, h, by simp⟩
  · exact .inr ⟨_, h, by simp⟩

theorem newline_bodies : ∀ x ∈ D0, x.1.1 = "PortableNewLine" → x.1.2 = ["CarriageReturn", "NewLine"] ∨ x.1.2 = ["NewLine"] := by decide +kernel

theorem comment_bodies : ∀ x ∈ D0, x.1.1 = "Comment" → x.1.2 = ["ForwardSlash", "ForwardSlash", "Text"] := by decide +kernel

theorem stands_only {s : String} {c : Nat} (key : ∀ x ∈ charToks, x.1 = s → ∀ r ∈ x.2, r = (c, c)) (hs : s ≠ "Delimiters") {l : Lexeme} (h : Stands s l) :
    l = .char c := by
  cases l with
  | delimiters => exact absurd h hs
  | char d =>
    obtain ⟨x, hx, e, r, hr, h1, h2⟩ := h
    rw [key x hx e r hr] at h1 h2
    simp only at h1 h2
    rw [Nat.le_antisymm h2 h1]

theorem stands_delims {l : Lexeme} (h : Stands "Delimiters" l) : l = .delimiters := by
  cases l with
  | delimiters => rfl
  | char d =>
    obtain ⟨x, hx, e, _⟩ := h
    exact absurd e (inLine_checks.2.2.2.2.2.1 x hx)

theorem stands_inLine {s : String} (hs : inLine s = true) {l : Lexeme} (h : Stands s l) : l ≠ .char 10 := by
  rintro rfl
  obtain ⟨x, hx, rfl, r, hr, h1, h2⟩ := h
  exact inLine_checks.2.1 x hx hs r hr ⟨h1, h2⟩

section
variable {decls : List (String × List String)} {isTok : Token → String → Prop} {text : Token → List Nat}

/-- A line does not contain the end of a line. -/
theorem inLine_units (hall : ∀ (i : Nat) d, decls[i]? = some d → d.1 = "$START_PRIME" ∨ ∃ r, (d, r) ∈ D0) {ss : List String} {ts : List Tree} {w : List Token}
    (h : Derivation decls isTok ss ts w) : (∀ s ∈ ss, inLine s = true) → ∀ {ls : List Lexeme}, List.Forall₂ (SameUnit isTok text) w ls → .char 10 ∉ ls := by
  induction h with
  | nil => intro _ ls hu; cases hu; simp
  | @tok t s ss ts w ht _ ih =>
    intro hs ls hu
    cases hu with
    | @cons _ l _ ls hl hu =>
      rw [List.mem_cons, not_or]
      exact ⟨(stands_inLine (hs s (by simp)) ((hl.2 s).mp ht)).symm, ih (fun s h => hs s (by simp [h])) hu⟩
  | @prod i head body cs ss ts w w' hd _ _ ih1 ih2 =>
    intro hs ls hu
    obtain ⟨l1, l2, rfl, h1, h2⟩ := forall₂_append_inv hu
    rw [List.mem_append, not_or]
    have hh := hs head (by simp)
    rcases hall i _ hd with hp | ⟨r, hr⟩
    · simp only at hp; subst hp; exact absurd hh (by decide)
    · exact ⟨ih1 (inLine_checks.1 _ hr hh) h1, ih2 (fun s h => hs s (by simp [h])) h2⟩

/-- A derivation of several symbols, the first of them apart. -/
theorem derivation_cons {s : String} {ss : List String} {ts : List Tree} {w : List Token} (h : Derivation decls isTok (s :: ss) ts w) :
    ∃ t ts' w1 w2, ts = t :: ts' ∧ w = w1 ++ w2 ∧ Derivation decls isTok [s] [t] w1 ∧ Derivation decls isTok ss ts' w2 := by
  cases h with
  | tok ht h => exact ⟨_, _, [_], _, rfl, rfl, .tok ht .nil, h⟩
  | prod hd hb h => exact ⟨_, _, _, _, rfl, rfl, by simpa using Derivation.prod hd hb .nil, h⟩

theorem derivation_nil {ts : List Tree} {w : List Token} (h : Derivation decls isTok [] ts w) : ts = [] ∧ w = [] := by
  cases h; exact ⟨rfl, rfl⟩

/-- A symbol without productions. -/
theorem derivation_only (hall : ∀ (i : Nat) d, decls[i]? = some d → d.1 = "$START_PRIME" ∨ ∃ r, (d, r) ∈ D0) {s : String}
    (key : ∀ x ∈ D0, x.1.1 ≠ s) (hs : s ≠ "$START_PRIME") {ss : List String} {ts : List Tree} {w : List Token} (h : Derivation decls isTok (s :: ss) ts w) :
    ∃ t ts' w', w = t :: w' ∧ isTok t s ∧ Derivation decls isTok ss ts' w' := by
  cases h with
  | tok ht h => exact ⟨_, _, _, rfl, ht, h⟩
  | @prod j _ body _ _ _ _ _ hd' _ _ =>
    exfalso
    rcases hall j _ hd' with hp | ⟨r, hr⟩
    · exact hs hp
    · exact key _ hr rfl

/-- The first token of a comment line or a `delimiters` line. -/
theorem not_declares (hall : ∀ (i : Nat) d, decls[i]? = some d → d.1 = "$START_PRIME" ∨ ∃ r, (d, r) ∈ D0) {r : List String}
    (hr : r = [] ∨ r = ["Comment"] ∨ r = ["Delimiters", "Colon", "DelimiterString"]) {ts : List Tree} {w : List Token}
    (h : Derivation decls isTok r ts w) {ls : List Lexeme} (hu : List.Forall₂ (SameUnit isTok text) w ls) : Declares ls = false := by
  rcases hr with rfl | rfl | rfl
  · cases h; cases hu; rfl
  · cases h with
    | tok ht _ =>
      cases hu with
      | @cons _ l _ _ hl _ =>
        have := (hl.2 _).mp ht
        cases l with
        | delimiters => exact absurd (show "Comment" = "Delimiters" from this) (by decide)
        | char c =>
          obtain ⟨x, hx, e, _⟩ := this
          exact absurd e (inLine_checks.2.2.2.2.2.2.1 x hx).2.2
    | @prod i head body cs _ _ w w' hd hb _ =>
      rcases hall i _ hd with hp | ⟨r, hr⟩
      · exact absurd hp (by simp)
      · have := comment_bodies _ hr rfl
        simp only at this
        subst this
        obtain ⟨t, _, _, rfl, ht, _⟩ := derivation_only hall (by decide +kernel) (by decide) hb
        simp only [List.cons_append] at hu
        cases hu with
        | cons hl _ =>
          rw [stands_only inLine_checks.2.2.2.2.1 (by decide) ((hl.2 _).mp ht)]
          rfl
  · obtain ⟨t, _, _, rfl, ht, _⟩ := derivation_only hall (by decide +kernel) (by decide) h
    cases hu with
    | cons hl _ =>
      rw [stands_delims ((hl.2 _).mp ht)]
      rfl

/-- The end of a line. -/
theorem newline_units (hall : ∀ (i : Nat) d, decls[i]? = some d → d.1 = "$START_PRIME" ∨ ∃ r, (d, r) ∈ D0) {ts : List Tree} {w : List Token}
    (hcr : ∀ t, isTok t "CarriageReturn" → ∀ l, SameUnit isTok text t l → l = .char 13)
    (hnl : ∀ t, isTok t "NewLine" → ∀ l, SameUnit isTok text t l → l = .char 10)
    {s : List String} (hs : s = ["PortableNewLine"] ∨ s = ["NewLine"] ∨ s = ["CarriageReturn", "NewLine"])
    (h : Derivation decls isTok s ts w) {ls : List Lexeme} (hu : List.Forall₂ (SameUnit isTok text) w ls) :
    ls = [.char 10] ∨ ls = [.char 13, .char 10] := by
  have k1 : ∀ x ∈ D0, x.1.1 ≠ "NewLine" := by decide +kernel
  have k2 : ∀ x ∈ D0, x.1.1 ≠ "CarriageReturn" := by decide +kernel
  have two : ∀ {s ts w ls}, (s = ["NewLine"] ∨ s = ["CarriageReturn", "NewLine"]) → Derivation decls isTok s ts w →
      List.Forall₂ (SameUnit isTok text) w ls → ls = [.char 10] ∨ ls = [.char 13, .char 10] := by
    intro s ts w ls hs h hu
    rcases hs with rfl | rfl
    · obtain ⟨t, _, _, rfl, ht, h⟩ := derivation_only hall k1 (by decide) h
      cases h
      cases hu with
      | cons hl hu => cases hu; rw [hnl _ ht _ hl]; exact .inl rfl
    · obtain ⟨t, _, _, rfl, ht, h⟩ := derivation_only hall k2 (by decide) h
      obtain ⟨t', _, _, rfl, ht', h⟩ := derivation_only hall k1 (by decide) h
      cases h
      cases hu with
      | cons hl hu =>
        cases hu with
        | cons hl' hu => cases hu; rw [hcr _ ht _ hl, hnl _ ht' _ hl']; exact .inr rfl
  rcases hs with rfl | hs
  · cases h with
    | @tok t _ _ _ _ ht h =>
      exfalso
      cases hu with
      | @cons _ l _ _ hl _ =>
        have := (hl.2 _).mp ht
        cases l with
        | delimiters => exact absurd (show "PortableNewLine" = "Delimiters" from this) (by decide)
        | char c =>
          obtain ⟨x, hx, e, _⟩ := this
          exact (inLine_checks.2.2.2.2.2.2.1 x hx).2.1 e
    | @prod i _ body _ _ _ w w' hd hb h =>
      obtain ⟨_, rfl⟩ := derivation_nil h
      rw [List.append_nil] at hu
      rcases hall i _ hd with hp | ⟨r, hr⟩
      · exact absurd hp (by simp)
      · have := newline_bodies _ hr rfl
        exact two this.symm hb hu
  · exact two hs h hu

/-- The counter behind a schema file. -/
theorem schema_counter (hall : ∀ (i : Nat) d, decls[i]? = some d → d.1 = "$START_PRIME" ∨ ∃ r, (d, r) ∈ D0)
    (hlook : ∀ t s, isTok t s → slack s ≤ 5) {resets : Nat → Bool}
    (hres : ∀ p, decls[p]? = some ("Schema", ["Schema", "PortableNewLine", "SchemaVar"]) → resets p = true) {kids : Nat}
    {ss : List String} {ts : List Tree} {w : List Token}
    (h : Derivation decls isTok ss ts w) : ∀ ss', ss = "Schema" :: ss' → ∀ {ls : List Lexeme}, List.Forall₂ (SameUnit isTok text) w ls →
    ∃ t ts' w1 w2 l1 l2, ts = t :: ts' ∧ w = w1 ++ w2 ∧ ls = l1 ++ l2 ∧ List.Forall₂ (SameUnit isTok text) w1 l1 ∧
      List.Forall₂ (SameUnit isTok text) w2 l2 ∧ Derivation decls isTok ss' ts' w2 ∧
      (Fit kids l1 → ∃ k, t.counter resets kids = some k ∧ k ≤ roomBound kids l1) := by
  have hno := inLine_checks.2.2.2.2.2.2.2
  have hcr : ∀ t, isTok t "CarriageReturn" → ∀ l, SameUnit isTok text t l → l = .char 13 :=
    fun t ht l hl => stands_only inLine_checks.2.2.2.1 (by decide) ((hl.2 _).mp ht)
  have hnl : ∀ t, isTok t "NewLine" → ∀ l, SameUnit isTok text t l → l = .char 10 :=
    fun t ht l hl => stands_only inLine_checks.2.2.1 (by decide) ((hl.2 _).mp ht)
  induction h with
  | nil => intro _ e; cases e
  | @tok t s ss ts w ht _ _ =>
    intro ss' e ls hu
    exfalso
    cases e
    cases hu with
    | @cons _ l _ _ hl _ =>
      have := (hl.2 _).mp ht
      cases l with
      | delimiters => exact absurd (show "Schema" = "Delimiters" from this) (by decide)
      | char c =>
        obtain ⟨x, hx, e, _⟩ := this
        exact (inLine_checks.2.2.2.2.2.2.1 x hx).1 e
  | @prod i head body cs ss ts w w' hd hb h ih1 _ =>
    intro ss' e ls hu
    simp only [List.cons.injEq] at e
    obtain ⟨rfl, rfl⟩ := e
    obtain ⟨l1, l2, rfl, h1, h2⟩ := forall₂_append_inv hu
    refine ⟨_, _, _, _, _, _, rfl, rfl, rfl, h1, h2, h, fun hfit => ?_⟩
    rcases hall i _ hd with hp | ⟨r, hr⟩
    · exact absurd hp (by simp)
    have hslack := slack_ok _ hr
    rcases schema_bodies _ hr rfl with hbody | ⟨r', hbody, hr'⟩
    · -- the first line
      simp only at hbody
      have hin : ∀ s ∈ body, inLine s = true := by
        rcases hbody with rfl | rfl | rfl <;> decide
      have hone := inLine_units hall hb hin h1
      obtain ⟨f1, f2⟩ := fit_one (k := kids) hone
      have hsp : "$START_PRIME" ∉ body := fun hm => absurd (hin _ hm) (by decide)
      obtain ⟨e1, e2⟩ := edges_le hall hno hlook hb hsp
      rw [h1.length_eq] at e1
      have hfit' := f1.mp hfit
      have hsl : body.length ≤ (body.map slack).sum := Nat.le_trans (Nat.le_add_left _ _) hslack
      obtain ⟨k, g1, g2⟩ := counter_of_edges resets (.node i cs) kids (by simp only [Tree.edges]; omega)
      refine ⟨k, g1, ?_⟩
      simp only [Tree.edges] at g2
      rw [f2]
      omega
    · simp only at hbody
      subst hbody
      obtain ⟨t1, ts1, wa, wb, la, lb, rfl, rfl, rfl, u1, u2, d1, hc⟩ := ih1 _ rfl h1
      obtain ⟨t2, ts2, wn, wc, rfl, rfl, d2, d3⟩ := derivation_cons d1
      obtain ⟨ln, lc, rfl, u3, u4⟩ := forall₂_append_inv u2
      have hln := newline_units hall hcr hnl (.inl rfl) d2 u3
      have hin : ∀ s ∈ r', inLine s = true := by
        rcases hr' with rfl | rfl | rfl | rfl <;> decide
      have hone := inLine_units hall d3 hin u4
      have hsp : "$START_PRIME" ∉ "PortableNewLine" :: r' := by
        rw [List.mem_cons, not_or]
        exact ⟨by decide, fun hm => absurd (hin _ hm) (by decide)⟩
      obtain ⟨e1, e2⟩ := edges_le hall hno hlook d1 hsp
      rw [u2.length_eq, List.length_append] at e1
      have hsl : ("Schema" :: "PortableNewLine" :: r').length ≤ (("PortableNewLine" :: r').map slack).sum := by
        rcases hr' with rfl | rfl | rfl | rfl <;> decide
      -- the file above
      obtain ⟨la', hla, hfa, hba, hlen⟩ : ∃ la', la ++ (ln ++ lc) = la' ++ .char 10 :: lc ∧ (Fit kids la' → Fit kids la) ∧
          (Fit kids la' → roomBound kids la ≤ roomBound kids la') ∧ ln.length ≤ 2 := by
        rcases hln with rfl | rfl
        · exact ⟨la, by simp, id, fun _ => Nat.le_refl _, by simp⟩
        · exact ⟨la ++ [.char 13], by simp, fun h => (fit_cr h).1, fun h => (fit_cr h).2, by simp⟩
      rw [hla] at hfit ⊢
      obtain ⟨f1, f2⟩ := fit_line (k := kids) (a := la') hone
      obtain ⟨f3, f4⟩ := f1.mp hfit
      obtain ⟨k1, c1, c2⟩ := hc (hfa f3)
      have hba := hba f3
      obtain ⟨k2, c3, c4⟩ := counters_of_edges resets (t2 :: ts2) k1 (by omega)
      rw [f2]
      have hcount : Tree.counter.counters resets (t1 :: t2 :: ts2) kids = some k2 := by
        rw [Tree.counter.counters, c1]
        exact c3
      have hlenc : (t1 :: t2 :: ts2).length = ("Schema" :: "PortableNewLine" :: r').length := by
        simp only [List.length_cons] at e2 ⊢
        omega
      have hle : k2 + (t1 :: t2 :: ts2).length ≤ roomBound kids la' + 5 * (lc.length + 2) := by
        rw [hlenc]
        omega
      refine ⟨if resets i = true ∧ 5000 < k2 + (t1 :: t2 :: ts2).length then 0 else k2 + (t1 :: t2 :: ts2).length, ?_, ?_⟩
      · simp only [Tree.counter, hcount]
        rw [if_neg (by omega)]
      · unfold lineBound
        by_cases hnr : resets i = true ∧ 5000 < k2 + (t1 :: t2 :: ts2).length
        · rw [if_pos hnr]
          exact Nat.zero_le _
        · rw [if_neg hnr]
          by_cases hdec : Declares lc = true
          · rw [if_pos hdec]
            have hr3 : r' = ["SchemaVar"] := by
              rcases hr' with h | h | h | h
              · rw [not_declares hall (.inl h) d3 u4] at hdec; cases hdec
              · rw [not_declares hall (.inr (.inl h)) d3 u4] at hdec; cases hdec
              · exact h
              · rw [not_declares hall (.inr (.inr h)) d3 u4] at hdec; cases hdec
            subst hr3
            have := hres i hd
            rw [this] at hnr
            simp only [true_and, Nat.not_lt] at hnr
            exact Nat.le_min.mpr ⟨hle, hnr⟩
          · rw [if_neg hdec]
            exact hle

end

end LogSurgeon
