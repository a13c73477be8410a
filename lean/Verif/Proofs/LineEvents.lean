import Verif.Proofs.SplitLog
import Verif.Proofs.Search
import Verif.Proofs.ReaderLines
import Verif.Spec.LineEvents
/-
The tokens of a log and its lines.
-/
namespace LogSurgeon

variable {s : SchemaAST} {addr : Nat → Nat} {t : ParserTables} {L : Lexer} {T : List Nat}

/-- There is no newline in `[p, a)`. -/
def Unbroken (T : List Nat) (p a : Nat) : Prop := ∀ i, p ≤ i → i < a → T[i]? ≠ some newline

theorem unbroken_slice {p a : Nat} (h : newline ∉ slice T p a) : Unbroken T p a := by
  intro i h1 h2 h3
  refine h (List.mem_of_getElem? (i := i - p) ?_)
  rw [slice_get (by omega), show p + (i - p) = i by omega, h3]

theorem Unbroken.append {p a b : Nat} (h1 : Unbroken T p a) (h2 : Unbroken T a b) : Unbroken T p b := by
  intro i i1 i2
  rcases Nat.lt_or_ge i a with h | h
  · exact h1 i i1 h
  · exact h2 i h i2

/-- What is needed of the lexer. -/
structure LineLex (L : Lexer) : Prop where
  delim : L.isDelim newline = true
  alive : (L.dfa.run 0 [newline]).isSome
  ids : L.dfa.idsOn [newline] ≠ []
  dies : NlDies L

theorem LineLex.of (hC : s.Compiled addr t L) (hnl : s.IsDelim newline) (hline : s.LineTimestamps) : LineLex L := by
  have hO := buildLexer_ok hC.ok
  have hL := hO.schemaLike hC.sensible hC.inj hnl
  refine ⟨hL.nlDelim, ?_, hL.nlRule, fun c v hr => hO.newline_dies hC.sensible hC.inj hnl hline hr⟩
  have := hL.nlRule
  unfold Dfa.idsOn at this
  cases hr : L.dfa.run 0 [newline] with
  | none => rw [hr] at this; simp at this
  | some q => rfl

theorem LineLex.cand (h : LineLex L) {x : Nat} (hx : T[x]? = some newline) : L.Cand T false x (x + 1) := by
  have hb : x < T.length := (List.getElem?_eq_some_iff.mp hx).1
  have hs : slice T x (x + 1) = [newline] := by
    rw [slice_cons (Nat.lt_succ_self _) hb, slice_self]
    obtain ⟨_, h⟩ := List.getElem?_eq_some_iff.mp hx
    rw [h]
  refine ⟨by omega, hb, ?_, .inr (.inr ⟨rfl, hs⟩)⟩
  unfold Lexer.typesOn
  rw [hs]
  exact h.ids

theorem search_lines (h : LineLex L) {x : Nat} {fresh : Bool} {r : Option (Nat × Nat)} (hs : Search L T x fresh r) :
    match r with
    | none => Unbroken T x T.length
    | some (a, e) => x ≤ a ∧ Unbroken T x a ∧ L.Longest T false a e := by
  induction hs with
  | nothing => intro i h1 h2; omega
  | found h1 h2 h3 h4 => exact ⟨Nat.le_refl _, fun i h1 h2 => by omega, h4⟩
  | @skip x fresh r h1 h2 h3 ih =>
    have hx : T[x]? ≠ some newline := fun hx => h2 ⟨newline, hx, h.alive, .inr h.delim⟩
    have hh : Unbroken T x (x + 1) := fun i i1 i2 => by rw [show i = x by omega]; exact hx
    cases r with
    | none => exact hh.append ih
    | some r => exact ⟨by have := ih.1; omega, hh.append ih.2.1, ih.2.2⟩
  | @past x y fresh r h1 h2 h3 h4 ih =>
    have hx : T[x]? ≠ some newline := by
      intro hx
      have := h2 _ (h.cand hx)
      rw [slice_self] at this
      cases this
    have hh : Unbroken T x y := by
      refine Unbroken.append (a := x + 1) (fun i i1 i2 => by rw [show i = x by omega]; exact hx) (unbroken_slice h3.2.2.2.1)
    have := h3.1
    cases r with
    | none => exact hh.append ih
    | some r => exact ⟨by have := ih.1; omega, hh.append ih.2.1, ih.2.2⟩

/-- A token and the newlines in it: none, or one at its beginning; then it is the longest match there. -/
inductive LineTok (L : Lexer) (T : List Nat) (x : PTok) : Prop
  | inside : x.a < x.e → Unbroken T x.a x.e → x.kind ≠ tokenEnd → x.kind ≠ tokenNewlineTimestamp → (x.kind = tokenFirstTimestamp → x.a = 0) →
      x.kind ≠ tokenNewline → LineTok L T x
  | line : T[x.a]? = some newline → Unbroken T (x.a + 1) x.e → L.Longest T false x.a x.e → x.ty = L.typesOn T false x.a x.e → LineTok L T x

/-- All tokens but the last one. -/
def LineToks (L : Lexer) (T : List Nat) : Nat → List PTok → Prop
  | _, [] => False
  | p, [x] => p = T.length ∧ x = ⟨T.length, T.length, [tokenEnd]⟩
  | p, x :: xs => x.a = p ∧ p < x.e ∧ x.e ≤ T.length ∧ LineTok L T x ∧ LineToks L T x.e xs

theorem uncaught_inside {a e : Nat} (h : a < e) (hn : Unbroken T a e) : LineTok L T ⟨a, e, [tokenUncaught]⟩ :=
  .inside h hn (by intro h; cases h) (by intro h; cases h) (by intro h; cases h) (by intro h; cases h)

/-- A token of a rule. -/
theorem rule_tok (hC : s.Compiled addr t L) (hnl : s.IsDelim newline) (hres : s.Reserved) (hline : s.LineTimestamps)
    (hfd : cCharStartOfFile ∉ T) {sof : Bool} {a e : Nat} (hsof : sof = true → a = 0) (hl : L.Longest T sof a e) :
    LineTok L T ⟨a, e, L.typesOn T sof a e⟩ := by
  have hO := buildLexer_ok hC.ok
  have hLL := LineLex.of hC hnl hline
  have hae := hl.1.1
  have hen := hl.1.2.1
  have hal := hl.1.alive
  have hrec : L.Recognised T ⟨a, e, L.typesOn T sof a e⟩ := ⟨sof, hsof, hl.1, rfl⟩
  have hnlt := nlToks hO hC.sensible hC.inj (fun v hv => ⟨(hres v hv).2.2, (hres v hv).2.1⟩) (text := T) (.inr (.inr hrec))
  have hend : PTok.kind ⟨a, e, L.typesOn T sof a e⟩ ≠ tokenEnd := by
    intro h
    have hmem : PTok.kind ⟨a, e, L.typesOn T sof a e⟩ ∈ L.typesOn T sof a e := kind_mem (x := ⟨a, e, L.typesOn T sof a e⟩) hl.1.2.2.1
    rw [h] at hmem
    unfold Lexer.typesOn Dfa.idsOn at hmem
    generalize L.dfa.run 0 _ = r at hmem
    cases r with
    | none => cases hmem
    | some q => exact (hO.typesProper hC.sensible q).2 hmem
  by_cases hc : T[a]? = some newline ∧ sof = false
  · obtain ⟨hc, rfl⟩ := hc
    refine .line hc ?_ hl rfl
    simp only [pre, Bool.false_eq_true, if_false, List.nil_append] at hal
    rw [slice_cons hae hen] at hal
    exact unbroken_slice (hLL.dies _ _ hal)
  · have hno : Unbroken T a e := by
      cases sof with
      | true =>
        simp only [pre, if_true, List.cons_append, List.nil_append] at hal
        exact unbroken_slice (hLL.dies _ _ hal)
      | false =>
        simp only [pre, Bool.false_eq_true, if_false, List.nil_append] at hal
        rw [slice_cons hae hen] at hal
        refine Unbroken.append (a := a + 1) (fun i i1 i2 => ?_) (unbroken_slice (hLL.dies _ _ hal))
        rw [show i = a by omega]
        exact fun h => hc ⟨h, rfl⟩
    have hstart := hno a (Nat.le_refl _) hae
    refine .inside hae hno hend ?_ ?_ ?_
    · intro hk
      have := hnlt.1 hk
      simp only [PTok.startsNl, beq_iff_eq] at this
      exact hstart this
    · intro hk
      cases sof with
      | true => exact hsof rfl
      | false =>
        exfalso
        have hmem := kind_mem (x := ⟨a, e, L.typesOn T false a e⟩) hl.1.2.2.1
        rw [hk] at hmem
        obtain ⟨n, re, hkind, hid, _, c, v, hw, hf, _⟩ := hO.text_kind hC.sensible hC.inj hmem
        have hn := symbol_unique hO hid (m := "firstTimestamp") (by decide)
        subst hn
        generalize hnn : "firstTimestamp" = nn at hkind
        cases hkind with
        | newLine => exact absurd hnn (by decide)
        | newLineTs _ _ => exact absurd hnn (by decide)
        | var hv _ => exact absurd hnn.symm (hres _ hv).1
        | first hv hts =>
          have hc : c = cCharStartOfFile := by simpa [Regex.firstOf, Regex.possible] using hf
          subst hc
          simp only [Bool.false_eq_true, if_false, List.nil_append] at hw
          rw [slice_cons hae hen] at hw
          simp only [List.cons.injEq] at hw
          exact hfd (hw.1 ▸ List.getElem_mem _)
    · intro hk
      have := hnlt.2 hk
      simp only [PTok.text] at this
      rw [slice_cons hae hen] at this
      simp only [List.cons.injEq] at this
      exact hstart (by rw [List.getElem?_eq_getElem (by omega), this.1])

theorem lineToks_cons {p : Nat} {x : PTok} {xs : List PTok} (h1 : x.a = p) (h2 : p < x.e) (h3 : x.e ≤ T.length) (h4 : LineTok L T x)
    (h5 : LineToks L T x.e xs) : LineToks L T p (x :: xs) := by
  cases xs with
  | nil => exact h5.elim
  | cons y ys => exact ⟨h1, h2, h3, h4, h5⟩

theorem lexed_lines (hC : s.Compiled addr t L) (hnl : s.IsDelim newline) (hres : s.Reserved) (hline : s.LineTimestamps)
    (hfd : cCharStartOfFile ∉ T) {p h : Nat} {xs : List PTok} (hx : Lexed L T p h xs) :
    p ≤ h → h ≤ T.length → Unbroken T p h → LineToks L T p xs := by
  have hLL := LineLex.of hC hnl hline
  induction hx with
  | done => intro _ _ _; exact ⟨rfl, rfl⟩
  | @rest p h h1 h2 =>
    intro a1 a2 a3
    have := search_lines hLL h2
    exact lineToks_cons rfl h1 (Nat.le_refl _) (uncaught_inside h1 (a3.append this)) ⟨rfl, rfl⟩
  | @here p h e toks h1 h2 ih =>
    intro a1 a2 a3
    obtain ⟨b1, b2, b3⟩ := search_lines hLL h1
    have := b3.1.1
    have := b3.1.2.1
    exact lineToks_cons rfl b3.1.1 b3.1.2.1 (rule_tok hC hnl hres hline hfd (by intro h; cases h) b3)
      (ih (Nat.le_refl _) b3.1.2.1 (fun i h1 h2 => absurd h1 (Nat.not_le.mpr h2)))
  | @later p h a e toks h0 h1 h2 ih =>
    intro a1 a2 a3
    obtain ⟨b1, b2, b3⟩ := search_lines hLL h1
    have c1 := b3.1.1
    have c2 := b3.1.2.1
    exact lineToks_cons rfl h0 (by show a ≤ T.length; omega) (uncaught_inside h0 (a3.append b2))
      (lineToks_cons rfl c1 c2 (rule_tok hC hnl hres hline hfd (by intro h; cases h) b3) (ih (Nat.le_refl _) c2 (fun i h1 h2 => absurd h1 (Nat.not_le.mpr h2))))

/-- The tokens of a whole text, and whether the first one is a timestamp. -/
theorem all_lines (hC : s.Compiled addr t L) (hnl : s.IsDelim newline) (hres : s.Reserved) (hline : s.LineTimestamps)
    (hfd : cCharStartOfFile ∉ T) {xs : List PTok} (hx : LexedAll L T xs) :
    LineToks L T 0 xs ∧ (∀ x, xs.head? = some x → (x.kind = tokenFirstTimestamp ↔
      ∃ e, L.Longest T true 0 e ∧ (L.typesOn T true 0 e).head? = some tokenFirstTimestamp)) := by
  have hLL := LineLex.of hC hnl hline
  have hkind : ∀ {sof : Bool} {a e : Nat}, (L.typesOn T sof a e).head? = some tokenFirstTimestamp ↔
      PTok.kind ⟨a, e, L.typesOn T sof a e⟩ = tokenFirstTimestamp := by
    intro sof a e
    unfold PTok.kind
    simp only
    cases L.typesOn T sof a e with
    | nil => simp; decide
    | cons i l => simp
  cases hx with
  | @start e' e toks h1 h2 h3 h4 =>
    have c1 := h3.1.1
    have c2 := h3.1.2.1
    refine ⟨lineToks_cons rfl c1 c2 (rule_tok hC hnl hres hline hfd (fun _ => rfl) h3)
      (lexed_lines hC hnl hres hline hfd h4 (Nat.le_refl _) c2 (fun i h1 h2 => absurd h1 (Nat.not_le.mpr h2))), ?_⟩
    intro x hx
    cases hx
    rw [← hkind]
    refine ⟨fun h => ⟨e, h3, h⟩, ?_⟩
    rintro ⟨e2, h5, h6⟩
    have := h3.2 e2 h5.1
    have := h5.2 e h3.1
    rw [show e = e2 by omega]
    exact h6
  | @plain h toks h1 h2 h3 =>
    have hl := lexed_lines hC hnl hres hline hfd h3 (Nat.zero_le _) h2.1 (unbroken_slice (by simpa [slice] using h2.2.2.1))
    refine ⟨hl, ?_⟩
    intro x hx
    have hno : ∀ e, ¬ L.Cand T true 0 e := by
      intro e hc
      have := h1 e hc
      have hal := hc.alive
      simp only [pre, if_true, List.cons_append, List.nil_append] at hal
      exact hLL.dies _ _ hal (by simpa [slice] using this)
    constructor
    · intro hk
      exfalso
      -- the first token is no timestamp
      have key : ∀ {a e : Nat}, L.Longest T false a e → PTok.kind ⟨a, e, L.typesOn T false a e⟩ ≠ tokenFirstTimestamp := by
        intro a e hl hk
        have hmem := kind_mem (x := ⟨a, e, L.typesOn T false a e⟩) hl.1.2.2.1
        rw [hk] at hmem
        obtain ⟨n, re, hkind, hid, _, c, v, hw, hf, _⟩ := (buildLexer_ok hC.ok).text_kind hC.sensible hC.inj hmem
        have hn := symbol_unique (buildLexer_ok hC.ok) hid (m := "firstTimestamp") (by decide)
        subst hn
        generalize hnn : "firstTimestamp" = nn at hkind
        cases hkind with
        | newLine => exact absurd hnn (by decide)
        | newLineTs _ _ => exact absurd hnn (by decide)
        | var hv _ => exact absurd hnn.symm (hres _ hv).1
        | first hv hts =>
          have hc : c = cCharStartOfFile := by simpa [Regex.firstOf, Regex.possible] using hf
          subst hc
          simp only [Bool.false_eq_true, if_false, List.nil_append] at hw
          rw [slice_cons hl.1.1 hl.1.2.1] at hw
          simp only [List.cons.injEq] at hw
          exact hfd (hw.1 ▸ List.getElem_mem _)
      generalize h0 : (0 : Nat) = z at h3
      cases h3 with
      | done => cases hx; cases hk
      | rest _ _ => cases hx; cases hk
      | here h4 _ => cases hx; exact key (search_lines hLL h4).2.2 hk
      | later _ _ _ => cases hx; cases hk
    · rintro ⟨e, h5, _⟩
      exact absurd h5.1 (hno e)

/-! ### A newline with timestamp is a matter of the line behind it -/

def TsAt (L : Lexer) (T : List Nat) (p : Nat) : Prop :=
  ∃ e, L.Longest T false p e ∧ (L.typesOn T false p e).head? = some tokenNewlineTimestamp

theorem tsAt_drop {p : Nat} : TsAt L T p ↔ TsAt L (T.drop p) 0 := by
  have hty : ∀ e, L.typesOn (T.drop p) false 0 e = L.typesOn T false p (p + e) := by
    intro e
    unfold Lexer.typesOn
    have := slice_drop (s := T) (n := p) (a := p) (e := p + e) (Nat.le_refl _)
    rw [Nat.sub_self, Nat.add_sub_cancel_left] at this
    rw [this]
  have hc : ∀ e, L.Cand (T.drop p) false 0 e ↔ L.Cand T false p (p + e) := fun e => cand_drop' (x := 0)
  constructor
  · rintro ⟨e, ⟨h1, h2⟩, h3⟩
    have := h1.1
    obtain ⟨d, rfl⟩ : ∃ d, e = p + d := ⟨e - p, by omega⟩
    refine ⟨d, ⟨(hc d).mpr h1, fun e' h' => ?_⟩, by rw [hty]; exact h3⟩
    have := h2 _ ((hc e').mp h')
    omega
  · rintro ⟨e, ⟨h1, h2⟩, h3⟩
    refine ⟨p + e, ⟨(hc e).mp h1, fun e' h' => ?_⟩, by rw [← hty]; exact h3⟩
    have := h'.1
    have := h2 (e' - p) ((hc _).mpr (by rw [show p + (e' - p) = e' by omega]; exact h'))
    omega

theorem tsAt_take (hC : s.Compiled addr t L) (hnl : s.IsDelim newline) (hline : s.LineTimestamps) {p b : Nat} (hb : T[b]? = some newline)
    (hp : p < b) : TsAt L T p ↔ TsAt L (T.take (b + 1)) p := by
  have hc : ∀ e, L.Cand (T.take (b + 1)) false p e ↔ L.Cand T false p e := fun e => cand_take hC hnl hline hb (.inr hp) (by omega)
  have hle : ∀ e, L.Cand T false p e → e ≤ b := fun e h => cand_before hC hnl hline hb (.inr hp) (by omega) h
  constructor
  · rintro ⟨e, ⟨h1, h2⟩, h3⟩
    have := hle e h1
    exact ⟨e, ⟨(hc e).mpr h1, fun e' h' => h2 e' ((hc e').mp h')⟩, by rw [typesOn_take (by omega)]; exact h3⟩
  · rintro ⟨e, ⟨h1, h2⟩, h3⟩
    have := hle e ((hc e).mp h1)
    rw [typesOn_take (by omega)] at h3
    exact ⟨e, ⟨(hc e).mp h1, fun e' h' => h2 e' ((hc e').mpr h')⟩, h3⟩

theorem drop_cons {p c : Nat} (h : T[p]? = some c) : T.drop p = c :: T.drop (p + 1) := by
  obtain ⟨h1, h2⟩ := List.getElem?_eq_some_iff.mp h
  rw [List.drop_eq_getElem_cons h1, h2]

theorem tsAt_line (hC : s.Compiled addr t L) (hnl : s.IsDelim newline) (hline : s.LineTimestamps) {p : Nat} (hp : T[p]? = some newline) :
    TsAt L T p ↔ L.BeginsWithTs (firstLine (T.drop (p + 1))) := by
  rcases firstLine_split (T.drop (p + 1)) with ⟨a, b, h1, h2⟩ | ⟨_, h2⟩
  · have hlen := congrArg List.length h2
    simp only [List.length_drop, List.length_append, List.length_cons, List.length_nil] at hlen
    have hget : T[p + 1 + a.length]? = some newline := by
      have := congrArg (fun l : List Nat => l[a.length]?) h2
      simpa using this
    rw [tsAt_take hC hnl hline hget (by omega), tsAt_drop]
    have : (T.take (p + 1 + a.length + 1)).drop p = newline :: firstLine (T.drop (p + 1)) := by
      rw [h1, List.drop_take, drop_cons hp, h2, show p + 1 + a.length + 1 - p = (a.length + 1) + 1 by omega, List.take_succ_cons]
      rw [List.take_left' (by simp)]
    rw [this]
    rfl
  · rw [tsAt_drop, drop_cons hp, h2]
    rfl

/-! ### Events -/

theorem lineEvents_skip (f : List Nat → Bool) (ts : Bool) {e : Nat} (he : e ≤ T.length) : ∀ (n p : Nat) (acc : List Nat), e = p + n → Unbroken T p e →
    lineEvents f acc ts (T.drop p) = lineEvents f (acc ++ slice T p e) ts (T.drop e) := by
  intro n
  induction n with
  | zero =>
    intro p acc h _
    have : e = p := h
    subst this
    rw [slice_self, List.append_nil]
  | succ n ih =>
    intro p acc h hu
    have hp : p < T.length := by omega
    rw [List.drop_eq_getElem_cons hp, lineEvents, if_neg, ih (p + 1) _ (by omega) (fun i h1 h2 => hu i (by omega) h2)]
    · have hs : slice T p e = T[p] :: slice T (p + 1) e := slice_cons (by omega) he
      rw [hs]
      simp
    · rintro ⟨h1, _⟩
      exact hu p (Nat.le_refl _) (by omega) (by rw [List.getElem?_eq_getElem hp, h1])

theorem kind_six {a e : Nat} : (L.typesOn T false a e).head? = some tokenNewlineTimestamp ↔
    PTok.kind ⟨a, e, L.typesOn T false a e⟩ = tokenNewlineTimestamp := by
  unfold PTok.kind
  simp only
  cases L.typesOn T false a e with
  | nil => simp; decide
  | cons i l => simp

/-- The event in progress. -/
def InProgress (T : List Nat) (cur : Option PEvent) (acc : List Nat) (ts : Bool) : Prop :=
  match cur with
  | none => acc = [] ∧ ts = false
  | some e => acc = e.text T ∧ acc ≠ [] ∧ ts = e.ts

theorem evText_add (e : PEvent) (x : PTok) : (e.add x).text T = e.text T ++ slice T x.a x.e := by
  simp [PEvent.add, PEvent.text, PTok.text]

theorem evText_start (x : PTok) : (PEvent.start x).text T = slice T x.a x.e := by
  simp [PEvent.start, PEvent.text, PTok.text]

/-- What the kinds of the tokens at a newline say. -/
structure NlKinds (L : Lexer) (T : List Nat) (x : PTok) : Prop where
  long : x.kind = tokenNewlineTimestamp → x.a + 1 < x.e
  nl : x.kind = tokenNewline → x.e = x.a + 1
  other : x.kind ≠ tokenNewline → x.a + 1 < x.e
  first : x.kind ≠ tokenFirstTimestamp
  notEnd : x.kind ≠ tokenEnd

theorem head_not_first (hk : ∀ (x : PTok), T[x.a]? = some newline → L.Longest T false x.a x.e → x.ty = L.typesOn T false x.a x.e → NlKinds L T x)
    {xs : List PTok} {p : Nat} (h : LineToks L T p xs) (hp : 0 < p) : ∀ x, xs.head? = some x → x.kind ≠ tokenFirstTimestamp := by
  intro x hx
  cases xs with
  | nil => cases hx
  | cons y ys =>
    cases hx
    cases ys with
    | nil => obtain ⟨_, rfl⟩ := h; intro h; cases h
    | cons z zs =>
      obtain ⟨rfl, _, _, h4, _⟩ := h
      cases h4 with
      | inside _ _ _ _ h5 _ => intro hk; have := h5 hk; omega
      | line h1 _ h2 h3 => exact (hk _ h1 h2 h3).first

theorem slice_pos {a e : Nat} (h : a < e) (he : e ≤ T.length) : slice T a e ≠ [] := by
  intro h0
  have := slice_length (s := T) (a := a) (e := e) he
  rw [h0] at this
  simp at this
  omega

theorem segment_lines (hC : s.Compiled addr t L) (hnl : s.IsDelim newline) (hline : s.LineTimestamps) {f : List Nat → Bool}
    (hf : ∀ l, f l = true ↔ L.BeginsWithTs l)
    (hk : ∀ (x : PTok), T[x.a]? = some newline → L.Longest T false x.a x.e → x.ty = L.typesOn T false x.a x.e → NlKinds L T x) :
    ∀ (xs : List PTok) (p : Nat) (cur : Option PEvent) (acc : List Nat) (ts : Bool), LineToks L T p xs → InProgress T cur acc ts →
      (cur = none → ∀ x, xs.head? = some x → x.kind ≠ tokenFirstTimestamp) →
      (segment T cur xs).map (fun e => (e.ts, e.text T)) = lineEvents f acc ts (T.drop p) := by
  intro xs
  induction xs with
  | nil => intro p cur acc ts h; exact h.elim
  | cons x xs ih =>
    intro p cur acc ts hx hI hfirst
    cases xs with
    | nil =>
      obtain ⟨rfl, rfl⟩ := hx
      rw [List.drop_length, lineEvents]
      cases cur with
      | none => obtain ⟨rfl, rfl⟩ := hI; rfl
      | some e => obtain ⟨rfl, _, rfl⟩ := hI; rfl
    | cons y ys =>
      obtain ⟨rfl, h2, h3, h4, h5⟩ := hx
      have h5 : LineToks L T x.e (y :: ys) := h5
      generalize y :: ys = zs at h5 ih
      have hnof := head_not_first hk h5 (by omega)
      have hne : slice T x.a x.e ≠ [] := slice_pos h2 h3
      have hisTs : x.kind ≠ tokenFirstTimestamp → x.kind ≠ tokenNewlineTimestamp → x.isTs = false := by
        intro a1 a2
        show (x.kind == _ || x.kind == _) = false
        rw [beq_eq_false_iff_ne.mpr a1, beq_eq_false_iff_ne.mpr a2]
        rfl
      cases h4 with
      | inside i1 i2 i3 i4 i5 i6 =>
        rw [lineEvents_skip f ts h3 (x.e - x.a) x.a acc (by omega) i2]
        have hst : x.startsNl T = false := by
          unfold PTok.startsNl
          exact beq_eq_false_iff_ne.mpr (i2 x.a (Nat.le_refl _) h2)
        cases cur with
        | none =>
          obtain ⟨rfl, rfl⟩ := hI
          rw [segment, if_neg i3, if_neg i4]
          exact ih _ _ _ _ h5 ⟨by rw [evText_start, List.nil_append], by rw [List.nil_append]; exact hne,
            (hisTs (hfirst rfl x rfl) i4).symm⟩ (fun h => by cases h)
        | some e =>
          obtain ⟨rfl, hI2, rfl⟩ := hI
          rw [segment, if_neg i3, if_neg (fun h => i6 h.2), if_neg (fun h => by
            rcases h with h | h
            · exact i4 h.2
            · rw [hst] at h; cases h.2)]
          exact ih _ _ _ _ h5 ⟨by rw [evText_add], by simp [hI2], rfl⟩ (fun h => by cases h)
      | line l1 l2 l3 l4 =>
        obtain ⟨k1, k2, k3, k4, k5⟩ := hk x l1 l3 l4
        have hst : x.startsNl T = true := by
          unfold PTok.startsNl
          rw [l1]; rfl
        have hsl : slice T x.a (x.a + 1) = [newline] := by
          obtain ⟨l5, l6⟩ := List.getElem?_eq_some_iff.mp l1
          rw [slice_cons (Nat.lt_succ_self _) l5, slice_self, l6]
        have hsp : slice T x.a x.e = newline :: slice T (x.a + 1) x.e := by
          rw [← slice_split (a := x.a) (m := x.a + 1) (by omega) h2, hsl]; rfl
        have hft : f (firstLine (T.drop (x.a + 1))) = true ↔ x.kind = tokenNewlineTimestamp := by
          rw [hf, ← tsAt_line hC hnl hline l1]
          have hx : x.kind = PTok.kind ⟨x.a, x.e, L.typesOn T false x.a x.e⟩ := by unfold PTok.kind; rw [l4]
          rw [hx, ← kind_six]
          constructor
          · rintro ⟨e, h6, h7⟩
            have a1 := h6.2 _ l3.1
            have a2 := l3.2 _ h6.1
            rw [show x.e = e by omega]
            exact h7
          · intro h7
            exact ⟨x.e, l3, h7⟩
        rw [drop_cons l1, lineEvents]
        by_cases h6 : x.kind = tokenNewlineTimestamp
        · rw [if_pos ⟨rfl, .inl (hft.mpr h6)⟩, hft.mpr h6, lineEvents_skip f true h3 (x.e - (x.a + 1)) (x.a + 1) [] (by omega) l2, List.nil_append]
          have hr : x.rest.isTs = true := by
            show (x.kind == _ || x.kind == _) = true
            rw [h6]; rfl
          have hrest : (segment T (some (.start x.rest)) zs).map (fun e => (e.ts, e.text T)) = lineEvents f (slice T (x.a + 1) x.e) true (T.drop x.e) :=
            ih _ _ _ _ h5 ⟨(evText_start x.rest).symm, slice_pos (k1 h6) h3, hr.symm⟩ (fun h => by cases h)
          cases cur with
          | none =>
            obtain ⟨rfl, rfl⟩ := hI
            rw [segment, if_neg k5, if_pos h6, List.map_cons, hrest]
            simp [PEvent.text, PTok.text, PTok.nl, hsl]
          | some e =>
            obtain ⟨rfl, hI2, rfl⟩ := hI
            rw [segment, if_neg k5, if_neg (fun h => by rw [h6] at h; exact absurd h.2 (by decide)), if_pos (by
              cases e.ts with
              | true => exact .inl ⟨rfl, h6⟩
              | false => exact .inr ⟨rfl, hst⟩), List.map_cons, hrest, evText_add]
            congr 2
            show _ ++ slice T x.a (x.a + 1) = _
            rw [hsl]
        · have hf0 : f (firstLine (T.drop (x.a + 1))) = false := by
            cases hb : f (firstLine (T.drop (x.a + 1))) with
            | false => rfl
            | true => exact absurd (hft.mp hb) h6
          rw [hf0]
          simp only [Bool.false_eq_true, false_or, true_and]
          cases cur with
          | none =>
            obtain ⟨rfl, rfl⟩ := hI
            rw [if_neg (by simp), lineEvents_skip f false h3 (x.e - (x.a + 1)) (x.a + 1) _ (by omega) l2, segment, if_neg k5, if_neg h6]
            exact ih _ _ _ _ h5 ⟨by rw [evText_start, hsp]; rfl, by simp, (hisTs k4 h6).symm⟩ (fun h => by cases h)
          | some e =>
            obtain ⟨rfl, hI2, rfl⟩ := hI
            cases hts : e.ts with
            | true =>
              rw [if_neg (by simp), lineEvents_skip f true h3 (x.e - (x.a + 1)) (x.a + 1) _ (by omega) l2, segment, if_neg k5,
                if_neg (by simp [hts]), if_neg (by simp [hts, h6])]
              exact ih _ _ _ _ h5 ⟨by rw [evText_add, hsp]; simp, by simp, by show true = e.ts; rw [hts]⟩ (fun h => by cases h)
            | false =>
              rw [if_pos ⟨rfl, hI2⟩, segment, if_neg k5]
              by_cases h7 : x.kind = tokenNewline
              · have he := k2 h7
                rw [if_pos ⟨hts, h7⟩, List.map_cons, evText_add]
                have := ih _ none [] false h5 ⟨rfl, rfl⟩ (fun _ => hnof)
                rw [this, he, hsl]
                show (e.ts, _) :: _ = _
                rw [hts]
              · rw [if_neg (fun h => h7 h.2), if_pos (.inr ⟨hts, hst⟩), List.map_cons, evText_add,
                  lineEvents_skip f false h3 (x.e - (x.a + 1)) (x.a + 1) [] (by omega) l2, List.nil_append]
                have := ih _ (some (.start x.rest)) (slice T (x.a + 1) x.e) false h5 ⟨(evText_start x.rest).symm, slice_pos (k3 h7) h3,
                  (hisTs k4 h6).symm⟩ (fun h => by cases h)
                rw [this]
                show (e.ts, _ ++ slice T x.a (x.a + 1)) :: _ = _
                rw [hsl, hts]

/-- What the lexer's tables say about the kinds at a newline. -/
theorem nlKinds (hC : s.Compiled addr t L) (hres : s.Reserved) {x : PTok} (h1 : T[x.a]? = some newline) (h2 : L.Longest T false x.a x.e)
    (h3 : x.ty = L.typesOn T false x.a x.e) : NlKinds L T x := by
  have hO := buildLexer_ok hC.ok
  have hae := h2.1.1
  have hen := h2.1.2.1
  have hget : ∀ (h : x.a < T.length), T[x.a] = newline := fun h => (List.getElem?_eq_some_iff.mp h1).2
  have hmem : x.kind ∈ L.typesOn T false x.a x.e := by
    have : x.kind ∈ x.ty := kind_mem (by rw [h3]; exact h2.1.2.2.1)
    rwa [h3] at this
  have hsl : slice T x.a x.e = newline :: slice T (x.a + 1) x.e := by rw [slice_cons hae hen, hget]
  have hty : L.typesOn T false x.a x.e = L.dfa.idsOn (newline :: slice T (x.a + 1) x.e) := by
    unfold Lexer.typesOn
    rw [hsl]
    rfl
  refine ⟨?_, ?_, ?_, ?_, ?_⟩
  · intro hk
    rw [hk, hty] at hmem
    obtain ⟨v, h4, h5⟩ := hO.nlTs hC.sensible hC.inj hres hmem
    simp only [List.cons.injEq, true_and] at h4
    rcases Nat.lt_or_ge (x.a + 1) x.e with h | h
    · exact h
    · rw [show x.e = x.a + 1 by omega, slice_self] at h4
      exact absurd h4.symm h5
  · intro hk
    have := (nlToks hO hC.sensible hC.inj (fun v hv => ⟨(hres v hv).2.2, (hres v hv).2.1⟩) (text := T) (x := x)
      (.inr (.inr ⟨false, (by intro h; cases h), h2.1, h3⟩))).2 hk
    have hl := congrArg List.length this
    rw [PTok.text, slice_length hen] at hl
    simp only [List.length_cons, List.length_nil] at hl
    omega
  · intro hk
    rcases Nat.lt_or_ge (x.a + 1) x.e with h | h
    · exact h
    · exfalso
      rw [hty, show x.e = x.a + 1 by omega, slice_self] at hmem
      exact hk (hO.nlOnly hC.sensible hC.inj _ hmem)
  · intro hk
    rw [hk] at hmem
    obtain ⟨n, re, hkind, hid, _, c, v, hw, hf, _⟩ := hO.text_kind hC.sensible hC.inj hmem
    have hn := symbol_unique hO hid (m := "firstTimestamp") (by decide)
    subst hn
    generalize hnn : "firstTimestamp" = nn at hkind
    cases hkind with
    | newLine => exact absurd hnn (by decide)
    | newLineTs _ _ => exact absurd hnn (by decide)
    | var hv _ => exact absurd hnn.symm (hres _ hv).1
    | first hv hts =>
      have hc : c = cCharStartOfFile := by simpa [Regex.firstOf, Regex.possible] using hf
      subst hc
      simp only [Bool.false_eq_true, if_false, List.nil_append] at hw
      rw [hsl] at hw
      simp only [List.cons.injEq] at hw
      exact absurd hw.1 (by decide)
  · intro hk
    rw [hk, hty] at hmem
    unfold Dfa.idsOn at hmem
    generalize L.dfa.run 0 _ = r at hmem
    cases r with
    | none => cases hmem
    | some q => exact (hO.typesProper hC.sensible q).2 hmem

/-- Whether a log begins with a timestamp is a matter of its first line. -/
theorem first_line (hC : s.Compiled addr t L) (hnl : s.IsDelim newline) (hline : s.LineTimestamps) :
    L.FirstWithTs T ↔ L.FirstWithTs (firstLine T) := by
  rcases firstLine_split T with ⟨a, b, h1, h2⟩ | ⟨_, h2⟩
  · have hget : T[a.length]? = some newline := by rw [h2]; simp
    have hft : firstLine T = T.take (a.length + 1) := by
      rw [h1]
      conv => rhs; rw [h2]
      rw [List.take_left' (by simp)]
    have hc : ∀ e, L.Cand (T.take (a.length + 1)) true 0 e ↔ L.Cand T true 0 e := fun e => cand_take hC hnl hline hget (.inl rfl) (Nat.zero_le _)
    have hle : ∀ e, L.Cand T true 0 e → e ≤ a.length := fun e h => cand_before hC hnl hline hget (.inl rfl) (Nat.zero_le _) h
    rw [hft]
    constructor
    · rintro ⟨e, ⟨h1, h2⟩, h3⟩
      have := hle e h1
      exact ⟨e, ⟨(hc e).mpr h1, fun e' h' => h2 e' ((hc e').mp h')⟩, by rw [typesOn_take (by omega)]; exact h3⟩
    · rintro ⟨e, ⟨h1, h2⟩, h3⟩
      have := hle e ((hc e).mp h1)
      rw [typesOn_take (by omega)] at h3
      exact ⟨e, ⟨(hc e).mp h1, fun e' h' => h2 e' ((hc e').mpr h')⟩, h3⟩
  · rw [h2]

/-- The events of the tokens of a whole log. -/
theorem all_lineEvents (hC : s.Compiled addr t L) (hnl : s.IsDelim newline) (hres : s.Reserved) (hline : s.LineTimestamps)
    (hfd : cCharStartOfFile ∉ T) {xs : List PTok} (hx : LexedAll L T xs) {f g : List Nat → Bool} (hf : ∀ l, f l = true ↔ L.BeginsWithTs l)
    (hg : ∀ l, g l = true ↔ L.FirstWithTs l) :
    (segment T none xs).map (fun e => (e.ts, e.text T)) = lineEvents f [] (g (firstLine T)) T := by
  obtain ⟨h1, h2⟩ := all_lines hC hnl hres hline hfd hx
  have hk : ∀ (x : PTok), T[x.a]? = some newline → L.Longest T false x.a x.e → x.ty = L.typesOn T false x.a x.e → NlKinds L T x :=
    fun x a b c => nlKinds hC hres a b c
  have hgt : ∀ x, xs.head? = some x → (x.kind = tokenFirstTimestamp ↔ g (firstLine T) = true) := by
    intro x hx
    rw [h2 x hx, hg, ← first_line hC hnl hline]
    exact Iff.rfl
  cases xs with
  | nil => exact h1.elim
  | cons x xs =>
    have hx := hgt x rfl
    by_cases hkind : x.kind = tokenFirstTimestamp
    · rw [(segment_first hkind).1, hx.mp hkind]
      cases xs with
      | nil =>
        obtain ⟨_, rfl⟩ := h1
        cases hkind
      | cons y ys =>
        obtain ⟨ha, hlt, hle, htok, hrest⟩ := h1
        cases htok with
        | line l1 _ l3 l4 => exact absurd hkind (hk x l1 l3 l4).first
        | inside _ hu _ _ _ _ =>
          have := segment_lines hC hnl hline hf hk (y :: ys) x.e (some (.start x)) (slice T x.a x.e) true hrest
            ⟨(evText_start x).symm, slice_pos (by omega) hle, (segment_first (T := T) (xs := []) hkind).2.2.symm⟩ (fun h => by cases h)
          rw [this]
          have := lineEvents_skip f true hle x.e 0 [] (by omega) (by rw [ha] at hu; exact hu)
          rw [List.drop_zero] at this
          rw [this, ha, List.nil_append]
    · have hgf : g (firstLine T) = false := by
        cases h : g (firstLine T) with
        | false => rfl
        | true => exact absurd (hx.mpr h) hkind
      have := segment_lines hC hnl hline hf hk (x :: xs) 0 none [] false h1 ⟨rfl, rfl⟩ (fun _ y hy => by cases hy; exact hkind)
      rw [List.drop_zero] at this
      rw [this, hgf]

end LogSurgeon
