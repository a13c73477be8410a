import Verif.Proofs.Client
/-
Lexing the part of a log before an event: the tokens are the same, the newline before the event being a token of its own.
-/
namespace LogSurgeon

variable {s : SchemaAST} {addr : Nat → Nat} {t : ParserTables} {L : Lexer}

/-- A rule that can still match has read no newline after its first character. -/
theorem no_newline_inside (hC : s.Compiled addr t L) (hnl : s.IsDelim newline) (hline : s.LineTimestamps) {c : Nat} {v : List Nat}
    (h : (L.dfa.run 0 (c :: v)).isSome) : newline ∉ v := by
  have hO := buildLexer_ok hC.ok
  intro hin
  obtain ⟨_, m, re, hkind, hf, hr⟩ := hO.alive hC.sensible hC.inj h
  have hr := hr newline hin
  cases hkind with
  | newLine => cases hr
  | @first v hv' hts =>
    have hr : v.regex.possible newline = true := hr
    rw [hline v hv' hts] at hr
    cases hr
  | @newLineTs v hv' hts =>
    have hr : v.regex.possible newline = true := hr
    rw [hline v hv' hts] at hr
    cases hr
  | @var v hv' hts =>
    have := hO.rest_delim hv' hts hr
    rw [(hO.delim _).mpr hnl] at this
    cases this

/-- What is recognised does not extend over a newline. -/
theorem cand_before {T : List Nat} {b : Nat} (hC : s.Compiled addr t L) (hnl : s.IsDelim newline) (hline : s.LineTimestamps)
    (hget : T[b]? = some newline) {sof : Bool} {a e : Nat} (hsa : sof = true ∨ a < b) (hab : a ≤ b) (h : L.Cand T sof a e) : e ≤ b := by
  rcases Nat.lt_or_ge b e with hlt | hge
  · exfalso
    have hal := h.alive
    obtain ⟨h1, h2, _⟩ := h
    have hmem : ∀ a' ≤ b, newline ∈ slice T a' e := by
      intro a' ha'
      refine List.mem_of_getElem? (i := b - a') ?_
      rw [slice_get (by omega), show a' + (b - a') = b by omega, hget]
    rcases hsa with rfl | hlt'
    · simp only [pre, if_true, List.cons_append, List.nil_append] at hal
      exact no_newline_inside hC hnl hline hal (hmem a hab)
    · cases sof with
      | true =>
        simp only [pre, if_true, List.cons_append, List.nil_append] at hal
        exact no_newline_inside hC hnl hline hal (hmem a hab)
      | false =>
        simp only [pre, Bool.false_eq_true, if_false, List.nil_append] at hal
        rw [slice_cons h1 h2] at hal
        exact no_newline_inside hC hnl hline hal (hmem (a + 1) hlt')
  · exact hge

/-- Up to a newline the same is recognised if the text ends after it. -/
theorem cand_take {T : List Nat} {b : Nat} (hC : s.Compiled addr t L) (hnl : s.IsDelim newline) (hline : s.LineTimestamps)
    (hget : T[b]? = some newline) {sof : Bool} {a e : Nat} (hsa : sof = true ∨ a < b) (hab : a ≤ b) :
    L.Cand (T.take (b + 1)) sof a e ↔ L.Cand T sof a e := by
  have hb : b < T.length := (List.getElem?_eq_some_iff.mp hget).1
  have hget' : (T.take (b + 1))[b]? = some newline := by rw [List.getElem?_take_of_lt (by omega), hget]
  have key : ∀ e ≤ b, (L.Cand (T.take (b + 1)) sof a e ↔ L.Cand T sof a e) := by
    intro e he
    unfold Lexer.Cand Lexer.typesOn
    rw [slice_take (by omega), List.getElem?_take_of_lt (by omega), List.length_take]
    constructor
    · rintro ⟨h1, h2, h3, h4⟩
      exact ⟨h1, by omega, h3, h4.imp (fun h => by omega) id⟩
    · rintro ⟨h1, h2, h3, h4⟩
      exact ⟨h1, by omega, h3, h4.imp (fun h => by omega) id⟩
  exact ⟨fun h => (key e (cand_before hC hnl hline hget' hsa hab h)).mp h, fun h => (key e (cand_before hC hnl hline hget hsa hab h)).mpr h⟩

theorem longest_take {T : List Nat} {b : Nat} (hC : s.Compiled addr t L) (hnl : s.IsDelim newline) (hline : s.LineTimestamps)
    (hget : T[b]? = some newline) {sof : Bool} {a e : Nat} (hsa : sof = true ∨ a < b) (hab : a ≤ b) (h : L.Longest T sof a e) :
    L.Longest (T.take (b + 1)) sof a e :=
  ⟨(cand_take hC hnl hline hget hsa hab).mpr h.1, fun e' h' => h.2 e' ((cand_take hC hnl hline hget hsa hab).mp h')⟩

theorem noneIn_take {T : List Nat} {b : Nat} (hC : s.Compiled addr t L) (hnl : s.IsDelim newline) (hline : s.LineTimestamps)
    (hget : T[b]? = some newline) {p a : Nat} (hab : a ≤ b) (h : L.NoneIn T p a) : L.NoneIn (T.take (b + 1)) p a :=
  fun x e h1 h2 hc => h x e h1 h2 ((cand_take hC hnl hline hget (.inr (by omega)) (by omega)).mp hc)

theorem typesOn_take {T : List Nat} {n : Nat} {sof : Bool} {a e : Nat} (h : e ≤ n) : L.typesOn (T.take n) sof a e = L.typesOn T sof a e := by
  unfold Lexer.typesOn
  rw [slice_take h]

/-- The last newline is a token. -/
theorem longest_last {T : List Nat} {b : Nat} (hC : s.Compiled addr t L) (hnl : s.IsDelim newline) (hget : T[b]? = some newline) :
    L.Longest (T.take (b + 1)) false b (b + 1) ∧ L.typesOn (T.take (b + 1)) false b (b + 1) = L.dfa.idsOn [newline] := by
  have hb : b < T.length := (List.getElem?_eq_some_iff.mp hget).1
  have hO := buildLexer_ok hC.ok
  have hL := hO.schemaLike hC.sensible hC.inj hnl
  have hty : L.typesOn (T.take (b + 1)) false b (b + 1) = L.dfa.idsOn [newline] := by
    rw [typesOn_take (Nat.le_refl _)]
    unfold Lexer.typesOn
    rw [slice_cons (Nat.lt_succ_self _) hb, slice_self]
    obtain ⟨_, h⟩ := List.getElem?_eq_some_iff.mp hget
    rw [h]
    rfl
  have hlen : (T.take (b + 1)).length = b + 1 := by rw [List.length_take]; omega
  exact ⟨⟨⟨by omega, by omega, by rw [hty]; exact hL.nlRule, .inl (by omega)⟩, fun e' h => by have := h.2.1; omega⟩, hty⟩

theorem lexSpec_pos {T : List Nat} {p : Nat} {xs : List PTok} (h : LexSpec L T p xs) : ∀ y ∈ xs, p ≤ y.a := by
  induction h with
  | done => intro y hy; simp only [List.mem_singleton] at hy; subst hy; exact Nat.le_refl _
  | rest h1 h2 =>
    intro y hy
    simp only [List.mem_cons, List.not_mem_nil, or_false] at hy
    rcases hy with rfl | rfl
    · exact Nat.le_refl _
    · exact Nat.le_of_lt h1
  | here h1 h2 ih =>
    intro y hy
    have := h1.1.1
    rcases List.mem_cons.mp hy with rfl | hy
    · exact Nat.le_refl _
    · have := ih y hy; omega
  | later h0 h3 h1 h2 ih =>
    intro y hy
    have := h1.1.1
    rcases List.mem_cons.mp hy with rfl | hy
    · exact Nat.le_refl _
    · rcases List.mem_cons.mp hy with rfl | hy
      · exact Nat.le_of_lt h0
      · have := ih y hy; omega

/-- The tokens of the text up to and including the newline at `b`. -/
def lastToks (L : Lexer) (b : Nat) : List PTok := [⟨b, b + 1, L.dfa.idsOn [newline]⟩, ⟨b + 1, b + 1, [tokenEnd]⟩]

theorem lexSpec_last {T : List Nat} {b : Nat} (hC : s.Compiled addr t L) (hnl : s.IsDelim newline) (hget : T[b]? = some newline) :
    LexSpec L (T.take (b + 1)) b (lastToks L b) := by
  have hb : b < T.length := (List.getElem?_eq_some_iff.mp hget).1
  obtain ⟨h1, h2⟩ := longest_last hC hnl hget
  have hlen : (T.take (b + 1)).length = b + 1 := by rw [List.length_take]; omega
  have hd := LexSpec.done (L := L) (s := T.take (b + 1))
  rw [hlen] at hd
  have := LexSpec.here h1 hd
  rw [h2] at this
  exact this

theorem lexSpec_take {T : List Nat} (hC : s.Compiled addr t L) (hnl : s.IsDelim newline) (hline : s.LineTimestamps) {p : Nat} {xs : List PTok}
    (h : LexSpec L T p xs) : ∀ {ys zs : List PTok} {x : PTok}, xs = ys ++ x :: zs → T[x.a]? = some newline → x.kind = tokenNewlineTimestamp →
    LexSpec L (T.take (x.a + 1)) p (ys ++ lastToks L x.a) := by
  have hu : ∀ (a b : Nat), PTok.kind ⟨a, b, [tokenUncaught]⟩ ≠ tokenNewlineTimestamp := by intro a b h; cases h
  have he : ∀ (a b : Nat), PTok.kind ⟨a, b, [tokenEnd]⟩ ≠ tokenNewlineTimestamp := by intro a b h; cases h
  induction h with
  | done =>
    intro ys zs x hx _ hk
    rcases ys with - | ⟨y, ys⟩
    · cases hx; exact absurd hk (he _ _)
    · simp at hx
  | rest h1 h2 =>
    intro ys zs x hx _ hk
    rcases ys with - | ⟨y, ys⟩
    · cases hx; exact absurd hk (hu _ _)
    · rcases ys with - | ⟨y', ys⟩
      · cases hx; exact absurd hk (he _ _)
      · simp at hx
  | @here p e toks h1 h2 ih =>
    intro ys zs x hx hget hk
    rcases ys with - | ⟨y, ys⟩
    · simp only [List.nil_append, List.cons.injEq] at hx
      obtain ⟨rfl, rfl⟩ := hx
      exact lexSpec_last hC hnl hget
    · simp only [List.cons_append, List.cons.injEq] at hx
      obtain ⟨rfl, rfl⟩ := hx
      have hpos := lexSpec_pos h2 x (by simp)
      have h3 := h1.1.1
      have := LexSpec.here (longest_take hC hnl hline hget (.inr (by omega)) (by omega) h1) (ih rfl hget hk)
      rw [typesOn_take (by omega)] at this
      exact this
  | @later p a e toks h0 h3 h1 h2 ih =>
    intro ys zs x hx hget hk
    rcases ys with - | ⟨y, ys⟩
    · cases hx; exact absurd hk (hu _ _)
    · rcases ys with - | ⟨y', ys⟩
      · simp only [List.cons_append, List.nil_append, List.cons.injEq] at hx
        obtain ⟨rfl, rfl, rfl⟩ := hx
        obtain ⟨l1, l2⟩ := longest_last hC hnl hget
        have hb : a < T.length := (List.getElem?_eq_some_iff.mp hget).1
        have hlen : (T.take (a + 1)).length = a + 1 := by rw [List.length_take]; omega
        have hd := LexSpec.done (L := L) (s := T.take (a + 1))
        rw [hlen] at hd
        have := LexSpec.later h0 (noneIn_take hC hnl hline hget (Nat.le_refl _) h3) l1 hd
        rw [l2] at this
        exact this
      · simp only [List.cons_append, List.cons.injEq] at hx
        obtain ⟨rfl, rfl, rfl⟩ := hx
        have hpos := lexSpec_pos h2 x (by simp)
        have h4 := h1.1.1
        have := LexSpec.later h0 (noneIn_take hC hnl hline hget (by omega) h3)
          (longest_take hC hnl hline hget (.inr (by omega)) (by omega) h1) (ih rfl hget hk)
        rw [typesOn_take (by omega)] at this
        exact this

theorem hidden_take {T : List Nat} {b h : Nat} (hget : T[b]? = some newline) (hh : L.Hidden T h) : h ≤ b ∧ L.Hidden (T.take (b + 1)) h := by
  have hb : b < T.length := (List.getElem?_eq_some_iff.mp hget).1
  obtain ⟨h1, h2, h3, h4⟩ := hh
  have hle : h ≤ b := by
    rcases Nat.lt_or_ge b h with hlt | hge
    · refine absurd (List.mem_of_getElem? (i := b) ?_) h3
      rw [List.getElem?_take_of_lt hlt, hget]
    · exact hge
  refine ⟨hle, by rw [List.length_take]; omega, ?_, ?_, ?_⟩
  · rw [List.take_take, Nat.min_eq_left (by omega)]; exact h2
  · rw [List.take_take, Nat.min_eq_left (by omega)]; exact h3
  · intro h' l1 l2
    rw [List.length_take] at l2
    rw [List.take_take, Nat.min_eq_left (by omega)]
    exact h4 h' l1 (by omega)

theorem noStart_take {T : List Nat} {b : Nat} (hC : s.Compiled addr t L) (hnl : s.IsDelim newline) (hline : s.LineTimestamps)
    (hget : T[b]? = some newline) (h : L.NoStart T) : L.NoStart (T.take (b + 1)) := by
  have hb : b < T.length := (List.getElem?_eq_some_iff.mp hget).1
  intro e he
  have hle := cand_before hC hnl hline (T := T.take (b + 1)) (b := b) (by rw [List.getElem?_take_of_lt (by omega), hget]) (.inl rfl) (Nat.zero_le _) he
  have := h e ((cand_take hC hnl hline hget (.inl rfl) (Nat.zero_le _)).mp he)
  rw [List.take_take, Nat.min_eq_left (by omega)]
  exact this

/-- Lexing the text up to a newline followed by a timestamp. -/
theorem lexExact_take (hC : s.Compiled addr t L) (hnl : s.IsDelim newline) (hres : s.Reserved) (hline : s.LineTimestamps) {T : List Nat}
    {ys zs : List PTok} {x : PTok} (h : LexExact L T (ys ++ x :: zs)) (hget : T[x.a]? = some newline) (hk : x.kind = tokenNewlineTimestamp) :
    LexExact L (T.take (x.a + 1)) (ys ++ lastToks L x.a) := by
  have hO := buildLexer_ok hC.ok
  have hb : x.a < T.length := (List.getElem?_eq_some_iff.mp hget).1
  have hlen : (T.take (x.a + 1)).length = x.a + 1 := by rw [List.length_take]; omega
  have hu : ∀ (a b : Nat), PTok.kind ⟨a, b, [tokenUncaught]⟩ ≠ tokenNewlineTimestamp := by intro a b h; cases h
  have he : ∀ (a b : Nat), PTok.kind ⟨a, b, [tokenEnd]⟩ ≠ tokenNewlineTimestamp := by intro a b h; cases h
  generalize hxs : ys ++ x :: zs = xs at h
  cases h with
  | @start e' e toks h1 h2 h3 h4 =>
    rcases ys with - | ⟨y, ys⟩
    · exfalso
      simp only [List.nil_append, List.cons.injEq] at hxs
      obtain ⟨rfl, rfl⟩ := hxs
      have hmem := kind_mem (x := ⟨0, e, L.typesOn T true 0 e⟩) h3.1.2.2.1
      rw [hk] at hmem
      obtain ⟨v, hv, _⟩ := hO.nlTs hC.sensible hC.inj hres hmem
      simp at hv
      exact absurd hv.1 (by decide)
    · simp only [List.cons_append, List.cons.injEq] at hxs
      obtain ⟨rfl, rfl⟩ := hxs
      have l1 := cand_before hC hnl hline hget (.inl rfl) (Nat.zero_le _) h1
      have l3 := cand_before hC hnl hline hget (.inl rfl) (Nat.zero_le _) h3.1
      have := LexExact.start (s := T.take (x.a + 1)) ((cand_take hC hnl hline hget (.inl rfl) (Nat.zero_le _)).mpr h1)
        (by rw [List.take_take, Nat.min_eq_left (by omega)]; exact h2) (longest_take hC hnl hline hget (.inl rfl) (Nat.zero_le _) h3)
        (lexSpec_take hC hnl hline h4 rfl hget hk)
      rw [typesOn_take (by omega)] at this
      exact this
  | done h1 => subst h1; simp at hb
  | rest h1 h2 h3 h4 =>
    rcases ys with - | ⟨y, ys⟩
    · cases hxs; exact absurd hk (hu _ _)
    · rcases ys with - | ⟨y', ys⟩
      · cases hxs; exact absurd hk (he _ _)
      · simp at hxs
  | @here e toks h1 h2 h3 h4 =>
    obtain ⟨_, hh⟩ := hidden_take hget h2
    have hn := noStart_take hC hnl hline hget h1
    rcases ys with - | ⟨y, ys⟩
    · simp only [List.nil_append, List.cons.injEq] at hxs
      obtain ⟨rfl, rfl⟩ := hxs
      obtain ⟨l1, l2⟩ := longest_last hC hnl hget
      have hd := LexSpec.done (L := L) (s := T.take (0 + 1))
      rw [hlen] at hd
      have := LexExact.here hn hh l1 hd
      rw [l2] at this
      exact this
    · simp only [List.cons_append, List.cons.injEq] at hxs
      obtain ⟨rfl, rfl⟩ := hxs
      have hpos := lexSpec_pos h4 x (by simp)
      have := h3.1.1
      have := LexExact.here hn hh (longest_take hC hnl hline hget (.inr (by omega)) (by omega) h3) (lexSpec_take hC hnl hline h4 rfl hget hk)
      rw [typesOn_take (by omega)] at this
      exact this
  | @later h a e toks h1 h2 h3 h4 h5 h6 h7 =>
    obtain ⟨_, hh⟩ := hidden_take hget h2
    have hn := noStart_take hC hnl hline hget h1
    rcases ys with - | ⟨y, ys⟩
    · cases hxs; exact absurd hk (hu _ _)
    · rcases ys with - | ⟨y', ys⟩
      · simp only [List.cons_append, List.nil_append, List.cons.injEq] at hxs
        obtain ⟨rfl, rfl, rfl⟩ := hxs
        obtain ⟨l1, l2⟩ := longest_last hC hnl hget
        have hd := LexSpec.done (L := L) (s := T.take (a + 1))
        rw [hlen] at hd
        have := LexExact.later hn hh h3 h4 (noneIn_take hC hnl hline hget (Nat.le_refl _) h5) l1 hd
        rw [l2] at this
        exact this
      · simp only [List.cons_append, List.cons.injEq] at hxs
        obtain ⟨rfl, rfl, rfl⟩ := hxs
        have hpos := lexSpec_pos h7 x (by simp)
        have := h6.1.1
        have := LexExact.later hn hh h3 h4 (noneIn_take hC hnl hline hget (by omega) h5)
          (longest_take hC hnl hline hget (.inr (by omega)) (by omega) h6) (lexSpec_take hC hnl hline h7 rfl hget hk)
        rw [typesOn_take (by omega)] at this
        exact this

/-! ### Events -/

/-- The tokens of the text up to and including the newline before a timestamp. -/
theorem whole_take (hC : s.Compiled addr t L) (hnl : s.IsDelim newline) (hres : s.Reserved) (hline : s.LineTimestamps) {q : Nat}
    (hq : L.dfa.next 0 cCharStartOfFile = some q) (hqa : L.dfa.isAccepting q = false) {T : List Nat} (hfd : cCharStartOfFile ∉ T)
    {ys zs : List PTok} {x : PTok} (h : (L.toks T true (.sof q)).1 = ys ++ x :: zs) (hget : T[x.a]? = some newline)
    (hk : x.kind = tokenNewlineTimestamp) : (L.toks (T.take (x.a + 1)) true (.sof q)).1 = ys ++ lastToks L x.a := by
  have hO := buildLexer_ok hC.ok
  have hL := hO.schemaLike hC.sensible hC.inj hnl
  have hT := hO.typesProper hC.sensible
  have hex : ∀ U : List Nat, cCharStartOfFile ∉ U → LexExact L U (L.toks U true (.sof q)).1 := fun U hU =>
    pureAll_exact hL hT hU ⟨hq, hqa⟩ (by simp only [Cfg.cov]; omega)
  have h0 := hex T hfd
  rw [h] at h0
  exact (hex _ (fun hm => hfd (List.mem_of_mem_take hm))).unique (lexExact_take hC hnl hres hline h0 hget hk)

/-- Where the events are divided, there is a newline with a timestamp. -/
theorem segment_cut {T : List Nat} : ∀ (xs : List PTok) {e : PEvent} {es1 es2 : List PEvent}, e.ts = true → segment T (some e) xs = es1 ++ es2 →
    es1 ≠ [] → es2 ≠ [] → ∃ ys x zs, xs = ys ++ x :: zs ∧ x.kind = tokenNewlineTimestamp ∧ es1 = segment T (some e) (ys ++ [x]) ∧
      es2 = segment T (some (.start x.rest)) zs := by
  intro xs
  induction xs with
  | nil => intro e es1 es2 _ h h1 _; rw [segment] at h; exact absurd (List.append_eq_nil_iff.mp h.symm).1 h1
  | cons y xs ih =>
    intro e es1 es2 he h h1 h2
    by_cases hend : y.kind = tokenEnd
    · rw [segment, if_pos hend] at h
      obtain ⟨a, l, rfl⟩ := List.exists_cons_of_ne_nil h1
      simp only [List.cons_append, List.cons.injEq] at h
      exact absurd (List.append_eq_nil_iff.mp h.2.symm).2 h2
    · by_cases hk : y.kind = tokenNewlineTimestamp
      · rw [(seg_nlTs he hk).1] at h
        obtain ⟨a, l, rfl⟩ := List.exists_cons_of_ne_nil h1
        simp only [List.cons_append, List.cons.injEq] at h
        obtain ⟨rfl, h⟩ := h
        by_cases hl : l = []
        · subst hl
          refine ⟨[], y, xs, rfl, hk, ?_, h.symm⟩
          rw [List.nil_append, (seg_nlTs he hk).1]
          simp [segment]
        · obtain ⟨ys, x, zs, rfl, i1, i2, i3⟩ := ih (e := .start y.rest) (by show (y.kind == _ || y.kind == _) = true; rw [hk]; rfl) h hl h2
          refine ⟨y :: ys, x, zs, rfl, i1, ?_, i3⟩
          rw [List.cons_append, (seg_nlTs he hk).1, i2]
      · rw [(seg_inner he hend hk).1] at h
        obtain ⟨ys, x, zs, rfl, i1, i2, i3⟩ := ih (e := e.add y) he h h1 h2
        refine ⟨y :: ys, x, zs, rfl, i1, ?_, i3⟩
        rw [List.cons_append, (seg_inner he hend hk).1, i2]

/-- With the newline at the end as a token, only the last event is different. -/
theorem segment_last {T : List Nat} {x w z : PTok} (hx : x.kind = tokenNewlineTimestamp) (hw : w.kind = tokenNewline) (hz : z.kind = tokenEnd) :
    ∀ (ys : List PTok) {e : PEvent}, e.ts = true → e.toks ≠ [] → NoEnd ys →
    ∃ (es : List PEvent) (d : PEvent), d.ts = true ∧ d.toks ≠ [] ∧ segment T (some e) (ys ++ [x]) = es ++ [d.add x.nl] ∧ segment T (some e) (ys ++ [w, z]) = es ++ [d.add w] := by
  intro ys
  induction ys with
  | nil =>
    intro e he hne _
    refine ⟨[], e, he, hne, ?_, ?_⟩
    · rw [List.nil_append, (seg_nlTs he hx).1]
      simp [segment]
    · rw [List.nil_append, (seg_inner he (by rw [hw]; decide) (by rw [hw]; decide)).1, segment, if_pos hz]
      rfl
  | cons y ys ih =>
    intro e he hne h
    obtain ⟨h1, _⟩ := h y (by simp)
    have h3 : NoEnd ys := fun z hz => h z (by simp [hz])
    by_cases hk : y.kind = tokenNewlineTimestamp
    · obtain ⟨es, d, d1, d2, d3, d4⟩ := ih (e := .start y.rest) (by show (y.kind == _ || y.kind == _) = true; rw [hk]; rfl)
        (by simp [PEvent.start]) h3
      refine ⟨e.add y.nl :: es, d, d1, d2, ?_, ?_⟩
      · rw [List.cons_append, (seg_nlTs he hk).1, d3]; rfl
      · rw [List.cons_append, (seg_nlTs he hk).1, d4]; rfl
    · obtain ⟨es, d, d1, d2, d3, d4⟩ := ih (e := e.add y) he (by simp [PEvent.add]) h3
      refine ⟨es, d, d1, d2, ?_, ?_⟩
      · rw [List.cons_append, (seg_inner he h1 hk).1, d3]
      · rw [List.cons_append, (seg_inner he h1 hk).1, d4]

/-- `segment_same` with an end token. -/
theorem segment_same_end {T T' : List Nat} {z z' : PTok} (hz : z.kind = tokenEnd) (hz' : z'.kind = tokenEnd) {xs xs' : List PTok}
    (h : List.Forall₂ (TokSame T T') xs xs') : ∀ {e e' : PEvent}, EvSame T T' e e' →
    List.Forall₂ (EvSame T T') (segment T (some e) (xs ++ [z])) (segment T' (some e') (xs' ++ [z'])) := by
  induction h with
  | nil =>
    intro e e' he
    simp only [List.nil_append]
    rw [segment, if_pos hz, segment, if_pos hz']
    exact .cons he .nil
  | @cons x x' xs xs' hx _ ih =>
    intro e e' he
    obtain ⟨h1, h2⟩ := he.ts
    simp only [List.cons_append]
    rw [segment, segment, h1, h2, ← hx.kind]
    simp only [Bool.true_eq_false, false_and, if_false, true_and, or_false]
    split
    · exact .cons he .nil
    · split
      · rename_i hk
        refine .cons (he.add hx.nlEq) (ih ?_)
        have hk' : x'.kind = tokenNewlineTimestamp := hx.kind ▸ hk
        have hr : x.rest.isTs = true := by
          show (x.kind == _ || x.kind == _) = true
          rw [hk]; rfl
        have hr' : x'.rest.isTs = true := by
          show (x'.kind == _ || x'.kind == _) = true
          rw [hk']; rfl
        exact ⟨x.rest, [], x'.rest, [], by simp [PEvent.start, hr], by simp [PEvent.start, hr'], hr, hr', hx.rest, .nil⟩
      · exact ih (he.add hx.toTokEq)

theorem tiles_prefix {n : Nat} : ∀ {ys zs : List PTok} {x : PTok} {p : Nat}, Tiles p n (ys ++ x :: zs) → x.kind ≠ tokenEnd → TilesTo p x.e (ys ++ [x]) := by
  intro ys
  induction ys with
  | nil =>
    intro zs x p h hx
    cases zs with
    | nil => obtain ⟨_, rfl⟩ := h; exact absurd rfl hx
    | cons z zs => exact ⟨h.1, h.2.1, h.2.2.1, rfl⟩
  | cons y ys ih =>
    intro zs x p h hx
    cases hl : ys ++ x :: zs with
    | nil => simp at hl
    | cons w ws =>
      rw [List.cons_append, hl] at h
      have h4 := h.2.2.2
      rw [← hl] at h4
      exact ⟨h.1, h.2.1, h.2.2.1, ih h4 hx⟩

theorem nl_kind (hC : s.Compiled addr t L) (hnl : s.IsDelim newline) (a e : Nat) : PTok.kind ⟨a, e, L.dfa.idsOn [newline]⟩ = tokenNewline := by
  have hO := buildLexer_ok hC.ok
  have hL := hO.schemaLike hC.sensible hC.inj hnl
  exact hO.nlOnly hC.sensible hC.inj _ (kind_mem (x := ⟨a, e, L.dfa.idsOn [newline]⟩) hL.nlRule)

/-- The events of a log and those of its parts before and after the beginning of an event. -/
theorem split_events (hC : s.Compiled addr t L) (hmono : ∀ a b, a < b → addr a < addr b) (hnl : s.IsDelim newline) (hres : s.Reserved)
    (hline : s.LineTimestamps) {q : Nat} (hq : L.dfa.next 0 cCharStartOfFile = some q) (hqa : L.dfa.isAccepting q = false) {T : List Nat}
    (hb : AllBytes T) (hfd : cCharStartOfFile ∉ T) {f : PTok} {fs : List PTok} (hW : (L.toks T true (.sof q)).1 = f :: fs)
    (hf : f.kind = tokenFirstTimestamp) {es1 es2 : List PEvent} (hes : segment T none (L.toks T true (.sof q)).1 = es1 ++ es2)
    (h1 : es1 ≠ []) (h2 : es2 ≠ []) :
    ∃ n ≤ T.length, es1.flatMap (PEvent.text T) = T.take n ∧
      List.Forall₂ (EvSame T (T.drop n)) es2 (segment (T.drop n) none (L.toks (T.drop n) true (.sof q)).1) ∧
      ∃ (es : List PEvent) (d : PEvent) (b : Nat) (ty : List Nat), T[b]? = some newline ∧ PTok.kind ⟨b, b + 1, ty⟩ = tokenNewline ∧
        d.ts = true ∧ d.toks ≠ [] ∧
        es1 = es ++ [d.add ⟨b, b + 1, [tokenUncaught]⟩] ∧
        List.Forall₂ (EvSame (T.take n) T) (segment (T.take n) none (L.toks (T.take n) true (.sof q)).1) (es ++ [d.add ⟨b, b + 1, ty⟩]) := by
  have hO := buildLexer_ok hC.ok
  have hL := hO.nlOk hC.sensible hC.inj
  have hT := hO.typesProper hC.sensible
  obtain ⟨g1, _, hts0⟩ := segment_first (T := T) (xs := fs) hf
  rw [hW, g1] at hes
  obtain ⟨ys, x, zs, rfl, hx, rfl, rfl⟩ := segment_cut fs hts0 hes h1 h2
  have hne6 : x.kind ≠ tokenEnd := by rw [hx]; decide
  have hW' : (L.toks T true (.sof q)).1 = (f :: ys) ++ x :: zs := hW
  have htl := (whole_facts hC hq hqa T).2
  rw [hW'] at htl
  have htz := tiles_split htl hne6
  have htp := tiles_prefix htl hne6
  have hsound : ∀ y ∈ (L.toks T true (.sof q)).1, y.ty = [tokenUncaught] ∨ y = ⟨T.length, T.length, [tokenEnd]⟩ ∨ L.Recognised T y :=
    pureAll_sound hL (fin := true) _ (.sof q) ⟨hq, hqa⟩
  obtain ⟨hno, _, _⟩ := noEnd_of_tiles (s := T) hT htp (fun y hy => hsound y (by
    rw [hW']
    simp only [List.mem_append, List.mem_cons, List.not_mem_nil, or_false] at hy ⊢
    rcases hy with h | h
    · exact .inl h
    · exact .inr (.inl h)))
  have hnoY : NoEnd ys := fun y hy => hno y (by simp [hy])
  have hget : T[x.a]? = some newline := by
    have hLs := hO.schemaLike hC.sensible hC.inj hnl
    have h0 : LexExact L T (L.toks T true (.sof q)).1 := pureAll_exact hLs hT hfd ⟨hq, hqa⟩ (by simp only [Cfg.cov]; omega)
    rw [hW'] at h0
    exact (lexExact_restart hC hmono hnl hres hline hb h0 hx).1
  obtain ⟨w1, w2, w3⟩ := whole_restart hC hmono hnl hres hline hq hqa hb hfd hW' hx
  have hA := whole_take hC hnl hres hline hq hqa hfd hW' hget hx
  have htsx : (PEvent.start x.rest).ts = true := by show (x.kind == _ || x.kind == _) = true; rw [hx]; rfl
  have htp' := htp
  obtain ⟨t1, t2, t3, t4⟩ := htp'
  obtain ⟨u1, u2⟩ := segment_upto (T := T) hx ys (zs := []) (b := 0) hts0 hnoY t4 (by omega)
    (by simp [PEvent.start, PEvent.text, PTok.text, t1])
  refine ⟨x.a + 1, by omega, by rw [u1]; simp [slice], ?_, ?_⟩
  · have hk5 := kind_atStart hx 0 (x.e - (x.a + 1))
    obtain ⟨v1, _, v3⟩ := segment_first (T := T.drop (x.a + 1)) (xs := zs.map (PTok.shift (x.a + 1))) hk5
    rw [w3, v1]
    apply segment_same
    · rw [List.forall₂_map_right_iff, List.forall₂_same]
      intro z hz
      exact tokSame_shift (by have := (tiles_mem htz z hz).1; omega)
    · refine ⟨x.rest, [], _, [], by rw [← htsx]; rfl, by rw [← v3]; rfl, htsx, v3, ?_, .nil⟩
      have := slice_drop (s := T) (n := x.a + 1) (a := x.a + 1) (e := x.e) (Nat.le_refl _)
      rw [Nat.sub_self] at this
      exact this.symm
  · obtain ⟨es, d, d1, d2, d3, d4⟩ := segment_last (T := T) (z := ⟨x.a + 1, x.a + 1, [tokenEnd]⟩) hx (nl_kind hC hnl x.a (x.a + 1)) rfl ys hts0
      (by simp [PEvent.start]) hnoY
    refine ⟨es, d, x.a, L.dfa.idsOn [newline], hget, nl_kind hC hnl _ _, d1, d2, d3, ?_⟩
    rw [hA, ← d4, List.cons_append, (segment_first hf).1]
    have e1 : ys ++ lastToks L x.a = (ys ++ [⟨x.a, x.a + 1, L.dfa.idsOn [newline]⟩]) ++ [⟨x.a + 1, x.a + 1, [tokenEnd]⟩] := by
      simp [lastToks]
    have e2 : ys ++ [⟨x.a, x.a + 1, L.dfa.idsOn [newline]⟩, ⟨x.a + 1, x.a + 1, [tokenEnd]⟩] =
      (ys ++ [⟨x.a, x.a + 1, L.dfa.idsOn [newline]⟩]) ++ [⟨x.a + 1, x.a + 1, [tokenEnd]⟩] := by simp
    rw [e1, e2]
    have hend : ∀ y ∈ f :: ys, y.a < y.e ∧ y.e ≤ x.a := by
      intro y hy
      have key : ∀ (l : List PTok) (p : Nat), TilesTo p x.e (l ++ [x]) → TilesTo p x.a l := by
        intro l
        induction l with
        | nil => intro p h; exact h.1.symm
        | cons y l ih => intro p h; exact ⟨h.1, h.2.1, h.2.2.1, ih _ h.2.2.2⟩
      exact (tilesTo_mem (key (f :: ys) 0 htp)).2 y hy
    apply segment_same_end rfl rfl
    · rw [List.forall₂_same]
      intro z hz
      rcases List.mem_append.mp hz with hz | hz
      · have := hend z (by simp [hz])
        exact tokSame_take this.1 (by omega)
      · simp only [List.mem_singleton] at hz
        subst hz
        exact tokSame_take (Nat.lt_succ_self _) (Nat.le_refl _)
    · refine ⟨f, [], f, [], by rw [← hts0]; rfl, by rw [← hts0]; rfl, hts0, hts0, ?_, .nil⟩
      exact slice_take (by have := (hend f (by simp)).2; omega)

end LogSurgeon
