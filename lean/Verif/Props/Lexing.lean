import Verif.Proofs.LexAll
import Verif.Props.Schema
/-
C04, C05, C06, C38 and the lexer level of C03: the tokens of a text.

The reader needs: `Spec/Lexing.lean` (`Lexer.lexAll`: start the lexer on a text and call `scan` until the end token;
`Tiles`, `Recognised`, `LexSpecAll`, `SofClear`), `Spec/Schema.lean` (`Compiled`: a lexer made from a schema) and the
model of `scan` (`Model/Lexer.lean`).

Everywhere `content` is the content of an allocation of which the first `size` bytes are the input, `st` and `b` are the
arbitrary earlier states of lexer and buffer, and `k` is the number of calls of `scan` that are allowed.
-/
namespace LogSurgeon

variable {s : SchemaAST} {addr : Nat → Nat} {t : ParserTables} {L : Lexer}

/-- Never two uncaught strings next to each other. -/
def NoAdjacentUncaught (xs : List PTok) : Prop :=
  ∀ (i : Nat) (x y : PTok), xs[i]? = some x → xs[i + 1]? = some y → ¬ (x.ty = [tokenUncaught] ∧ y.ty = [tokenUncaught])

theorem NoUU.adjacent : ∀ {xs : List PTok}, NoUU xs → NoAdjacentUncaught xs := by
  intro xs
  induction xs with
  | nil => intro _ i x y h; simp at h
  | cons z zs ih =>
    intro h i x y hx hy
    cases zs with
    | nil => simp at hy
    | cons w ws =>
      cases i with
      | zero =>
        simp at hx hy
        subst hx; subst hy; exact h.1
      | succ i =>
        simp only [List.getElem?_cons_succ] at hx hy
        exact ih h.2 i x y hx (by simpa using hy)

/-- What is known about a whole run (collects the results of the proofs). -/
theorem lexAll_facts (hC : s.Compiled addr t L) (hv : s.vars ≠ []) (st : LexState) (b : InBuf) (ptr : Nat)
    {content : List Nat} {size : Nat} (hsize : size ≤ content.length) {k : Nat} (hk : size < k) :
    (L.lexAll k st b ptr content size true).2 = none ∧
    ∃ xs, (L.lexAll k st b ptr content size true).1.map Token.range = xs.map some ∧
      Tiles 0 size xs ∧ NoUU xs ∧
      (∀ x ∈ xs, x.ty = [tokenUncaught] ∨ x = ⟨size, size, [tokenEnd]⟩ ∨ L.Recognised (content.take size) x) := by
  have h := buildLexer_ok hC.ok
  obtain ⟨q, hq, hqa⟩ := (h.sof hC.sensible hC.inj).2 hv
  have hL := h.nlOk hC.sensible hC.inj
  have hT := h.typesProper hC.sensible
  obtain ⟨h1, h2⟩ := lexAll_pure hL hT hq hqa st b ptr hsize true k
  have hl : (content.take size).length = size := by simp [hsize]
  have hc : CfgOk L (content.take size) (.sof q) := ⟨hq, hqa⟩
  obtain ⟨h3, h4⟩ := pureAll_tiles hL hT k (.sof q) hc (by simp [Cfg.cov]) (by simp only [Cfg.cov]; omega)
  rw [hl] at h4
  refine ⟨by rw [h1, h3], _, ranges_of_rel h2, h4, pureAll_noUU hL hT k _ hc, ?_⟩
  intro x hx
  have := pureAll_sound hL k _ hc x hx
  rwa [hl] at this

/-! ### C04 -/

/-- C04: lexing a finished input ends regularly within `size + 1` calls; the tokens are contiguous, non-empty and in order,
start at 0 and end with the end token at the end of the input; two uncaught strings are never adjacent. -/
theorem C04_tiles (hC : s.Compiled addr t L) (hv : s.vars ≠ []) (st : LexState) (b : InBuf) (ptr : Nat)
    {content : List Nat} {size : Nat} (hsize : size ≤ content.length) {k : Nat} (hk : size < k) :
    (L.lexAll k st b ptr content size true).2 = none ∧
    ∃ xs, (L.lexAll k st b ptr content size true).1.map Token.range = xs.map some ∧ Tiles 0 size xs ∧
      NoAdjacentUncaught xs := by
  obtain ⟨h1, xs, h2, h3, h4, _⟩ := lexAll_facts hC hv st b ptr hsize hk
  exact ⟨h1, xs, h2, h3, h4.adjacent⟩

/-- C04: every byte belongs to exactly one token: the texts of the tokens concatenate to the input. -/
theorem C04_texts (hC : s.Compiled addr t L) (hv : s.vars ≠ []) (st : LexState) (b : InBuf) (ptr : Nat)
    {content : List Nat} {size : Nat} (hsize : size ≤ content.length) {k : Nat} (hk : size < k) :
    (L.lexAll k st b ptr content size true).1.flatMap (fun t => slice content t.startPos t.endPos) = content.take size := by
  obtain ⟨_, xs, h2, h3, _⟩ := lexAll_facts hC hv st b ptr hsize hk
  have hl : (content.take size).length = size := by simp [hsize]
  have hf := Tiles.flat (s := content.take size) (p := 0) (xs := xs) (by rw [hl]; exact h3)
  rw [List.drop_zero] at hf
  rw [flatMap_ranges h2, ← hf]
  apply List.flatMap_congr
  intro x hx
  rw [slice_take (h3.le.2 x hx).2]

/-- The example schema, the text `a 42\n/x`, with one byte behind the text. -/
example : ∃ t L, exSchema.Compiled id t L ∧ exSchema.vars ≠ [] ∧ 8 ≤ [97, 32, 52, 50, 10, 32, 47, 120, 0].length := by
  obtain ⟨t, L, h⟩ := exSchema_accepted id (fun _ _ h => h)
  exact ⟨t, L, ⟨exSchema_sensible, fun _ _ h => h, h⟩, by simp [exSchema], by simp⟩

/-! ### C03, lexer level -/

/-- C03 (lexer level): tokens returned for an unfinished input do not depend on what follows: they are the first tokens
of any continuation of the input; the last call reports `BufferOutOfBounds`. -/
theorem C03_tokens_prefix (hC : s.Compiled addr t L) (hv : s.vars ≠ []) (st : LexState) (b : InBuf) (ptr : Nat)
    {content : List Nat} {size : Nat} (hsize : size ≤ content.length) {k : Nat} (hk : size < k)
    (st' : LexState) (b' : InBuf) (ptr' : Nat) {content' : List Nat} {size' : Nat} (hsize' : size' ≤ content'.length)
    {k' : Nat} (hk' : k ≤ k') (hext : content.take size <+: content'.take size') (fin : Bool) :
    (L.lexAll k st b ptr content size false).2 = some .oob ∧
    (L.lexAll k st b ptr content size false).1.map Token.range <+:
      (L.lexAll k' st' b' ptr' content' size' fin).1.map Token.range := by
  have h := buildLexer_ok hC.ok
  obtain ⟨q, hq, hqa⟩ := (h.sof hC.sensible hC.inj).2 hv
  have hL := h.nlOk hC.sensible hC.inj
  have hT := h.typesProper hC.sensible
  obtain ⟨h1, h2⟩ := lexAll_pure hL hT hq hqa st b ptr hsize false k
  obtain ⟨_, h4⟩ := lexAll_pure hL hT hq hqa st' b' ptr' hsize' fin k'
  have hl : (content.take size).length = size := by simp [hsize]
  have hc : CfgOk L (content.take size) (.sof q) := ⟨hq, hqa⟩
  obtain ⟨h5, _⟩ := pureAll_unfin hL hT k (.sof q) hc (by simp [Cfg.cov]) (by simp only [Cfg.cov]; omega) (by intros; simp_all)
  refine ⟨by rw [h1, h5], ?_⟩
  rw [ranges_of_rel h2, ranges_of_rel h4]
  obtain ⟨r, hr⟩ := hext
  rw [← hr]
  exact List.IsPrefix.map some (pureAll_extend hL k (.sof q) hc (by simp [Cfg.cov]) k' hk')

/-! ### C05 -/

/-- C05: every token is an uncaught string, the end token, or recognised: some rule matches its exact text (with the
virtual start-of-file character in front at most at the beginning of the input), its types are all the types whose rules
match it, and it is followed by a delimiter or the end of the input, or is a single newline. -/
theorem C05_recognised (hC : s.Compiled addr t L) (hv : s.vars ≠ []) (st : LexState) (b : InBuf) (ptr : Nat)
    {content : List Nat} {size : Nat} (hsize : size ≤ content.length) {k : Nat} (hk : size < k)
    {x : Token} (hx : x ∈ (L.lexAll k st b ptr content size true).1) :
    x.types = some [tokenUncaught] ∨ x.types = some [tokenEnd] ∧ x.startPos = size ∧ x.endPos = size ∨
    ∃ sof : Bool, (sof = true → x.startPos = 0) ∧ x.startPos < x.endPos ∧ x.endPos ≤ size ∧
      x.types = some (L.dfa.idsOn ((if sof then [cCharStartOfFile] else []) ++ slice content x.startPos x.endPos)) ∧
      x.types ≠ some [] ∧
      (x.endPos = size ∨ (∃ c, content[x.endPos]? = some c ∧ s.IsDelim c) ∨ slice content x.startPos x.endPos = [newline]) := by
  obtain ⟨_, xs, h2, h3, _, h5⟩ := lexAll_facts hC hv st b ptr hsize hk
  have hm : Token.range x ∈ xs.map some := by rw [← h2]; exact List.mem_map_of_mem hx
  simp only [List.mem_map] at hm
  obtain ⟨y, hy, hyx⟩ := hm
  have hr := hyx.symm
  simp only [Token.range, Option.map_eq_some_iff] at hr
  obtain ⟨ty, hty, rfl⟩ := hr
  have hl : (content.take size).length = size := by simp [hsize]
  rcases h5 _ hy with h | h | ⟨sof, h6, hc, h7⟩
  · left; rw [hty]; simp only at h; rw [h]
  · right; left
    simp only [PTok.mk.injEq] at h
    obtain ⟨h1, h2, h3⟩ := h
    exact ⟨by rw [hty, h3], h1, h2⟩
  · right; right
    simp only at h6 hc h7
    obtain ⟨c1, c2, c3, c4⟩ := hc
    rw [hl] at c2 c4
    have hsl := slice_take (s := content) (a := x.startPos) c2
    unfold Lexer.typesOn at h7 c3
    rw [hsl] at h7 c3 c4
    refine ⟨sof, h6, c1, c2, by rw [hty, h7], by rw [hty, h7]; simpa using c3, ?_⟩
    rcases c4 with c4 | ⟨c, c4, c5⟩ | ⟨_, c4⟩
    · exact .inl c4
    · by_cases he : x.endPos < size
      · rw [List.getElem?_take_of_lt he] at c4
        exact .inr (.inl ⟨c, c4, ((buildLexer_ok hC.ok).delim c).mp c5⟩)
      · exact .inl (by omega)
    · exact .inr (.inr c4)

/-! ### C06 -/

/-- C06: the tokens are those of the declarative specification (leftmost, then longest candidate; `LexSpecAll.unique` says
it determines them).  Required: newline is a delimiter, the text does not contain the byte 0xFD, and no
partially matching timestamp at the beginning hides anything (`SofClear`; see `C06_refuted`). -/
theorem C06_spec_partial (hC : s.Compiled addr t L) (hv : s.vars ≠ []) (hnl : s.IsDelim newline) (st : LexState) (b : InBuf)
    (ptr : Nat) {content : List Nat} {size : Nat} (hsize : size ≤ content.length) {k : Nat} (hk : size < k)
    (hfd : cCharStartOfFile ∉ content.take size) (hsof : SofClear L (content.take size)) :
    ∃ xs, (L.lexAll k st b ptr content size true).1.map Token.range = xs.map some ∧ LexSpecAll L (content.take size) xs ∧
      ∀ ys, LexSpecAll L (content.take size) ys → ys = xs := by
  have h := buildLexer_ok hC.ok
  obtain ⟨q, hq, hqa⟩ := (h.sof hC.sensible hC.inj).2 hv
  have hL := h.nlOk hC.sensible hC.inj
  have hT := h.typesProper hC.sensible
  obtain ⟨_, h2⟩ := lexAll_pure hL hT hq hqa st b ptr hsize true k
  have hl : (content.take size).length = size := by simp [hsize]
  have := pureAll_specAll (h.schemaLike hC.sensible hC.inj hnl) hT hfd hsof (q := q) (k := k) ⟨hq, hqa⟩ (by omega)
  exact ⟨_, ranges_of_rel h2, this, fun ys hys => hys.unique this⟩

/-- C06, exactly: without any condition on the beginning of the text the tokens are those of `LexExact`, which determines them.  It says
what happens at the beginning: a token recognised there before a newline takes precedence; otherwise the leftmost, then longest
candidates are looked for after the prefix that could have been the beginning of such a token. -/
theorem C06_exact (hC : s.Compiled addr t L) (hv : s.vars ≠ []) (hnl : s.IsDelim newline) (st : LexState) (b : InBuf)
    (ptr : Nat) {content : List Nat} {size : Nat} (hsize : size ≤ content.length) {k : Nat} (hk : size < k)
    (hfd : cCharStartOfFile ∉ content.take size) :
    ∃ xs, (L.lexAll k st b ptr content size true).1.map Token.range = xs.map some ∧ LexExact L (content.take size) xs ∧
      ∀ ys, LexExact L (content.take size) ys → ys = xs := by
  have h := buildLexer_ok hC.ok
  obtain ⟨q, hq, hqa⟩ := (h.sof hC.sensible hC.inj).2 hv
  have hL := h.nlOk hC.sensible hC.inj
  have hT := h.typesProper hC.sensible
  obtain ⟨_, h2⟩ := lexAll_pure hL hT hq hqa st b ptr hsize true k
  have hl : (content.take size).length = size := by simp [hsize]
  have := pureAll_exact (h.schemaLike hC.sensible hC.inj hnl) hT hfd (q := q) (k := k) ⟨hq, hqa⟩ (by omega)
  exact ⟨_, ranges_of_rel h2, this, fun ys hys => hys.unique this⟩

/-- C06 for schemas without a timestamp: no condition on the beginning of the text. -/
theorem C06_no_timestamp_partial (hC : s.Compiled addr t L) (hv : s.vars ≠ []) (hnl : s.IsDelim newline)
    (hno : ∀ v ∈ s.vars, v.name ≠ "timestamp") (st : LexState) (b : InBuf)
    (ptr : Nat) {content : List Nat} {size : Nat} (hsize : size ≤ content.length) {k : Nat} (hk : size < k)
    (hfd : cCharStartOfFile ∉ content.take size) :
    ∃ xs, (L.lexAll k st b ptr content size true).1.map Token.range = xs.map some ∧ LexSpecAll L (content.take size) xs ∧
      ∀ ys, LexSpecAll L (content.take size) ys → ys = xs :=
  C06_spec_partial hC hv hnl st b ptr hsize hk hfd
    ((buildLexer_ok hC.ok).sofClear hC.sensible hC.inj hnl hno _)

/-- `delimiters: \n`, `timestamp:a b c`, `x:b`. -/
def hideSchema : SchemaAST where
  delims := [[32, 10]]
  vars := [⟨"timestamp", ((Pat.cat (.cat (.cat (.cat (.lit 97) (.lit 32)) (.lit 98)) (.lit 32)) (.lit 99)).elab).getD (.empty [])⟩,
    ⟨"x", .literal [] 98⟩]

theorem hideSchema_sensible : hideSchema.Sensible := by
  intro v hv
  simp only [hideSchema, List.mem_cons, List.not_mem_nil, or_false] at hv
  rcases hv with rfl | rfl
  · exact ⟨(by decide : '$' ∉ "timestamp".toList), .cat (.cat (.cat (.cat (.lit 97) (.lit 32)) (.lit 98)) (.lit 32)) (.lit 99), rfl, ⟨⟨⟨⟨trivial, trivial⟩, trivial⟩, trivial⟩, trivial⟩⟩
  · exact ⟨(by decide : '$' ∉ "x".toList), .lit 98, rfl, trivial⟩

/-- The compiled form of a schema, for evaluation. -/
def compiled (s : SchemaAST) : Option (ParserTables × Lexer) :=
  match buildLexer s id with | .ok x => some x | .error _ => none

theorem compiled_spec {s : SchemaAST} (hs : s.Sensible) (h : (compiled s).isSome = true) :
    ∃ t L, compiled s = some (t, L) ∧ s.Compiled id t L := by
  unfold compiled at *
  cases hb : buildLexer s id with
  | error e => rw [hb] at h; cases h
  | ok x => obtain ⟨t, L⟩ := x; exact ⟨t, L, rfl, hs, fun _ _ h => h, hb⟩

set_option maxRecDepth 100000 in
/-- C06 fails without the condition on the beginning: in `a b d` the lexer skips the variable ` b`, because the timestamp
`a b c` could have begun at the start of the file: the tokens are not those of the specification. -/
theorem C06_refuted : ∃ (s' : SchemaAST) (t' : ParserTables) (L : Lexer), s'.Compiled id t' L ∧ s'.vars ≠ [] ∧ s'.IsDelim newline ∧
    ∃ xs, (L.lexAll 6 {} (InBuf.init (fun _ => []) 48000 2) 1 [97, 32, 98, 32, 100] 5 true).1.map Token.range = xs.map some ∧
      ¬ LexSpecAll L [97, 32, 98, 32, 100] xs := by
  obtain ⟨t, L, hc, hC⟩ := compiled_spec hideSchema_sensible (by decide +kernel)
  refine ⟨hideSchema, t, L, hC, by simp [hideSchema], .inr ⟨_, rfl, by decide⟩, [⟨0, 5, [1]⟩, ⟨5, 5, [0]⟩], ?_, ?_⟩
  · have : ((compiled hideSchema).map fun x => (x.2.lexAll 6 {} (InBuf.init (fun _ => []) 48000 2) 1 [97, 32, 98, 32, 100] 5
        true).1.map Token.range) = some [some ⟨0, 5, [1]⟩, some ⟨5, 5, [0]⟩] := by decide +kernel
    rw [hc] at this
    simpa using this
  · have hcand : L.Cand [97, 32, 98, 32, 100] false 1 3 := by
      have : ((compiled hideSchema).map fun x => (x.2.typesOn [97, 32, 98, 32, 100] false 1 3, x.2.isDelim 32)) = some ([8], true) := by
        decide +kernel
      rw [hc] at this
      simp only [Option.map_some, Option.some.injEq, Prod.mk.injEq] at this
      exact ⟨by decide, by decide, by rw [this.1]; simp, .inr (.inl ⟨32, rfl, this.2⟩)⟩
    have hT := (buildLexer_ok hC.ok).typesProper hC.sensible
    intro h
    generalize hxs : [(⟨0, 5, [1]⟩ : PTok), ⟨5, 5, [0]⟩] = xs at h
    cases h with
    | sof h1 h2 =>
      simp only [List.cons.injEq, PTok.mk.injEq] at hxs
      exact types_ne hT hxs.1.2.2.symm
    | plain h1 h2 =>
      cases h2 with
      | rest h3 h4 => exact h4 1 3 (by omega) (by simp) hcand
      | here h3 h4 =>
        simp only [List.cons.injEq, PTok.mk.injEq] at hxs
        exact types_ne hT hxs.1.2.2.symm
      | later h3 h4 h5 h6 =>
        simp only [List.cons.injEq, PTok.mk.injEq] at hxs
        exact h4 1 3 (by omega) (by omega) hcand

/-- `C06_exact` on the input of `C06_refuted`: the timestamp `a b c` could have begun with `a b `, so lexing starts after these bytes. -/
example : ∃ (s' : SchemaAST) (t' : ParserTables) (L : Lexer), s'.Compiled id t' L ∧ s'.vars ≠ [] ∧ s'.IsDelim newline ∧
    cCharStartOfFile ∉ [97, 32, 98, 32, 100] ∧ L.Hidden [97, 32, 98, 32, 100] 4 := by
  obtain ⟨t, L, hc, hC⟩ := compiled_spec hideSchema_sensible (by decide +kernel)
  have : ((compiled hideSchema).map fun x => ((x.2.dfa.run 0 [253, 97, 32, 98, 32]).isSome, (x.2.dfa.run 0 [253, 97, 32, 98, 32, 100]).isSome)) =
      some (true, false) := by decide +kernel
  rw [hc] at this
  simp only [Option.map_some, Option.some.injEq, Prod.mk.injEq] at this
  obtain ⟨halive, hdead⟩ := this
  refine ⟨hideSchema, t, L, hC, by simp [hideSchema], .inr ⟨_, rfl, by decide⟩, by decide, by decide, halive, by decide, fun h' h1 h2 => ?_⟩
  have : h' = 5 := by simp only [List.length_cons, List.length_nil] at h2; omega
  subst this
  exact .inr hdead

/-! ### C38 -/

/-- C38: the line number of a token is the number of newlines in the input before the end of the token (newline must be
a delimiter). -/
theorem C38_lines (hC : s.Compiled addr t L) (hv : s.vars ≠ []) (hnl : s.IsDelim newline) (st : LexState) (b : InBuf)
    (ptr : Nat) {content : List Nat} {size : Nat} (hsize : size ≤ content.length) {k : Nat} (hk : size < k)
    {x : Token} (hx : x ∈ (L.lexAll k st b ptr content size true).1) :
    x.line = (content.take x.endPos).count newline := by
  have h := buildLexer_ok hC.ok
  obtain ⟨q, hq, hqa⟩ := (h.sof hC.sensible hC.inj).2 hv
  have hL := h.nlOk hC.sensible hC.inj
  have hT := h.typesProper hC.sensible
  have hN : NlDelim L := ⟨hL.delims, (h.delim _).mpr hnl⟩
  obtain ⟨_, h2⟩ := lexAll_pure hL hT hq hqa st b ptr hsize true k
  have hl : (content.take size).length = size := by simp [hsize]
  have hc : CfgOk L (content.take size) (.sof q) := ⟨hq, hqa⟩
  obtain ⟨_, h4⟩ := pureAll_tiles hL hT k (.sof q) hc (by simp [Cfg.cov]) (by simp only [Cfg.cov]; omega)
  obtain ⟨y, hy, hyx⟩ := forall₂_left h2 x hx
  have hb := h4.le.2 y hy
  rw [line_of_rel hN hyx hb.1 hb.2 (fun hu => pureAll_nl hL hT hN k _ hc y hy hu), hyx.stop]
  unfold nlCount
  rw [List.take_take, Nat.min_eq_left (by omega)]

end LogSurgeon
