import Verif.Proofs.Search
import Verif.Props.Lexing
/-
C55: the tokens of every text, exactly.

The reader needs: `Spec/Search.lean` (`LexedAll`: how the next token is looked for) and, from `Spec/Lexing.lean`, `Lexer.lexAll`, `Lexer.Cand`
(what a candidate for a token is), `Lexer.Longest` and `Lexer.Hidden`.  `C54_types` (Props/Reading.lean) says which types a piece of text has.

No condition on the text: it may contain the byte 0xFD, newline need not be a delimiter, a partial timestamp may stand at the beginning.
-/
namespace LogSurgeon

variable {s : SchemaAST} {addr : Nat → Nat} {t : ParserTables} {L : Lexer}

theorem LexerOf.opening (h : LexerOf s addr t L) (hs : s.Sensible) (hinj : ∀ a b, addr a = addr b → a = b) : Opening L where
  nlOk := h.nlOk hs hinj
  first := by
    intro c hc
    obtain ⟨_, n, re, hk, h1, _⟩ := h.alive hs hinj (c := c) (v := []) (by rw [run_one]; exact hc)
    cases hk with
    | newLine => simp [Regex.firstOf] at h1; exact .inr h1
    | first _ _ => simp [Regex.firstOf, Regex.possible] at h1; exact .inl ((h.delim _).mpr (.inl h1))
    | newLineTs _ _ => simp [Regex.firstOf, Regex.possible] at h1; exact .inr h1
    | var hv hts => exact .inl ((h.delim c).mpr (mem_delimBytes.mp (possible_singletons.mp h1)).2)

/-- C55: the tokens of any text at all are those of `LexedAll`, and `LexedAll` determines them. -/
theorem C55_exact (hC : s.Compiled addr t L) (hv : s.vars ≠ []) (st : LexState) (b : InBuf)
    (ptr : Nat) {content : List Nat} {size : Nat} (hsize : size ≤ content.length) {k : Nat} (hk : size < k) :
    ∃ xs, (L.lexAll k st b ptr content size true).1.map Token.range = xs.map some ∧ LexedAll L (content.take size) xs ∧
      ∀ ys, LexedAll L (content.take size) ys → ys = xs := by
  have h := buildLexer_ok hC.ok
  obtain ⟨q, hq, hqa⟩ := (h.sof hC.sensible hC.inj).2 hv
  have hL := h.opening hC.sensible hC.inj
  have hT := h.typesProper hC.sensible
  obtain ⟨_, h2⟩ := lexAll_pure hL.nlOk hT hq hqa st b ptr hsize true k
  have hl : (content.take size).length = size := by simp [hsize]
  have := pureAll_all (s := content.take size) hL hT (q := q) (k := k) ⟨hq, hqa⟩ (by omega)
  exact ⟨_, ranges_of_rel h2, this, fun ys hys => hys.unique this⟩

set_option maxRecDepth 100000 in
/-- C06 fails for a text with the byte 0xFD, wherever it stands: behind it the lexer looks for the timestamp of the first line.  In `z`, 0xFD, `a b d` (with the
timestamp `a b c`) the variable ` b` is missed. -/
theorem C06_fd_refuted : ∃ (s' : SchemaAST) (t' : ParserTables) (L : Lexer), s'.Compiled id t' L ∧ s'.vars ≠ [] ∧ s'.IsDelim newline ∧
    SofClear L [122, 253, 97, 32, 98, 32, 100] ∧
    ∃ xs, (L.lexAll 8 {} (InBuf.init (fun _ => []) 48000 2) 1 [122, 253, 97, 32, 98, 32, 100] 7 true).1.map Token.range = xs.map some ∧
      ¬ LexSpecAll L [122, 253, 97, 32, 98, 32, 100] xs := by
  obtain ⟨t, L, hc, hC⟩ := compiled_spec hideSchema_sensible (by decide +kernel)
  have hrun : ((compiled hideSchema).map fun x => (x.2.lexAll 8 {} (InBuf.init (fun _ => []) 48000 2) 1 [122, 253, 97, 32, 98, 32, 100] 7
      true).1.map Token.range) = some [some ⟨0, 7, [1]⟩, some ⟨7, 7, [0]⟩] := by decide +kernel
  have hdead : ((compiled hideSchema).map fun x => (x.2.dfa.run 0 [253, 122]).isSome) = some false := by decide +kernel
  have htok : ((compiled hideSchema).map fun x => (x.2.typesOn [122, 253, 97, 32, 98, 32, 100] false 3 5, x.2.isDelim 32)) = some ([8], true) := by
    decide +kernel
  rw [hc] at hrun hdead htok
  simp only [Option.map_some, Option.some.injEq, Prod.mk.injEq] at hrun hdead htok
  have hd : ∀ j, (L.dfa.run 0 (cCharStartOfFile :: List.take j [122, 253, 97, 32, 98, 32, 100])).isSome → j = 0 := by
    intro j hj
    cases j with
    | zero => rfl
    | succ j =>
      rw [List.take_succ_cons, show cCharStartOfFile :: 122 :: List.take j [253, 97, 32, 98, 32, 100] =
        [253, 122] ++ List.take j [253, 97, 32, 98, 32, 100] from rfl, run_append] at hj
      rw [Option.isSome_eq_false_iff, Option.isNone_iff_eq_none] at hdead
      rw [hdead] at hj; cases hj
  have hcand : L.Cand [122, 253, 97, 32, 98, 32, 100] false 3 5 :=
    ⟨by decide, by decide, by rw [htok.1]; simp, .inr (.inl ⟨32, rfl, htok.2⟩)⟩
  have hT := (buildLexer_ok hC.ok).typesProper hC.sensible
  refine ⟨hideSchema, t, L, hC, by simp [hideSchema], .inr ⟨_, rfl, by decide⟩,
    ⟨fun j hj => by rw [hd j hj]; simp, .inr fun j hj d h => by rw [hd j hj] at h; simp at h⟩, [⟨0, 7, [1]⟩, ⟨7, 7, [0]⟩], by simpa using hrun, ?_⟩
  intro h
  generalize hxs : [(⟨0, 7, [1]⟩ : PTok), ⟨7, 7, [0]⟩] = xs at h
  cases h with
  | sof h1 h2 =>
    simp only [List.cons.injEq, PTok.mk.injEq] at hxs
    exact types_ne hT hxs.1.2.2.symm
  | plain h1 h2 =>
    cases h2 with
    | rest h3 h4 => exact h4 3 5 (by omega) (by simp) hcand
    | here h3 h4 =>
      simp only [List.cons.injEq, PTok.mk.injEq] at hxs
      exact types_ne hT hxs.1.2.2.symm
    | later h3 h4 h5 h6 =>
      simp only [List.cons.injEq, PTok.mk.injEq] at hxs
      exact h4 3 5 (by omega) (by omega) hcand

set_option maxRecDepth 100000 in
/-- With the byte 0xFD in front, a timestamp in the middle of a line is a token of the type of the timestamp of the first line (5). -/
example : ((compiled hideSchema).map fun x => (x.2.lexAll 8 {} (InBuf.init (fun _ => []) 48000 2) 1 [122, 253, 97, 32, 98, 32, 99] 7
      true).1.map Token.range) = some [some ⟨0, 1, [1]⟩, some ⟨1, 7, [5]⟩, some ⟨7, 7, [0]⟩] := by decide +kernel

/-- `C55_exact` on the text of `C06_fd_refuted`. -/
example : ∃ (t' : ParserTables) (L : Lexer), hideSchema.Compiled id t' L ∧ hideSchema.vars ≠ [] ∧ LexedAll L [122, 253, 97, 32, 98, 32, 100]
    [⟨0, 7, [1]⟩, ⟨7, 7, [0]⟩] := by
  obtain ⟨t, L, hc, hC⟩ := compiled_spec hideSchema_sensible (by decide +kernel)
  refine ⟨t, L, hC, by simp [hideSchema], ?_⟩
  obtain ⟨xs, h1, h2, _⟩ := C55_exact hC (by simp [hideSchema]) {} (InBuf.init (fun _ => []) 48000 2) 1
    (content := [122, 253, 97, 32, 98, 32, 100]) (size := 7) (by simp) (k := 8) (by omega)
  have : ((compiled hideSchema).map fun x => (x.2.lexAll 8 {} (InBuf.init (fun _ => []) 48000 2) 1 [122, 253, 97, 32, 98, 32, 100] 7
      true).1.map Token.range) = some ([⟨0, 7, [1]⟩, ⟨7, 7, [0]⟩].map some) := by decide +kernel
  rw [hc, Option.map_some, Option.some.injEq, h1] at this
  have := (List.map_injective_iff.mpr (Option.some_injective _)) this
  rwa [this] at h2

end LogSurgeon
