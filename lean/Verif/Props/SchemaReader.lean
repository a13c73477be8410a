import Verif.Model.SchemaReader
/-!
# C35: schema text is read completely
-/
namespace LogSurgeon

/-- The reader of `try_schema_string` has no state. -/
def stringReader (s : List Nat) : Unit → Nat → Unit × InBuf.ReadRes := fun _ n => ((), schemaStringRead s n)

/-- Asking a reader for blocks of the given sizes: the answers. -/
def answers {σ : Type} (rd : σ → Nat → σ × InBuf.ReadRes) : σ → List Nat → List InBuf.ReadRes
  | _, [] => []
  | s, n :: ns => (rd s n).2 :: answers rd (rd s n).1 ns

/-- The bytes of an answer. -/
def InBuf.ReadRes.data : InBuf.ReadRes → List Nat
  | .bytes d => d
  | _ => []

private theorem nexts_of (b : InBuf) (s : List Nat) (hf : b.finished = true) (hlr : b.lrfh = true)
    (hl : b.lastRead = s.length) (hs : s.length < b.size / 2) (hm : ∀ i : Nat, i < s.length → (b.mem b.active)[i]? = s[i]?) :
    ∀ (k : Nat) (p : Nat), p ≤ s.length → ∀ (c : Bool), ∃ (p' : Nat) (c' : Bool), p' ≤ s.length ∧
      (InBuf.nexts k { b with pos := p, consumed := c }) =
        (((s.drop p).map NextChar.char ++ List.replicate k (NextChar.char cCharEOF)).take k, { b with pos := p', consumed := c' })
  | 0, p, hp, c => ⟨p, c, hp, by simp [InBuf.nexts]⟩
  | k + 1, p, hp, c => by
    by_cases he : p = s.length
    · have hg : ({ b with pos := p, consumed := c } : InBuf).getNext = ({ b with pos := p, consumed := true }, .char cCharEOF) := by
        simp [InBuf.getNext, hf, hl, he]
      obtain ⟨p', c', h1, h2⟩ := nexts_of b s hf hlr hl hs hm k p hp true
      refine ⟨p', c', h1, ?_⟩
      simp only [InBuf.nexts, hg, h2]
      subst he
      simp [List.replicate_succ]
    · have hlt : p < s.length := by omega
      have hne : ¬ p = b.lastRead := by rw [hl]; exact he
      have hne2 : ¬ p = b.size / 2 := by omega
      obtain ⟨x, hx⟩ : ∃ x, s[p]? = some x := ⟨s[p], List.getElem?_eq_getElem hlt⟩
      have hmem : (b.mem b.active)[p]? = some x := by rw [hm p hlt, hx]
      have hsz : ¬ p + 1 = b.size := by omega
      have hg : ({ b with pos := p, consumed := c } : InBuf).getNext = ({ b with pos := p + 1, consumed := c }, .char x) := by
        simp [InBuf.getNext, hne, hne2, hlr, hmem, hsz]
      obtain ⟨p', c', h1, h2⟩ := nexts_of b s hf hlr hl hs hm k (p + 1) hlt c
      refine ⟨p', c', h1, ?_⟩
      simp only [InBuf.nexts, hg, h2]
      have hd : s.drop p = x :: s.drop (p + 1) := by
        rw [List.drop_eq_getElem_cons hlt]
        congr 1
        have := List.getElem?_eq_getElem hlt
        rw [hx] at this
        exact (Option.some.inj this).symm
      rw [hd]
      simp [List.replicate_succ', List.take_append, ← List.append_assoc]

/-- **C35 (partial)**: the text of a schema that is shorter than half of the parser's input buffer (24000 bytes) is
delivered to the schema lexer byte for byte by `get_next_character`, followed by the end of file for ever; and no later call
of `read_if_safe` reads anything more (it leaves the buffer alone), however the buffer's positions have changed.
Missing: longer texts, for which the property is false (`C35_refuted`). -/
theorem C35_short_partial (s : List Nat) (b : InBuf) (hb : 2 < b.staticSize) (hs : s.length < b.staticSize / 2)
    (hmem : (b.mem 0).length = b.staticSize) :
    ∃ b1, b.reset.readIfSafe (stringReader s) () = ((), b1, true) ∧
      (∀ k, (b1.nexts k).1 = (s.map NextChar.char ++ List.replicate k (NextChar.char cCharEOF)).take k) ∧
      ∀ k pos cpos c, let b2 := { (b1.nexts k).2 with pos := pos, consumedPos := cpos, consumed := c }
        b2.readIfSafe (stringReader s) () = ((), b2, true) := by
  have hsafe : b.reset.readIsSafe = true := by
    simp [InBuf.readIsSafe, InBuf.reset]; omega
  have key : ∀ b1 : InBuf, b1.finished = true → b1.lrfh = true ∨ s = [] → b1.lastRead = s.length → s.length < b1.size / 2 →
      (∀ i : Nat, i < s.length → (b1.mem b1.active)[i]? = s[i]?) → b1.pos = 0 → b1.consumed = false →
      (∀ k, (b1.nexts k).1 = (s.map NextChar.char ++ List.replicate k (NextChar.char cCharEOF)).take k) ∧
      ∀ k pos cpos c, let b2 := { (b1.nexts k).2 with pos := pos, consumedPos := cpos, consumed := c }
        b2.readIfSafe (stringReader s) () = ((), b2, true) := by
    intro b1 hf hlr hl hsz hm hp hc
    rcases hlr with hlr | hlr
    · refine ⟨fun k => ?_, fun k pos cpos c => ?_⟩
      · obtain ⟨p', c', _, h⟩ := nexts_of b1 s hf hlr hl hsz hm k 0 (Nat.zero_le _) false
        have h0 : ({ b1 with pos := 0, consumed := false } : InBuf) = b1 := by
          rw [← hp, ← hc]
        rw [h0] at h
        have := congrArg Prod.fst h
        simpa using this
      · obtain ⟨p', c', _, h⟩ := nexts_of b1 s hf hlr hl hsz hm k 0 (Nat.zero_le _) false
        have h0 : ({ b1 with pos := 0, consumed := false } : InBuf) = b1 := by
          rw [← hp, ← hc]
        rw [h0] at h
        have h2 := congrArg Prod.snd h
        show InBuf.readIfSafe _ _ { (b1.nexts k).2 with pos := pos, consumedPos := cpos, consumed := c } = _
        have h2' : (b1.nexts k).2 = { b1 with pos := p', consumed := c' } := h2
        rw [h2']
        simp [InBuf.readIfSafe, InBuf.readIsSafe, hf]
    · subst hlr
      have hg : ∀ c : Bool, ({ b1 with consumed := c } : InBuf).getNext = ({ b1 with consumed := true }, .char cCharEOF) := by
        intro c
        simp [InBuf.getNext, hf, hl, hp]
      have hall : ∀ (k : Nat) (c : Bool), ∃ c', ({ b1 with consumed := c } : InBuf).nexts k =
          (List.replicate k (NextChar.char cCharEOF), { b1 with consumed := c' }) := by
        intro k
        induction k with
        | zero => intro c; exact ⟨c, rfl⟩
        | succ k ih =>
          intro c
          obtain ⟨c', h⟩ := ih true
          exact ⟨c', by simp only [InBuf.nexts, hg, h, List.replicate_succ]⟩
      have h0 : ({ b1 with consumed := b1.consumed } : InBuf) = b1 := rfl
      refine ⟨fun k => ?_, fun k pos cpos c => ?_⟩
      · obtain ⟨c', h⟩ := hall k b1.consumed
        rw [h0] at h
        rw [h]
        simp
      · obtain ⟨c', h⟩ := hall k b1.consumed
        rw [h0] at h
        show InBuf.readIfSafe _ _ { (b1.nexts k).2 with pos := pos, consumedPos := cpos, consumed := c } = _
        rw [h]
        simp [InBuf.readIfSafe, InBuf.readIsSafe, hf]
  by_cases he : s = []
  · subst he
    refine ⟨{ b.reset with finished := true }, ?_, key _ rfl (.inr rfl) rfl (by simpa [InBuf.reset] using hs) (by simp) rfl rfl⟩
    have hz : ¬ b.staticSize / 2 = 0 ∨ b.staticSize / 2 = 0 := by omega
    simp only [InBuf.readIfSafe, hsafe, if_true, stringReader, schemaStringRead]
    simp [InBuf.applyRead]
  · have hlen : 0 < s.length := List.length_pos_iff.mpr he
    have hread : schemaStringRead s (b.staticSize / 2) = .bytes s := by
      have h1 : 0 + b.staticSize / 2 > s.length := by omega
      simp only [schemaStringRead, h1, if_true]
      simp [he]
    refine ⟨(b.reset.applyRead (.bytes s)).1, ?_, key _ ?_ (.inl ?_) ?_ ?_ ?_ ?_ ?_⟩
    · simp only [InBuf.readIfSafe, hsafe, if_true, stringReader]
      have : b.reset.size / 2 = b.staticSize / 2 := rfl
      rw [this, hread]
      rfl
    · simp only [InBuf.applyRead, InBuf.reset, Bool.false_or]; exact decide_eq_true hs
    · simp [InBuf.applyRead, InBuf.reset]
    · simp [InBuf.applyRead, InBuf.reset]; omega
    · simpa [InBuf.applyRead, InBuf.reset] using hs
    · intro i hi
      simp only [InBuf.applyRead, InBuf.reset, if_true, InBuf.overwrite]
      simp [List.getElem?_append, hi]
    · rfl
    · rfl

/-- The hypotheses of the theorem above are met, e.g. by the library's buffer and a schema text. -/
example : ∃ b : InBuf, b.staticSize = 48000 ∧ 2 < b.staticSize ∧ [97, 58, 98].length < b.staticSize / 2 ∧ (b.mem 0).length = b.staticSize :=
  ⟨InBuf.init (fun _ => List.replicate 48000 0) 48000 1, rfl, by decide, by decide, List.length_replicate⟩

/-- **C35 is false for long texts**: whatever the schema text, every request for at most as many bytes as it has is
answered with its beginning, no matter how often the reader is asked: the answers never continue the text and never report
its end.  In particular a text that does not fit into half of the input buffer is never delivered. -/
theorem C35_refuted (s : List Nat) (n : Nat) (hn : 0 < n) (h : n ≤ s.length) (k : Nat) :
    answers (stringReader s) () (List.replicate k n) = List.replicate k (.bytes (s.take n)) ∧
      (2 * n ≤ s.length → s.take n ≠ (s.drop n).take n →
        ((answers (stringReader s) () [n, n]).map InBuf.ReadRes.data).flatten ≠ s.take (2 * n)) := by
  have hr : schemaStringRead s n = .bytes (s.take n) := by
    have h1 : ¬ 0 + n > s.length := by omega
    have h2 : ¬ n = 0 := by omega
    simp only [schemaStringRead, h1, if_false]
    simp [h2]
  constructor
  · induction k with
    | zero => rfl
    | succ k ih =>
      simp only [List.replicate_succ, answers, stringReader, hr] at ih ⊢
      rw [ih]
  · intro h2 hne heq
    simp only [answers, stringReader, hr, InBuf.ReadRes.data, List.map_cons, List.map_nil, List.flatten_cons, List.flatten_nil,
      List.append_nil] at heq
    rw [show 2 * n = n + n by omega, List.take_add] at heq
    exact hne (List.append_cancel_left heq)

example : ((answers (stringReader [1, 2, 3, 4]) () [2, 2]).map InBuf.ReadRes.data).flatten = [1, 2, 1, 2] := by decide

/-- **C35**, schema files: whatever sizes are asked for, the answers of the reader built by `try_schema_file` are together
the beginning of the file; the end of file is reported only after the whole file was delivered (or to a request for nothing). -/
theorem C35_file (content : List Nat) (sizes : List Nat) (r : FileReader) :
    let a := answers schemaFileRead (r.tryOpen (some content)).1 sizes
    ((a.map InBuf.ReadRes.data).flatten = content.take sizes.sum) ∧
      (∀ i : Nat, ∀ n, sizes[i]? = some n → 0 < n → a[i]? = some .eof → content.length ≤ (sizes.take i).sum) ∧
      ∀ x ∈ a, x ≠ .failure := by
  intro a
  have key : ∀ (sizes : List Nat) (f : OpenFile),
      ((answers schemaFileRead { file := some f } sizes).map InBuf.ReadRes.data).flatten = f.rest.take sizes.sum ∧
      (∀ i : Nat, ∀ n, sizes[i]? = some n → 0 < n → (answers schemaFileRead { file := some f } sizes)[i]? = some .eof →
        f.rest.length ≤ (sizes.take i).sum) ∧
      ∀ x ∈ answers schemaFileRead { file := some f } sizes, x ≠ .failure := by
    intro sizes
    induction sizes with
    | nil => intro f; simp [answers]
    | cons n ns ih =>
      intro f
      have hstep : schemaFileRead { file := some f } n = ({ file := some (f.fread n).1 }, if (f.fread n).2.length == 0 then .eof else .bytes (f.fread n).2) := rfl
      have hrest : (f.fread n).1.rest = f.rest.drop n := by
        simp only [OpenFile.fread, OpenFile.rest, List.length_take, List.length_drop]
        rw [← List.drop_drop]
        by_cases hn : n ≤ f.content.length - f.pos
        · rw [Nat.min_eq_left hn]
        · rw [List.drop_of_length_le (by simp; omega), List.drop_of_length_le (by simp; omega)]
      have hgot : (f.fread n).2 = f.rest.take n := rfl
      obtain ⟨h1, h2, h3⟩ := ih (f.fread n).1
      simp only [answers, hstep]
      refine ⟨?_, ?_, ?_⟩
      · simp only [List.map_cons, List.flatten_cons, h1, hrest, List.sum_cons, List.take_add]
        congr 1
        rw [hgot]
        split
        next h => simp only [beq_iff_eq, List.length_eq_zero_iff] at h; rw [h]; rfl
        next => rfl
      · intro i m hi hm he
        cases i with
        | zero =>
          simp only [List.getElem?_cons_zero, Option.some.injEq] at hi he
          subst hi
          split at he
          next h =>
            rw [hgot] at h
            simp only [beq_iff_eq, List.length_eq_zero_iff, List.take_eq_nil_iff] at h
            rcases h with h | h
            · omega
            · simp [h]
          next => cases he
        | succ i =>
          simp only [List.getElem?_cons_succ] at hi he
          have := h2 i m hi hm he
          rw [hrest, List.length_drop] at this
          simp only [List.take_succ_cons, List.sum_cons]
          omega
      · intro x hx
        rcases List.mem_cons.mp hx with rfl | hx
        · split <;> simp
        · exact h3 x hx
  obtain ⟨h1, h2, h3⟩ := key sizes { content := content }
  exact ⟨h1, h2, h3⟩

example : answers schemaFileRead (FileReader.tryOpen {} (some [1, 2, 3, 4, 5])).1 [2, 2, 2, 2]
    = [.bytes [1, 2], .bytes [3, 4], .bytes [5], .eof] := by decide

end LogSurgeon
