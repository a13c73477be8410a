import Verif.Props.Buffer
import Verif.Proofs.Wide
/-
C63: buffers of 2 GiB and more.

The reader needs what Props/Buffer.lean needs, and Model/Wide.lean (`parseBuffer32`: the same loop, with the sizes and positions
of the input buffer in 32 bits, as in the code).
-/
namespace LogSurgeon

variable {s : SchemaAST} {addr : Nat → Nat} {t : ParserTables} {L : Lexer}

/-- C63: of a buffer with less than 2 GiB (modulo 4 GiB) exactly the first `size % 2^32` bytes are parsed, as if they were the
whole buffer. -/
theorem C63_modulo (hC : s.Compiled addr t L) (hv : s.vars ≠ []) {p : BufferParser} (hI : p.Idle t L) (fin : Bool)
    (ptr : Nat) {content : List Nat} {size : Nat} (hsize : size ≤ content.length) (hslack : fin = true → size < content.length)
    (hlt : size % 2 ^ 32 < 2 ^ 31) (k : Nat) :
    p.parseBuffer32 k ptr content size fin = p.parseBuffer k ptr content (size % 2 ^ 32) fin := by
  have h := buildLexer_ok hC.ok
  obtain ⟨q, hq, hqa⟩ := (h.sof hC.sensible hC.inj).2 hv
  have hle : size % 2 ^ 32 ≤ size := Nat.mod_le _ _
  have hX := ctx_ok hC fin ptr (size := size % 2 ^ 32) (hle.trans hsize) (fun hf => Nat.lt_of_le_of_lt hle (hslack hf))
  exact Ctx.all32_small hX rfl hlt k p.reset 0 (.sof q) none (brel_reset hC hI hq hqa fin ptr content (size % 2 ^ 32))

/-- C63: a buffer of less than 2 GiB is parsed as the other theorems say.  (Partial: see `C63_half` and `C63_modulo` for what
happens to larger ones, and `C63_refuted`.) -/
theorem C63_small_partial (hC : s.Compiled addr t L) (hv : s.vars ≠ []) {p : BufferParser} (hI : p.Idle t L) (fin : Bool)
    (ptr : Nat) {content : List Nat} {size : Nat} (hsize : size ≤ content.length) (hslack : fin = true → size < content.length)
    (hlt : size < 2 ^ 31) (k : Nat) : p.parseBuffer32 k ptr content size fin = p.parseBuffer k ptr content size fin := by
  have h : size % 2 ^ 32 = size := Nat.mod_eq_of_lt (by omega)
  have := C63_modulo hC hv hI fin ptr hsize hslack (by rw [h]; exact hlt) k
  rwa [h] at this

/-- C63: of a buffer whose size modulo 4 GiB is at least 2 GiB, say `2^31 + m`, only the first `m` bytes are looked at, and as if
more were to come: whatever `finished_reading_input` says, the loop ends with `BufferOutOfBounds`, after the events an unfinished
buffer with these `m` bytes has. -/
theorem C63_half (hC : s.Compiled addr t L) (hv : s.vars ≠ []) {p : BufferParser} (hI : p.Idle t L) (fin : Bool)
    (ptr : Nat) {content : List Nat} {size m : Nat} (hm : size % 2 ^ 32 = m + 2 ^ 31) (hsize : size ≤ content.length)
    {k : Nat} (hk : m < k) :
    (p.parseBuffer32 k ptr content size fin).status = some .oob ∧
    (p.parseBuffer k ptr content m false).status = some .oob ∧
    (p.parseBuffer32 k ptr content size fin).events.map EventOut.obs = (p.parseBuffer k ptr content m false).events.map EventOut.obs := by
  have h := buildLexer_ok hC.ok
  have hle : size % 2 ^ 32 ≤ size := Nat.mod_le _ _
  have hms : m ≤ content.length := by omega
  obtain ⟨q, hq, hqa, hspec⟩ := parseBuffer_spec hC hv
  obtain ⟨h1, h2, _, _⟩ := hspec hI false ptr hms (fun h => by cases h) hk
  have hX := ctx_ok hC false ptr hms (fun h => by cases h)
  have hL := h.nlOk hC.sensible hC.inj
  have hT := h.typesProper hC.sensible
  have hl : (content.take m).length = m := by simp [hms]
  have hc : CfgOk L (content.take m) (.sof q) := ⟨hq, hqa⟩
  have hst : (L.toks (content.take m) false (.sof q)).2 = some .oob :=
    (pureAll_unfin hL hT _ (.sof q) hc (by simp [Cfg.cov]) (by simp only [Cfg.cov]; omega) (fun a e ty h => by cases h)).1
  obtain ⟨i1, i2, _⟩ := Ctx.loopOn_spec hX (call := fun p off => p.parseNextEvent32 ptr content size off fin)
    (fun p offset ho => Ctx.prepared32 hX rfl hm fin p offset ho)
    k p.reset 0 (.sof q) none (brel_reset hC hI hq hqa false ptr content m) (by show m - _ < k; omega)
  rw [← Ctx.loopOn_parseAll32] at i1 i2
  have hne := segment_nonempty (s := content.take m) (L.toks (content.take m) false (.sof q)).1 none (fun e h => by cases h)
  have shows : ∀ {os : List EventOut} {es : List PEvent}, (∀ e ∈ es, e.ts = true → ∃ x, e.toks.head? = some x) →
      List.Forall₂ (Ctx.EvOut ⟨L, false, ptr, content, m, t.idSymbol.length⟩) os es →
      os.map EventOut.obs = es.map (PEvent.obs (content.take m)) := by
    intro os es hne hf
    refine shows_obs ?_
    induction hf with
    | nil => exact .nil
    | @cons o e os es ho _ ih =>
      exact .cons (Ctx.EvOut.shows ho (hne e (by simp))) (ih (fun e' he' => hne e' (by simp [he'])))
  refine ⟨i1.trans hst, by simpa using h1, ?_⟩
  rw [show (p.parseBuffer32 k ptr content size fin).events.map EventOut.obs = _ from shows hne i2, shows hne h2]

/-- C63 fails: of a finished buffer of exactly 2 GiB (in an allocation with a byte more) nothing at all is parsed, for every
schema, parser and content; the loop ends with `BufferOutOfBounds`. -/
theorem C63_refuted (hC : s.Compiled addr t L) (hv : s.vars ≠ []) {p : BufferParser} (hI : p.Idle t L) (ptr : Nat)
    {content : List Nat} (hlen : 2 ^ 31 < content.length) {k : Nat} (hk : 0 < k) :
    (p.parseBuffer32 k ptr content (2 ^ 31) true).events = [] ∧ (p.parseBuffer32 k ptr content (2 ^ 31) true).status = some .oob := by
  obtain ⟨h1, _, h3⟩ := C63_half hC hv hI true ptr (content := content) (size := 2 ^ 31) (m := 0) (by decide) (by omega) hk
  refine ⟨?_, h1⟩
  obtain ⟨_, xs, _, _, _, hx, h5, _⟩ := buffer_facts hC hv hI false ptr (content := content) (size := 0) (Nat.zero_le _)
    (fun h => by cases h) hk hk {} (InBuf.init (fun _ => []) 0 0)
  obtain ⟨_, hx2, _⟩ := hx rfl
  have : xs = [] := by
    cases xs with
    | nil => rfl
    | cons x xs => exact absurd (hx2 x (by simp)) (by omega)
  subst this
  have h6 : (p.parseBuffer k ptr content 0 false).events = [] := by
    cases he : (p.parseBuffer k ptr content 0 false).events with
    | nil => rfl
    | cons o os => rw [he] at h5; simp only [segment] at h5; cases h5
  rw [h6] at h3
  exact List.map_eq_nil_iff.mp h3

set_option maxRecDepth 100000 in
/-- The conditions of C63_refuted are met: the schema `evSchema` with a new parser and `2^31 + 1` bytes `b`.  (The parser of
natural numbers does return an event for such a buffer, e.g. `C01_lossless_partial`.) -/
theorem C63_refuted_case : ∃ (s : SchemaAST) (t : ParserTables) (L : Lexer) (p : BufferParser), s.Compiled id t L ∧ s.vars ≠ [] ∧
    p.Idle t L ∧ ∀ k, 0 < k → (p.parseBuffer32 k 1 (List.replicate (2 ^ 31 + 1) 98) (2 ^ 31) true).events = [] := by
  obtain ⟨t, L, p, h1, h2, h3⟩ := newParser_spec evSchema_sensible (by decide +kernel)
  exact ⟨evSchema, t, L, p, h1, by simp [evSchema], h3, fun k hk =>
    (C63_refuted h1 (by simp [evSchema]) h3 1 (by rw [List.length_replicate]; omega) hk).1⟩

end LogSurgeon
