import Verif.Proofs.BufferStart
import Verif.Props.Lexing
/-
C01, C02, C03 (events), C19, C20, C21, C22, C37, C41: parsing a buffer with `BufferParser`.

The reader needs: `Spec/Events.lean` (`BufferParser.parseBuffer`: `reset`, then `parse_next_event` until done or error;
`segment`: how a token sequence is divided into events; `EventOut.Shows`: the view shows an event), `Spec/Lexing.lean`
(`Lexer.lexAll`: the tokens of a text), `Spec/Schema.lean` (`Compiled`) and the model of the parser.

Everywhere `content` is the content of the allocation `ptr`, of which the first `size` bytes are the input; `k` is the number
of calls that are allowed; `p` is a parser that was used in any way before (`Idle`, see `idle_new`, `idle_parseBuffer`).
-/
namespace LogSurgeon

variable {s : SchemaAST} {addr : Nat → Nat} {t : ParserTables} {L : Lexer}

/-- A new parser is idle. -/
theorem idle_new {mem : Mem} {inStatic outStatic : Nat} {p : BufferParser} (hb : buildLexer s addr = .ok (t, L))
    (h : BufferParser.new s addr mem inStatic outStatic = .ok p) (ho : 3 ≤ outStatic) : p.Idle t L := by
  unfold BufferParser.new LogParser.new at h
  rw [hb] at h
  cases h
  exact ⟨rfl, rfl, ho, rfl⟩

/-- After a parse that ran until done or out of bytes, the parser is idle again. -/
theorem idle_parseBuffer (hC : s.Compiled addr t L) (hv : s.vars ≠ []) {p : BufferParser} (hI : p.Idle t L) (fin : Bool)
    (ptr : Nat) {content : List Nat} {size : Nat} (hsize : size ≤ content.length) (hslack : fin = true → size < content.length)
    {k : Nat} (hk : size < k) : (p.parseBuffer k ptr content size fin).parser.Idle t L := by
  obtain ⟨q, _, _, h⟩ := parseBuffer_spec hC hv
  exact (h hI fin ptr hsize hslack hk).idle

/-- Everything about a parse of a buffer: there are the tokens of the text, and the events are those of the tokens. -/
theorem buffer_facts (hC : s.Compiled addr t L) (hv : s.vars ≠ []) {p : BufferParser} (hI : p.Idle t L) (fin : Bool)
    (ptr : Nat) {content : List Nat} {size : Nat} (hsize : size ≤ content.length) (hslack : fin = true → size < content.length)
    {k : Nat} (hk : size < k) {k2 : Nat} (hk2 : size < k2) (st : LexState) (b : InBuf) :
    (p.parseBuffer k ptr content size fin).status = (if fin then none else some .oob) ∧
    ∃ xs, (L.lexAll k2 st b ptr content size fin).1.map Token.range = xs.map some ∧
      (∀ x ∈ xs, x.ty = [tokenUncaught] ∨ x = ⟨size, size, [tokenEnd]⟩ ∨ L.Recognised (content.take size) x) ∧
      (fin = true → EndLast xs ∧ xs.flatMap (PTok.text (content.take size)) = content.take size ∧ xs.length ≤ size + 1) ∧
      (fin = false → NoEnd xs ∧ (∀ x ∈ xs, x.a < size) ∧ xs.flatMap (PTok.text (content.take size)) <+: content.take size ∧
        ∃ n, n ≤ size ∧ (segment (content.take size) none xs).flatMap (PEvent.text (content.take size)) = content.take n ∧
          Ctx.OffsetIs (p.parseBuffer k ptr content size fin).offset n (segmentRest (content.take size) none xs)) ∧
      List.Forall₂ (fun o e => EventOut.Shows o (content.take size) e) (p.parseBuffer k ptr content size fin).events
        (segment (content.take size) none xs) ∧
      ∀ e ∈ segment (content.take size) none xs, (∀ x ∈ e.toks, x.e ≤ size) ∧
        ∀ (i : Nat) (x : PTok), 0 < i → e.toks[i]? = some x → x.a < size := by
  obtain ⟨q, hq, hqa, hspec⟩ := parseBuffer_spec hC hv
  obtain ⟨h1, h2, h3, _⟩ := hspec hI fin ptr hsize hslack hk
  have h := buildLexer_ok hC.ok
  have hL := h.nlOk hC.sensible hC.inj
  have hT := h.typesProper hC.sensible
  have hl : (content.take size).length = size := by simp [hsize]
  have hc : CfgOk L (content.take size) (.sof q) := ⟨hq, hqa⟩
  have hcov : (Cfg.sof q).cov = 0 := rfl
  obtain ⟨_, g2⟩ := lexAll_pure hL hT hq hqa st b ptr hsize fin k2
  have htoks : L.toks (content.take size) fin (.sof q) = L.pureAll (content.take size) fin k2 (.sof q) :=
    pureAll_fuel hL hT _ _ _ hc (by simp [Cfg.cov]) (by omega) (by rw [hcov]; omega)
  have hsound := pureAll_sound hL (fin := fin) k2 _ hc
  rw [← htoks, hl] at hsound
  refine ⟨h1, _, by rw [htoks]; exact ranges_of_rel g2, hsound, fun hf => ?_, fun hf => ?_, ?_, ?_⟩
  · subst hf
    obtain ⟨_, h4⟩ := pureAll_tiles hL hT k2 (.sof q) hc (by simp [Cfg.cov]) (by rw [hcov]; omega)
    rw [← htoks] at h4
    refine ⟨endLast_of_tiles (s := content.take size) hT h4 (by rw [hl]; exact hsound), ?_, ?_⟩
    · exact (Tiles.flat h4).trans (by rw [hcov]; rfl)
    · rw [hl, hcov] at h4
      have : ∀ {xs : List PTok} {p n : Nat}, Tiles p n xs → xs.length ≤ n - p + 1 := by
        intro xs
        induction xs with
        | nil => intro p n h; simp
        | cons x xs ih =>
          intro p n h
          cases xs with
          | nil => simp
          | cons y ys =>
            obtain ⟨a1, a2, a3, a4⟩ := h
            have i1 := ih a4
            have i2 := a4.le.1
            simp only [List.length_cons] at *
            omega
      exact this h4
  · subst hf
    obtain ⟨_, p', hp', h4⟩ := pureAll_unfin hL hT k2 (.sof q) hc (by simp [Cfg.cov]) (by rw [hcov]; omega)
      (fun a e ty h => by cases h)
    rw [← htoks] at h4
    obtain ⟨a1, a2, a3⟩ := noEnd_of_tiles (s := content.take size) hT h4 (by rw [hl]; exact hsound)
    refine ⟨a1, fun x hx => by have := a3 x hx; omega, ?_, h3 rfl⟩
    have key : ∀ {xs : List PTok} {p n : Nat}, TilesTo p n xs →
        xs.flatMap (PTok.text (content.take size)) = slice (content.take size) p n ∧ p ≤ n := by
      intro xs
      induction xs with
      | nil => intro p n h; have h : p = n := h; subst h; simp [slice]
      | cons x xs ih =>
        intro p n h
        obtain ⟨b1, b2, b3, b4⟩ := h
        obtain ⟨i1, i2⟩ := ih b4
        rw [List.flatMap_cons, i1, PTok.text, b1, slice_split (by omega) i2]
        exact ⟨rfl, by omega⟩
    rw [(key h4).1, hcov]
    simp only [slice, List.drop_zero, Nat.sub_zero]
    exact List.take_prefix _ _
  · have hne := segment_nonempty (s := content.take size) (L.toks (content.take size) fin (.sof q)).1 none
      (fun e h => by cases h)
    generalize segment (content.take size) none (L.toks (content.take size) fin (.sof q)).1 = es at h2 hne
    generalize (p.parseBuffer k ptr content size fin).events = os at h2
    clear h1 h3
    induction h2 with
    | nil => exact .nil
    | @cons o e os es ho _ ih =>
      exact .cons (Ctx.EvOut.shows ho (hne e (by simp))) (ih (fun e' he' => hne e' (by simp [he'])))

  · intro e he
    obtain ⟨o, _, ho⟩ := forall₂_right h2 e he
    exact ⟨fun x hx => (ho.ev.out.good x hx).stop, ho.ev.out.inner⟩

theorem shows_texts {text : List Nat} {os : List EventOut} {es : List PEvent}
    (h : List.Forall₂ (fun o e => EventOut.Shows o text e) os es) :
    os.map (·.text) = (es.map (PEvent.text text)).map some := by
  induction h with
  | nil => rfl
  | cons h _ ih => simp [h.text, ih]

/-! ### C01, C02 -/

/-- C01: the texts of the events of a finished input concatenate to the input: nothing is lost, duplicated or reordered;
and the loop ends regularly.  (Partial: the allocation must be longer than the input, see `C01_refuted`.) -/
theorem C01_lossless_partial (hC : s.Compiled addr t L) (hv : s.vars ≠ []) {p : BufferParser} (hI : p.Idle t L) (ptr : Nat)
    {content : List Nat} {size : Nat} (hsize : size < content.length) {k : Nat} (hk : size < k) :
    (p.parseBuffer k ptr content size true).status = none ∧
    ∃ texts : List (List Nat), (p.parseBuffer k ptr content size true).events.map (·.text) = texts.map some ∧
      texts.flatten = content.take size := by
  obtain ⟨h1, xs, _, _, h3, _, h5, _⟩ := buffer_facts hC hv hI true ptr (by omega) (fun _ => hsize) hk hk {} (InBuf.init (fun _ => []) 0 0)
  obtain ⟨h3, h4, _⟩ := h3 rfl
  refine ⟨h1, _, shows_texts h5, ?_⟩
  have := segment_text (s := content.take size) xs none h3
  rw [List.flatMap_def] at this
  rw [this, h4]; rfl

/-- C02: the loop over a finished input ends regularly (never out of bytes) after at most `size + 1` calls. -/
theorem C02_terminates_partial (hC : s.Compiled addr t L) (hv : s.vars ≠ []) {p : BufferParser} (hI : p.Idle t L) (ptr : Nat)
    {content : List Nat} {size : Nat} (hsize : size < content.length) {k : Nat} (hk : size < k) :
    (p.parseBuffer k ptr content size true).status = none ∧
    (p.parseBuffer k ptr content size true).events.length ≤ size + 1 := by
  obtain ⟨h1, xs, _, _, h3, _, h5, _⟩ := buffer_facts hC hv hI true ptr (by omega) (fun _ => hsize) hk hk {} (InBuf.init (fun _ => []) 0 0)
  refine ⟨h1, ?_⟩
  rw [h5.length_eq]
  exact Nat.le_trans (segment_length _ _) (h3 rfl).2.2

/-! ### C03 -/

/-- C03: for an unfinished input the loop ends out of bytes, and the texts of the events returned before are a prefix of the
input. -/
theorem C03_prefix (hC : s.Compiled addr t L) (hv : s.vars ≠ []) {p : BufferParser} (hI : p.Idle t L) (ptr : Nat)
    {content : List Nat} {size : Nat} (hsize : size ≤ content.length) {k : Nat} (hk : size < k) :
    (p.parseBuffer k ptr content size false).status = some .oob ∧
    ∃ texts : List (List Nat), (p.parseBuffer k ptr content size false).events.map (·.text) = texts.map some ∧
      texts.flatten <+: content.take size := by
  obtain ⟨h1, xs, _, _, _, h3, h5, _⟩ := buffer_facts hC hv hI false ptr hsize (fun h => by cases h) hk hk {} (InBuf.init (fun _ => []) 0 0)
  obtain ⟨_, _, _, n, h4, h6, _⟩ := h3 rfl
  refine ⟨h1, _, shows_texts h5, ?_⟩
  rw [← List.flatMap_def, h6]
  exact List.take_prefix_take_left h4

open Classical in
/-- What an event shows. -/
noncomputable def PEvent.obs (s : List Nat) (e : PEvent) : Obs where
  ts := e.ts
  timestamp := if e.ts then e.toks.head? else none
  tokens := e.toks.map some
  text := some (e.text s)
  multiline := decide (e.multiline s)
  vars := fun id => (e.toks.filter fun x => x.kind == id).map some

theorem EventOut.Shows.obs {o : EventOut} {s : List Nat} {e : PEvent} (h : o.Shows s e) : o.obs = e.obs s := by
  unfold EventOut.obs PEvent.obs
  rw [h.ts, h.tokens, h.text, h.timestamp]
  congr 1
  · rw [Bool.eq_iff_iff, h.multiline]; simp
  · exact funext h.occ

theorem shows_obs {text : List Nat} {os : List EventOut} {es : List PEvent}
    (h : List.Forall₂ (fun o e => EventOut.Shows o text e) os es) : os.map EventOut.obs = es.map (PEvent.obs text) := by
  induction h with
  | nil => rfl
  | cons h _ ih => simp [h.obs, ih]

theorem obs_extend {text more : List Nat} {e : PEvent} (h1 : ∀ x ∈ e.toks, x.e ≤ text.length)
    (h2 : ∀ (i : Nat) (x : PTok), 0 < i → e.toks[i]? = some x → x.a < text.length) : e.obs (text ++ more) = e.obs text := by
  unfold PEvent.obs
  have ht : e.text (text ++ more) = e.text text := by
    apply List.flatMap_congr
    intro x hx
    have := slice_take (s := text ++ more) (n := text.length) (a := x.a) (h1 x hx)
    rw [List.take_left] at this
    exact this.symm
  have hm : e.multiline (text ++ more) ↔ e.multiline text := by
    have : ∀ (i : Nat) (x : PTok), 0 < i → e.toks[i]? = some x → x.startsNl (text ++ more) = x.startsNl text := by
      intro i x hi hx
      unfold PTok.startsNl
      rw [List.getElem?_append_left (h2 i x hi hx)]
    constructor
    · rintro ⟨a, i, x, b, c, d, f⟩
      exact ⟨a, i, x, b, c, d, by rw [← this i x b d]; exact f⟩
    · rintro ⟨a, i, x, b, c, d, f⟩
      exact ⟨a, i, x, b, c, d, by rw [this i x b d]; exact f⟩
  rw [ht]
  congr 1
  rw [propext hm]

/-- C03: the events returned for an unfinished input do not depend on what follows: they are the first events of every
continuation of the input, finished or not. -/
theorem C03_events (hC : s.Compiled addr t L) (hv : s.vars ≠ []) {p : BufferParser} (hI : p.Idle t L) (ptr : Nat)
    {content : List Nat} {size : Nat} (hsize : size ≤ content.length) {k : Nat} (hk : size < k)
    {p' : BufferParser} (hI' : p'.Idle t L) (ptr' : Nat) {content' : List Nat} {size' : Nat} (hsize' : size' ≤ content'.length)
    (fin : Bool) (hslack : fin = true → size' < content'.length) {k' : Nat} (hk' : size' < k')
    (hext : content.take size <+: content'.take size') :
    (p.parseBuffer k ptr content size false).events.map EventOut.obs <+:
      (p'.parseBuffer k' ptr' content' size' fin).events.map EventOut.obs := by
  have hl : (content.take size).length = size := by simp [hsize]
  have hle : size ≤ size' := by
    have := hext.length_le
    simp [hsize, hsize'] at this
    omega
  obtain ⟨_, xs, h2, _, _, h3, h5, h6⟩ := buffer_facts hC hv hI false ptr hsize (fun h => by cases h) hk
    (k2 := size + 1) (by omega) {} (InBuf.init (fun _ => []) 0 0)
  obtain ⟨_, ys, g2, _, _, _, g5, _⟩ := buffer_facts hC hv hI' fin ptr' hsize' hslack hk'
    (k2 := size' + 1) (by omega) {} (InBuf.init (fun _ => []) 0 0)
  obtain ⟨a1, a2, _⟩ := h3 rfl
  have hp := (C03_tokens_prefix hC hv {} (InBuf.init (fun _ => []) 0 0) ptr hsize (k := size + 1) (by omega) {}
    (InBuf.init (fun _ => []) 0 0) ptr' hsize' (k' := size' + 1) (by omega) hext fin).2
  rw [h2, g2] at hp
  have hxy : xs <+: ys := by
    obtain ⟨r, hr⟩ := hp
    obtain ⟨l1, l2, rfl, hl1, _⟩ := List.append_eq_map_iff.mp hr
    have hinj : xs = l1 := (List.map_injective_iff.mpr (Option.some_injective _)) hl1.symm
    rw [hinj]; exact List.prefix_append _ _
  obtain ⟨r, hr⟩ := hext
  rw [shows_obs h5, shows_obs g5, ← hr]
  obtain ⟨es, hes⟩ := segment_prefix (s := content.take size) (t := r) xs ys none a1 hxy (by rw [hl]; exact a2)
  rw [← hes, List.map_append]
  have : (segment (content.take size) none xs).map (PEvent.obs (content.take size)) =
      (segment (content.take size) none xs).map (PEvent.obs (content.take size ++ r)) := by
    apply List.map_congr_left
    intro e he
    obtain ⟨b1, b2⟩ := h6 e he
    exact (obs_extend (by rw [hl]; exact b1) (by rw [hl]; exact b2)).symm
  rw [this]
  exact List.prefix_append _ _

/-! ### C19 -/

/-- C19: the events of a buffer are the tokens of the text (`Lexer.lexAll`), divided as `segment` says; for an unfinished
input likewise. -/
theorem C19_events (hC : s.Compiled addr t L) (hv : s.vars ≠ []) {p : BufferParser} (hI : p.Idle t L) (fin : Bool)
    (ptr : Nat) {content : List Nat} {size : Nat} (hsize : size ≤ content.length) (hslack : fin = true → size < content.length)
    {k : Nat} (hk : size < k) (st : LexState) (b : InBuf) :
    ∃ xs, (L.lexAll k st b ptr content size fin).1.map Token.range = xs.map some ∧
      List.Forall₂ (fun o e => EventOut.Shows o (content.take size) e) (p.parseBuffer k ptr content size fin).events
        (segment (content.take size) none xs) := by
  obtain ⟨_, xs, h2, _, _, _, h5, _⟩ := buffer_facts hC hv hI fin ptr hsize hslack hk hk st b
  exact ⟨xs, h2, h5⟩

/-- C19: every event has the right shape, and successive events fit together (`PEvent.Shape`, `PEvent.Next`): an event with a
timestamp extends up to and including the newline before the next timestamp, with which the next event begins; an
event without timestamp ends with the first newline after its first token. -/
theorem C19_shape (hC : s.Compiled addr t L) (hv : s.vars ≠ []) (hres : s.NlReserved) {p : BufferParser} (hI : p.Idle t L)
    (fin : Bool) (ptr : Nat) {content : List Nat} {size : Nat} (hsize : size ≤ content.length)
    (hslack : fin = true → size < content.length) {k : Nat} (hk : size < k) :
    ∃ es, List.Forall₂ (fun o e => EventOut.Shows o (content.take size) e) (p.parseBuffer k ptr content size fin).events es ∧
      (∀ e ∈ es, e.Shape (content.take size)) ∧ es.IsChain (PEvent.Next (content.take size)) := by
  obtain ⟨_, xs, _, h3, _, _, h5, _⟩ := buffer_facts hC hv hI fin ptr hsize hslack hk hk {} (InBuf.init (fun _ => []) 0 0)
  have hl : (content.take size).length = size := by simp [hsize]
  refine ⟨_, h5, segment_shape xs none (fun x hx => ?_) trivial⟩
  exact nlToks (buildLexer_ok hC.ok) hC.sensible hC.inj hres (by rw [hl]; exact h3 x hx)

/-! ### C20 -/

/-- C20: `is_multiline` holds iff the event has a timestamp and a token that is neither the first nor the last begins with a
newline. -/
theorem C20_multiline (hC : s.Compiled addr t L) (hv : s.vars ≠ []) {p : BufferParser} (hI : p.Idle t L) (fin : Bool)
    (ptr : Nat) {content : List Nat} {size : Nat} (hsize : size ≤ content.length) (hslack : fin = true → size < content.length)
    {k : Nat} (hk : size < k) {o : EventOut} (ho : o ∈ (p.parseBuffer k ptr content size fin).events) :
    o.view.multiline = true ↔ o.view.getTimestamp.isSome = true ∧
      ∃ (i : Nat) (x : Token), 0 < i ∧ i + 1 < o.view.tokens.length ∧ o.view.tokens[i]? = some x ∧
        content[x.startPos]? = some newline := by
  obtain ⟨_, xs, _, _, _, _, h5, h6⟩ := buffer_facts hC hv hI fin ptr hsize hslack hk hk {} (InBuf.init (fun _ => []) 0 0)
  obtain ⟨e, he, hs⟩ := forall₂_left h5 o ho
  obtain ⟨_, hin⟩ := h6 e he
  have hts : o.view.getTimestamp.isSome = true ↔ e.ts = true := by
    unfold EventView.getTimestamp
    rw [hs.ts]
    cases e.ts <;> simp
  have hlen : o.view.tokens.length = e.toks.length := by
    have := congrArg List.length hs.tokens
    simpa using this
  rw [hs.multiline, hts, hlen]
  unfold PEvent.multiline
  have hget : ∀ i : Nat, (o.view.tokens[i]?).map Token.range = (e.toks[i]?).map some := by
    intro i
    rw [← List.getElem?_map, ← List.getElem?_map, hs.tokens]
  constructor
  · rintro ⟨a, i, x, b, c, d, f⟩
    have hg := hget i
    rw [d] at hg
    cases htk : o.view.tokens[i]? with
    | none => rw [htk] at hg; cases hg
    | some tk =>
      rw [htk] at hg
      simp only [Option.map_some, Option.some.injEq, Token.range, Option.map_eq_some_iff] at hg
      obtain ⟨ty, _, hx⟩ := hg
      refine ⟨a, i, tk, b, c, htk, ?_⟩
      have ha : tk.startPos = x.a := by rw [← hx]
      rw [ha]
      unfold PTok.startsNl at f
      rw [List.getElem?_take_of_lt (hin i x b d)] at f
      simpa using f
  · rintro ⟨a, i, tk, b, c, d, f⟩
    have hg := hget i
    rw [d] at hg
    cases hx : e.toks[i]? with
    | none => rw [hx] at hg; cases hg
    | some x =>
      rw [hx] at hg
      simp only [Option.map_some, Option.some.injEq, Token.range, Option.map_eq_some_iff] at hg
      obtain ⟨ty, _, hx'⟩ := hg
      refine ⟨a, i, x, b, c, hx, ?_⟩
      have ha : tk.startPos = x.a := by rw [← hx']
      unfold PTok.startsNl
      rw [List.getElem?_take_of_lt (hin i x b hx), ← ha, f]; rfl

/-! ### C41 -/

/-- C41: the occurrences listed for a type are the tokens of the event with this (first) type, all of them, in order. -/
theorem C41_occurrences (hC : s.Compiled addr t L) (hv : s.vars ≠ []) {p : BufferParser} (hI : p.Idle t L) (fin : Bool)
    (ptr : Nat) {content : List Nat} {size : Nat} (hsize : size ≤ content.length) (hslack : fin = true → size < content.length)
    {k : Nat} (hk : size < k) {o : EventOut} (ho : o ∈ (p.parseBuffer k ptr content size fin).events) (id : Nat) :
    (o.view.occ id).map (fun i => (o.view.out.get i).range) =
      (o.view.tokens.map Token.range).filter fun r => r.any fun x => x.kind == id := by
  obtain ⟨_, xs, _, _, _, _, h5, _⟩ := buffer_facts hC hv hI fin ptr hsize hslack hk hk {} (InBuf.init (fun _ => []) 0 0)
  obtain ⟨e, he, hs⟩ := forall₂_left h5 o ho
  rw [hs.occ, hs.tokens, List.filter_map]
  rfl

/-! ### C21 -/

/-- C21: after `reset`, an input gives the same events whatever the parser was used for before, as long as the previous
parse ran until done or out of bytes (`Idle`).  (Partial: see `C21_refuted`.) -/
theorem C21_history_partial (hC : s.Compiled addr t L) (hv : s.vars ≠ []) {p p' : BufferParser} (hI : p.Idle t L)
    (hI' : p'.Idle t L) (fin : Bool) (ptr : Nat) {content : List Nat} {size : Nat} (hsize : size ≤ content.length)
    (hslack : fin = true → size < content.length) {k : Nat} (hk : size < k) :
    (p.parseBuffer k ptr content size fin).status = (p'.parseBuffer k ptr content size fin).status ∧
    (p.parseBuffer k ptr content size fin).events.map EventOut.obs =
      (p'.parseBuffer k ptr content size fin).events.map EventOut.obs := by
  obtain ⟨h1, xs, h2, _, _, _, h5, _⟩ := buffer_facts hC hv hI fin ptr hsize hslack hk hk {} (InBuf.init (fun _ => []) 0 0)
  obtain ⟨g1, ys, g2, _, _, _, g5, _⟩ := buffer_facts hC hv hI' fin ptr hsize hslack hk hk {} (InBuf.init (fun _ => []) 0 0)
  have : xs = ys := (List.map_injective_iff.mpr (Option.some_injective _)) (h2.symm.trans g2)
  subst this
  exact ⟨h1.trans g1.symm, by rw [shows_obs h5, shows_obs g5]⟩

/-! ### C22 -/

/-- C22: when the bytes run out and no event is in progress, or one with a timestamp, the offset is the total length of the
events returned, so the caller can go on from there.  (Partial: see `C22_refuted` and `C22_success_refuted`.) -/
theorem C22_offset_partial (hC : s.Compiled addr t L) (hv : s.vars ≠ []) {p : BufferParser} (hI : p.Idle t L)
    (ptr : Nat) {content : List Nat} {size : Nat} (hsize : size ≤ content.length) {k : Nat} (hk : size < k) (st : LexState) (b : InBuf)
    {xs : List PTok} (hxs : (L.lexAll k st b ptr content size false).1.map Token.range = xs.map some)
    (hts : ∀ e, segmentRest (content.take size) none xs = some e → e.ts = true) :
    ∃ texts : List (List Nat), (p.parseBuffer k ptr content size false).events.map (·.text) = texts.map some ∧
      texts.flatten = content.take (p.parseBuffer k ptr content size false).offset ∧
      (p.parseBuffer k ptr content size false).offset ≤ size := by
  obtain ⟨h1, ys, h2, _, _, h3, h5, _⟩ := buffer_facts hC hv hI false ptr hsize (fun h => by cases h) hk hk st b
  have : ys = xs := (List.map_injective_iff.mpr (Option.some_injective _)) (h2.symm.trans hxs)
  subst this
  obtain ⟨_, _, _, n, h4, h6, h7⟩ := h3 rfl
  have hoff : (p.parseBuffer k ptr content size false).offset = n := by
    cases hr : segmentRest (content.take size) none ys with
    | none => rw [hr] at h7; exact h7
    | some e => rw [hr] at h7; exact h7 (hts e hr)
  refine ⟨_, shows_texts h5, ?_, by omega⟩
  rw [← List.flatMap_def, h6, hoff]

/-! ### C37 -/

/-- C37: with at least one variable or timestamp, no call runs into undefined behaviour or an exception. -/
theorem C37_safe_partial (hC : s.Compiled addr t L) (hv : s.vars ≠ []) {p : BufferParser} (hI : p.Idle t L) (fin : Bool)
    (ptr : Nat) {content : List Nat} {size : Nat} (hsize : size ≤ content.length) (hslack : fin = true → size < content.length)
    {k : Nat} (hk : size < k) :
    (p.parseBuffer k ptr content size fin).status = none ∨ (p.parseBuffer k ptr content size fin).status = some .oob := by
  obtain ⟨h1, _⟩ := buffer_facts hC hv hI fin ptr hsize hslack hk hk {} (InBuf.init (fun _ => []) 0 0)
  rw [h1]
  cases fin <;> simp

/-! ### Where the code falls short

A schema with delimiters blank and newline, `timestamp:T` and `x:b`. -/

def evSchema : SchemaAST where
  delims := [[32, 10]]
  vars := [⟨"timestamp", .literal [] 84⟩, ⟨"x", .literal [] 98⟩]

theorem evSchema_sensible : evSchema.Sensible := by
  intro v hv
  simp only [evSchema, List.mem_cons, List.not_mem_nil, or_false] at hv
  rcases hv with rfl | rfl
  · exact ⟨(by decide : '$' ∉ "timestamp".toList), .lit 84, rfl, trivial⟩
  · exact ⟨(by decide : '$' ∉ "x".toList), .lit 98, rfl, trivial⟩

/-- A new parser for a schema, for evaluation. -/
def newParser (s : SchemaAST) : Option BufferParser :=
  match BufferParser.new s id (fun _ => []) 100 10 with | .ok p => some p | .error _ => none

theorem newParser_spec {s : SchemaAST} (hs : s.Sensible) (h : (newParser s).isSome = true) :
    ∃ t L p, s.Compiled id t L ∧ newParser s = some p ∧ p.Idle t L := by
  unfold newParser at *
  cases hb : buildLexer s id with
  | error e => simp [BufferParser.new, LogParser.new, hb] at h
  | ok x =>
    obtain ⟨t, L⟩ := x
    cases hp : BufferParser.new s id (fun _ => []) 100 10 with
    | error e => rw [hp] at h; cases h
    | ok p => exact ⟨t, L, p, ⟨hs, fun _ _ h => h, hb⟩, rfl, idle_new hb hp (by decide)⟩

/-- The hypotheses are met: `T b\nT\n`, with one more byte behind it. -/
example : ∃ t L p, evSchema.Compiled id t L ∧ evSchema.vars ≠ [] ∧ evSchema.NlReserved ∧ BufferParser.Idle p t L ∧
    6 < [84, 32, 98, 10, 84, 10, 0].length := by
  obtain ⟨t, L, p, h1, _, h2⟩ := newParser_spec evSchema_sensible (by decide +kernel)
  refine ⟨t, L, p, h1, by simp [evSchema], ?_, h2, by simp⟩
  intro v hv
  simp only [evSchema, List.mem_cons, List.not_mem_nil, or_false] at hv
  rcases hv with rfl | rfl <;> decide

set_option maxRecDepth 100000 in
/-- What the parser does with this text: two events. -/
example : (newParser evSchema).map (fun p => (p.parseBuffer 10 1 [84, 32, 98, 10, 84, 10, 97, 0] 7 true).events.map
    fun o => (o.text, o.view.out.hasTimestamp, o.view.multiline)) =
    some [(some [84, 32, 98, 10], true, false), (some [84, 10, 97], true, true)] := by decide +kernel

set_option maxRecDepth 100000 in
/-- C01 and C02 fail when the allocation is exactly as long as the input: at the end of an event without timestamp the parser
reads the byte behind the input (`get_char(0)` of the end token, LogParser.cpp:236-240). -/
theorem C01_refuted : ∃ (s : SchemaAST) (t : ParserTables) (L : Lexer) (p : BufferParser), s.Compiled id t L ∧ s.vars ≠ [] ∧
    p.Idle t L ∧ (p.parseBuffer 10 1 [97] 1 true).status = some .ub := by
  obtain ⟨t, L, p, h1, h2, h3⟩ := newParser_spec evSchema_sensible (by decide +kernel)
  refine ⟨evSchema, t, L, p, h1, by simp [evSchema], h3, ?_⟩
  have : (newParser evSchema).map (fun p => (p.parseBuffer 10 1 [97] 1 true).status) = some (some .ub) := by decide +kernel
  rw [h2] at this
  simpa using this

set_option maxRecDepth 100000 in
/-- C21 fails when a parse is abandoned: after one event of `T\nT\n`, `reset` and a parse of `abc` gives a different text
than a parser that was not used before (`reset` does not clear the token kept for the next event). -/
theorem C21_refuted : ∃ (s : SchemaAST) (t : ParserTables) (L : Lexer) (p : BufferParser), s.Compiled id t L ∧ s.vars ≠ [] ∧
    p.Idle t L ∧ (p.reset.parseNextEvent 1 [84, 10, 84, 10, 0] 4 0 true).2.2 = .ok () ∧
    (p.parseBuffer 10 1 [97, 98, 99, 0] 3 true).events.map (·.text) = [some [97, 98, 99]] ∧
    ((p.reset.parseNextEvent 1 [84, 10, 84, 10, 0] 4 0 true).1.parseBuffer 10 1 [97, 98, 99, 0] 3 true).events.map (·.text)
      = [some [99, 97, 98, 99]] := by
  obtain ⟨t, L, p, h1, h2, h3⟩ := newParser_spec evSchema_sensible (by decide +kernel)
  refine ⟨evSchema, t, L, p, h1, by simp [evSchema], h3, ?_⟩
  have : (newParser evSchema).map (fun p => decide (
      (p.reset.parseNextEvent 1 [84, 10, 84, 10, 0] 4 0 true).2.2.toOption = some () ∧
      (p.parseBuffer 10 1 [97, 98, 99, 0] 3 true).events.map (·.text) = [some [97, 98, 99]] ∧
    ((p.reset.parseNextEvent 1 [84, 10, 84, 10, 0] 4 0 true).1.parseBuffer 10 1 [97, 98, 99, 0] 3 true).events.map (·.text)
      = [some [99, 97, 98, 99]])) = some true := by decide +kernel
  rw [h2] at this
  simp only [Option.map_some, Option.some.injEq, decide_eq_true_eq] at this
  refine ⟨?_, this.2⟩
  have h := this.1
  generalize (p.reset.parseNextEvent 1 [84, 10, 84, 10, 0] 4 0 true).2.2 = r at h
  cases r with
  | ok u => rfl
  | error e => cases h

set_option maxRecDepth 100000 in
/-- C22 fails when the bytes run out inside an event without timestamp: for `a\nb a` the event `a\n` is returned, but the offset
is 0 (the start of a token that is not part of the event), so going on from there would return `a\n` again. -/
theorem C22_refuted : ∃ (s : SchemaAST) (t : ParserTables) (L : Lexer) (p : BufferParser), s.Compiled id t L ∧ s.vars ≠ [] ∧
    p.Idle t L ∧ (p.parseBuffer 10 1 [97, 10, 98, 32, 97] 5 false).events.map (·.text) = [some [97, 10]] ∧
    (p.parseBuffer 10 1 [97, 10, 98, 32, 97] 5 false).status = some .oob ∧
    (p.parseBuffer 10 1 [97, 10, 98, 32, 97] 5 false).offset = 0 := by
  obtain ⟨t, L, p, h1, h2, h3⟩ := newParser_spec evSchema_sensible (by decide +kernel)
  refine ⟨evSchema, t, L, p, h1, by simp [evSchema], h3, ?_⟩
  have : (newParser evSchema).map (fun p => decide (
    (p.parseBuffer 10 1 [97, 10, 98, 32, 97] 5 false).events.map (·.text) = [some [97, 10]] ∧
    (p.parseBuffer 10 1 [97, 10, 98, 32, 97] 5 false).status = some .oob ∧
    (p.parseBuffer 10 1 [97, 10, 98, 32, 97] 5 false).offset = 0)) = some true := by decide +kernel
  rw [h2] at this
  simpa only [Option.map_some, Option.some.injEq, decide_eq_true_eq] using this

set_option maxRecDepth 100000 in
/-- C22 fails for Success as well: after the event `T x\n` of `T x\nT y` the offset is 5, although the next event starts at 4:
the offset is the position of the lexer, which has already read the next timestamp. -/
theorem C22_success_refuted : ∃ (s : SchemaAST) (t : ParserTables) (L : Lexer) (p : BufferParser), s.Compiled id t L ∧ s.vars ≠ [] ∧
    p.Idle t L ∧ (p.parseBuffer 10 1 [84, 32, 120, 10, 84, 32, 121, 0] 7 true).events.map (fun o => (o.text, o.offset)) =
      [(some [84, 32, 120, 10], 5), (some [84, 32, 121], 7)] := by
  obtain ⟨t, L, p, h1, h2, h3⟩ := newParser_spec evSchema_sensible (by decide +kernel)
  refine ⟨evSchema, t, L, p, h1, by simp [evSchema], h3, ?_⟩
  have : (newParser evSchema).map (fun p => (p.parseBuffer 10 1 [84, 32, 120, 10, 84, 32, 121, 0] 7 true).events.map
    (fun o => (o.text, o.offset))) = some [(some [84, 32, 120, 10], 5), (some [84, 32, 121], 7)] := by decide +kernel
  rw [h2] at this
  simpa using this

/-- Only delimiters. -/
def bareSchema : SchemaAST where
  delims := [[32, 10]]
  vars := []

set_option maxRecDepth 100000 in
/-- C37 fails for a schema without variables and timestamps: the first call after `reset` uses a null pointer. -/
theorem C37_refuted : ∃ (s : SchemaAST) (t : ParserTables) (L : Lexer) (p : BufferParser), s.Compiled id t L ∧
    p.Idle t L ∧ (p.parseBuffer 10 1 [97, 0] 1 true).status = some .ub := by
  obtain ⟨t, L, p, h1, h2, h3⟩ := newParser_spec (s := bareSchema) (fun v hv => by cases hv) (by decide +kernel)
  refine ⟨bareSchema, t, L, p, h1, h3, ?_⟩
  have : (newParser bareSchema).map (fun p => (p.parseBuffer 10 1 [97, 0] 1 true).status) = some (some .ub) := by decide +kernel
  rw [h2] at this
  simpa using this

end LogSurgeon
