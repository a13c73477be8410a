import Verif.Proofs.Segment
/-
The parse of a buffer from the beginning, for a parser made from a schema.
-/
namespace LogSurgeon
open Ctx

variable {s : SchemaAST} {addr : Nat → Nat} {t : ParserTables} {L : Lexer}

theorem LexerOf.vars_lt (h : LexerOf s addr t L) (q i : Nat) (hi : i ∈ L.dfa.ids q) : i < t.idSymbol.length := by
  obtain ⟨_, hids⟩ := dfa_shape h.gen
  obtain ⟨ds, _, _, _, _, _, hsym, _⟩ := addRules_ok h.tables
  obtain ⟨r, hr, rfl⟩ := hids q i hi
  obtain ⟨n, _, hn⟩ := h.kind r hr
  have h1 := (lookup_eq_some_of_nodup hsym.names).mp hn
  rw [hsym.swap, List.length_map, hsym.ids]
  exact List.mem_map.mpr ⟨_, h1, rfl⟩

theorem LexerOf.vars_one (h : LexerOf s addr t L) : tokenUncaught < t.idSymbol.length := by
  obtain ⟨ds, _, _, _, _, _, hsym, _⟩ := addRules_ok h.tables
  rw [hsym.swap, List.length_map, hsym.ids]
  exact List.mem_map.mpr ⟨("$UncaughtString", 1), hsym.reserved _ (by decide), rfl⟩

theorem LexerOf.nlOnly (h : LexerOf s addr t L) (hs : s.Sensible) (hinj : ∀ a b, addr a = addr b → a = b) :
    ∀ i ∈ L.dfa.idsOn [newline], i = tokenNewline := by
  intro i hi
  obtain ⟨m, hm, _, h3⟩ := h.nfa hinj
  obtain ⟨r, hr, ha, rfl⟩ := (h3 _ i (by simp [AllBytes, newline, cSizeOfByte])).mp hi
  obtain ⟨x, hx, hxb⟩ := (acceptsAlone_iff hm hr _).mp ha
  obtain ⟨n, hk, hn⟩ := h.kind r hr
  rcases hk.words hs x hx with ⟨h4, _⟩ | h4
  · rw [h4] at hk
    obtain ⟨ds, _, _, _, _, _, hsym, _⟩ := addRules_ok h.tables
    cases hk with
    | newLine =>
      have h2 : t.getSymbolId "newLine" = some 7 := (lookup_eq_some_of_nodup hsym.names).mpr (hsym.reserved _ (by decide))
      rw [h2] at hn
      exact (Option.some.inj hn).symm
  · rw [hxb] at h4; simp at h4

/-- The parser reading the first `size` bytes of an allocation. -/
theorem ctx_ok (hC : s.Compiled addr t L) (fin : Bool) (ptr : Nat) {content : List Nat} {size : Nat}
    (hsize : size ≤ content.length) (hslack : fin = true → size < content.length) :
    Ctx.Ok ⟨L, fin, ptr, content, size, t.idSymbol.length⟩ := by
  have h := buildLexer_ok hC.ok
  refine ⟨h.nlOk hC.sensible hC.inj, h.typesProper hC.sensible, hsize, hslack, h.vars_lt, h.vars_one,
    h.nlOnly hC.sensible hC.inj, 256, ?_⟩
  cases hd : L.isDelim 256 with
  | false => rfl
  | true => exact absurd (mem_delimBytes.mp (h.delimByte hd)).1 (by decide)

theorem brel_reset (hC : s.Compiled addr t L) {p : BufferParser} (hI : p.Idle t L) {q : Nat}
    (hq : L.dfa.next 0 cCharStartOfFile = some q) (hqa : L.dfa.isAccepting q = false)
    (fin : Bool) (ptr : Nat) (content : List Nat) (size : Nat) :
    Ctx.BRel ⟨L, fin, ptr, content, size, t.idSymbol.length⟩ p.reset 0 (.sof q) none := by
  obtain ⟨h1, h2, h3, h4⟩ := hI
  refine ⟨h1, h2, h3, ⟨hq, hqa⟩, by simp [Cfg.cov], (fun _ a e ty h => by cases h), ?_, h4, rfl, fun a e ty h => by cases h⟩
  have hlex : p.reset.lp.lex = L.prependStartOfFile (Lexer.reset p.lp.lex) p.lp.input.reset := by
    rw [← h1]; rfl
  rw [hlex]
  exact ⟨rfl, hq, rfl, rfl, rfl, rfl, rfl, rfl, rfl⟩

/-- Everything about a parse of a buffer. -/
structure BufSpec (L : Lexer) (t : ParserTables) (fin : Bool) (ptr : Nat) (content : List Nat) (size : Nat) (xs : List PTok)
    (r : RunOut) : Prop where
  status : r.status = if fin then none else some .oob
  events : List.Forall₂ (EvOut ⟨L, fin, ptr, content, size, t.idSymbol.length⟩) r.events (segment (content.take size) none xs)
  offset : fin = false → ∃ n, n ≤ size ∧
    (segment (content.take size) none xs).flatMap (PEvent.text (content.take size)) = content.take n ∧
    OffsetIs r.offset n (segmentRest (content.take size) none xs)
  idle : r.parser.Idle t L

theorem parseBuffer_spec (hC : s.Compiled addr t L) (hv : s.vars ≠ []) : ∃ q, L.dfa.next 0 cCharStartOfFile = some q ∧
    L.dfa.isAccepting q = false ∧
    ∀ {p : BufferParser} (hI : p.Idle t L) (fin : Bool) (ptr : Nat) {content : List Nat} {size : Nat}
    (hsize : size ≤ content.length) (hslack : fin = true → size < content.length) {k : Nat} (hk : size < k),
      BufSpec L t fin ptr content size (L.toks (content.take size) fin (.sof q)).1 (p.parseBuffer k ptr content size fin) := by
  have h := buildLexer_ok hC.ok
  obtain ⟨q, hq, hqa⟩ := (h.sof hC.sensible hC.inj).2 hv
  refine ⟨q, hq, hqa, ?_⟩
  intro p hI fin ptr content size hsize hslack k hk
  have hX := ctx_ok hC fin ptr hsize hslack
  have hL := h.nlOk hC.sensible hC.inj
  have hT := h.typesProper hC.sensible
  have hl : (content.take size).length = size := by simp [hsize]
  have hc : CfgOk L (content.take size) (.sof q) := ⟨hq, hqa⟩
  obtain ⟨i1, i2, i3, i4, i5, i6, i7⟩ := parseAll_spec hX k p.reset 0 (.sof q) none (brel_reset hC hI hq hqa fin ptr content size)
    (by show size - _ < k; omega)
  have hst : (L.toks (content.take size) fin (.sof q)).2 = if fin then none else some .oob := by
    cases fin with
    | true => exact (pureAll_tiles hL hT _ (.sof q) hc (by simp [Cfg.cov]) (by simp only [Cfg.cov]; omega)).1
    | false =>
      exact (pureAll_unfin hL hT _ (.sof q) hc (by simp [Cfg.cov]) (by simp only [Cfg.cov]; omega)
        (fun a e ty h => by cases h)).1
  refine ⟨by rw [← hst]; exact i1, i2, fun hf => ?_, ⟨i4, i5, i6, i7⟩⟩
  subst hf
  obtain ⟨n, _, n2, n3, n4⟩ := i3 hst
  refine ⟨n, n2, ?_, n4⟩
  simp only [Option.map_none, startOf, Cfg.cov, Ctx.s] at n3
  rw [n3]
  simp only [slice, List.drop_zero, Nat.sub_zero, List.take_take]
  rw [Nat.min_eq_left n2]

/-- Selecting positions by a property of the elements. -/
theorem filter_pos {α β γ : Type} (p : α → Bool) (f : Nat → γ) (g : α → β) (R : γ → β) (o : Nat) (l : List α) : ∀ (n j : Nat),
    j + n = l.length → (∀ i x, l[i]? = some x → R (f (o + i)) = g x) →
    ((List.range' (o + j) n).filter fun i => (l[i - o]?.map p) == some true).map (fun i => R (f i)) = ((l.drop j).filter p).map g := by
  intro n
  induction n with
  | zero => intro j hj _; rw [List.drop_eq_nil_of_le (by omega)]; rfl
  | succ n ih =>
    intro j hj hR
    rw [List.range'_succ, List.drop_eq_getElem_cons (by omega : j < l.length)]
    have hx : l[o + j - o]? = some l[j] := by rw [Nat.add_sub_cancel_left]; exact List.getElem?_eq_getElem _
    rw [List.filter_cons, List.filter_cons, hx]
    have := ih (j + 1) (by omega) hR
    rw [← Nat.add_assoc] at this
    cases hp : p l[j] with
    | true => simp [hp, ← this, hR j _ (List.getElem?_eq_getElem (by omega))]
    | false => simp [hp, ← this]

theorem Ctx.EvOut.shows {X : Ctx} {o : EventOut} {e : PEvent} (h : X.EvOut o e)
    (hne : e.ts = true → ∃ x, e.toks.head? = some x) : o.Shows X.s e := by
  have hrange : ∀ {t : Token} {x : PTok}, X.TokIs t x → t.range = some x := by
    intro t x ht
    simp [Token.range, ht.types, ht.start, ht.stop]
  have hout := h.ev.out
  refine ⟨?_, ?_, ?_, h.text, h.ev.multiline, ?_⟩
  · exact hout.ts
  · have := hout.tokens
    generalize o.view.tokens = ts at this
    generalize e.toks = xs at this
    induction this with
    | nil => rfl
    | cons h1 _ ih => simp [hrange h1, ih]
  · unfold EventView.getTimestamp
    rw [hout.ts]
    cases hts : e.ts with
    | false => rfl
    | true =>
      have hoff : off e = 0 := by simp [off, hts]
      obtain ⟨x, hx⟩ := hne hts
      have := hrange (hout.toks 0 x (by rw [← hx]; exact List.head?_eq_getElem?.symm))
      rw [hoff] at this
      simp only [if_true, Option.bind_some, hx]
      exact this
  · intro id
    rw [h.ev.occ]
    have := filter_pos (fun x : PTok => x.kind == id) o.view.out.get some Token.range (off e) e.toks e.toks.length 0 (by omega)
      (fun i x hx => hrange (hout.toks i x hx))
    rw [List.drop_zero] at this
    rw [← this]
    congr 1
    apply List.filter_congr
    intro i _
    cases e.toks[i - off e]? with
    | none => rfl
    | some x => simp

/-! ### The tokens -/

theorem kind_end {x : PTok} (hT : TypesProper L) {s : List Nat} (hne : x.ty ≠ [tokenEnd])
    (hx : x.ty = [tokenUncaught] ∨ x = ⟨s.length, s.length, [tokenEnd]⟩ ∨ L.Recognised s x) : x.kind ≠ tokenEnd := by
  rcases hx with h | h | ⟨sof, _, hcand, hty⟩
  · rw [PTok.kind, h]; simp [tokenEnd, tokenUncaught]
  · rw [h] at hne; exact absurd rfl hne
  · have hne2 : x.ty ≠ [] := by rw [hty]; exact hcand.2.2.1
    unfold PTok.kind
    cases htl : x.ty with
    | nil => exact absurd htl hne2
    | cons i l =>
      intro he
      simp only [List.headD_cons] at he
      subst he
      have : tokenEnd ∈ L.typesOn s sof x.a x.e := by rw [← hty, htl]; simp
      unfold Lexer.typesOn Dfa.idsOn at this
      cases hr : L.dfa.run 0 ((if sof = true then [cCharStartOfFile] else []) ++ slice s x.a x.e) with
      | none => rw [hr] at this; simp at this
      | some q => rw [hr] at this; exact (hT q).2 this

theorem endLast_of_tiles (hT : TypesProper L) {s : List Nat} : ∀ {xs : List PTok} {p n : Nat}, Tiles p n xs →
    (∀ x ∈ xs, x.ty = [tokenUncaught] ∨ x = ⟨s.length, s.length, [tokenEnd]⟩ ∨ L.Recognised s x) → EndLast xs := by
  intro xs
  induction xs with
  | nil => intro p n h; exact h.elim
  | cons x xs ih =>
    intro p n h hx
    cases xs with
    | nil => obtain ⟨_, rfl⟩ := h; exact ⟨rfl, rfl⟩
    | cons y ys =>
      obtain ⟨h1, h2, h3, h4⟩ := h
      exact ⟨kind_end hT h3 (hx x (by simp)), by omega, ih h4 (fun z hz => hx z (by simp [hz]))⟩

theorem noEnd_of_tiles (hT : TypesProper L) {s : List Nat} : ∀ {xs : List PTok} {p n : Nat}, TilesTo p n xs →
    (∀ x ∈ xs, x.ty = [tokenUncaught] ∨ x = ⟨s.length, s.length, [tokenEnd]⟩ ∨ L.Recognised s x) →
    NoEnd xs ∧ p ≤ n ∧ ∀ x ∈ xs, x.a < n := by
  intro xs
  induction xs with
  | nil => intro p n h _; exact ⟨(fun x hx => by cases hx), Nat.le_of_eq h, (fun x hx => by cases hx)⟩
  | cons x xs ih =>
    intro p n h hx
    obtain ⟨h1, h2, h3, h4⟩ := h
    obtain ⟨i1, i2, i3⟩ := ih h4 (fun z hz => hx z (by simp [hz]))
    refine ⟨fun z hz => ?_, by omega, fun z hz => ?_⟩
    · rcases List.mem_cons.mp hz with rfl | hz
      · exact ⟨kind_end hT h3 (hx z (by simp)), by omega⟩
      · exact i1 z hz
    · rcases List.mem_cons.mp hz with rfl | hz
      · omega
      · exact i3 z hz

/-- What a text of a type looks like. -/
theorem LexerOf.text_kind (h : LexerOf s addr t L) (hs : s.Sensible) (hinj : ∀ a b, addr a = addr b → a = b) {id : Nat}
    {w : List Nat} (hg : id ∈ L.dfa.idsOn w) :
    ∃ n re, RuleKind s n re ∧ t.getSymbolId n = some id ∧ ((re = .literal [] newline ∧ w = [newline]) ∨ 2 ≤ w.length) ∧
      ∃ c v, w = c :: v ∧ re.firstOf c = true ∧ ∀ d ∈ v, re.restOf d = true := by
  have hb : AllBytes w := by
    apply run_allBytes (dfa_shape h.gen).1 _ 0
    unfold Dfa.idsOn at hg
    cases hr : L.dfa.run 0 w with
    | none => rw [hr] at hg; simp at hg
    | some q => rfl
  obtain ⟨m, hm, _, h3⟩ := h.nfa hinj
  obtain ⟨r, hr, ha, rfl⟩ := (h3 w id hb).mp hg
  obtain ⟨n', hk, hid'⟩ := h.kind r hr
  obtain ⟨m1, hb1, hacc⟩ := ha
  obtain ⟨x, q, hp, hx, hq⟩ := hacc
  obtain ⟨own, hR⟩ := buildNfa_regions (rules := [r]) (fun r' hr' => by
    simp only [List.mem_singleton] at hr'; subst hr'; exact (hk.headed hs).1) hb1
  obtain ⟨ends, hI⟩ := buildNfa_inv hb1
  have hw := (acceptsAlone_iff hm hr w).mp ⟨m1, hb1, x, q, hp, hx, hq⟩
  obtain ⟨y, hy, hyw⟩ := hw
  have hlen := hk.words hs y hy
  rw [hyw] at hlen
  refine ⟨n', _, hk, hid', hlen, ?_⟩
  rw [hI.root] at hp
  rcases hR.root_path hI.wf hp with ⟨rfl, _⟩ | ⟨r', hr', c, v, h4, h5, h6⟩
  · cases hx
    rcases hlen with ⟨_, h⟩ | h
    · cases h
    · cases h
  · simp only [List.mem_singleton] at hr'; subst hr'
    rw [hx] at h4
    exact ⟨c, v, h4, h5, h6⟩

theorem symbol_unique (h : LexerOf s addr t L) {n m : String} {id : Nat} (h1 : t.getSymbolId n = some id)
    (h2 : (m, id) ∈ reserved) : n = m := by
  obtain ⟨ds, _, _, _, _, _, hsym, _⟩ := addRules_ok h.tables
  have h3 : t.getSymbolId m = some id := (lookup_eq_some_of_nodup hsym.names).mpr (hsym.reserved _ h2)
  have h4 := (hsym.inverse n id).mp h1
  rw [(hsym.inverse m id).mp h3] at h4
  simpa using h4.symm

theorem nlToks (h : LexerOf s addr t L) (hs : s.Sensible) (hinj : ∀ a b, addr a = addr b → a = b)
    (hres : s.NlReserved) {text : List Nat} {x : PTok}
    (hx : x.ty = [tokenUncaught] ∨ x = ⟨text.length, text.length, [tokenEnd]⟩ ∨ L.Recognised text x) :
    (x.kind = tokenNewlineTimestamp → x.startsNl text = true) ∧ (x.kind = tokenNewline → x.text text = [newline]) := by
  rcases hx with h1 | rfl | ⟨sof, _, hcand, hty⟩
  · rw [PTok.kind, h1]; constructor <;> (intro hk; cases hk)
  · constructor <;> (intro hk; cases hk)
  · have hmem : x.kind ∈ L.typesOn text sof x.a x.e := by
      unfold PTok.kind
      rw [← hty]
      cases hl : x.ty with
      | nil => rw [hl] at hty; exact absurd hty.symm hcand.2.2.1
      | cons i l => simp
    unfold Lexer.typesOn at hmem
    obtain ⟨n, re, hk, hid, hlen, c, v, hw, hf, hr⟩ := h.text_kind hs hinj hmem
    have hne : cCharStartOfFile ≠ newline := by decide
    constructor
    · intro hkk
      rw [hkk] at hid
      have hn := symbol_unique h hid (m := "newLineTimestamp") (by decide)
      subst hn
      generalize hnn : "newLineTimestamp" = nn at hk
      cases hk with
      | newLine => exact absurd hnn (by decide)
      | first _ _ => exact absurd hnn (by decide)
      | var hv _ => exact absurd hnn.symm (hres _ hv).2
      | newLineTs hv hts =>
        have hc : c = newline := by simpa [Regex.firstOf, Regex.possible] using hf
        subst hc
        cases sof with
        | true => simp at hw; exact absurd hw.1 hne
        | false =>
          simp only [Bool.false_eq_true, if_false, List.nil_append] at hw
          unfold PTok.startsNl
          have := congrArg List.head? hw
          unfold slice at this
          rw [List.head?_take, if_neg (by have := hcand.1; omega), List.head?_drop] at this
          rw [this]; rfl
    · intro hkk
      rw [hkk] at hid
      have hn := symbol_unique h hid (m := "newLine") (by decide)
      subst hn
      generalize hnn : "newLine" = nn at hk
      cases hk with
      | first _ _ => exact absurd hnn (by decide)
      | newLineTs _ _ => exact absurd hnn (by decide)
      | var hv _ => exact absurd hnn.symm (hres _ hv).1
      | newLine =>
        have hc : c = newline := by simpa [Regex.firstOf] using hf
        subst hc
        have hv0 : v = [] := by
          cases v with
          | nil => rfl
          | cons d v => have := hr d (by simp); simp [Regex.restOf] at this
        subst hv0
        cases sof with
        | true => simp at hw; exact absurd hw.1 hne
        | false => exact (by simpa using hw : slice text x.a x.e = [newline])

end LogSurgeon
