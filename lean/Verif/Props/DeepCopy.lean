import Verif.Spec.Copy
import Verif.Props.LogEvent
/-
C59: what `deep_copy` does, for every event.
-/
namespace LogSurgeon

theorem PTok.shown_kind {s : List Nat} {x : PTok} {y : Option (List Nat) × Option (List Nat)} (h : y = x.shown s) (hty : x.ty ≠ []) :
    y.1.bind List.head? = some x.kind := by
  subst h
  unfold shown PTok.kind
  cases hx : x.ty with
  | nil => exact absurd hx hty
  | cons a l => rfl

/-- The texts of tokens that show `xs`. -/
theorem texts_shown {m : Mem} {s : List Nat} : ∀ (ts : List Token) (xs : List PTok),
    ts.map (Token.seen m) = xs.map (PTok.shown s) → EventView.texts m ts = some (xs.flatMap (PTok.text s)) := by
  intro ts
  induction ts with
  | nil => intro xs h; cases xs with | nil => rfl | cons => cases h
  | cons t ts ih =>
    intro xs h
    cases xs with
    | nil => cases h
    | cons x xs =>
      simp only [List.map_cons, List.cons.injEq] at h
      have h1 := h.1
      simp only [Token.seen, PTok.shown, Prod.mk.injEq] at h1
      simp only [EventView.texts, ih xs h.2]
      cases ha : t.toStringView m with
      | none => rw [ha] at h1; simp at h1
      | some y =>
        rw [ha] at h1
        simp only [Option.map_some, Option.some.injEq] at h1
        simp [h1.2]

/-- The logtype of tokens that show `xs`. -/
theorem logtype_shown {m : Mem} {names : Nat → Option String} {s : List Nat} : ∀ (ts : List Token) (xs : List PTok),
    List.Forall₂ (fun t x => t.seen m = x.shown s ∧ x.ty ≠ [] ∧ (∃ n, names x.kind = some n) ∧
      (x.kind ≠ tokenUncaught → t.getDelimiter m = some ((x.text s).take 1))) ts xs →
    EventView.logtypeLoop m names ts = .ok (xs.flatMap (PTok.logtype s names)) := by
  intro ts xs h
  induction h with
  | nil => rfl
  | cons h _ ih =>
    rename_i t x ts xs _
    obtain ⟨h1, h2, ⟨n, hn⟩, h4⟩ := h
    have hk : t.type0 = .ok x.kind := by
      have := PTok.shown_kind h1 h2
      unfold Token.type0
      simp only [Token.seen] at this
      cases hl : t.types with
      | none => rw [hl] at this; cases this
      | some l =>
        rw [hl] at this
        cases l with
        | nil => cases this
        | cons a l => simp at this; subst this; rfl
    have htx : (t.toStringView m).map (·.1) = some (x.text s) := by
      have := congrArg Prod.snd h1
      exact this
    have : EventView.logtypeToken m names t = .ok (x.logtype s names) := by
      unfold EventView.logtypeToken PTok.logtype
      rw [hk]
      simp only
      by_cases hu : x.kind = tokenUncaught
      · rw [if_pos hu, if_pos hu]
        cases ha : t.toStringView m with
        | none => rw [ha] at htx; cases htx
        | some y => rw [ha] at htx; simp only [Option.map_some, Option.some.injEq] at htx; simp [htx]
      · rw [if_neg hu, if_neg hu]
        by_cases hk : x.kind = tokenNewline
        · rw [if_neg (by simp [hk]), if_pos hk, hn]
          simp [EventView.nameBytes]
        · rw [if_pos (Ne.symm hk), if_neg hk, h4 hu, hn]
          simp [EventView.nameBytes]
    rw [EventView.logtypeLoop, this, ih]
    rfl

/-- The copy of any event view that shows `e`. -/
theorem copy_shows {m : Mem} {names : Nat → Option String} {v : EventView} {newPtr outStatic : Nat} {s : List Nat} {e : PEvent}
    (hv : ∀ t ∈ v.tokens, t.Valid m) (hty : ∀ t ∈ v.tokens, ∃ ty tys, t.types = some (ty :: tys) ∧ ty < v.numVars)
    (ho : 0 < outStatic) (hts : v.out.hasTimestamp = e.ts) (hml : v.multiline = true ↔ e.multiline s)
    (htok : v.tokens.map (Token.seen m) = e.toks.map (PTok.shown s)) (htypes : ∀ x ∈ e.toks, x.ty ≠ [])
    (hnames : ∀ x ∈ e.toks, ∃ n, names x.kind = some n)
    (hfull : ∀ x ∈ e.toks.tail, x.kind = tokenUncaught ∨ x.text s ≠ []) (hne : v.toString m ≠ some []) :
    ∃ c buf, v.deepCopy m newPtr outStatic = .ok (c, buf) ∧ v.toString m = some buf ∧
      ∀ m' : Mem, m' newPtr = buf → c.CopyShows m' names s e := by
  obtain ⟨c, buf, h1, h2, h3, h4, h5, h6, h7, h8⟩ := EventView.deepCopy_full (newPtr := newPtr) hv hty ho hne
  refine ⟨c, buf, h1, h5, fun m' hm => ?_⟩
  have hlen : v.tokens.length = e.toks.length := by have := congrArg List.length htok; simpa using this
  have hvx : ∀ (i : Nat) (hi : i < e.toks.length), ∃ t, v.tokens[i]? = some t ∧ t.seen m = (e.toks[i]).shown s := by
    intro i hi
    have hi' : i < v.tokens.length := by omega
    refine ⟨_, List.getElem?_eq_getElem hi', ?_⟩
    have := congrArg (fun l : List _ => l[i]?) htok
    simp only [List.getElem?_map, List.getElem?_eq_getElem hi, List.getElem?_eq_getElem hi', Option.map_some, Option.some.injEq] at this
    exact this
  have hseen : ∀ (i : Nat) (hi : i < e.toks.length), (c.out.get i).seen m' = (e.toks[i]).shown s := by
    intro i hi
    obtain ⟨t, ht, hs⟩ := hvx i hi
    rw [h6 m' hm i t ht, hs]
  have hpos : c.out.pos = e.toks.length := by rw [h4, hlen]
  have hslots : ∀ b, (List.range' b (e.toks.length - b)).map (fun i => (c.out.get i).seen m') = (e.toks.drop b).map (PTok.shown s) := by
    intro b
    apply List.ext_getElem?
    intro i
    simp only [List.getElem?_map, List.getElem?_drop]
    by_cases hi : b + i < e.toks.length
    · rw [List.getElem?_eq_getElem hi, List.getElem?_range' (by omega)]
      simp only [Option.map_some, Nat.one_mul]
      rw [hseen _ hi]
    · rw [List.getElem?_eq_none (by simp; omega), List.getElem?_eq_none (by omega)]
      rfl
  have hkept : (if e.ts then e.toks else e.toks.tail) = e.toks.drop (if e.ts then 0 else 1) := by
    cases e.ts <;> simp
  have htoks : c.tokens.map (Token.seen m') = (if e.ts then e.toks else e.toks.tail).map (PTok.shown s) := by
    rw [hkept, ← hslots]
    unfold EventView.tokens EventView.first
    rw [h2, hts, hpos, List.map_map]
    rfl
  refine ⟨htoks, texts_shown _ _ htoks, ?_, by rw [h3]; exact hml, ?_, ?_⟩
  · unfold EventView.getTimestamp
    rw [h2, hts]
    cases hte : e.ts with
    | false => rfl
    | true =>
      simp only [if_true, Option.map_some]
      cases hl : e.toks with
      | nil =>
        exfalso
        apply hne
        have := texts_shown v.tokens e.toks htok
        rw [hl] at this
        exact this
      | cons x xs =>
        have hx := hseen 0 (by rw [hl]; simp)
        simp only [hl, List.getElem_cons_zero] at hx
        simp [hx]
  · intro id
    rw [h7, hlen]
    have hk : ∀ (i : Nat), (v.tokens[i]?.bind fun t => t.types.bind List.head?) = e.toks[i]?.map PTok.kind := by
      intro i
      by_cases hi : i < e.toks.length
      · obtain ⟨t, ht, hs⟩ := hvx i hi
        rw [ht, List.getElem?_eq_getElem hi]
        exact PTok.shown_kind hs (htypes _ (List.getElem_mem hi))
      · rw [List.getElem?_eq_none (by omega), List.getElem?_eq_none (by omega)]; rfl
    simp only [hk]
    have key : ∀ (xs : List PTok) (b : Nat) (f : Nat → Option (List Nat) × Option (List Nat)),
        (∀ (i : Nat) (hi : i < xs.length), f (b + i) = (xs[i]).shown s) →
        ((List.range' b xs.length).filter fun i => (xs[i - b]?.map PTok.kind) == some id).map f =
          (xs.filter fun x => x.kind == id).map (PTok.shown s) := by
      intro xs
      induction xs with
      | nil => intro b f _; rfl
      | cons x xs ih =>
        intro b f hf
        have ih' := ih (b + 1) f (fun i hi => by
          have := hf (i + 1) (by simpa using hi)
          rw [show b + 1 + i = b + (i + 1) by omega, this]; rfl)
        have hrest : ((List.range' (b + 1) xs.length).filter fun i => ((x :: xs)[i - b]?.map PTok.kind) == some id) =
            (List.range' (b + 1) xs.length).filter fun i => (xs[i - (b + 1)]?.map PTok.kind) == some id := by
          apply List.filter_congr
          intro i hi
          have := (List.mem_range'_1.mp hi).1
          rw [show i - b = (i - (b + 1)) + 1 by omega]
          rfl
        rw [List.length_cons, List.range'_succ, List.filter_cons, List.filter_cons, hrest]
        simp only [Nat.sub_self, List.getElem?_cons_zero, Option.map_some]
        have h0 := hf 0 (by simp)
        simp only [Nat.add_zero, List.getElem_cons_zero] at h0
        by_cases hx : x.kind = id
        · simp [hx, h0, ih']
        · simp [hx, ih']
    have := key e.toks 0 (fun i => (c.out.get i).seen m') (fun i hi => by rw [Nat.zero_add]; exact hseen i hi)
    simpa [List.range_eq_range'] using this
  · unfold EventView.getLogtype
    apply logtype_shown
    rw [hpos]
    refine List.forall₂_iff_get.mpr ⟨by simp, fun i hi hi' => ?_⟩
    simp only [List.length_tail] at hi'
    have hi1 : i + 1 < e.toks.length := by omega
    have hx : e.toks.tail.get ⟨i, by simpa using hi'⟩ = e.toks[i + 1] := by simp
    simp only [List.get_eq_getElem, List.getElem_map, List.getElem_range', Nat.one_mul] at hx ⊢
    rw [hx, Nat.add_comm 1 i]
    have hmem : e.toks[i + 1] ∈ e.toks := List.getElem_mem hi1
    refine ⟨hseen _ hi1, htypes _ hmem, hnames _ hmem, fun hu => ?_⟩
    obtain ⟨t, ht, hs⟩ := hvx _ hi1
    refine h8 m' hm (i + 1) t _ ht ?_ ?_
    · exact congrArg Prod.snd hs
    · have hm' : e.toks[i + 1] ∈ e.toks.tail := by rw [← hx]; exact List.getElem_mem _
      exact (hfull _ hm').resolve_left hu

variable {s : SchemaAST} {addr : Nat → Nat} {t : ParserTables} {L : Lexer}

/-- C59: the deep copy of every event parsed from a buffer, taken while the buffer is unchanged: it throws exactly if the event has
no text; otherwise the new buffer has the text of the event, and the copy shows what `CopyShows` says. -/
theorem C59_copy (hC : s.Compiled addr t L) (hv : s.vars ≠ []) {p : BufferParser} (hI : p.Idle t L) (fin : Bool)
    (ptr : Nat) {content : List Nat} {size : Nat} (hsize : size ≤ content.length) (hslack : fin = true → size < content.length)
    {k : Nat} (hk : size < k) {o : EventOut} (ho : o ∈ (p.parseBuffer k ptr content size fin).events) {m : Mem} (hm : m ptr = content)
    (newPtr : Nat) {outStatic : Nat} (hout : 0 < outStatic) :
    ∃ e, o.Shows (content.take size) e ∧
      (e.text (content.take size) = [] → o.view.deepCopy m newPtr outStatic = .error .throws) ∧
      (e.text (content.take size) ≠ [] → ∃ c, o.view.deepCopy m newPtr outStatic = .ok (c, e.text (content.take size)) ∧
        ∀ m' : Mem, m' newPtr = e.text (content.take size) → c.CopyShows m' t.getIdSymbol (content.take size) e) := by
  obtain ⟨q, hq, hqa, e, he, hO⟩ := buffer_outs hC hv hI fin ptr hsize hslack hk ho
  have hX := ctx_ok hC fin ptr hsize hslack
  have hne := logtype_nonempty hC hq hqa fin (content.take size) e he
  obtain ⟨h1, h2⟩ := evOut_valid hX hO (m := m) hm
  have htxt : o.view.toString m = some (e.text (content.take size)) := (Ctx.EvIs.outOf hX hO.ev hm o.offset).text
  refine ⟨e, hO.shows (segment_nonempty _ none (fun e h => by cases h) e he), ?_, ?_⟩
  · intro h0
    obtain ⟨txts, _, _, a3, a4⟩ := EventView.texts_ok o.view.tokens h1
    have a4' : o.view.toString m = some txts.flatten := a4
    rw [htxt, h0] at a4'
    unfold EventView.deepCopy
    simp only
    rw [a3, if_pos]
    simp only [Option.some.injEq] at a4'
    rw [← a4']; rfl
  · intro h0
    have hnames : ∀ x ∈ e.toks, ∃ n, t.getIdSymbol x.kind = some n := by
      intro x hx
      have hlt : x.kind < t.idSymbol.length := (hO.ev.out.good x hx).kind
      obtain ⟨ds, _, _, _, _, _, hsym, _⟩ := addRules_ok (buildLexer_ok hC.ok).tables
      apply lookup_isSome_iff.mpr
      rw [hsym.swap] at hlt ⊢
      rw [List.map_map]
      have h2 := (hsym.ids x.kind).mp (by rw [List.length_map] at hlt; exact hlt)
      exact h2
    have htok : o.view.tokens.map (Token.seen m) = e.toks.map (PTok.shown (content.take size)) := by
      have hall := hO.ev.out.tokens
      have hgood := hO.ev.out.good
      generalize o.view.tokens = ts at hall
      generalize e.toks = xs at hall hgood
      induction hall with
      | nil => rfl
      | cons h _ ih =>
        rename_i tk x ts xs _
        rw [List.map_cons, List.map_cons, ih (fun x hx => hgood x (by simp [hx]))]
        congr 1
        have hg := hgood x (by simp)
        have hle := hg.le
        have hstop := hg.stop
        simp only at hstop
        unfold Token.seen PTok.shown
        rw [h.types, Token.toStringView, h.start, h.stop, if_pos hle, h.buf]
        simp only
        rw [hm, readRange_ok (by omega) (by omega), Nat.add_sub_cancel' hle]
        simp only [Option.map_some, PTok.text, Prod.mk.injEq, Option.some.injEq, true_and]
        exact (slice_take hstop).symm
    obtain ⟨c, buf, g1, g2, g3⟩ := copy_shows (newPtr := newPtr) (names := t.getIdSymbol) (s := content.take size) (e := e) h1 h2 hout
      hO.ev.out.ts hO.ev.multiline htok (fun x hx => (hO.ev.out.good x hx).types) hnames (by
        intro x hx
        have hx' : x ∈ (if e.ts then e.toks.tail else e.toks) := by
          split
          · exact hx
          · exact List.mem_of_mem_tail hx
        refine (hne x hx').imp id fun hlt h0 => ?_
        have hst := (hO.ev.out.good x (List.mem_of_mem_tail hx)).stop
        simp only at hst
        unfold PTok.text slice at h0
        have := congrArg List.length h0
        simp at this
        omega) (by rw [htxt]; simpa using h0)
    rw [htxt, Option.some.injEq] at g2
    subst g2
    exact ⟨c, g1, g3⟩

set_option synthInstance.maxSize 1000 in
set_option maxRecDepth 100000 in
/-- Instances: the event of ` b c` has no timestamp and two tokens, ` b` of type `x` and the static ` c`; its copy has the text ` c`,
its logtype is ` c` too, but the token ` b` is still found under its type. -/
example : ∃ t L p, evSchema.Compiled id t L ∧ BufferParser.Idle p t L ∧
    (p.parseBuffer 10 1 [32, 98, 32, 99, 0] 4 true).events.map (fun o => (o.text, o.view.tokens.length,
      copyText (fun _ => [32, 98, 32, 99, 0]) o.view)) = [(some [32, 98, 32, 99], 2, some (some [32, 99], 1))] := by
  obtain ⟨t, L, p, h1, h2, h3⟩ := newParser_spec evSchema_sensible (by decide +kernel)
  refine ⟨t, L, p, h1, h3, ?_⟩
  have : (newParser evSchema).map (fun p => (p.parseBuffer 10 1 [32, 98, 32, 99, 0] 4 true).events.map
    (fun o => (o.text, o.view.tokens.length, copyText (fun _ => [32, 98, 32, 99, 0]) o.view))) =
      some [(some [32, 98, 32, 99], 2, some (some [32, 99], 1))] := by decide +kernel
  rw [h2] at this
  simpa using this

end LogSurgeon
