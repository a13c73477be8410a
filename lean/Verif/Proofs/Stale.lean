import Verif.Proofs.BufferStart
/-
The first slot of the output buffer: events without a timestamp do not write it, so it keeps what an earlier event left there.
-/
namespace LogSurgeon

namespace OutBuf

/-- Writing another slot keeps the first one. -/
theorem setToken_slot {o o' : OutBuf} {i : Nat} {t : Token} (hi : i ≠ 0) (h : o.setToken i t = some o') :
    o'.get 0 = o.get 0 ∧ o'.staticItems 0 = o.staticItems 0 ∧ o'.pos = o.pos ∧ o'.hasTimestamp = o.hasTimestamp ∧ 0 < o'.size := by
  unfold setToken at h
  by_cases hlt : i < o.size
  · rw [if_pos hlt] at h
    cases hd : o.dynItems with
    | none =>
      rw [hd] at h
      cases h
      refine ⟨?_, ?_, rfl, rfl, (by show 0 < o.size; omega)⟩
      · simp [get, hd, Ne.symm hi]
      · simp [Ne.symm hi]
    | some d =>
      rw [hd] at h
      cases h
      refine ⟨?_, rfl, rfl, rfl, (by show 0 < o.size; omega)⟩
      simp [get, hd, Ne.symm hi]
  · rw [if_neg hlt] at h; cases h

/-- Going on to the next slot keeps the first one. -/
theorem advance_slot {o : OutBuf} (h : 0 < o.size) : o.advance.get 0 = o.get 0 ∧ o.advance.staticItems 0 = o.staticItems 0 ∧
    o.advance.pos ≠ 0 ∧ o.advance.hasTimestamp = o.hasTimestamp := by
  unfold advance
  simp only
  split
  · refine ⟨?_, rfl, (by simp), rfl⟩
    show ((some fun i => if i < o.size then o.get i else {}).getD _) 0 = _
    simp [h]
  · exact ⟨rfl, rfl, (by simp), rfl⟩

/-- The first slot and the timestamp flag are the same. -/
structure Same0 (o o' : OutBuf) : Prop where
  get : o'.get 0 = o.get 0
  item : o'.staticItems 0 = o.staticItems 0
  ts : o'.hasTimestamp = o.hasTimestamp

theorem Same0.refl (o : OutBuf) : Same0 o o := ⟨rfl, rfl, rfl⟩

theorem Same0.trans {a b c : OutBuf} (h : Same0 a b) (g : Same0 b c) : Same0 a c :=
  ⟨g.get.trans h.get, g.item.trans h.item, g.ts.trans h.ts⟩

end OutBuf

namespace LogParser
open OutBuf

theorem parseToken_slot {p : LogParser} (t : Token) (hp : p.view.out.pos ≠ 0) {cont : LogParser → LogParser × Except Fail Action}
    (hc : ∀ p' : LogParser, p'.view.out.pos ≠ 0 → Same0 p.view.out p'.view.out → Same0 p.view.out (cont p').1.view.out) :
    Same0 p.view.out (p.parseToken t cont).1.view.out := by
  unfold parseToken
  cases hs : p.view.out.setCurr t with
  | none => exact Same0.refl _
  | some o =>
    obtain ⟨h1, h2, h3, h4, h5⟩ := setToken_slot hp hs
    have hso : Same0 p.view.out o := ⟨h1, h2, h4⟩
    have hpo : o.pos ≠ 0 := by rw [h3]; exact hp
    obtain ⟨a1, a2, a3, a4⟩ := advance_slot h5
    have hsa : Same0 p.view.out o.advance := hso.trans ⟨a1, a2, a4⟩
    simp only [need]
    cases hty : t.type0 with
    | error e => exact hso
    | ok ty =>
      simp only
      split
      · exact hso
      · rename_i found _
        by_cases c1 : (ty == tokenEnd) = true
        · rw [if_pos c1]; exact hso
        · rw [if_neg c1]
          by_cases c2 : (!o.hasTimestamp && ty == tokenNewline) = true
          · rw [if_pos c2]; exact hsa
          · rw [if_neg c2]
            by_cases c3 : found = true
            · rw [if_pos c3]
              cases hs2 : o.setCurr (newlineOnly (o.get o.pos)) with
              | none => exact hso
              | some o2 =>
                obtain ⟨b1, b2, b3, b4, b5⟩ := setToken_slot hpo hs2
                obtain ⟨d1, d2, d3, d4⟩ := advance_slot b5
                exact hso.trans (Same0.trans ⟨b1, b2, b4⟩ ⟨d1, d2, d4⟩)
            · rw [if_neg c3]
              exact hc _ a3 hsa

theorem parseLoop_slot : ∀ (k : Nat) (p : LogParser), p.view.out.pos ≠ 0 →
    Same0 p.view.out (parseLoop k p).1.view.out := by
  intro k
  induction k with
  | zero => intro p _; exact Same0.refl _
  | succ k ih =>
    intro p hp
    unfold parseLoop
    have hv : p.getNextSymbol.1.view = p.view := by unfold getNextSymbol; rfl
    generalize p.getNextSymbol = r at hv ⊢
    obtain ⟨p', r⟩ := r
    simp only at hv
    cases r with
    | error e => simp only [hv]; exact Same0.refl _
    | ok t =>
      simp only
      have := parseToken_slot (p := p') t (by rw [hv]; exact hp) (cont := parseLoop k)
        (fun q hq hs => hs.trans (ih q hq))
      rwa [hv] at this

/-- A call that does not end the input writes the first slot only for an event with a timestamp. -/
theorem parseFirst_slot (p : LogParser) (t : Token) : (p.parseFirst t).2 = .ok .compressAndFinish ∨
    (p.parseFirst t).1.view.out.hasTimestamp = true ∨
    ((p.parseFirst t).1.view.out.get 0 = p.view.out.get 0 ∧ (p.parseFirst t).1.view.out.staticItems 0 = p.view.out.staticItems 0) := by
  unfold parseFirst
  cases t.type0 with
  | error e => exact .inr (.inr ⟨rfl, rfl⟩)
  | ok ty =>
    simp only
    by_cases c1 : (ty == tokenEnd) = true
    · rw [if_pos c1]
      cases p.view.out.setToken 0 t with
      | none => exact .inr (.inr ⟨rfl, rfl⟩)
      | some o => exact .inl rfl
    · rw [if_neg c1]
      by_cases c2 : (ty == tokenFirstTimestamp || ty == tokenNewlineTimestamp) = true
      · rw [if_pos c2]
        cases hs : ({ p.view.out with hasTimestamp := true } : OutBuf).setToken 0 t with
        | none => exact .inr (.inr ⟨rfl, rfl⟩)
        | some o =>
          have ho : o.hasTimestamp = true := by
            unfold setToken at hs
            split at hs
            · cases hs; split <;> rfl
            · cases hs
          have := parseLoop_slot p.parseFuel ({ p with hasStart := false }.withOut { o with pos := 1 }) (by simp [withOut])
          exact .inr (.inl (this.ts.trans ho))
      · rw [if_neg c2]
        cases hs : ({ p.view.out with hasTimestamp := false } : OutBuf).setToken 1 t with
        | none => exact .inr (.inr ⟨rfl, rfl⟩)
        | some o =>
          obtain ⟨b1, b2, _⟩ := setToken_slot (by decide) hs
          have := parseLoop_slot p.parseFuel ({ p with hasStart := false }.withOut { o with pos := 2 }) (by simp [withOut])
          exact .inr (.inr ⟨this.get.trans b1, this.item.trans b2⟩)

theorem parse_slot {p : LogParser} (hp : p.view.out.pos = 0) : p.parse.2 = .ok .compressAndFinish ∨
    p.parse.1.view.out.hasTimestamp = true ∨
    (p.parse.1.view.out.get 0 = p.view.out.get 0 ∧ p.parse.1.view.out.staticItems 0 = p.view.out.staticItems 0) := by
  unfold parse
  rw [if_pos (by simp [hp])]
  simp only
  by_cases hh : (p.withOut { p.view.out with hasDelims := p.lexer.hasDelims }).hasStart = true
  · rw [if_pos hh]
    exact parseFirst_slot _ _
  · rw [if_neg hh]
    have hv : (p.withOut { p.view.out with hasDelims := p.lexer.hasDelims }).getNextSymbol.1.view =
      (p.withOut { p.view.out with hasDelims := p.lexer.hasDelims }).view := by unfold getNextSymbol; rfl
    generalize (p.withOut { p.view.out with hasDelims := p.lexer.hasDelims }).getNextSymbol = r at hv ⊢
    obtain ⟨p', r⟩ := r
    simp only at hv
    have h0 : p'.view.out.get 0 = p.view.out.get 0 ∧ p'.view.out.staticItems 0 = p.view.out.staticItems 0 := by
      rw [hv]; exact ⟨rfl, rfl⟩
    cases r with
    | error e => exact .inr (.inr h0)
    | ok t =>
      simp only
      cases t.type0 with
      | error e => exact .inr (.inr h0)
      | ok ty =>
        simp only
        by_cases c : (!p'.view.out.hasTimestamp && ty == tokenNewlineTimestamp) = true
        · rw [if_pos c]
          cases hs : p'.view.out.setToken 1 (newlineOnly t) with
          | none => exact .inr (.inr h0)
          | some o =>
            obtain ⟨b1, b2, _⟩ := setToken_slot (by decide) hs
            exact .inr (.inr ⟨b1.trans h0.1, b2.trans h0.2⟩)
        · rw [if_neg c]
          rw [← h0.1, ← h0.2]
          exact parseFirst_slot _ _

end LogParser

/-- The start position of the token in the first slot of the output buffer of a parser. -/
def BufferParser.slot (p : BufferParser) : Nat := (p.lp.view.out.staticItems 0).startPos

namespace Ctx

theorem metaLoop_out (m : Mem) : ∀ (is : List Nat) (v : EventView) (nl : Nat) {v' : EventView} {nl' : Nat},
    LogParser.metaLoop m is v nl = .ok (v', nl') → v'.out = v.out := by
  intro is
  induction is with
  | nil => intro v nl v' nl' h; cases h; rfl
  | cons i is ih =>
    intro v nl v' nl' h
    unfold LogParser.metaLoop at h
    split at h
    · cases h
    · split at h
      · rename_i w d hw hd
        refine (ih _ _ h).trans ?_
        unfold EventView.addToken at hw
        split at hw
        · cases hw; rfl
        · cases hw
      · cases h

theorem generateMetadata_out {p p' : LogParser} (h : p.generateMetadata = .ok p') : p'.view.out = p.view.out := by
  unfold LogParser.generateMetadata at h
  simp only at h
  split at h
  · cases h
  · rename_i v nl hm
    cases h
    have := metaLoop_out _ _ _ _ hm
    show (if _ then _ else _ : EventView).out = _
    split <;> exact this

/-- A call that succeeds with an event without timestamp, and is not the last one, leaves the first slot as it was. -/
theorem call_slot {X : Ctx} {p : BufferParser} {offset : Nat}
    (h : (p.parseNextEvent X.ptr X.content X.size offset X.fin).2.2 = .ok ())
    (hts : (p.parseNextEvent X.ptr X.content X.size offset X.fin).1.lp.view.out.hasTimestamp = false)
    (hd : (p.parseNextEvent X.ptr X.content X.size offset X.fin).1.done = false) :
    (p.parseNextEvent X.ptr X.content X.size offset X.fin).1.slot = p.slot := by
  have hdef : p.parseNextEvent X.ptr X.content X.size offset X.fin =
      match (X.setup p offset).parseAndGenerate with
      | (lp, .error e) => (({ p with lp := lp } : BufferParser).reset,
          (if lp.view.out.pos ≠ 0 then (lp.view.out.get 0).startPos else offset), .error e)
      | (lp, .ok a) => ({ lp := lp, done := p.done || a == .compressAndFinish }, lp.input.pos, .ok ()) := rfl
  rw [hdef] at h hts hd ⊢
  unfold LogParser.parseAndGenerate at h hts hd ⊢
  have hs := LogParser.parse_slot (p := X.setup p offset) rfl
  have hz : (X.setup p offset).view.out.staticItems 0 = p.lp.view.out.staticItems 0 := rfl
  generalize (X.setup p offset).parse = r at *
  obtain ⟨lp, r⟩ := r
  cases r with
  | error e => cases h
  | ok a =>
    simp only at h hts hd hs ⊢
    cases hg : lp.generateMetadata with
    | error e => rw [hg] at h; cases h
    | ok lp' =>
      rw [hg] at hts hd
      simp only at hts hd ⊢
      have ho := generateMetadata_out hg
      rw [ho] at hts
      show (lp'.view.out.staticItems 0).startPos = _
      rw [ho]
      rcases hs with h1 | h1 | ⟨_, h1⟩
      · cases h1; simp at hd
      · rw [h1] at hts; cases hts
      · rw [h1, hz]; rfl

/-- When the bytes run out in an event without timestamp, the offset is what the first slot says. -/
theorem parseAll_stale {X : Ctx} (hX : X.Ok) : ∀ (k : Nat) (p : BufferParser) (offset : Nat) (c : Cfg) (carry : Option PTok),
    X.BRel p offset c carry → X.size - c.cov < k → (X.L.toks X.s X.fin c).2 = some .oob →
    (∀ e ∈ segment X.s (carry.map PEvent.start) (X.L.toks X.s X.fin c).1, e.ts = false) →
    ∀ e, segmentRest X.s (carry.map PEvent.start) (X.L.toks X.s X.fin c).1 = some e → e.ts = false →
    (p.parseAll k X.ptr X.content X.size offset X.fin).offset = p.slot := by
  intro k
  induction k with
  | zero => intro p offset c carry _ h; omega
  | succ k ih =>
    intro p offset c carry h hk hoob hall e he hte
    have hs := parseNextEvent_spec hX h
    have hcs := call_slot (X := X) (p := p) (offset := offset)
    unfold BufferParser.parseAll
    generalize p.parseNextEvent X.ptr X.content X.size offset X.fin = r at *
    obtain ⟨p', off', r⟩ := r
    simp only at hs hcs ⊢
    rcases hs with ⟨⟨j1, jK⟩, j2, j3, o, j4, j5, j6⟩ | ⟨j1, e', carry', c', j2, jm, j3, ⟨jt, jlt⟩, j4, j5, j6, j7⟩ | ⟨j1, ⟨jd, jK⟩, e', j2, jm, j3, j4⟩
    · subst j1
      simp only
      rw [j5]
      rw [he] at j4
      obtain ⟨hO, _⟩ := j4
      have hpos := hO.pos
      have hts := hO.ts
      have ho : off e = 1 := by simp [off, hte]
      rw [if_pos (by omega)]
      have hps := LogParser.parse_slot (p := X.setup p offset) rfl
      rw [← j6.1, j6.2] at hps
      rcases hps with h1 | h1 | ⟨h1, _⟩
      · cases h1
      · rw [hts, hte] at h1; cases h1
      · rw [h1]; rfl
    · subst j1
      simp only
      rw [if_neg (by simp [j3.notDone])]
      simp only
      have hcov := j3.cov
      have hlen := hX.len
      have he' : e'.ts = false := hall e' (by rw [j5]; simp)
      rw [ih p' off' c' carry' j3 (by omega) (j6.trans hoob) (fun e'' h'' => hall e'' (by rw [j5]; simp [h''])) e (j7.trans he) hte]
      exact hcs rfl (by rw [j2.out.ts]; exact he') j3.notDone
    · rw [j4] at hoob; cases hoob

/-- The offset after each event: the start of the next event, or a place behind its first token. -/
theorem parseAll_offsets {X : Ctx} (hX : X.Ok) : ∀ (k : Nat) (p : BufferParser) (offset : Nat) (c : Cfg) (carry : Option PTok),
    X.BRel p offset c carry → X.size - c.cov < k →
    ∀ (i : Nat) (o : EventOut), (p.parseAll k X.ptr X.content X.size offset X.fin).events[i]? = some o →
    (i + 1 < (p.parseAll k X.ptr X.content X.size offset X.fin).events.length ∨ (X.L.toks X.s X.fin c).2 = some .oob) →
    o.offset ≤ X.size ∧
    ∃ n, ((segment X.s (carry.map PEvent.start) (X.L.toks X.s X.fin c).1).take (i + 1)).flatMap (PEvent.text X.s) =
        slice X.s (startOf c carry) n ∧ startOf c carry ≤ n ∧ (o.offset = n ∨ (n ≤ o.offset ∧
      ∀ e', (segment X.s (carry.map PEvent.start) (X.L.toks X.s X.fin c).1)[i + 1]? = some e' →
        ∃ y, e'.toks.head? = some y ∧ y.e ≤ o.offset)) := by
  intro k
  induction k with
  | zero => intro p offset c carry _ h; omega
  | succ k ih =>
    intro p offset c carry h hk i o hi hlast
    have hs := parseNextEvent_spec hX h
    unfold BufferParser.parseAll at hi hlast
    generalize p.parseNextEvent X.ptr X.content X.size offset X.fin = r at *
    obtain ⟨p', off', r⟩ := r
    simp only at hs hi hlast
    rcases hs with ⟨⟨j1, jK⟩, j2, j3, o', j4, j5, j6⟩ | ⟨j1, e', carry', c', j2, jm, j3, ⟨jt, jlt⟩, j4, j5, j6, j7⟩ | ⟨j1, ⟨jd, jK⟩, e', j2, jm, j3, j4⟩
    · subst j1; simp at hi
    · subst j1
      simp only at hi hlast
      rw [if_neg (by simp [j3.notDone])] at hi hlast
      simp only at hi hlast
      have hcov := j3.cov
      have hlen := hX.len
      rw [j5]
      cases i with
      | zero =>
        simp only [List.getElem?_cons_zero, Option.some.injEq] at hi
        subst hi
        obtain ⟨b1, b2, b3⟩ := j3.offset hX
        refine ⟨b2, startOf c' carry', by simp [jt], by omega, ?_⟩
        cases carry' with
        | none => exact .inl b3
        | some x =>
          refine .inr ⟨b1, fun e2 he2 => ?_⟩
          simp only [Option.map_some, Nat.zero_add, List.getElem?_cons_succ] at he2
          rw [← List.head?_eq_getElem?] at he2
          have := (segment_head _ _ _ (by simp [PEvent.start]) he2).2
          exact ⟨x, by rw [this]; rfl, b3⟩
      | succ i =>
        simp only [List.getElem?_cons_succ] at hi
        obtain ⟨b1, n, b2, b3, b4⟩ := ih p' off' c' carry' j3 (by omega) i o hi (by
          rcases hlast with hl | hl
          · left; simp only [List.length_cons] at hl; omega
          · right; exact j6.trans hl)
        refine ⟨b1, n, ?_, by omega, ?_⟩
        · rw [List.take_succ_cons, List.flatMap_cons, b2, jt, slice_split (by omega) b3]
        · simpa only [List.getElem?_cons_succ] using b4
    · subst j1
      simp only at hi hlast
      rw [if_pos jd] at hi hlast
      rcases hlast with hl | hl
      · simp at hl
      · rw [j4] at hl; cases hl

end Ctx

/-- After a timestamp every event has one. -/
theorem segment_rest_ts (s : List Nat) : ∀ (xs : List PTok) (cur : Option PEvent),
    (∃ c, cur = some c ∧ c.ts = true) → (∀ x ∈ xs, x.kind ≠ tokenEnd) → ∀ e, segmentRest s cur xs = some e → e.ts = true := by
  intro xs
  induction xs with
  | nil => rintro cur ⟨c, rfl, hc⟩ _ e h; cases h; exact hc
  | cons x xs ih =>
    rintro cur ⟨c, rfl, hc⟩ hx e h
    unfold segmentRest at h
    rw [if_neg (hx x (by simp)), if_neg (by simp [hc])] at h
    by_cases hk : x.kind = tokenNewlineTimestamp
    · rw [if_pos (.inl ⟨hc, hk⟩)] at h
      exact ih _ ⟨_, rfl, by simp only [PEvent.start, PTok.isTs]; simp [PTok.kind, PTok.rest] at hk ⊢; exact .inr hk⟩ (fun y hy => hx y (by simp [hy])) e h
    · rw [if_neg (by simp [hc, hk])] at h
      exact ih (some (c.add x)) ⟨_, rfl, hc⟩ (fun y hy => hx y (by simp [hy])) e h

/-- If the event in progress at the end has no timestamp, none before it has one. -/
theorem segment_no_ts (s : List Nat) : ∀ (xs : List PTok) (cur : Option PEvent), (∀ x ∈ xs, x.kind ≠ tokenEnd) →
    ∀ e, segmentRest s cur xs = some e → e.ts = false → ∀ e' ∈ segment s cur xs, e'.ts = false := by
  intro xs
  induction xs with
  | nil => intro cur _ e h he e' h'; cases cur <;> simp [segment] at h'
  | cons x xs ih =>
    intro cur hx e h he e' h'
    have hx' : ∀ y ∈ xs, y.kind ≠ tokenEnd := fun y hy => hx y (by simp [hy])
    have hxe := hx x (by simp)
    cases cur with
    | none =>
      unfold segmentRest at h
      unfold segment at h'
      rw [if_neg hxe] at h h'
      by_cases hk : x.kind = tokenNewlineTimestamp
      · rw [if_pos hk] at h h'
        have := segment_rest_ts s xs _ ⟨_, rfl, by simp only [PEvent.start, PTok.isTs]; simp [PTok.kind, PTok.rest] at hk ⊢; exact .inr hk⟩ hx' e h
        rw [he] at this; cases this
      · rw [if_neg hk] at h h'
        exact ih _ hx' e h he e' h'
    | some c =>
      have hc : c.ts = false := by
        cases hc : c.ts with
        | false => rfl
        | true =>
          have := segment_rest_ts s (x :: xs) _ ⟨c, rfl, hc⟩ hx e h
          rw [he] at this; cases this
      unfold segmentRest at h
      unfold segment at h'
      rw [if_neg hxe] at h h'
      by_cases k1 : c.ts = false ∧ x.kind = tokenNewline
      · rw [if_pos k1] at h h'
        rcases List.mem_cons.mp h' with rfl | h'
        · exact hc
        · exact ih _ hx' e h he e' h'
      · rw [if_neg k1] at h h'
        by_cases k2 : (c.ts = true ∧ x.kind = tokenNewlineTimestamp) ∨ (c.ts = false ∧ x.startsNl s = true)
        · rw [if_pos k2] at h h'
          rcases List.mem_cons.mp h' with rfl | h'
          · exact hc
          · exact ih _ hx' e h he e' h'
        · rw [if_neg k2] at h h'
          exact ih _ hx' e h he e' h'

end LogSurgeon
