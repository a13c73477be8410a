import Verif.Proofs.Restart
import Verif.Proofs.Kept
import Verif.Model.BufferClient
/-
What the documented client prints, in terms of the events of a token sequence; and that it prints the same if a log is read in
pieces.
-/
namespace LogSurgeon
open Ctx

/-! ### What is printed for an event -/

open Classical in
noncomputable def PEvent.printed (T : List Nat) (names : Nat → Option String) (var : Nat) (e : PEvent) : Printed where
  text := some (e.text T)
  timestamp := if e.ts then some ((e.toks.head?).map (PTok.text T)) else none
  vars := (e.toks.filter fun x => x.kind == var).map fun x => some (x.text T)
  logtype := .ok ((if e.ts then e.toks.tail else e.toks).flatMap (PTok.logtype T names))
  multiline := decide (e.multiline T)
  kept := e.kept T

theorem tok_text {X : Ctx} (hX : X.Ok) {m : Mem} (hm : m X.ptr = X.content) {tk : Token} {x : PTok}
    (h : X.TokIs tk x) (hg : X.GoodTok x) : tk.toStringView m = some (x.text X.s, tk) := by
  have hsz := hX.size_le
  have hle := hg.le
  have hstop := hg.stop
  rw [Token.toStringView, h.start, h.stop, if_pos hle, h.buf, hm, readRange_ok (by omega) (by omega), Nat.add_sub_cancel' hle]
  simp only [Option.map_some, Option.some.injEq, Prod.mk.injEq, and_true]
  exact (slice_take hstop).symm

/-- The logtype, for a view between two calls. -/
theorem evIs_logtype {s : SchemaAST} {addr t L} (hC : s.Compiled addr t L) {q : Nat} (hq : L.dfa.next 0 cCharStartOfFile = some q)
    (hqa : L.dfa.isAccepting q = false) {fin : Bool} {ptr : Nat} {content : List Nat} {size : Nat}
    (hsize : size ≤ content.length) (hslack : fin = true → size < content.length)
    {v : EventView} {e : PEvent} (he : e ∈ segment (content.take size) none (L.toks (content.take size) fin (.sof q)).1)
    (hE : Ctx.EvIs ⟨L, fin, ptr, content, size, t.idSymbol.length⟩ v e) {m : Mem} (hm : m ptr = content) :
    v.getLogtype m t.getIdSymbol =
      .ok ((if e.ts then e.toks.tail else e.toks).flatMap (PTok.logtype (content.take size) t.getIdSymbol)) := by
  have hX := ctx_ok hC fin ptr hsize hslack
  have hne := logtype_nonempty hC hq hqa fin (content.take size) e he
  have hnames : ∀ x ∈ e.toks, ∃ n, t.getIdSymbol x.kind = some n := by
    intro x hx
    have hlt : x.kind < t.idSymbol.length := (hE.out.good x hx).kind
    obtain ⟨ds, _, _, _, _, _, hsym, _⟩ := addRules_ok (buildLexer_ok hC.ok).tables
    apply lookup_isSome_iff.mpr
    rw [hsym.swap] at hlt ⊢
    rw [List.map_map]
    have h2 := (hsym.ids x.kind).mp (by rw [List.length_map] at hlt; exact hlt)
    exact h2
  unfold EventView.getLogtype
  have key : ∀ (ts : List Token) (xs : List PTok), List.Forall₂ (Ctx.TokIs ⟨L, fin, ptr, content, size, t.idSymbol.length⟩) ts xs →
      (∀ x ∈ xs, x ∈ e.toks ∧ (x.kind = tokenUncaught ∨ x.a < x.e)) →
      EventView.logtypeLoop m t.getIdSymbol ts = .ok (xs.flatMap (PTok.logtype (content.take size) t.getIdSymbol)) := by
    intro ts xs h
    induction h with
    | nil => intro _; rfl
    | cons h _ ih =>
      intro hx
      rename_i tk x ts xs _
      obtain ⟨h1, h2⟩ := hx x (by simp)
      rw [EventView.logtypeLoop, logtypeToken_spec hX hm h (hE.out.good x h1) h2 (hnames x h1), ih (fun y hy => hx y (by simp [hy]))]
      rfl
  apply key
  · have htok := hE.out.tokens
    unfold EventView.tokens EventView.first at htok
    rw [hE.out.ts] at htok
    cases hts : e.ts with
    | false => rw [hts] at htok; simpa using htok
    | true =>
      rw [hts] at htok
      simp only [if_true] at htok ⊢
      cases hp : v.out.pos with
      | zero =>
        rw [hp] at htok
        generalize e.toks = xs at htok
        cases htok; exact .nil
      | succ n =>
        rw [hp, Nat.sub_zero, List.range'_succ, List.map_cons] at htok
        generalize e.toks = xs at htok
        cases htok with
        | cons _ h => exact h
  · intro x hx
    refine ⟨?_, hne x hx⟩
    split at hx
    · exact List.mem_of_mem_tail hx
    · exact hx

theorem print_spec {s : SchemaAST} {addr t L} (hC : s.Compiled addr t L) {q : Nat} (hq : L.dfa.next 0 cCharStartOfFile = some q)
    (hqa : L.dfa.isAccepting q = false) {fin : Bool} {ptr : Nat} {content : List Nat} {size : Nat}
    (hsize : size ≤ content.length) (hslack : fin = true → size < content.length)
    {v : EventView} {e : PEvent} (he : e ∈ segment (content.take size) none (L.toks (content.take size) fin (.sof q)).1)
    (hE : Ctx.EvIs ⟨L, fin, ptr, content, size, t.idSymbol.length⟩ v e) {m : Mem} (hm : m ptr = content) (var : Nat) :
    v.print m t.getIdSymbol var = e.printed (content.take size) t.getIdSymbol var := by
  have hX := ctx_ok hC fin ptr hsize hslack
  have h1 : v.toString m = some (e.text (content.take size)) := texts_spec hX hm hE.out.tokens hE.out.good
  have h2 := evIs_logtype hC hq hqa hsize hslack he hE hm
  have h3 : v.getTimestamp.map (fun t => (t.toStringView m).map (·.1)) =
      if e.ts then some ((e.toks.head?).map (PTok.text (content.take size))) else none := by
    unfold EventView.getTimestamp
    rw [hE.out.ts]
    cases hts : e.ts with
    | false => rfl
    | true =>
      have hoff : off e = 0 := by simp [off, hts]
      obtain ⟨x, hx⟩ := segment_nonempty _ none (fun e h => by cases h) e he hts
      have hx0 : e.toks[0]? = some x := by rw [← hx]; exact List.head?_eq_getElem?.symm
      have := hE.out.toks 0 x hx0
      rw [hoff] at this
      have := tok_text hX hm this (hE.out.good x (List.mem_of_getElem? hx0))
      simp only [if_true, Option.map_some, hx, Nat.add_zero] at this ⊢
      rw [this]; rfl
  have h4 : ((v.occ var).map fun i => ((v.out.get i).toStringView m).map (·.1)) =
      (e.toks.filter fun x => x.kind == var).map fun x => some (x.text (content.take size)) := by
    rw [hE.occ]
    have := filter_pos (fun x : PTok => x.kind == var) v.out.get (fun x => some (x.text (content.take size)))
      (fun t => (t.toStringView m).map (·.1)) (off e) e.toks e.toks.length 0 (by omega)
      (fun i x hx => by rw [tok_text hX hm (hE.out.toks i x hx) (hE.out.good x (List.mem_of_getElem? hx))]; rfl)
    rw [List.drop_zero] at this
    rw [← this]
    congr 1
    apply List.filter_congr
    intro i _
    cases e.toks[i - off e]? with
    | none => rfl
    | some x => simp
  have h5 : v.multiline = (e.printed (content.take size) t.getIdSymbol var).multiline := by
    rw [Bool.eq_iff_iff, hE.multiline]
    simp only [PEvent.printed, decide_eq_true_eq]
    rfl
  have h6 : v.kept m = e.kept (content.take size) := by
    obtain ⟨g1, g2⟩ := evIs_valid hX hE hm
    exact kept_spec hE.out.ts hE.out.pos (fun i x hx => ⟨(hE.out.toks i x hx).types, (hE.out.good x (List.mem_of_getElem? hx)).types⟩)
      hE.multiline h1 hE.occ g1 g2
  unfold EventView.print
  rw [h1, h2, h3, h4, h5, h6]
  rfl

/-! ### One buffer -/

theorem parseNextEvent_reset {p p' : BufferParser} {ptr size offset off' : Nat} {content : List Nat} {fin : Bool} {e : Fail}
    (h : p.parseNextEvent ptr content size offset fin = (p', off', .error e)) : ∃ r : BufferParser, p' = r.reset := by
  unfold BufferParser.parseNextEvent at h
  simp only at h
  split at h
  · rename_i lp _ _
    exact ⟨{ p with lp := lp }, (congrArg Prod.fst h).symm⟩
  · cases h

/-- The calls on one buffer: all events of the buffer are printed; then the program is done, or it refills the buffer. -/
theorem run_buffer {X : Ctx} (hX : X.Ok) (alloc : Nat → Nat) (names : Nat → Option String) (var : Nat) : ∀ (n : Nat) (c : BufferClient) (cfg : Cfg)
    (carry : Option PTok), alloc c.buf.length = X.ptr → c.buf = X.content → c.valid = X.size → c.inputDone = X.fin →
    X.BRel c.parser c.offset cfg carry → X.size - cfg.cov < n →
    ∃ (j : Nat) (ps : List Printed) (p' : BufferParser) (off' : Nat),
      List.Forall₂ (fun pr e => ∃ (v : EventView) (m : Mem), pr = v.print m names var ∧ X.EvIs v e ∧ m X.ptr = X.content) ps
        (segment X.s (carry.map PEvent.start) (X.L.toks X.s X.fin cfg).1) ∧
      ((X.L.toks X.s X.fin cfg).2 = none → ∀ k, BufferClient.run alloc names var (k + j) c = (ps, .done)) ∧
      ((X.L.toks X.s X.fin cfg).2 = some .oob → X.fin = false →
        (p'.lp.lexer = X.L ∧ p'.lp.view.numVars = X.numVars ∧ 3 ≤ p'.lp.view.out.staticSize ∧ p'.lp.hasStart = false) ∧
        (∃ r : BufferParser, p' = r.reset) ∧
        (∃ n, startOf cfg carry ≤ n ∧ n ≤ X.size ∧
          (segment X.s (carry.map PEvent.start) (X.L.toks X.s X.fin cfg).1).flatMap (PEvent.text X.s) = slice X.s (startOf cfg carry) n ∧
          OffsetIs off' n (segmentRest X.s (carry.map PEvent.start) (X.L.toks X.s X.fin cfg).1)) ∧
        ∀ k c', BufferClient.refill { c with parser := p', offset := off' } = some c' →
          BufferClient.run alloc names var (k + j) c =
            (ps ++ (BufferClient.run alloc names var k c').1, (BufferClient.run alloc names var k c').2)) := by
  intro n
  induction n with
  | zero => intro c cfg carry _ _ _ _ _ h; omega
  | succ n ih =>
    intro c cfg carry ha hb hv hd h hk
    have hlen := hX.len
    have hst : startOf cfg carry ≤ X.size := by
      have hc := h.cov
      cases carry with
      | none => show cfg.cov ≤ _; omega
      | some x =>
        have h1 := h.carry.2.2.1.le
        have h2 := h.carry.2.2.1.stop
        show x.a ≤ _; omega
    have hs := parseNextEvent_spec hX h
    have hrun : ∀ k, BufferClient.run alloc names var (k + 1) c =
      match c.parser.parseNextEvent X.ptr X.content X.size c.offset X.fin with
      | (p, off, .error .oob) =>
        if X.fin then ([], .broke)
        else
          match BufferClient.refill { c with parser := p, offset := off } with
          | none => ([], .failed .ub)
          | some c => BufferClient.run alloc names var k c
      | (_, _, .error e) => ([], .failed e)
      | (p, off, .ok ()) =>
        let r := BufferClient.run alloc names var k { c with parser := p, offset := off }
        (p.lp.view.print p.lp.input.mem names var :: r.1, r.2) := by
      intro k
      rw [BufferClient.run, if_neg (by simp [h.notDone]), ha]
      obtain ⟨parser, buf, valid, offset, inputDone, rest⟩ := c
      simp only at hb hv hd
      subst hb hv hd
      simp only
      generalize parser.parseNextEvent X.ptr X.content X.size offset X.fin = r
      obtain ⟨p', off', r⟩ := r
      cases r with
      | ok u => rfl
      | error e => cases e <;> rfl
    have hres := fun (p' : BufferParser) (off' : Nat) (e : Fail) =>
      parseNextEvent_reset (p := c.parser) (p' := p') (ptr := X.ptr) (size := X.size) (offset := c.offset) (off' := off') (content := X.content)
        (fin := X.fin) (e := e)
    generalize c.parser.parseNextEvent X.ptr X.content X.size c.offset X.fin = r at hs hrun hres
    obtain ⟨p', off', r⟩ := r
    simp only at hs hrun
    rcases hs with ⟨⟨j1, jK⟩, j2, j3, o, j4, j5, _⟩ | ⟨j1, e, carry', c', j2, jm, j3, ⟨jt, jlt⟩, j4, j5, j6, j7⟩ | ⟨j1, ⟨jd, jK⟩, e, j2, jm, j3, j4⟩
    · subst j1
      rw [j2, j3]
      refine ⟨1, [], p', off', .nil, (fun h => by cases h), fun _ hf => ⟨⟨jK.lexer.trans h.lexer, jK.numVars.trans h.numVars, jK.static ▸ h.static, jK.hasStart⟩,
        hres _ _ _ rfl, ⟨startOf cfg carry, Nat.le_refl _, hst, by simp [slice], ?_⟩, fun k c' hc' => ?_⟩⟩
      · rw [j5]
        exact oob_offset h j4
      · rw [hrun, hf]
        simp only [hc']
        rfl
    · subst j1
      simp only at hrun
      have hcov := j3.cov
      obtain ⟨j, ps, p2, off2, i1, i2, i3⟩ := ih { c with parser := p', offset := off' } c' carry' ha hb hv hd j3 (by omega)
      rw [j5, ← j6, ← j7]
      refine ⟨j + 1, p'.lp.view.print p'.lp.input.mem names var :: ps, p2, off2, .cons ⟨_, _, rfl, j2, jm⟩ i1, fun hn k => ?_, fun hn hf => ?_⟩
      · rw [← Nat.add_assoc, hrun, i2 hn]
      · obtain ⟨a1, a2, ⟨m, n1, n2, n3, n4⟩, a4⟩ := i3 hn hf
        refine ⟨a1, a2, ⟨m, by omega, n2, ?_, n4⟩, fun k c2 hc2 => ?_⟩
        · rw [List.flatMap_cons, n3, jt, slice_split (by omega) n1]
        · rw [← Nat.add_assoc, hrun, a4 k c2 hc2]
          rfl
    · subst j1
      simp only at hrun
      rw [j3, j4]
      refine ⟨2, [_], p', off', .cons ⟨_, _, rfl, j2, jm⟩ .nil, fun _ k => ?_, fun h => by cases h⟩
      rw [show k + 2 = (k + 1) + 1 by omega, hrun, BufferClient.run, if_pos jd]

/-! ### Events with timestamps -/

/-- Two tokens with the same text, kind and first character, in two texts. -/
structure TokEq (T T' : List Nat) (x x' : PTok) : Prop where
  kind : x.kind = x'.kind
  text : x.text T = x'.text T'
  starts : x.startsNl T = x'.startsNl T'

/-- The same, also for the parts into which a token is divided. -/
structure TokSame (T T' : List Nat) (x x' : PTok) : Prop extends TokEq T T' x x' where
  nl : x.nl.text T = x'.nl.text T'
  rest : x.rest.text T = x'.rest.text T'

/-- Two events with the same timestamp text (the kinds of timestamp may differ) and the same further tokens. -/
def EvSame (T T' : List Nat) (e e' : PEvent) : Prop :=
  ∃ h tl h' tl', e = ⟨true, h :: tl⟩ ∧ e' = ⟨true, h' :: tl'⟩ ∧ h.isTs = true ∧ h'.isTs = true ∧ h.text T = h'.text T' ∧
    List.Forall₂ (TokEq T T') tl tl'

theorem TokSame.nlEq {T T' : List Nat} {x x' : PTok} (h : TokSame T T' x x') : TokEq T T' x.nl x'.nl :=
  ⟨rfl, h.nl, h.starts⟩

theorem EvSame.add {T T' : List Nat} {e e' : PEvent} {x x' : PTok} (h : EvSame T T' e e') (hx : TokEq T T' x x') :
    EvSame T T' (e.add x) (e'.add x') := by
  obtain ⟨hd, tl, hd', tl', rfl, rfl, h1, h2, h3, h4⟩ := h
  exact ⟨hd, tl ++ [x], hd', tl' ++ [x'], rfl, rfl, h1, h2, h3, List.rel_append h4 (.cons hx .nil)⟩

theorem EvSame.ts {T T' : List Nat} {e e' : PEvent} (h : EvSame T T' e e') : e.ts = true ∧ e'.ts = true := by
  obtain ⟨hd, tl, hd', tl', rfl, rfl, _⟩ := h
  exact ⟨rfl, rfl⟩

theorem segment_same {T T' : List Nat} {xs xs' : List PTok} (h : List.Forall₂ (TokSame T T') xs xs') : ∀ {e e' : PEvent}, EvSame T T' e e' →
    List.Forall₂ (EvSame T T') (segment T (some e) xs) (segment T' (some e') xs') := by
  induction h with
  | nil => intro e e' _; simp [segment]
  | @cons x x' xs xs' hx _ ih =>
    intro e e' he
    obtain ⟨h1, h2⟩ := he.ts
    rw [segment, segment, h1, h2, ← hx.kind]
    simp only [Bool.true_eq_false, false_and, if_false, true_and, or_false]
    split
    · exact .cons he .nil
    · split
      · rename_i hk
        refine .cons (he.add hx.nlEq) (ih ?_)
        have hk' : x'.kind = tokenNewlineTimestamp := hx.kind ▸ hk
        have hr : x.rest.isTs = true := by
          show (x.kind == _ || x.kind == _) = true
          rw [hk]; rfl
        have hr' : x'.rest.isTs = true := by
          show (x'.kind == _ || x'.kind == _) = true
          rw [hk']; rfl
        exact ⟨x.rest, [], x'.rest, [], by simp [PEvent.start, hr], by simp [PEvent.start, hr'], hr, hr', hx.rest, .nil⟩
      · exact ih (he.add hx.toTokEq)

theorem filter_texts {T T' : List Nat} {xs xs' : List PTok} (h : List.Forall₂ (TokEq T T') xs xs') (p : Nat → Bool) :
    ((xs.filter fun x => p x.kind).map fun x => some (x.text T)) = (xs'.filter fun x => p x.kind).map fun x => some (x.text T') := by
  induction h with
  | nil => rfl
  | cons hx _ ih =>
    rw [List.filter_cons, List.filter_cons, ← hx.kind]
    split
    · rw [List.map_cons, List.map_cons, ih, hx.text]
    · exact ih

/-- The same is printed for the two events. -/
theorem EvSame.printed {T T' : List Nat} {e e' : PEvent} (h : EvSame T T' e e') (names : Nat → Option String) {var : Nat}
    (hv5 : var ≠ tokenFirstTimestamp) (hv6 : var ≠ tokenNewlineTimestamp) : e.printed T names var = e'.printed T' names var := by
  obtain ⟨hd, tl, hd', tl', rfl, rfl, h1, h2, h3, h4⟩ := h
  have hno : ∀ {z : PTok}, z.isTs = true → (z.kind == var) = false := by
    intro z hz
    simp only [PTok.isTs, Bool.or_eq_true, beq_iff_eq] at hz
    rw [beq_eq_false_iff_ne]
    rcases hz with h | h <;> rw [h] <;> omega
  have ht : PEvent.text T ⟨true, hd :: tl⟩ = PEvent.text T' ⟨true, hd' :: tl'⟩ := by
    simp only [PEvent.text, List.flatMap_cons, h3]
    congr 1
    clear h1 h2 h3
    induction h4 with
    | nil => rfl
    | cons hx _ ih => rw [List.flatMap_cons, List.flatMap_cons, hx.text, ih]
  have hm : PEvent.multiline T ⟨true, hd :: tl⟩ ↔ PEvent.multiline T' ⟨true, hd' :: tl'⟩ := by
    have hlen := h4.length_eq
    unfold PEvent.multiline
    simp only [true_and, List.length_cons]
    constructor
    · rintro ⟨i, x, i1, i2, i3, i4⟩
      obtain ⟨i, rfl⟩ : ∃ j, i = j + 1 := ⟨i - 1, by omega⟩
      rw [List.getElem?_cons_succ] at i3
      have hi : i < tl.length := (List.getElem?_eq_some_iff.mp i3).1
      have := h4.get hi (by omega)
      rw [List.getElem?_eq_getElem hi] at i3
      cases i3
      refine ⟨i + 1, tl'[i], by omega, by omega, by rw [List.getElem?_cons_succ, List.getElem?_eq_getElem], ?_⟩
      rw [← i4]; exact this.starts.symm
    · rintro ⟨i, x, i1, i2, i3, i4⟩
      obtain ⟨i, rfl⟩ : ∃ j, i = j + 1 := ⟨i - 1, by omega⟩
      rw [List.getElem?_cons_succ] at i3
      have hi : i < tl'.length := (List.getElem?_eq_some_iff.mp i3).1
      have := h4.get (by omega) hi
      rw [List.getElem?_eq_getElem hi] at i3
      cases i3
      refine ⟨i + 1, tl[i], by omega, by omega, by rw [List.getElem?_cons_succ, List.getElem?_eq_getElem], ?_⟩
      rw [← i4]; exact this.starts
  have hl : tl.flatMap (PTok.logtype T names) = tl'.flatMap (PTok.logtype T' names) := by
    clear ht hm h1 h2 h3
    induction h4 with
    | nil => rfl
    | cons hx _ ih =>
      rw [List.flatMap_cons, List.flatMap_cons, ih]
      simp only [PTok.logtype, hx.text, hx.kind]
  have hf := filter_texts h4 (fun k => k == var)
  unfold PEvent.printed
  rw [ht]
  simp only [if_true, List.tail_cons, List.head?_cons, Option.map_some, h3, hl, List.filter_cons, hno h1, hno h2, Bool.false_eq_true, if_false, hf]
  congr 1
  · exact decide_eq_decide.mpr hm
  · unfold PEvent.kept
    rw [ht]
    by_cases hk : PEvent.multiline T ⟨true, hd :: tl⟩
    · rw [if_pos hk, if_pos (hm.mp hk)]
    · rw [if_neg hk, if_neg (fun h => hk (hm.mpr h))]

theorem seg_nlTs {T : List Nat} {e : PEvent} {x : PTok} {xs : List PTok} (he : e.ts = true) (hx : x.kind = tokenNewlineTimestamp) :
    segment T (some e) (x :: xs) = e.add x.nl :: segment T (some (.start x.rest)) xs ∧
    segmentRest T (some e) (x :: xs) = segmentRest T (some (.start x.rest)) xs := by
  have hne : x.kind ≠ tokenEnd := by rw [hx]; decide
  constructor
  · rw [segment, if_neg hne, if_neg (by simp [he]), if_pos (.inl ⟨he, hx⟩)]
  · rw [segmentRest, if_neg hne, if_neg (by simp [he]), if_pos (.inl ⟨he, hx⟩)]

theorem seg_inner {T : List Nat} {e : PEvent} {x : PTok} {xs : List PTok} (he : e.ts = true) (hne : x.kind ≠ tokenEnd)
    (hx : x.kind ≠ tokenNewlineTimestamp) :
    segment T (some e) (x :: xs) = segment T (some (e.add x)) xs ∧
    segmentRest T (some e) (x :: xs) = segmentRest T (some (e.add x)) xs := by
  constructor
  · rw [segment, if_neg hne, if_neg (by simp [he]), if_neg (by simp [he, hx])]
  · rw [segmentRest, if_neg hne, if_neg (by simp [he]), if_neg (by simp [he, hx])]

/-- Up to a newline with timestamp, and from this timestamp. -/
theorem segment_split {T : List Nat} {x : PTok} (hx : x.kind = tokenNewlineTimestamp) (zs : List PTok) : ∀ (ys : List PTok) {e : PEvent},
    e.ts = true → NoEnd ys →
    segment T (some e) (ys ++ x :: zs) = segment T (some e) (ys ++ [x]) ++ segment T (some (.start x.rest)) zs := by
  have hne : x.kind ≠ tokenEnd := by rw [hx]; decide
  intro ys
  induction ys with
  | nil =>
    intro e he _
    simp only [List.nil_append]
    rw [(seg_nlTs he hx).1, (seg_nlTs he hx).1]
    simp [segment]
  | cons y ys ih =>
    intro e he h
    obtain ⟨h1, _⟩ := h y (by simp)
    have h3 : NoEnd ys := fun z hz => h z (by simp [hz])
    simp only [List.cons_append]
    by_cases hk : y.kind = tokenNewlineTimestamp
    · rw [(seg_nlTs he hk).1, (seg_nlTs he hk).1, ih (e := .start y.rest) (by show (y.kind == _ || y.kind == _) = true; rw [hk]; rfl) h3]
      rfl
    · rw [(seg_inner he h1 hk).1, (seg_inner he h1 hk).1, ih (e := e.add y) he h3]

theorem segment_none6 {T : List Nat} : ∀ (ys : List PTok) {e : PEvent}, e.ts = true → NoEnd ys → (∀ y ∈ ys, y.kind ≠ tokenNewlineTimestamp) →
    segment T (some e) ys = [] ∧ ∃ e', segmentRest T (some e) ys = some e' ∧ e'.ts = true := by
  intro ys
  induction ys with
  | nil => intro e he _ _; exact ⟨by simp [segment], e, rfl, he⟩
  | cons y ys ih =>
    intro e he h hk
    obtain ⟨h1, _⟩ := h y (by simp)
    have hy := hk y (by simp)
    rw [(seg_inner he h1 hy).1, (seg_inner he h1 hy).2]
    exact ih (e := e.add y) he (fun z hz => h z (by simp [hz])) (fun z hz => hk z (by simp [hz]))

theorem segmentRest_split {T : List Nat} {x : PTok} (hx : x.kind = tokenNewlineTimestamp) (zs : List PTok) : ∀ (ys : List PTok) {e : PEvent},
    e.ts = true → NoEnd ys →
    segmentRest T (some e) (ys ++ x :: zs) = segmentRest T (some (.start x.rest)) zs := by
  have hne : x.kind ≠ tokenEnd := by rw [hx]; decide
  intro ys
  induction ys with
  | nil =>
    intro e he _
    simp only [List.nil_append]
    rw [(seg_nlTs he hx).2]
  | cons y ys ih =>
    intro e he h
    obtain ⟨h1, _⟩ := h y (by simp)
    have h3 : NoEnd ys := fun z hz => h z (by simp [hz])
    simp only [List.cons_append]
    by_cases hk : y.kind = tokenNewlineTimestamp
    · rw [(seg_nlTs he hk).2, ih (e := .start y.rest) (by show (y.kind == _ || y.kind == _) = true; rw [hk]; rfl) h3]
    · rw [(seg_inner he h1 hk).2, ih (e := e.add y) he h3]

/-- The events up to a newline with timestamp are the text up to this newline. -/
theorem segment_upto {T : List Nat} {x : PTok} (hx : x.kind = tokenNewlineTimestamp) {n : Nat} {zs : List PTok} : ∀ (ys : List PTok) {e : PEvent} {b p : Nat},
    e.ts = true → NoEnd ys → TilesTo p n (ys ++ x :: zs) → b ≤ p → e.text T = slice T b p →
    (segment T (some e) (ys ++ [x])).flatMap (PEvent.text T) = slice T b (x.a + 1) ∧ p ≤ x.a := by
  have hne : x.kind ≠ tokenEnd := by rw [hx]; decide
  have hadd : ∀ (e : PEvent) (y : PTok), (e.add y).text T = e.text T ++ y.text T := by
    intro e y; simp [PEvent.add, PEvent.text]
  intro ys
  induction ys with
  | nil =>
    intro e b p he _ ht hb hE
    obtain ⟨rfl, t2, _⟩ := ht
    simp only [List.nil_append]
    rw [(seg_nlTs he hx).1]
    simp only [segment, List.flatMap_cons, List.flatMap_nil, List.append_nil, hadd, hE]
    exact ⟨slice_split hb (Nat.le_succ _), Nat.le_refl _⟩
  | cons y ys ih =>
    intro e b p he h ht hb hE
    obtain ⟨rfl, t2, _, t3⟩ := ht
    obtain ⟨h1, _⟩ := h y (by simp)
    have h3 : NoEnd ys := fun z hz => h z (by simp [hz])
    simp only [List.cons_append]
    by_cases hk : y.kind = tokenNewlineTimestamp
    · rw [(seg_nlTs he hk).1]
      obtain ⟨i1, i2⟩ := ih (e := .start y.rest) (b := y.a + 1) (by show (y.kind == _ || y.kind == _) = true; rw [hk]; rfl) h3 t3 (by omega)
        (by simp [PEvent.start, PEvent.text, PTok.text, PTok.rest])
      rw [List.flatMap_cons, i1, hadd, hE, show y.nl.text T = slice T y.a (y.a + 1) from rfl, slice_split hb (by omega),
        slice_split (by omega) (by omega)]
      exact ⟨rfl, by omega⟩
    · rw [(seg_inner he h1 hk).1]
      obtain ⟨i1, i2⟩ := ih (e := e.add y) (b := b) he h3 t3 (by omega) (by rw [hadd, hE]; exact slice_split hb (by omega))
      exact ⟨i1, by omega⟩

theorem last_split {α : Type} {p : α → Prop} [DecidablePred p] : ∀ (l : List α),
    (∀ x ∈ l, ¬ p x) ∨ ∃ ys x zs, l = ys ++ x :: zs ∧ p x ∧ ∀ z ∈ zs, ¬ p z := by
  intro l
  induction l with
  | nil => exact .inl (fun x hx => by cases hx)
  | cons a l ih =>
    rcases ih with h | ⟨ys, x, zs, rfl, h1, h2⟩
    · by_cases ha : p a
      · exact .inr ⟨[], a, l, rfl, ha, h⟩
      · left
        intro x hx
        rcases List.mem_cons.mp hx with rfl | hx
        · exact ha
        · exact h x hx
    · exact .inr ⟨a :: ys, x, zs, rfl, h1, h2⟩

/-! ### Reading the file -/

theorem take_len {α : Type} (l : List α) : l.take l.length = l := List.take_length

/-- What one read does. -/
theorem fill_spec (c : BufferClient) (hv : c.valid ≤ c.buf.length) :
    c.fill.buf.length = c.buf.length ∧ c.fill.buf.take c.fill.valid ++ c.fill.rest = c.buf.take c.valid ++ c.rest ∧
    c.fill.valid ≤ c.buf.length ∧ c.fill.offset = c.offset ∧ c.fill.parser = c.parser ∧
    (c.inputDone = false → (c.fill.inputDone = true → c.fill.rest = [] ∧ c.fill.valid < c.fill.buf.length) ∧
      (c.fill.inputDone = false → c.fill.valid = c.fill.buf.length ∧ c.fill.rest.length = c.rest.length - (c.buf.length - c.valid) ∧
        c.buf.length - c.valid ≤ c.rest.length)) := by
  obtain ⟨parser, buf, valid, offset, inputDone, rest⟩ := c
  simp only at hv
  simp only [BufferClient.fill, List.length_append, List.length_take, List.length_drop, Bool.or_eq_true, decide_eq_true_eq, Bool.or_eq_false_iff,
    decide_eq_false_iff_not, true_and]
  refine ⟨by omega, ?_, by omega, fun h => ⟨fun h1 => ?_, fun h1 => ?_⟩⟩
  · rw [List.append_assoc, ← List.append_assoc, List.take_left' (by simp; omega), List.append_assoc, List.take_append_drop]
  · have h1 : rest.length < buf.length - valid := by simpa [h] using h1
    exact ⟨List.drop_eq_nil_of_le (by omega), by omega⟩
  · omega

variable {s : SchemaAST} {addr : Nat → Nat} {t : ParserTables} {L : Lexer}

/-- The client before the calls on a buffer. -/
structure ClientInv (t : ParserTables) (L : Lexer) (c : BufferClient) (T : List Nat) : Prop where
  idle : ∃ r : BufferParser, c.parser = r.reset ∧ r.Idle t L
  offset : c.offset = 0
  text : c.buf.take c.valid ++ c.rest = T
  pos : 0 < c.buf.length
  done : c.inputDone = true → c.rest = [] ∧ c.valid < c.buf.length
  more : c.inputDone = false → c.valid = c.buf.length

theorem tiles_mem {n : Nat} : ∀ {xs : List PTok} {p : Nat}, Tiles p n xs → ∀ x ∈ xs, p ≤ x.a ∧ (x.kind ≠ tokenEnd → x.a < x.e) := by
  intro xs
  induction xs with
  | nil => intro p h; exact h.elim
  | cons y ys ih =>
    intro p h x hx
    cases ys with
    | nil =>
      obtain ⟨rfl, rfl⟩ := h
      simp only [List.mem_singleton] at hx
      subst hx
      exact ⟨Nat.le_refl _, fun h => absurd rfl h⟩
    | cons z zs =>
      obtain ⟨rfl, h2, _, h3⟩ := h
      rcases List.mem_cons.mp hx with rfl | hx
      · exact ⟨Nat.le_refl _, fun _ => h2⟩
      · have := ih h3 x hx
        exact ⟨by omega, this.2⟩

theorem tiles_split {n : Nat} : ∀ {ys zs : List PTok} {x : PTok} {p : Nat}, Tiles p n (ys ++ x :: zs) → x.kind ≠ tokenEnd → Tiles x.e n zs := by
  intro ys
  induction ys with
  | nil =>
    intro zs x p h hx
    cases zs with
    | nil => obtain ⟨_, rfl⟩ := h; exact absurd rfl hx
    | cons z zs => exact h.2.2.2
  | cons y ys ih =>
    intro zs x p h hx
    cases hl : ys ++ x :: zs with
    | nil => simp at hl
    | cons w ws =>
      rw [List.cons_append, hl] at h
      have := h.2.2.2
      rw [← hl] at this
      exact ih this hx

theorem tilesTo_mem {n : Nat} : ∀ {xs : List PTok} {p : Nat}, TilesTo p n xs → p ≤ n ∧ ∀ x ∈ xs, x.a < x.e ∧ x.e ≤ n := by
  intro xs
  induction xs with
  | nil => intro p h; exact ⟨Nat.le_of_eq h, fun x hx => by cases hx⟩
  | cons y ys ih =>
    intro p h
    obtain ⟨rfl, h2, _, h3⟩ := h
    obtain ⟨i1, i2⟩ := ih h3
    refine ⟨by omega, fun x hx => ?_⟩
    rcases List.mem_cons.mp hx with rfl | hx
    · exact ⟨h2, i1⟩
    · exact i2 x hx

theorem tokSame_take {T : List Nat} {n : Nat} {x : PTok} (h1 : x.a < x.e) (h2 : x.e ≤ n) : TokSame (T.take n) T x x := by
  refine ⟨⟨rfl, slice_take h2, ?_⟩, slice_take (by show x.a + 1 ≤ n; omega), slice_take h2⟩
  unfold PTok.startsNl
  rw [List.getElem?_take_of_lt (by omega)]

theorem tokSame_shift {T : List Nat} {n : Nat} {x : PTok} (h1 : n ≤ x.a) : TokSame T (T.drop n) x (x.shift n) := by
  refine ⟨⟨rfl, (slice_drop h1).symm, ?_⟩, ?_, ?_⟩
  · show (T[x.a]? == _) = ((T.drop n)[x.a - n]? == _)
    rw [getElem?_drop' h1]
  · show slice T x.a (x.a + 1) = slice (T.drop n) (x.a - n) (x.a - n + 1)
    rw [← slice_drop h1, show x.a + 1 - n = x.a - n + 1 by omega]
  · show slice T (x.a + 1) x.e = slice (T.drop n) (x.a - n + 1) (x.e - n)
    rw [← slice_drop (n := n) (by omega), show x.a + 1 - n = x.a - n + 1 by omega]

theorem map_printed {T T' : List Nat} {es es' : List PEvent} (h : List.Forall₂ (EvSame T T') es es') (names : Nat → Option String) {var : Nat}
    (hv5 : var ≠ tokenFirstTimestamp) (hv6 : var ≠ tokenNewlineTimestamp) :
    es.map (PEvent.printed T names var) = es'.map (PEvent.printed T' names var) := by
  induction h with
  | nil => rfl
  | cons h _ ih => rw [List.map_cons, List.map_cons, ih, h.printed names hv5 hv6]

/-- The tokens of a finished text. -/
theorem whole_facts (hC : s.Compiled addr t L) {q : Nat} (hq : L.dfa.next 0 cCharStartOfFile = some q) (hqa : L.dfa.isAccepting q = false)
    (T : List Nat) : (L.toks T true (.sof q)).2 = none ∧ Tiles 0 T.length (L.toks T true (.sof q)).1 := by
  have h := buildLexer_ok hC.ok
  exact pureAll_tiles (h.nlOk hC.sensible hC.inj) (h.typesProper hC.sensible) _ (.sof q) ⟨hq, hqa⟩ (by simp [Cfg.cov])
    (by simp only [Cfg.cov]; omega)

/-- The tokens of an unfinished text. -/
theorem part_facts (hC : s.Compiled addr t L) {q : Nat} (hq : L.dfa.next 0 cCharStartOfFile = some q) (hqa : L.dfa.isAccepting q = false)
    (S : List Nat) : (L.toks S false (.sof q)).2 = some .oob ∧ NoEnd (L.toks S false (.sof q)).1 ∧
      (∃ p ≤ S.length, TilesTo 0 p (L.toks S false (.sof q)).1) ∧ ∀ T, (L.toks S false (.sof q)).1 <+: (L.toks (S ++ T) true (.sof q)).1 := by
  have h := buildLexer_ok hC.ok
  have hL := h.nlOk hC.sensible hC.inj
  have hT := h.typesProper hC.sensible
  have hc : CfgOk L S (.sof q) := ⟨hq, hqa⟩
  obtain ⟨h1, p, hp, h2⟩ := pureAll_unfin hL hT (S.length - (Cfg.sof q).cov + 1) (.sof q) hc (by simp [Cfg.cov]) (by simp only [Cfg.cov]; omega)
    (fun a e ty h => by cases h)
  have hsound := pureAll_sound hL (fin := false) (S.length - (Cfg.sof q).cov + 1) _ hc
  refine ⟨h1, (noEnd_of_tiles (s := S) hT h2 hsound).1, ⟨p, hp, h2⟩, fun T => ?_⟩
  exact pureAll_extend hL _ _ hc (by simp [Cfg.cov]) _ (by simp only [Cfg.cov, List.length_append]; omega)

/-- The token sequence of the text from a timestamp on. -/
theorem whole_restart (hC : s.Compiled addr t L) (hmono : ∀ a b, a < b → addr a < addr b) (hnl : s.IsDelim newline) (hres : s.Reserved)
    (hline : s.LineTimestamps) {q : Nat} (hq : L.dfa.next 0 cCharStartOfFile = some q) (hqa : L.dfa.isAccepting q = false)
    {T : List Nat} (hb : AllBytes T) (hfd : cCharStartOfFile ∉ T) {ys zs : List PTok} {x : PTok} (h : (L.toks T true (.sof q)).1 = ys ++ x :: zs)
    (hk : x.kind = tokenNewlineTimestamp) : x.a + 1 < x.e ∧ x.e ≤ T.length ∧
      (L.toks (T.drop (x.a + 1)) true (.sof q)).1 = ⟨0, x.e - (x.a + 1), x.ty.map atStart⟩ :: zs.map (PTok.shift (x.a + 1)) := by
  have hO := buildLexer_ok hC.ok
  have hL := hO.schemaLike hC.sensible hC.inj hnl
  have hT := hO.typesProper hC.sensible
  have hex : ∀ U : List Nat, cCharStartOfFile ∉ U → LexExact L U (L.toks U true (.sof q)).1 := fun U hU =>
    pureAll_exact hL hT hU ⟨hq, hqa⟩ (by simp only [Cfg.cov]; omega)
  have h0 := hex T hfd
  rw [h] at h0
  obtain ⟨_, h2, h3, h4⟩ := lexExact_restart hC hmono hnl hres hline hb h0 hk
  exact ⟨h2, h3, (hex _ (fun hm => hfd (List.mem_of_mem_drop hm))).unique h4⟩

theorem kind_atStart {x : PTok} (hk : x.kind = tokenNewlineTimestamp) (a e : Nat) :
    PTok.kind ⟨a, e, x.ty.map atStart⟩ = tokenFirstTimestamp := by
  unfold PTok.kind at hk ⊢
  cases hl : x.ty with
  | nil => rw [hl] at hk; cases hk
  | cons i l =>
    rw [hl] at hk
    simp only [List.headD_cons] at hk
    subst hk
    rfl

theorem segment_first {T : List Nat} {x : PTok} {xs : List PTok} (hx : x.kind = tokenFirstTimestamp) :
    segment T none (x :: xs) = segment T (some (.start x)) xs ∧ segmentRest T none (x :: xs) = segmentRest T (some (.start x)) xs ∧
      (PEvent.start x).ts = true := by
  refine ⟨?_, ?_, ?_⟩
  · rw [segment, if_neg (by rw [hx]; decide), if_neg (by rw [hx]; decide)]
  · rw [segmentRest, if_neg (by rw [hx]; decide), if_neg (by rw [hx]; decide)]
  · show (x.kind == _ || x.kind == _) = true; rw [hx]; rfl

/-- The calls on one buffer of the client. -/
theorem client_buffer (hC : s.Compiled addr t L) {q : Nat} (hq : L.dfa.next 0 cCharStartOfFile = some q) (hqa : L.dfa.isAccepting q = false)
    (alloc : Nat → Nat) (var : Nat) {c : BufferClient} {T : List Nat} (hI : ClientInv t L c T) :
    ∃ j, (c.inputDone = true → ∀ k, BufferClient.run alloc t.getIdSymbol var (k + j) c =
        ((segment T none (L.toks T true (.sof q)).1).map (PEvent.printed T t.getIdSymbol var), .done)) ∧
      (c.inputDone = false → ∃ (r : BufferParser) (off : Nat), r.Idle t L ∧
        (∃ n ≤ c.valid, (segment (T.take c.valid) none (L.toks (T.take c.valid) false (.sof q)).1).flatMap (PEvent.text (T.take c.valid)) =
            slice (T.take c.valid) 0 n ∧
          OffsetIs off n (segmentRest (T.take c.valid) none (L.toks (T.take c.valid) false (.sof q)).1)) ∧
        ∀ k c', BufferClient.refill { c with parser := r.reset, offset := off } = some c' →
          BufferClient.run alloc t.getIdSymbol var (k + j) c =
            ((segment (T.take c.valid) none (L.toks (T.take c.valid) false (.sof q)).1).map (PEvent.printed (T.take c.valid) t.getIdSymbol var) ++
              (BufferClient.run alloc t.getIdSymbol var k c').1, (BufferClient.run alloc t.getIdSymbol var k c').2)) := by
  obtain ⟨r, hr, hIdle⟩ := hI.idle
  have hsize : c.valid ≤ c.buf.length := by
    cases hd : c.inputDone with
    | true => exact Nat.le_of_lt (hI.done hd).2
    | false => exact Nat.le_of_eq (hI.more hd)
  have htake : c.buf.take c.valid = T.take c.valid := by
    rw [← hI.text, List.take_left' (by simp; omega)]
  have hslack : c.inputDone = true → c.valid < c.buf.length := fun h => (hI.done h).2
  have hX := ctx_ok hC c.inputDone (alloc c.buf.length) hsize hslack
  have hB := brel_reset hC hIdle hq hqa c.inputDone (alloc c.buf.length) c.buf c.valid
  rw [← hr, ← hI.offset] at hB
  obtain ⟨j, ps, p', off', h1, h2, h3⟩ := run_buffer hX alloc t.getIdSymbol var (c.valid + 1) c (.sof q) none rfl rfl rfl rfl hB (by simp only; omega)
  have hps : ∀ {es : List PEvent}, (∀ e ∈ es, e ∈ segment (c.buf.take c.valid) none (L.toks (c.buf.take c.valid) c.inputDone (.sof q)).1) →
      ∀ {ps : List Printed}, List.Forall₂ (fun pr e => ∃ (v : EventView) (m : Mem), pr = v.print m t.getIdSymbol var ∧
        Ctx.EvIs ⟨L, c.inputDone, alloc c.buf.length, c.buf, c.valid, t.idSymbol.length⟩ v e ∧ m (alloc c.buf.length) = c.buf) ps es →
      ps = es.map (PEvent.printed (c.buf.take c.valid) t.getIdSymbol var) := by
    intro es hes ps h
    induction h with
    | nil => rfl
    | cons h _ ih =>
      obtain ⟨v, m, rfl, hE, hm⟩ := h
      rw [List.map_cons, ih (fun e he => hes e (by simp [he])), print_spec hC hq hqa hsize hslack (hes _ (by simp)) hE hm var]
  have hps := hps (fun e he => he) h1
  refine ⟨j, fun hd k => ?_, fun hd => ?_⟩
  · have hT : c.buf.take c.valid = T := by rw [← hI.text, (hI.done hd).1, List.append_nil]
    have := h2 (by simp only [Ctx.s, hd]; exact (whole_facts hC hq hqa _).1) k
    rw [hps] at this
    simp only [Ctx.s, hd, hT] at this
    exact this
  · obtain ⟨⟨a1, a2, a3, a4⟩, ⟨r', rfl⟩, ⟨n, n1, n2, n3, n4⟩, a5⟩ := h3 (by simp only [Ctx.s, hd]; exact (part_facts hC hq hqa _).1) hd
    rw [hps] at a5
    simp only [Ctx.s, hd, htake] at a5 n3 n4
    exact ⟨r', off', ⟨a1, a2, a3, a4⟩, ⟨n, n2, n3, n4⟩, fun k c' h => a5 k c' (by rw [← hd]; exact h)⟩

/-- Whatever the sizes of the pieces, everything is printed as for the whole text, if it begins with a timestamp. -/
theorem client_run (hC : s.Compiled addr t L) (hmono : ∀ a b, a < b → addr a < addr b) (hnl : s.IsDelim newline) (hres : s.Reserved)
    (hline : s.LineTimestamps) {q : Nat} (hq : L.dfa.next 0 cCharStartOfFile = some q) (hqa : L.dfa.isAccepting q = false)
    (alloc : Nat → Nat) {var : Nat} (hv5 : var ≠ tokenFirstTimestamp) (hv6 : var ≠ tokenNewlineTimestamp) :
    ∀ (N : Nat) (c : BufferClient) (T : List Nat), c.rest.length + (if c.inputDone then 0 else 1) ≤ N → ClientInv t L c T →
      AllBytes T → cCharStartOfFile ∉ T → (∃ x xs, (L.toks T true (.sof q)).1 = x :: xs ∧ x.kind = tokenFirstTimestamp) →
      ∃ j, ∀ k, BufferClient.run alloc t.getIdSymbol var (k + j) c =
        ((segment T none (L.toks T true (.sof q)).1).map (PEvent.printed T t.getIdSymbol var), .done) := by
  intro N
  induction N with
  | zero =>
    intro c T hN hI _ _ _
    obtain ⟨j, h1, _⟩ := client_buffer hC hq hqa alloc var hI
    have hd : c.inputDone = true := by
      cases hd : c.inputDone with
      | true => rfl
      | false => rw [hd] at hN; simp at hN
    exact ⟨j, h1 hd⟩
  | succ N ih =>
    intro c T hN hI hb hfd ⟨x0, xs, hW, hk0⟩
    obtain ⟨j, h1, h2⟩ := client_buffer hC hq hqa alloc var hI
    cases hd : c.inputDone with
    | true => exact ⟨j, h1 hd⟩
    | false =>
      obtain ⟨r, off, hIdle, ⟨n, hn, htext, hoff⟩, hrun⟩ := h2 hd
      have hval := hI.more hd
      have hpos := hI.pos
      have hTl : c.valid ≤ T.length := by
        rw [← hI.text]; simp; omega
      have hTs : T = T.take c.valid ++ c.rest := by
        conv => lhs; rw [← hI.text]
        rw [show c.buf.take c.valid = T.take c.valid by rw [← hI.text, List.take_left' (by simp; omega)]]
      obtain ⟨_, hne, ⟨p, hp, htiles⟩, hpre⟩ := part_facts hC hq hqa (T.take c.valid)
      have hpre := hpre c.rest
      rw [← hTs, hW] at hpre
      have hlen : (T.take c.valid).length = c.valid := by simp; omega
      -- when no event was finished
      have hgrow : segment (T.take c.valid) none (L.toks (T.take c.valid) false (.sof q)).1 = [] → off = n →
          ∃ j, ∀ k, BufferClient.run alloc t.getIdSymbol var (k + j) c =
            ((segment T none (L.toks T true (.sof q)).1).map (PEvent.printed T t.getIdSymbol var), .done) := by
        intro he ho
        have hn0 : n = 0 := by
          rw [he] at htext
          have := congrArg List.length htext
          rw [slice_length (by omega)] at this
          simpa using this.symm
        subst hn0
        subst ho
        let c1 : BufferClient := { c with parser := r.reset, offset := 0, buf := c.buf ++ List.replicate c.buf.length 0 }
        have hf := fill_spec c1 (by show c.valid ≤ (c.buf ++ List.replicate c.buf.length 0).length; simp; omega)
        have hlen1 : c1.buf.length = c.buf.length + c.buf.length := by
          show (c.buf ++ List.replicate c.buf.length 0).length = _; simp
        obtain ⟨f1, f2, f3, f4, f5, f6⟩ := hf
        obtain ⟨f6, f7⟩ := f6 hd
        have hI1 : ClientInv t L c1.fill T := by
          refine ⟨⟨r, f5, hIdle⟩, f4, ?_, by omega, f6, fun h => (f7 h).1⟩
          rw [f2]
          show (c.buf ++ List.replicate c.buf.length 0).take c.valid ++ c.rest = T
          rw [List.take_append_of_le_length (by omega)]
          exact hI.text
        obtain ⟨j', hj'⟩ := ih c1.fill T (by
          cases hd1 : c1.fill.inputDone with
          | true =>
            rw [(f6 hd1).1]
            rw [hd] at hN
            simp
          | false =>
            obtain ⟨g1, g2, g3⟩ := f7 hd1
            rw [hd] at hN
            simp only [Bool.false_eq_true, if_false] at hN ⊢
            have e1 : c1.rest = c.rest := rfl
            have e2 : c1.valid = c.valid := rfl
            rw [e1, e2] at g2 g3
            omega) hI1 hb hfd ⟨x0, xs, hW, hk0⟩
        refine ⟨j' + j, fun k => ?_⟩
        rw [← Nat.add_assoc, hrun (k + j') c1.fill (by unfold BufferClient.refill; rw [if_pos rfl]), hj' k, he]
        rfl
      cases hU : (L.toks (T.take c.valid) false (.sof q)).1 with
      | nil =>
        rw [hU] at hgrow hoff
        exact hgrow rfl hoff
      | cons y ys =>
        rw [hU] at hpre hne htiles
        obtain ⟨zs, hzs⟩ := hpre
        rw [List.cons_append] at hzs
        obtain ⟨rfl, rfl⟩ := List.cons.inj hzs
        have hneY : NoEnd ys := fun z hz => hne z (by simp [hz])
        obtain ⟨hs1, hs2, hts0⟩ := segment_first (T := T.take c.valid) (xs := ys) hk0
        rw [hU] at hgrow hoff htext hrun
        rw [hs1] at hgrow htext hrun
        rw [hs2] at hoff
        rcases last_split (p := fun z : PTok => z.kind = tokenNewlineTimestamp) ys with hno | ⟨y1, x, y2, rfl, hx, hno⟩
        · obtain ⟨g1, e', g2, g3⟩ := segment_none6 (T := T.take c.valid) ys hts0 hneY hno
          rw [g2] at hoff
          exact hgrow g1 (hoff g3)
        · have hne1 : NoEnd y1 := fun z hz => hneY z (by simp [hz])
          have hne2 : NoEnd y2 := fun z hz => hneY z (by simp [hz])
          have htsx : (PEvent.start x.rest).ts = true := by show (x.kind == _ || x.kind == _) = true; rw [hx]; rfl
          have hsplit := segment_split (T := T.take c.valid) hx y2 y1 hts0 hne1
          obtain ⟨g1, e', g2, g3⟩ := segment_none6 (T := T.take c.valid) y2 htsx hne2 hno
          rw [g1, List.append_nil] at hsplit
          rw [hsplit] at hrun htext
          rw [segmentRest_split hx y2 y1 hts0 hne1, g2] at hoff
          have hoff : off = n := hoff g3
          obtain ⟨t1, t2, t3, t4⟩ := htiles
          obtain ⟨u1, u2⟩ := segment_upto (T := T.take c.valid) hx y1 (b := 0) hts0 hne1 t4 (by omega)
            (by simp [PEvent.start, PEvent.text, PTok.text, t1])
          rw [u1] at htext
          -- where the timestamp is
          have hxm := (tilesTo_mem t4).2 x (by simp)
          have hn1 : n = x.a + 1 := by
            have := congrArg List.length htext
            rw [slice_length (by omega), slice_length (by omega)] at this
            omega
          rw [hn1] at hoff
          subst hoff
          -- the whole token sequence
          have hW' : (L.toks T true (.sof q)).1 = (y :: y1) ++ x :: (y2 ++ zs) := by rw [hW]; simp
          obtain ⟨w1, w2, w3⟩ := whole_restart hC hmono hnl hres hline hq hqa hb hfd hW' hx
          -- the events of the whole text
          have hS : segment T none (L.toks T true (.sof q)).1 =
              segment T (some (.start y)) (y1 ++ [x]) ++ segment T (some (.start x.rest)) (y2 ++ zs) := by
            rw [hW', List.cons_append, (segment_first hk0).1, segment_split hx (y2 ++ zs) y1 hts0 hne1]
          have hp2 := (tilesTo_mem t4).1
          have hE1 : List.Forall₂ (EvSame (T.take c.valid) T) (segment (T.take c.valid) (some (.start y)) (y1 ++ [x]))
              (segment T (some (.start y)) (y1 ++ [x])) := by
            apply segment_same
            · rw [List.forall₂_same]
              intro z hz
              have := (tilesTo_mem t4).2 z (by
                simp only [List.mem_append, List.mem_cons, List.mem_singleton] at hz ⊢
                rcases hz with h | h
                · exact .inl h
                · exact .inr (.inl (by simpa using h)))
              exact tokSame_take this.1 (by omega)
            · refine ⟨y, [], y, [], by rw [← hts0]; rfl, by rw [← hts0]; rfl, hts0, hts0, ?_, .nil⟩
              exact slice_take (by omega)
          have hTz := tiles_split (hW' ▸ (whole_facts hC hq hqa T).2) (by rw [hx]; decide)
          have hk5 := kind_atStart hx 0 (x.e - (x.a + 1))
          obtain ⟨v1, _, v3⟩ := segment_first (T := T.drop (x.a + 1)) (xs := (y2 ++ zs).map (PTok.shift (x.a + 1))) hk5
          have hE2 : List.Forall₂ (EvSame T (T.drop (x.a + 1))) (segment T (some (.start x.rest)) (y2 ++ zs))
              (segment (T.drop (x.a + 1)) none (L.toks (T.drop (x.a + 1)) true (.sof q)).1) := by
            rw [w3, v1]
            apply segment_same
            · rw [List.forall₂_map_right_iff, List.forall₂_same]
              intro z hz
              exact tokSame_shift (by have := (tiles_mem hTz z hz).1; omega)
            · refine ⟨x.rest, [], _, [], by rw [← htsx]; rfl, by rw [← v3]; rfl, htsx, v3, ?_, .nil⟩
              have := slice_drop (s := T) (n := x.a + 1) (a := x.a + 1) (e := x.e) (Nat.le_refl _)
              rw [Nat.sub_self] at this
              exact this.symm
          -- the refilled buffer
          let c1 : BufferClient := ⟨r.reset, (c.buf.take c.valid).drop (x.a + 1) ++ c.buf.drop (c.valid - (x.a + 1)), c.valid - (x.a + 1), 0,
            c.inputDone, c.rest⟩
          have hlen1 : c1.buf.length = c.buf.length := by
            show ((c.buf.take c.valid).drop (x.a + 1) ++ c.buf.drop (c.valid - (x.a + 1))).length = _
            simp; omega
          have e1 : c1.rest = c.rest := rfl
          have e2 : c1.valid = c.valid - (x.a + 1) := rfl
          obtain ⟨f1, f2, f3, f4, f5, f6⟩ := fill_spec c1 (by omega)
          obtain ⟨f6, f7⟩ := f6 hd
          have hI1 : ClientInv t L c1.fill (T.drop (x.a + 1)) := by
            refine ⟨⟨r, f5, hIdle⟩, f4, ?_, by omega, f6, fun h => (f7 h).1⟩
            rw [f2]
            show ((c.buf.take c.valid).drop (x.a + 1) ++ c.buf.drop (c.valid - (x.a + 1))).take (c.valid - (x.a + 1)) ++ c.rest = _
            rw [List.take_left' (by simp; omega), ← hI.text, List.drop_append_of_le_length (by simp; omega)]
          obtain ⟨j', hj'⟩ := ih c1.fill (T.drop (x.a + 1)) (by
            cases hd1 : c1.fill.inputDone with
            | true =>
              rw [(f6 hd1).1]
              simp
            | false =>
              obtain ⟨g1, g2, g3⟩ := f7 hd1
              rw [hd] at hN
              simp only [Bool.false_eq_true, if_false] at hN ⊢
              rw [e1, e2] at g2 g3
              omega) hI1 (fun z hz => hb z (List.mem_of_mem_drop hz)) (fun hm => hfd (List.mem_of_mem_drop hm)) ⟨_, _, w3, hk5⟩
          refine ⟨j' + j, fun k => ?_⟩
          rw [← Nat.add_assoc, hrun (k + j') c1.fill ?_, hj' k, hS, List.map_append, map_printed hE1 _ hv5 hv6, map_printed hE2 _ hv5 hv6]
          unfold BufferClient.refill
          rw [if_neg (by simp), if_pos (by show x.a + 1 ≤ c.valid; omega)]

end LogSurgeon
