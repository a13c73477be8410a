import Verif.Proofs.SplitLog
import Verif.Spec.SplitLog
import Verif.Props.BufferClient
import Verif.Props.Schema
/-
C66: a log can be divided at the beginning of any event, and its parts parsed separately.
-/
namespace LogSurgeon
open Ctx

variable {s : SchemaAST} {addr : Nat → Nat} {t : ParserTables} {L : Lexer}

/-- The newline at the end of an event as static text and as a token. -/
theorem printed_last {T : List Nat} {d : PEvent} (hd : d.ts = true) (hne : d.toks ≠ []) {b : Nat} (hget : T[b]? = some newline) {ty : List Nat}
    (hk : PTok.kind ⟨b, b + 1, ty⟩ = tokenNewline) {names : Nat → Option String} (hn : names tokenNewline = some "newLine") {var : Nat}
    (h1 : var ≠ tokenUncaught) (h7 : var ≠ tokenNewline) :
    Printed.LastOf ((d.add ⟨b, b + 1, [tokenUncaught]⟩).printed T names var) ((d.add ⟨b, b + 1, ty⟩).printed T names var) := by
  obtain ⟨dts, dtoks⟩ := d
  simp only at hd hne
  subst hd
  obtain ⟨h, tl, rfl⟩ := List.exists_cons_of_ne_nil hne
  have hb : b < T.length := (List.getElem?_eq_some_iff.mp hget).1
  have hslice : slice T b (b + 1) = [newline] := by
    rw [slice_cons (Nat.lt_succ_self _) hb, slice_self]
    obtain ⟨_, h⟩ := List.getElem?_eq_some_iff.mp hget
    rw [h]
  have ht : ∀ ty', PEvent.text T (PEvent.add ⟨true, h :: tl⟩ ⟨b, b + 1, ty'⟩) = PEvent.text T ⟨true, h :: tl⟩ ++ [newline] := by
    intro ty'
    simp [PEvent.add, PEvent.text, PTok.text, hslice]
  have hm : PEvent.multiline T (PEvent.add ⟨true, h :: tl⟩ ⟨b, b + 1, ty⟩) ↔
      PEvent.multiline T (PEvent.add ⟨true, h :: tl⟩ ⟨b, b + 1, [tokenUncaught]⟩) := by
    unfold PEvent.multiline PEvent.add
    simp only [List.length_append, List.length_cons, List.length_nil]
    constructor
    · rintro ⟨h0, i, x, i1, i2, i3, i4⟩
      rw [List.getElem?_append_left (by simp; omega)] at i3
      exact ⟨h0, i, x, i1, i2, by rw [List.getElem?_append_left (by simp; omega)]; exact i3, i4⟩
    · rintro ⟨h0, i, x, i1, i2, i3, i4⟩
      rw [List.getElem?_append_left (by simp; omega)] at i3
      exact ⟨h0, i, x, i1, i2, by rw [List.getElem?_append_left (by simp; omega)]; exact i3, i4⟩
  have hu : PTok.kind ⟨b, b + 1, [tokenUncaught]⟩ = tokenUncaught := rfl
  refine ⟨tl.flatMap (PTok.logtype T names), ?_, ?_⟩
  · simp [PEvent.printed, PEvent.add, PTok.logtype, hu, PTok.text, hslice]
  · unfold PEvent.printed
    rw [ht, ht]
    congr 1
    · have a1 : (tokenNewline == var) = false := beq_eq_false_iff_ne.mpr (fun h => h7 h.symm)
      have a2 : (tokenUncaught == var) = false := beq_eq_false_iff_ne.mpr (fun h => h1 h.symm)
      simp [PEvent.add, List.filter_cons, hk, hu, a1, a2, List.filter_append]
    · have e1 : "<" ++ "newLine" ++ ">" = "<newLine>" := by decide
      have e2 : tokenNewline ≠ tokenUncaught := by decide
      simp [PEvent.add, PTok.logtype, hk, hn, e1, e2]
    · exact decide_eq_decide.mpr hm
    · unfold PEvent.kept
      rw [ht, ht]
      by_cases hk : PEvent.multiline T (PEvent.add ⟨true, h :: tl⟩ ⟨b, b + 1, ty⟩)
      · rw [if_pos hk, if_pos (hm.mp hk)]
      · rw [if_neg hk, if_neg (fun h => hk (hm.mpr h))]

theorem begins_iff (r : RunOut) (m : Mem) (names : Nat → Option String) (var : Nat) :
    r.beginsWithTimestamp ↔ ∃ a, (r.printed m names var).head? = some a ∧ a.timestamp.isSome = true := by
  unfold RunOut.beginsWithTimestamp RunOut.printed
  rw [List.head?_map]
  constructor
  · rintro ⟨o, h1, h2⟩
    exact ⟨_, by rw [h1]; rfl, by simpa [EventView.print] using h2⟩
  · rintro ⟨a, h1, h2⟩
    obtain ⟨o, h3, rfl⟩ := Option.map_eq_some_iff.mp h1
    exact ⟨o, h3, by simpa [EventView.print] using h2⟩

/-- C66: if the events of a log that begins with a timestamp are `ps1 ++ ps2`, then the log can be divided after the bytes of `ps1`:
the second part by itself has the events `ps2`, and the first part has the events `ps1`, except that in the logtype of the last of them
the newline at the end is written `<newLine>`.  (Partial: the log begins with a timestamp; newline is a delimiter; no variable has a
reserved name; timestamps contain no newline; the addresses of the NFA states are in the order of their creation; byte 0xFD does not
occur; `var` is an id of a variable.) -/
theorem C66_parts_partial (hC : s.Compiled addr t L) (hv : s.vars ≠ []) (hmono : ∀ a b, a < b → addr a < addr b) (hnl : s.IsDelim newline)
    (hres : s.Reserved) (hline : s.LineTimestamps) {p p1 p2 : BufferParser} (hI : p.Idle t L) (hI1 : p1.Idle t L) (hI2 : p2.Idle t L)
    {file : List Nat} (hb : ∀ c ∈ file, c < 256) (hfd : cCharStartOfFile ∉ file) {pad pad1 pad2 : List Nat} (hpad : pad ≠ [])
    (hpad1 : pad1 ≠ []) (hpad2 : pad2 ≠ []) (ptr ptr1 ptr2 : Nat) {k k1 k2 : Nat} (hk : file.length < k) {m m1 m2 : Mem}
    (hm : m ptr = file ++ pad) {var : Nat} (hvar : var ∉ [tokenUncaught, tokenFirstTimestamp, tokenNewlineTimestamp, tokenNewline])
    (hts : (p.parseBuffer k ptr (file ++ pad) file.length true).beginsWithTimestamp) {ps1 ps2 : List Printed}
    (hps : (p.parseBuffer k ptr (file ++ pad) file.length true).printed m t.getIdSymbol var = ps1 ++ ps2) (h1 : ps1 ≠ []) (h2 : ps2 ≠ [])
    {n : Nat} (hn : n = textSize ps1) (hk1 : (file.take n).length < k1) (hm1 : m1 ptr1 = file.take n ++ pad1)
    (hk2 : (file.drop n).length < k2) (hm2 : m2 ptr2 = file.drop n ++ pad2) :
    ((p2.parseBuffer k2 ptr2 (file.drop n ++ pad2) (file.drop n).length true).printed m2 t.getIdSymbol var = ps2 ∧
      (p2.parseBuffer k2 ptr2 (file.drop n ++ pad2) (file.drop n).length true).beginsWithTimestamp) ∧
    ∃ ps a b, ps1 = ps ++ [a] ∧ Printed.LastOf a b ∧
      (p1.parseBuffer k1 ptr1 (file.take n ++ pad1) (file.take n).length true).printed m1 t.getIdSymbol var = ps ++ [b] := by
  simp only [List.mem_cons, List.not_mem_nil, or_false, not_or] at hvar
  obtain ⟨v1, v5, v6, v7⟩ := hvar
  obtain ⟨q, hq, hqa, hw⟩ := whole_printed hC hv
  obtain ⟨w1, w2⟩ := hw hI ptr hpad hk hm var
  obtain ⟨f, fs, hW, hf⟩ := w2 hts
  rw [w1] at hps
  obtain ⟨es1, es2, hes, rfl, rfl⟩ := List.map_eq_append_iff.mp hps
  obtain ⟨n', hn', htext, hE2, es, d, b, ty, d1, d2, d3, d4, rfl, hE1⟩ := split_events hC hmono hnl hres hline hq hqa hb hfd hW hf hes
    (fun h => h1 (by rw [h]; rfl)) (fun h => h2 (by rw [h]; rfl))
  have hnn : n = n' := by
    have e : ∀ l : List PEvent, (l.map (PEvent.printed file t.getIdSymbol var)).flatMap (fun p => p.text.getD []) = l.flatMap (PEvent.text file) := by
      intro l
      induction l with
      | nil => rfl
      | cons a l ih => rw [List.map_cons, List.flatMap_cons, List.flatMap_cons, ih]; rfl
    rw [hn, textSize, e, htext, List.length_take]
    omega
  subst hnn
  obtain ⟨b1, _, b3, _⟩ := C16_bijection hC.ok
  have hname : t.getIdSymbol tokenNewline = some "newLine" := (b1 _ _).mp (b3 ("newLine", 7) (by simp))
  constructor
  · have hps2 : (p2.parseBuffer k2 ptr2 (file.drop n ++ pad2) (file.drop n).length true).printed m2 t.getIdSymbol var =
        es2.map (PEvent.printed file t.getIdSymbol var) := by
      rw [(hw hI2 ptr2 hpad2 hk2 hm2 var).1, map_printed hE2 _ v5 v6]
    refine ⟨hps2, (begins_iff _ m2 t.getIdSymbol var).mpr ?_⟩
    rw [hps2]
    generalize segment (file.drop n) none (L.toks (file.drop n) true (.sof q)).1 = es' at hE2
    cases hE2 with
    | nil => exact absurd rfl h2
    | cons h _ =>
      refine ⟨_, rfl, ?_⟩
      unfold PEvent.printed
      rw [if_pos h.ts.1]
      rfl
  · refine ⟨es.map (PEvent.printed file t.getIdSymbol var), _, _, by rw [List.map_append]; rfl,
      printed_last d3 d4 d1 d2 hname v1 v7, ?_⟩
    rw [(hw hI1 ptr1 hpad1 hk1 hm1 var).1, map_printed hE1 _ v5 v6, List.map_append]
    rfl

theorem LastOf.same {a b : Printed} (h : Printed.LastOf a b) : b.withoutLogtype = a.withoutLogtype := by
  obtain ⟨l, _, rfl⟩ := h
  rfl

/-- The texts printed for a log are the log. -/
theorem whole_size (hC : s.Compiled addr t L) (hv : s.vars ≠ []) {p : BufferParser} (hI : p.Idle t L) {file pad : List Nat} (hpad : pad ≠ [])
    (ptr : Nat) {k : Nat} (hk : file.length < k) {m : Mem} (hm : m ptr = file ++ pad) (var : Nat) :
    textSize ((p.parseBuffer k ptr (file ++ pad) file.length true).printed m t.getIdSymbol var) = file.length := by
  obtain ⟨q, hq, hqa, hw⟩ := whole_printed hC hv
  rw [(hw hI ptr hpad hk hm var).1]
  have hO := buildLexer_ok hC.ok
  obtain ⟨_, hW⟩ := whole_facts hC hq hqa file
  have hsound := pureAll_sound (hO.nlOk hC.sensible hC.inj) (s := file) (fin := true) (file.length - (Cfg.sof q).cov + 1) (.sof q) ⟨hq, hqa⟩
  have hEnd : EndLast (L.toks file true (.sof q)).1 := endLast_of_tiles (s := file) (hO.typesProper hC.sensible) hW hsound
  have htext := segment_text (s := file) (L.toks file true (.sof q)).1 none hEnd
  have hflat : (L.toks file true (.sof q)).1.flatMap (PTok.text file) = file := (Tiles.flat hW).trans rfl
  rw [hflat] at htext
  have e : ∀ l : List PEvent, (l.map (PEvent.printed file t.getIdSymbol var)).flatMap (fun p => p.text.getD []) = l.flatMap (PEvent.text file) := by
    intro l
    induction l with
    | nil => rfl
    | cons a l ih => rw [List.map_cons, List.flatMap_cons, List.flatMap_cons, ih]; rfl
  rw [textSize, e, htext]
  rfl

/-- C66: the same for any number of parts: divided after any of its events, a log that begins with a timestamp has the same events, each
part parsed by any parser of the schema; only logtypes are different (those of the last events of the parts, `C66_parts_partial`).
(Partial: as `C66_parts_partial`.) -/
theorem C66_many_partial (hC : s.Compiled addr t L) (hv : s.vars ≠ []) (hmono : ∀ a b, a < b → addr a < addr b) (hnl : s.IsDelim newline)
    (hres : s.Reserved) (hline : s.LineTimestamps) {var : Nat}
    (hvar : var ∉ [tokenUncaught, tokenFirstTimestamp, tokenNewlineTimestamp, tokenNewline]) :
    ∀ (gs : List (List Printed)) {p : BufferParser} (_ : p.Idle t L) {file : List Nat} (_ : ∀ c ∈ file, c < 256) (_ : cCharStartOfFile ∉ file)
      {pad : List Nat} (_ : pad ≠ []) (ptr : Nat) {k : Nat} (_ : file.length < k) {m : Mem} (_ : m ptr = file ++ pad)
      (_ : (p.parseBuffer k ptr (file ++ pad) file.length true).beginsWithTimestamp)
      (_ : (p.parseBuffer k ptr (file ++ pad) file.length true).printed m t.getIdSymbol var = gs.flatten) (_ : ∀ g ∈ gs, g ≠ []),
      (divided file gs).flatten = file ∧
      List.Forall₂ (fun part g => ∀ {p' : BufferParser} (_ : p'.Idle t L) {pad' : List Nat} (_ : pad' ≠ []) (ptr' : Nat) {k' : Nat}
        (_ : part.length < k') {m' : Mem} (_ : m' ptr' = part ++ pad'),
        ((p'.parseBuffer k' ptr' (part ++ pad') part.length true).printed m' t.getIdSymbol var).map Printed.withoutLogtype =
          g.map Printed.withoutLogtype) (divided file gs) gs := by
  intro gs
  induction gs with
  | nil =>
    intro p hI file hb hfd pad hpad ptr k hk m hm hts hps _
    obtain ⟨a, ha, _⟩ := (begins_iff _ m t.getIdSymbol var).mp hts
    rw [hps] at ha
    cases ha
  | cons g gs ih =>
    intro p hI file hb hfd pad hpad ptr k hk m hm hts hps hne
    have hg := hne g (by simp)
    cases gs with
    | nil =>
      have hsize := whole_size hC hv hI hpad ptr hk hm var
      rw [hps] at hsize
      simp only [List.flatten_cons, List.flatten_nil, List.append_nil] at hsize hps
      have e : file.take (textSize g) = file := by rw [hsize, List.take_length]
      refine ⟨by simp [divided, e], .cons ?_ .nil⟩
      intro p' hI' pad' hpad' ptr' k' hk' m' hm'
      rw [e] at hk' hm' ⊢
      obtain ⟨q, hq, hqa, hw⟩ := whole_printed hC hv
      rw [(hw hI' ptr' hpad' hk' hm' var).1, ← (hw hI ptr hpad hk hm var).1, hps]
    | cons g' gs =>
      rw [List.flatten_cons] at hps
      have hne2 : (g' :: gs).flatten ≠ [] := by
        intro h
        rw [List.flatten_cons] at h
        exact hne g' (by simp) (List.append_eq_nil_iff.mp h).1
      have key := fun {p1 p2 : BufferParser} (hI1 : p1.Idle t L) (hI2 : p2.Idle t L) {pad1 pad2 : List Nat} (h1 : pad1 ≠ []) (h2 : pad2 ≠ [])
          (ptr1 ptr2 : Nat) {k1 k2 : Nat} {m1 m2 : Mem} =>
        C66_parts_partial (k1 := k1) (k2 := k2) (m1 := m1) (m2 := m2) hC hv hmono hnl hres hline hI hI1 hI2 hb hfd hpad h1 h2 ptr ptr1 ptr2 hk hm hvar hts hps hg hne2 rfl
      obtain ⟨hrest, hbegin⟩ := (key hI hI (pad1 := [0]) (pad2 := [0]) (by simp) (by simp) 0 0 (k1 := (file.take (textSize g)).length + 1)
        (k2 := (file.drop (textSize g)).length + 1) (m1 := fun _ => file.take (textSize g) ++ [0]) (m2 := fun _ => file.drop (textSize g) ++ [0])
        (Nat.lt_succ_self _) rfl (Nat.lt_succ_self _) rfl).1
      obtain ⟨i1, i2⟩ := ih hI (file := file.drop (textSize g)) (fun c hc => hb c (List.mem_of_mem_drop hc)) (fun h => hfd (List.mem_of_mem_drop h))
        (pad := [0]) (by simp) 0 (Nat.lt_succ_self _) (m := fun _ => file.drop (textSize g) ++ [0]) rfl hbegin hrest (fun x hx => hne x (by simp [List.mem_cons.mp hx]))
      refine ⟨by rw [divided, List.flatten_cons, i1, List.take_append_drop], .cons ?_ i2⟩
      intro p' hI' pad' hpad' ptr' k' hk' m' hm'
      obtain ⟨_, ps, a, b, e1, e2, e3⟩ := key hI' hI hpad' (pad2 := [0]) (by simp) ptr' 0 (k1 := k') (m1 := m')
        (k2 := (file.drop (textSize g)).length + 1) (m2 := fun _ => file.drop (textSize g) ++ [0]) hk' hm' (Nat.lt_succ_self _) rfl
      rw [e3, e1, List.map_append, List.map_append, List.map_singleton, List.map_singleton, LastOf.same e2]

/-! ### The hypotheses are met, and the logtypes are really different -/

/-- `T b⏎T⏎a` -/
def splitFile : List Nat := [84, 32, 98, 10, 84, 10, 97]

set_option maxRecDepth 100000 in
set_option synthInstance.maxSize 2000 in
/-- C66: the logtype of the last event before the division is different: that of the event `T b⏎` is ` <x>⏎` in the log `T b⏎T⏎a` and
` <x><newLine>` by itself; so the same message has one logtype in the middle of a log and another at its end.  The other hypotheses of
`C66_parts_partial` are met. -/
theorem C66_logtype_refuted : ∃ (s : SchemaAST) (t : ParserTables) (L : Lexer) (p : BufferParser), s.Compiled id t L ∧ s.vars ≠ [] ∧
    (s.IsDelim newline ∧ s.Reserved ∧ s.LineTimestamps) ∧ p.Idle t L ∧ (∀ c ∈ splitFile, c < 256) ∧ cCharStartOfFile ∉ splitFile ∧
    (p.parseBuffer 8 1 (splitFile ++ [0]) 7 true).beginsWithTimestamp ∧
    textSize (((p.parseBuffer 8 1 (splitFile ++ [0]) 7 true).printed (fun _ => splitFile ++ [0]) t.getIdSymbol 8).take 1) = 4 ∧
    ((p.parseBuffer 8 1 (splitFile ++ [0]) 7 true).printed (fun _ => splitFile ++ [0]) t.getIdSymbol 8).map
      (fun a => (a.text, a.logtype.toOption)) =
        [(some [84, 32, 98, 10], some [32, 60, 120, 62, 10]), (some [84, 10, 97], some [60, 110, 101, 119, 76, 105, 110, 101, 62, 97])] ∧
    ((p.parseBuffer 8 1 (splitFile.take 4 ++ [0]) 4 true).printed (fun _ => splitFile.take 4 ++ [0]) t.getIdSymbol 8).map
      (fun a => (a.text, a.logtype.toOption)) =
        [(some [84, 32, 98, 10], some [32, 60, 120, 62, 60, 110, 101, 119, 76, 105, 110, 101, 62])] ∧
    ((p.parseBuffer 8 1 (splitFile.drop 4 ++ [0]) 3 true).printed (fun _ => splitFile.drop 4 ++ [0]) t.getIdSymbol 8).map
      (fun a => (a.text, a.logtype.toOption)) =
        [(some [84, 10, 97], some [60, 110, 101, 119, 76, 105, 110, 101, 62, 97])] := by
  obtain ⟨t, L, p, h1, h2, h3⟩ := newParser_spec evSchema_sensible (by decide +kernel)
  refine ⟨evSchema, t, L, p, h1, by simp [evSchema], evSchema_lines, h3, by decide, by decide, ?_⟩
  have hn : t.getIdSymbol = namesOf evSchema := by
    funext i
    unfold namesOf
    rw [h1.ok]
  rw [hn]
  have : (newParser evSchema).map (fun p =>
      (((p.parseBuffer 8 1 (splitFile ++ [0]) 7 true).events.head?.map fun o => o.view.getTimestamp.isSome),
       textSize (((p.parseBuffer 8 1 (splitFile ++ [0]) 7 true).printed (fun _ => splitFile ++ [0]) (namesOf evSchema) 8).take 1),
       ((p.parseBuffer 8 1 (splitFile ++ [0]) 7 true).printed (fun _ => splitFile ++ [0]) (namesOf evSchema) 8).map
         (fun a => (a.text, a.logtype.toOption)),
       ((p.parseBuffer 8 1 (splitFile.take 4 ++ [0]) 4 true).printed (fun _ => splitFile.take 4 ++ [0]) (namesOf evSchema) 8).map
         (fun a => (a.text, a.logtype.toOption)),
       ((p.parseBuffer 8 1 (splitFile.drop 4 ++ [0]) 3 true).printed (fun _ => splitFile.drop 4 ++ [0]) (namesOf evSchema) 8).map
         (fun a => (a.text, a.logtype.toOption)))) =
      some (some true, 4, [(some [84, 32, 98, 10], some [32, 60, 120, 62, 10]), (some [84, 10, 97], some [60, 110, 101, 119, 76, 105, 110, 101, 62, 97])],
        [(some [84, 32, 98, 10], some [32, 60, 120, 62, 60, 110, 101, 119, 76, 105, 110, 101, 62])],
        [(some [84, 10, 97], some [60, 110, 101, 119, 76, 105, 110, 101, 62, 97])]) := by decide +kernel
  rw [h2] at this
  simp only [Option.map_some, Option.some.injEq, Prod.mk.injEq, Option.map_eq_some_iff] at this
  obtain ⟨⟨o, h4, h5⟩, h6, h7, h8, h9⟩ := this
  exact ⟨⟨o, h4, h5⟩, h6, h7, h8, h9⟩

end LogSurgeon
