import Verif.Props.SplitLog
/-
C68: an event means the same wherever it stands.
-/
namespace LogSurgeon
open Ctx

variable {s : SchemaAST} {addr : Nat → Nat} {t : ParserTables} {L : Lexer}

/-- The texts printed for a log are the log. -/
theorem whole_text (hC : s.Compiled addr t L) (hv : s.vars ≠ []) {p : BufferParser} (hI : p.Idle t L) {file pad : List Nat} (hpad : pad ≠ [])
    (ptr : Nat) {k : Nat} (hk : file.length < k) {m : Mem} (hm : m ptr = file ++ pad) (var : Nat) :
    ((p.parseBuffer k ptr (file ++ pad) file.length true).printed m t.getIdSymbol var).flatMap (fun p => p.text.getD []) = file ∧
    ∀ a ∈ (p.parseBuffer k ptr (file ++ pad) file.length true).printed m t.getIdSymbol var, a.text.isSome := by
  obtain ⟨q, hq, hqa, hw⟩ := whole_printed hC hv
  rw [(hw hI ptr hpad hk hm var).1]
  have hO := buildLexer_ok hC.ok
  obtain ⟨_, hW⟩ := whole_facts hC hq hqa file
  have hsound := pureAll_sound (hO.nlOk hC.sensible hC.inj) (s := file) (fin := true) (file.length - (Cfg.sof q).cov + 1) (.sof q) ⟨hq, hqa⟩
  have hEnd : EndLast (L.toks file true (.sof q)).1 := endLast_of_tiles (s := file) (hO.typesProper hC.sensible) hW hsound
  have htext := segment_text (s := file) (L.toks file true (.sof q)).1 none hEnd
  have hflat : (L.toks file true (.sof q)).1.flatMap (PTok.text file) = file := (Tiles.flat hW).trans rfl
  rw [hflat] at htext
  have e : ∀ l : List PEvent, (l.map (PEvent.printed file t.getIdSymbol var)).flatMap (fun p => p.text.getD []) = l.flatMap (PEvent.text file) := by
    intro l
    induction l with
    | nil => rfl
    | cons a l ih => rw [List.map_cons, List.flatMap_cons, List.flatMap_cons, ih]; rfl
  refine ⟨by rw [e, htext]; rfl, ?_⟩
  intro a ha
  obtain ⟨x, _, rfl⟩ := List.mem_map.mp ha
  rfl

/-- An event of a log by itself. -/
theorem event_alone (hC : s.Compiled addr t L) (hv : s.vars ≠ []) (hmono : ∀ a b, a < b → addr a < addr b) (hnl : s.IsDelim newline)
    (hres : s.Reserved) (hline : s.LineTimestamps) {var : Nat}
    (hvar : var ∉ [tokenUncaught, tokenFirstTimestamp, tokenNewlineTimestamp, tokenNewline]) {p p' : BufferParser} (hI : p.Idle t L)
    (hI' : p'.Idle t L) {file : List Nat} (hb : ∀ c ∈ file, c < 256) (hfd : cCharStartOfFile ∉ file) {pad : List Nat} (hpad : pad ≠ [])
    (ptr : Nat) {k : Nat} (hk : file.length < k) {m : Mem} (hm : m ptr = file ++ pad)
    (hts : (p.parseBuffer k ptr (file ++ pad) file.length true).beginsWithTimestamp) {a : Printed} {ps : List Printed}
    (hps : (p.parseBuffer k ptr (file ++ pad) file.length true).printed m t.getIdSymbol var = a :: ps) :
    ∃ w b, a.text = some w ∧ (ps = [] → b = a) ∧ (ps ≠ [] → Printed.LastOf a b) ∧
      ∀ {pad' : List Nat} (_ : pad' ≠ []) (ptr' : Nat) {k' : Nat} (_ : w.length < k') {m' : Mem} (_ : m' ptr' = w ++ pad'),
        (p'.parseBuffer k' ptr' (w ++ pad') w.length true).printed m' t.getIdSymbol var = [b] := by
  obtain ⟨htext, hsome⟩ := whole_text hC hv hI hpad ptr hk hm var
  rw [hps] at htext hsome
  obtain ⟨w, hw⟩ := Option.isSome_iff_exists.mp (hsome a (by simp))
  rw [List.flatMap_cons, hw] at htext
  simp only [Option.getD_some] at htext
  cases ps with
  | nil =>
    simp only [List.flatMap_nil, List.append_nil] at htext
    subst htext
    refine ⟨w, a, hw, fun _ => rfl, fun h => absurd rfl h, ?_⟩
    intro pad' hpad' ptr' k' hk' m' hm'
    obtain ⟨q, hq, hqa, hwp⟩ := whole_printed hC hv
    rw [(hwp hI' ptr' hpad' hk' hm' var).1, ← (hwp hI ptr hpad hk hm var).1, hps]
  | cons c ps =>
    have hn : w.length = textSize [a] := by simp [textSize, hw]
    have htake : file.take w.length = w := by rw [← htext, List.take_left]
    have key := fun {pad1 : List Nat} (h1 : pad1 ≠ []) (ptr1 : Nat) {k1 : Nat} {m1 : Mem} =>
      C66_parts_partial (k1 := k1) (m1 := m1) (k2 := (file.drop w.length).length + 1) (m2 := fun _ => file.drop w.length ++ [0]) (pad2 := [0])
        hC hv hmono hnl hres hline hI hI' hI hb hfd hpad h1 (by simp) ptr ptr1 0 hk hm hvar hts (ps1 := [a]) (ps2 := c :: ps) hps (by simp) (by simp) hn
    have single : ∀ {ps : List Printed} {x : Printed}, [a] = ps ++ [x] → ps = [] ∧ x = a := by
      intro ps x h
      cases ps with
      | nil => cases h; exact ⟨rfl, rfl⟩
      | cons y ys =>
        have := congrArg List.length h
        simp at this
    have hfst : ∀ {pad1 : List Nat} (_ : pad1 ≠ []) (ptr1 : Nat) {k1 : Nat} (_ : w.length < k1) {m1 : Mem} (_ : m1 ptr1 = w ++ pad1),
        ∃ b, Printed.LastOf a b ∧ (p'.parseBuffer k1 ptr1 (w ++ pad1) w.length true).printed m1 t.getIdSymbol var = [b] := by
      intro pad1 h1 ptr1 k1 hk1 m1 hm1
      have hkey := (key h1 ptr1 (k1 := k1) (m1 := m1) (by rw [htake]; exact hk1) (by rw [htake]; exact hm1) (Nat.lt_succ_self _) rfl).2
      rw [htake] at hkey
      obtain ⟨ps', x, b, e1, e2, e3⟩ := hkey
      obtain ⟨rfl, rfl⟩ := single e1
      exact ⟨b, e2, e3⟩
    obtain ⟨b, hb1, hb2⟩ := hfst (pad1 := [0]) (by simp) 0 (Nat.lt_succ_self _) (m1 := fun _ => w ++ [0]) rfl
    refine ⟨w, b, hw, fun h => (by cases h), fun _ => hb1, ?_⟩
    intro pad' hpad' ptr' k' hk' m' hm'
    obtain ⟨q, hq, hqa, hwp⟩ := whole_printed hC hv
    rw [(hwp hI' ptr' hpad' hk' hm' var).1, ← (hwp hI' 0 (pad := [0]) (by simp) (Nat.lt_succ_self _) (m := fun _ => w ++ [0]) rfl var).1, hb2]

theorem lastOf_inj {a a' b : Printed} (h : Printed.LastOf a b) (h' : Printed.LastOf a' b) : a = a' := by
  obtain ⟨l, h1, h2⟩ := h
  obtain ⟨l', h1', h2'⟩ := h'
  have h3 : (EventView.nameBytes "<newLine>").length = (EventView.nameBytes "<newLine>").length := rfl
  have hl : b.logtype = .ok (l ++ EventView.nameBytes "<newLine>") := by rw [h2]
  have hl' : b.logtype = .ok (l' ++ EventView.nameBytes "<newLine>") := by rw [h2']
  rw [hl] at hl'
  have hll : l = l' := List.append_cancel_right (Except.ok.inj hl')
  subst hll
  obtain ⟨x1, x2, x3, x4, x5, x6⟩ := a
  obtain ⟨y1, y2, y3, y4, y5, y6⟩ := a'
  subst h2
  simp only [Printed.mk.injEq] at h2' h1 h1' ⊢
  obtain ⟨g1, g2, g3, _, g5, g6⟩ := h2'
  exact ⟨g1, g2, g3, h1.trans h1'.symm, g5, g6⟩

/-- An event anywhere in a log that begins with a timestamp. -/
theorem event_anywhere (hC : s.Compiled addr t L) (hv : s.vars ≠ []) (hmono : ∀ a b, a < b → addr a < addr b) (hnl : s.IsDelim newline)
    (hres : s.Reserved) (hline : s.LineTimestamps) {var : Nat}
    (hvar : var ∉ [tokenUncaught, tokenFirstTimestamp, tokenNewlineTimestamp, tokenNewline]) {p p' : BufferParser} (hI : p.Idle t L)
    (hI' : p'.Idle t L) {file : List Nat} (hb : ∀ c ∈ file, c < 256) (hfd : cCharStartOfFile ∉ file) {pad : List Nat} (hpad : pad ≠ [])
    (ptr : Nat) {k : Nat} (hk : file.length < k) {m : Mem} (hm : m ptr = file ++ pad)
    (hts : (p.parseBuffer k ptr (file ++ pad) file.length true).beginsWithTimestamp) {a : Printed} {ps0 ps : List Printed}
    (hps : (p.parseBuffer k ptr (file ++ pad) file.length true).printed m t.getIdSymbol var = ps0 ++ a :: ps) :
    ∃ w b, a.text = some w ∧ (ps = [] → b = a) ∧ (ps ≠ [] → Printed.LastOf a b) ∧
      ∀ {pad' : List Nat} (_ : pad' ≠ []) (ptr' : Nat) {k' : Nat} (_ : w.length < k') {m' : Mem} (_ : m' ptr' = w ++ pad'),
        (p'.parseBuffer k' ptr' (w ++ pad') w.length true).printed m' t.getIdSymbol var = [b] := by
  by_cases h0 : ps0 = []
  · subst h0
    exact event_alone hC hv hmono hnl hres hline hvar hI hI' hb hfd hpad ptr hk hm hts hps
  · obtain ⟨⟨h1, h2⟩, _⟩ := C66_parts_partial (k1 := (file.take (textSize ps0)).length + 1) (m1 := fun _ => file.take (textSize ps0) ++ [0])
      (k2 := (file.drop (textSize ps0)).length + 1) (m2 := fun _ => file.drop (textSize ps0) ++ [0]) (pad1 := [0]) (pad2 := [0])
        hC hv hmono hnl hres hline hI hI hI hb hfd hpad (by simp) (by simp) ptr 0 0 hk hm hvar hts (ps1 := ps0) (ps2 := a :: ps) hps h0 (by simp) rfl
        (Nat.lt_succ_self _) rfl (Nat.lt_succ_self _) rfl
    exact event_alone hC hv hmono hnl hres hline hvar hI hI' (fun c hc => hb c (List.mem_of_mem_drop hc)) (fun h => hfd (List.mem_of_mem_drop h))
      (pad := [0]) (by simp) 0 (Nat.lt_succ_self _) (m := fun _ => file.drop (textSize ps0) ++ [0]) rfl h2 h1

/-- C68: an event means the same wherever it stands: if an event of one log and an event of another log have the same text, then everything
that is printed of them is the same; only if one of them is the last event of its log and the other is not, their logtypes may
differ.  (Partial: both logs begin with a timestamp; newline is a delimiter; no variable has a reserved name; timestamps contain no newline;
the addresses of the NFA states are in the order of their creation; the byte 0xFD does not occur; `var` is an id of a variable.) -/
theorem C68_context_partial (hC : s.Compiled addr t L) (hv : s.vars ≠ []) (hmono : ∀ a b, a < b → addr a < addr b) (hnl : s.IsDelim newline)
    (hres : s.Reserved) (hline : s.LineTimestamps) {var : Nat}
    (hvar : var ∉ [tokenUncaught, tokenFirstTimestamp, tokenNewlineTimestamp, tokenNewline])
    {p1 p2 : BufferParser} (hI1 : p1.Idle t L) (hI2 : p2.Idle t L) {file1 file2 : List Nat} (hb1 : ∀ c ∈ file1, c < 256) (hb2 : ∀ c ∈ file2, c < 256)
    (hfd1 : cCharStartOfFile ∉ file1) (hfd2 : cCharStartOfFile ∉ file2) {pad1 pad2 : List Nat} (hpad1 : pad1 ≠ []) (hpad2 : pad2 ≠ [])
    (ptr1 ptr2 : Nat) {k1 k2 : Nat} (hk1 : file1.length < k1) (hk2 : file2.length < k2) {m1 m2 : Mem} (hm1 : m1 ptr1 = file1 ++ pad1)
    (hm2 : m2 ptr2 = file2 ++ pad2)
    (hts1 : (p1.parseBuffer k1 ptr1 (file1 ++ pad1) file1.length true).beginsWithTimestamp)
    (hts2 : (p2.parseBuffer k2 ptr2 (file2 ++ pad2) file2.length true).beginsWithTimestamp) {before1 after1 before2 after2 : List Printed} {a b : Printed}
    (h1 : (p1.parseBuffer k1 ptr1 (file1 ++ pad1) file1.length true).printed m1 t.getIdSymbol var = before1 ++ a :: after1)
    (h2 : (p2.parseBuffer k2 ptr2 (file2 ++ pad2) file2.length true).printed m2 t.getIdSymbol var = before2 ++ b :: after2)
    (htext : a.text = b.text) : a.withoutLogtype = b.withoutLogtype ∧ ((after1 = [] ↔ after2 = []) → a = b) := by
  obtain ⟨w1, b1, e1, f1, g1, i1⟩ := event_anywhere hC hv hmono hnl hres hline hvar hI1 hI1 hb1 hfd1 hpad1 ptr1 hk1 hm1 hts1 h1
  obtain ⟨w2, b2, e2, f2, g2, i2⟩ := event_anywhere hC hv hmono hnl hres hline hvar hI2 hI1 hb2 hfd2 hpad2 ptr2 hk2 hm2 hts2 h2
  have hw : w1 = w2 := Option.some.inj (e1.symm.trans (htext.trans e2))
  subst hw
  have hbb : b1 = b2 := by
    have j1 := i1 (pad' := [0]) (by simp) 0 (Nat.lt_succ_self _) (m' := fun _ => w1 ++ [0]) rfl
    have j2 := i2 (pad' := [0]) (by simp) 0 (Nat.lt_succ_self _) (m' := fun _ => w1 ++ [0]) rfl
    rw [j1] at j2
    exact (List.cons.inj j2).1
  subst hbb
  have hwl : ∀ {x : Printed} {after : List Printed}, (after = [] → b1 = x) → (after ≠ [] → Printed.LastOf x b1) → b1.withoutLogtype = x.withoutLogtype := by
    intro x after hf hg
    by_cases h : after = []
    · rw [hf h]
    · exact LastOf.same (hg h)
  refine ⟨(hwl f1 g1).symm.trans (hwl f2 g2), fun hiff => ?_⟩
  by_cases h : after1 = []
  · rw [← f1 h, ← f2 (hiff.mp h)]
  · exact lastOf_inj (g1 h) (g2 (fun h' => h (hiff.mpr h')))

/-! ### The hypotheses are met -/

/-- `T b⏎T⏎T b⏎T` -/
def repeatFile : List Nat := [84, 32, 98, 10, 84, 10, 84, 32, 98, 10, 84]

set_option maxRecDepth 100000 in
set_option synthInstance.maxSize 2000 in
/-- The log `T b⏎T⏎T b⏎T` with its first and third events meets the hypotheses of `C68_context_partial` (with both logs the same). -/
example : ∃ (s : SchemaAST) (t : ParserTables) (L : Lexer) (p : BufferParser), s.Compiled id t L ∧ s.vars ≠ [] ∧
    (s.IsDelim newline ∧ s.Reserved ∧ s.LineTimestamps) ∧ p.Idle t L ∧ (∀ c ∈ repeatFile, c < 256) ∧ cCharStartOfFile ∉ repeatFile ∧
    (p.parseBuffer 12 1 (repeatFile ++ [0]) 11 true).beginsWithTimestamp ∧
    ∃ a b c d, (p.parseBuffer 12 1 (repeatFile ++ [0]) 11 true).printed (fun _ => repeatFile ++ [0]) t.getIdSymbol 8 = [a, b, c, d] ∧
      a.text = some [84, 32, 98, 10] ∧ a.text = c.text ∧ a.vars = [some [32, 98]] := by
  obtain ⟨t, L, p, h1, h2, h3⟩ := newParser_spec evSchema_sensible (by decide +kernel)
  refine ⟨evSchema, t, L, p, h1, by simp [evSchema], evSchema_lines, h3, by decide, by decide, ?_⟩
  have hn : t.getIdSymbol = namesOf evSchema := by
    funext i
    unfold namesOf
    rw [h1.ok]
  rw [hn]
  have : (newParser evSchema).map (fun p =>
      (((p.parseBuffer 12 1 (repeatFile ++ [0]) 11 true).events.head?.map fun o => o.view.getTimestamp.isSome),
       ((p.parseBuffer 12 1 (repeatFile ++ [0]) 11 true).printed (fun _ => repeatFile ++ [0]) (namesOf evSchema) 8).map
         (fun a => (a.text, a.vars)))) =
      some (some true, [(some [84, 32, 98, 10], [some [32, 98]]), (some [84, 10], []), (some [84, 32, 98, 10], [some [32, 98]]), (some [84], [])]) := by
    decide +kernel
  rw [h2] at this
  simp only [Option.map_some, Option.some.injEq, Prod.mk.injEq, Option.map_eq_some_iff] at this
  obtain ⟨⟨o, h4, h5⟩, h6⟩ := this
  refine ⟨⟨o, h4, h5⟩, ?_⟩
  generalize (p.parseBuffer 12 1 (repeatFile ++ [0]) 11 true).printed (fun _ => repeatFile ++ [0]) (namesOf evSchema) 8 = l at h6
  have hlen : l.length = 4 := by
    have := congrArg List.length h6
    simpa using this
  obtain ⟨a, b, c, d, rfl⟩ := List.length_eq_four.mp hlen
  simp only [List.map_cons, List.map_nil, List.cons.injEq, Prod.mk.injEq, and_true] at h6
  obtain ⟨⟨x1, x2⟩, _, ⟨x3, _⟩, _⟩ := h6
  exact ⟨a, b, c, d, rfl, x1, x1.trans x3.symm, x2⟩

end LogSurgeon
