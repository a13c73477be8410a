import Verif.Props.SplitLog
import Verif.Props.LineEvents
/-
C70: logs can be put together.

The reader needs: `Spec/SplitLog.lean` (`Printed.LastOf`, `Printed.withoutLogtype`) and `Model/BufferClient.lean` (`Printed`: what a program
prints of the events of a buffer).
-/
namespace LogSurgeon

variable {s : SchemaAST} {addr : Nat → Nat} {t : ParserTables} {L : Lexer}

/-- A line begins with a timestamp behind a newline iff it does at the beginning of a log. -/
theorem first_or_later (hC : s.Compiled addr t L) (hmono : ∀ a b, a < b → addr a < addr b) (hnl : s.IsDelim newline) (hres : s.Reserved)
    {line : List Nat} (hb : ∀ c ∈ line, c < 256) : L.BeginsWithTs line ↔ L.FirstWithTs line := by
  have hO := buildLexer_ok hC.ok
  have hslice : ∀ e, slice (newline :: line) 0 (e + 1) = newline :: slice line 0 e := by
    intro e
    simp [slice]
  have htypes : ∀ e, 0 < e → e ≤ line.length → L.typesOn line true 0 e = (L.typesOn (newline :: line) false 0 (e + 1)).map atStart := by
    intro e he he'
    unfold Lexer.typesOn
    simp only [if_true, Bool.false_eq_true, if_false, List.nil_append, List.cons_append]
    rw [hslice]
    refine hO.afterNl hmono hnl hres ?_ ?_
    · intro c hc
      exact hb c (List.mem_of_mem_take (by simpa [slice] using hc))
    · intro h0
      have := slice_length (s := line) (a := 0) (e := e) he'
      rw [h0] at this
      simp only [List.length_nil] at this
      omega
  have hcand : ∀ e, 0 < e → (L.Cand line true 0 e ↔ L.Cand (newline :: line) false 0 (e + 1)) := by
    intro e he
    unfold Lexer.Cand
    rw [List.length_cons, List.getElem?_cons_succ]
    constructor
    · rintro ⟨h1, h2, h3, h4⟩
      rw [htypes e he h2] at h3
      refine ⟨by omega, by omega, fun h0 => h3 (by rw [h0]; rfl), ?_⟩
      rcases h4 with h4 | h4 | ⟨h4, _⟩
      · exact .inl (by omega)
      · exact .inr (.inl h4)
      · cases h4
    · rintro ⟨h1, h2, h3, h4⟩
      refine ⟨he, by omega, ?_, ?_⟩
      · rw [htypes e he (by omega)]
        exact fun h0 => h3 (List.map_eq_nil_iff.mp h0)
      · rcases h4 with h4 | h4 | ⟨_, h4⟩
        · exact .inl (by omega)
        · exact .inr (.inl h4)
        · exfalso
          have := slice_length (s := newline :: line) (a := 0) (e := e + 1) h2
          rw [h4] at this
          simp only [List.length_singleton] at this
          omega
  have hlong : ∀ e, 0 < e → (L.Longest line true 0 e ↔ L.Longest (newline :: line) false 0 (e + 1)) := by
    intro e he
    unfold Lexer.Longest
    rw [hcand e he]
    refine and_congr_right fun _ => ⟨fun h e' h' => ?_, fun h e' h' => ?_⟩
    · rcases e' with - | - | e'
      · omega
      · omega
      · have := h (e' + 1) ((hcand (e' + 1) (by omega)).mpr h')
        omega
    · have := h (e' + 1) ((hcand e' h'.1).mp h')
      omega
  have hhead : ∀ e, 0 < e → e ≤ line.length → ((L.typesOn (newline :: line) false 0 (e + 1)).head? = some tokenNewlineTimestamp ↔
      (L.typesOn line true 0 e).head? = some tokenFirstTimestamp) := by
    intro e he he'
    rw [htypes e he he', List.head?_map]
    cases hl : L.typesOn (newline :: line) false 0 (e + 1) with
    | nil => simp
    | cons i l =>
      simp only [List.head?_cons, Option.some.injEq, Option.map_some]
      constructor
      · rintro rfl; rfl
      · intro h
        by_cases h6 : i = tokenNewlineTimestamp
        · exact h6
        · exfalso
          simp only [atStart, if_neg h6] at h
          subst h
          have hmem : tokenFirstTimestamp ∈ L.dfa.idsOn (newline :: slice line 0 e) := by
            have : tokenFirstTimestamp ∈ L.typesOn (newline :: line) false 0 (e + 1) := by rw [hl]; simp
            unfold Lexer.typesOn at this
            rw [hslice] at this
            exact this
          obtain ⟨n, re, hkind, hid, _, c, v, hw, hf, _⟩ := hO.text_kind hC.sensible hC.inj hmem
          have hn := symbol_unique hO hid (m := "firstTimestamp") (by decide)
          subst hn
          generalize hnn : "firstTimestamp" = nn at hkind
          cases hkind with
          | newLine => exact absurd hnn (by decide)
          | newLineTs _ _ => exact absurd hnn (by decide)
          | var hv _ => exact absurd hnn.symm (hres _ hv).1
          | first hv hts =>
            have hc : c = cCharStartOfFile := by simpa [Regex.firstOf, Regex.possible] using hf
            subst hc
            simp only [List.cons.injEq] at hw
            exact absurd hw.1 (by decide)
  constructor
  · rintro ⟨e, h1, h2⟩
    have he : 1 < e := by
      rcases Nat.lt_or_ge 1 e with h | h
      · exact h
      · exfalso
        have := h1.1.1
        obtain rfl : e = 1 := by omega
        have hmem : tokenNewlineTimestamp ∈ L.dfa.idsOn [newline] := by
          have : tokenNewlineTimestamp ∈ L.typesOn (newline :: line) false 0 1 := List.mem_of_head? h2
          unfold Lexer.typesOn at this
          rw [hslice 0] at this
          simpa [slice] using this
        obtain ⟨v, hv, hne⟩ := hO.nlTs hC.sensible hC.inj hres hmem
        simp only [List.cons.injEq, true_and] at hv
        exact hne hv.symm
    obtain ⟨e, rfl⟩ : ∃ e', e = e' + 1 := ⟨e - 1, by omega⟩
    have hle := h1.1.2.1
    simp only [List.length_cons] at hle
    exact ⟨e, (hlong e (by omega)).mpr h1, (hhead e (by omega) (by omega)).mp h2⟩
  · rintro ⟨e, h1, h2⟩
    have he := h1.1.1
    have hle := h1.1.2.1
    exact ⟨e + 1, (hlong e he).mp h1, (hhead e he hle).mpr h2⟩

/-- The first event has a timestamp iff `ts` says so. -/
theorem lineEvents_head (f : List Nat → Bool) : ∀ (T acc : List Nat) (ts : Bool), ∃ w l, lineEvents f acc ts T = (ts, w) :: l := by
  intro T
  induction T with
  | nil => intro acc ts; exact ⟨acc, [], rfl⟩
  | cons c T ih =>
    intro acc ts
    rw [lineEvents]
    split
    · exact ⟨_, _, rfl⟩
    · exact ih _ _

/-- In front of a line that begins with a timestamp a new event begins. -/
theorem lineEvents_join (f : List Nat → Bool) {B : List Nat} (hB : f (firstLine B) = true) : ∀ (A acc : List Nat) (ts : Bool), ∃ E,
    lineEvents f acc ts (A ++ newline :: B) = E ++ lineEvents f [] true B ∧ E ≠ [] ∧ E.flatMap (·.2) = acc ++ A ++ [newline] := by
  intro A
  induction A with
  | nil =>
    intro acc ts
    refine ⟨[(ts, acc ++ [newline])], ?_, by simp, by simp⟩
    rw [List.nil_append, lineEvents, if_pos ⟨rfl, .inl hB⟩, hB]
    rfl
  | cons c A ih =>
    intro acc ts
    rw [List.cons_append, lineEvents]
    split
    · obtain ⟨E, e1, e2, e3⟩ := ih [] (f (firstLine (A ++ newline :: B)))
      refine ⟨(ts, acc ++ [c]) :: E, by rw [e1]; rfl, by simp, ?_⟩
      rw [List.flatMap_cons, e3]
      simp
    · obtain ⟨E, e1, e2, e3⟩ := ih (acc ++ [c]) ts
      refine ⟨E, e1, e2, ?_⟩
      rw [e3]
      simp

theorem firstLine_join {A B : List Nat} : firstLine (A ++ newline :: B) = firstLine (A ++ [newline]) := by
  induction A with
  | nil => simp [firstLine]
  | cons c A ih => rw [List.cons_append, List.cons_append, firstLine, firstLine, ih]

/-- C70: let two logs begin with timestamps, and let the first end with a newline.  What is printed for the two of them put together in one buffer
is what is printed for the first and then what is printed for the second, except that the newline at the end of the first log is now in the
logtype of its event as it is (`Printed.LastOf`).  (Partial: newline is a delimiter; no variable has a reserved name; timestamps contain no
newline; the addresses of the NFA states are in the order of their creation; the byte 0xFD does not occur; the variables asked for are not of one of the
four kinds that are not variables.) -/
theorem C70_join_partial (hC : s.Compiled addr t L) (hv : s.vars ≠ []) (hmono : ∀ a b, a < b → addr a < addr b) (hnl : s.IsDelim newline)
    (hres : s.Reserved) (hline : s.LineTimestamps) {p pA pB : BufferParser} (hI : p.Idle t L) (hIA : pA.Idle t L) (hIB : pB.Idle t L)
    {fileA fileB : List Nat} (hbA : ∀ c ∈ fileA, c < 256) (hbB : ∀ c ∈ fileB, c < 256) (hfdA : cCharStartOfFile ∉ fileA)
    (hfdB : cCharStartOfFile ∉ fileB) {pad padA padB : List Nat} (hpad : pad ≠ []) (hpadA : padA ≠ []) (hpadB : padB ≠ []) (ptr ptrA ptrB : Nat)
    {k kA kB : Nat} (hk : (fileA ++ fileB).length < k) (hkA : fileA.length < kA) (hkB : fileB.length < kB) {m mA mB : Mem}
    (hm : m ptr = fileA ++ fileB ++ pad) (hmA : mA ptrA = fileA ++ padA) (hmB : mB ptrB = fileB ++ padB) {var : Nat}
    (hvar : var ∉ [tokenUncaught, tokenFirstTimestamp, tokenNewlineTimestamp, tokenNewline])
    (hend : fileA.getLast? = some newline)
    (htsA : (pA.parseBuffer kA ptrA (fileA ++ padA) fileA.length true).beginsWithTimestamp)
    (htsB : (pB.parseBuffer kB ptrB (fileB ++ padB) fileB.length true).beginsWithTimestamp) :
    (p.parseBuffer k ptr (fileA ++ fileB ++ pad) (fileA ++ fileB).length true).beginsWithTimestamp ∧
    ∃ ps a b, (pA.parseBuffer kA ptrA (fileA ++ padA) fileA.length true).printed mA t.getIdSymbol var = ps ++ [b] ∧ Printed.LastOf a b ∧
      (p.parseBuffer k ptr (fileA ++ fileB ++ pad) (fileA ++ fileB).length true).printed m t.getIdSymbol var =
        ps ++ [a] ++ (pB.parseBuffer kB ptrB (fileB ++ padB) fileB.length true).printed mB t.getIdSymbol var := by
  obtain ⟨g, f, hg, hf, hlines⟩ := C67_lines_partial hC hv hnl hres hline
  obtain ⟨A, rfl⟩ : ∃ A, fileA = A ++ [newline] := List.getLast?_eq_some_iff.mp hend
  have hfd : cCharStartOfFile ∉ A ++ [newline] ++ fileB := fun h => (List.mem_append.mp h).elim hfdA hfdB
  have hb : ∀ c ∈ A ++ [newline] ++ fileB, c < 256 := fun c h => (List.mem_append.mp h).elim (hbA c) (hbB c)
  -- which logs begin with a timestamp
  have hts : ∀ {p : BufferParser} (_ : p.Idle t L) {file : List Nat} (_ : cCharStartOfFile ∉ file) {pad : List Nat} (_ : pad ≠ []) (ptr : Nat) {k : Nat}
      (_ : file.length < k) {m : Mem} (_ : m ptr = file ++ pad),
      ((p.parseBuffer k ptr (file ++ pad) file.length true).beginsWithTimestamp ↔ g (firstLine file) = true) := by
    intro p hI file hfd pad hpad ptr k hk m hm
    rw [begins_iff _ m t.getIdSymbol var]
    have h1 := hlines hI hfd hpad ptr hk hm var
    obtain ⟨w, l, h2⟩ := lineEvents_head f file [] (g (firstLine file))
    rw [h2] at h1
    generalize (p.parseBuffer k ptr (file ++ pad) file.length true).printed m t.getIdSymbol var = es at h1
    cases es with
    | nil => cases h1
    | cons a es =>
      simp only [List.map_cons, List.cons.injEq, Prod.mk.injEq] at h1
      rw [← h1.1.1]
      simp
  have hgA := (hts hIA hfdA hpadA ptrA hkA hmA).mp htsA
  have hgB := (hts hIB hfdB hpadB ptrB hkB hmB).mp htsB
  have hbegins : (p.parseBuffer k ptr (A ++ [newline] ++ fileB ++ pad) (A ++ [newline] ++ fileB).length true).beginsWithTimestamp := by
    refine (hts hI hfd hpad ptr hk hm).mpr ?_
    rw [List.append_assoc, List.singleton_append, firstLine_join]
    exact hgA
  refine ⟨hbegins, ?_⟩
  have hfB : f (firstLine fileB) = true := by
    refine (hf _).mpr ((first_or_later hC hmono hnl hres ?_).mpr ((hg _).mp hgB))
    intro c hc
    rcases firstLine_split fileB with ⟨u, v, h1, h2⟩ | ⟨_, h2⟩
    · rw [h1] at hc
      exact hbB c (by rw [h2]; exact List.mem_append.mpr (.inl hc))
    · rw [h2] at hc
      exact hbB c hc
  -- the events of both
  obtain ⟨E, e1, e2, e3⟩ := lineEvents_join f hfB A [] (g (firstLine (A ++ newline :: fileB)))
  have h1 := hlines hI hfd hpad ptr hk hm var
  rw [List.append_assoc A, List.singleton_append, e1, List.map_append] at h1
  obtain ⟨ps1, ps2, hps, hp1, hp2⟩ := List.map_eq_append_iff.mp h1
  have hne1 : ps1 ≠ [] := by
    rintro rfl
    simp only [List.map_nil] at hp1
    exact e2 (List.map_eq_nil_iff.mp hp1.symm)
  have hne2 : ps2 ≠ [] := by
    rintro rfl
    obtain ⟨w, l, h2⟩ := lineEvents_head f fileB [] true
    rw [h2] at hp2
    cases hp2
  have hsize : (A ++ [newline]).length = textSize ps1 := by
    have h2 : ∀ (ps : List Printed) (E : List (Bool × List Nat)),
        ps.map (fun a => (a.timestamp.isSome, a.text)) = E.map (fun x => (x.1, some x.2)) → ps.flatMap (fun a => a.text.getD []) = E.flatMap (·.2) := by
      intro ps
      induction ps with
      | nil => intro E h; cases E with
        | nil => rfl
        | cons x E => cases h
      | cons a ps ih => intro E h; cases E with
        | nil => cases h
        | cons x E =>
          simp only [List.map_cons, List.cons.injEq, Prod.mk.injEq] at h
          rw [List.flatMap_cons, List.flatMap_cons, ih E h.2, h.1.2]
          rfl
    rw [textSize, h2 _ _ hp1, e3, List.nil_append]
  have hps' : (p.parseBuffer k ptr (A ++ [newline] ++ fileB ++ pad) (A ++ [newline] ++ fileB).length true).printed m t.getIdSymbol var =
      ps1 ++ ps2 := by
    rw [← hps]
    simp only [List.append_assoc, List.singleton_append]
  have htake : (A ++ [newline] ++ fileB).take (A ++ [newline]).length = A ++ [newline] := List.take_left
  have hdrop : (A ++ [newline] ++ fileB).drop (A ++ [newline]).length = fileB := List.drop_left
  obtain ⟨⟨c1, _⟩, ps, a, b, c2, c3, c4⟩ := C66_parts_partial (k1 := kA) (m1 := mA) (k2 := kB) (m2 := mB) (pad1 := padA) (pad2 := padB) hC hv hmono hnl
    hres hline hI hIA hIB hb hfd hpad hpadA hpadB ptr ptrA ptrB hk hm hvar hbegins hps' hne1 hne2 hsize
    (by rw [htake]; exact hkA) (by rw [htake]; exact hmA) (by rw [hdrop]; exact hkB) (by rw [hdrop]; exact hmB)
  rw [htake] at c4
  rw [hdrop] at c1
  exact ⟨ps, a, b, c4, c3, by rw [hps', c1, c2]⟩

/-- C70: the same for any number of logs, each of which begins with a timestamp and, except for the last one, ends with a newline: what is printed for
all of them put together is, except for logtypes, what is printed for one after the other.  (Partial: as `C70_join_partial`.) -/
theorem C70_many_partial (hC : s.Compiled addr t L) (hv : s.vars ≠ []) (hmono : ∀ a b, a < b → addr a < addr b) (hnl : s.IsDelim newline)
    (hres : s.Reserved) (hline : s.LineTimestamps) {p' : BufferParser} (hI' : p'.Idle t L) {var : Nat}
    (hvar : var ∉ [tokenUncaught, tokenFirstTimestamp, tokenNewlineTimestamp, tokenNewline]) {logs : List (List Nat)} (hne : logs ≠ [])
    (hb : ∀ log ∈ logs, ∀ c ∈ log, c < 256) (hfd : ∀ log ∈ logs, cCharStartOfFile ∉ log)
    (hts : ∀ log ∈ logs, (p'.parseBuffer (log.length + 1) 0 (log ++ [0]) log.length true).beginsWithTimestamp)
    (hend : ∀ log ∈ logs.dropLast, log.getLast? = some newline) {p : BufferParser} (hI : p.Idle t L) {pad : List Nat} (hpad : pad ≠ []) (ptr : Nat)
    {k : Nat} (hk : logs.flatten.length < k) {m : Mem} (hm : m ptr = logs.flatten ++ pad) :
    (p.parseBuffer k ptr (logs.flatten ++ pad) logs.flatten.length true).beginsWithTimestamp ∧
    ((p.parseBuffer k ptr (logs.flatten ++ pad) logs.flatten.length true).printed m t.getIdSymbol var).map Printed.withoutLogtype =
      logs.flatMap fun log =>
        ((p'.parseBuffer (log.length + 1) 0 (log ++ [0]) log.length true).printed (fun _ => log ++ [0]) t.getIdSymbol var).map
          Printed.withoutLogtype := by
  induction logs generalizing p pad ptr k m with
  | nil => exact absurd rfl hne
  | cons a logs ih =>
    by_cases hl : logs = []
    · subst hl
      simp only [List.flatten_cons, List.flatten_nil, List.append_nil] at hk hm
      simp only [List.flatten_cons, List.flatten_nil, List.append_nil, List.flatMap_cons, List.flatMap_nil]
      obtain ⟨q, hq, hqa, hw⟩ := whole_printed hC hv
      have h1 := (hw hI ptr hpad hk hm var).1
      have h2 := (hw hI' 0 (pad := [0]) (by simp) (Nat.lt_succ_self a.length) (m := fun _ => a ++ [0]) rfl var).1
      have h3 := hts a (by simp)
      rw [begins_iff _ (fun _ => a ++ [0]) t.getIdSymbol var, h2] at h3
      rw [begins_iff _ m t.getIdSymbol var, h1, h2]
      exact ⟨h3, rfl⟩
    · have hdl : (a :: logs).dropLast = a :: logs.dropLast := List.dropLast_cons_of_ne_nil hl
      rw [hdl] at hend
      obtain ⟨i1, i2⟩ := ih hl (fun l h => hb l (by simp [h])) (fun l h => hfd l (by simp [h])) (fun l h => hts l (by simp [h]))
        (fun l h => hend l (by simp [h])) hI (pad := [0]) (by simp) 0 (Nat.lt_succ_self _) (m := fun _ => logs.flatten ++ [0]) rfl
      have hbs : ∀ c ∈ logs.flatten, c < 256 := by
        intro c hc
        obtain ⟨l, hl, hc⟩ := List.mem_flatten.mp hc
        exact hb l (by simp [hl]) c hc
      have hfds : cCharStartOfFile ∉ logs.flatten := by
        intro hc
        obtain ⟨l, hl, hc⟩ := List.mem_flatten.mp hc
        exact hfd l (by simp [hl]) hc
      rw [List.flatten_cons] at hk hm ⊢
      obtain ⟨j1, ps, x, b, j2, j3, j4⟩ := C70_join_partial hC hv hmono hnl hres hline hI hI' hI (hb a (by simp)) hbs (hfd a (by simp)) hfds hpad
        (padA := [0]) (padB := [0]) (by simp) (by simp) ptr 0 0 hk (Nat.lt_succ_self _) (Nat.lt_succ_self _) hm (mA := fun _ => a ++ [0])
        (mB := fun _ => logs.flatten ++ [0]) rfl rfl hvar (hend a (by simp)) (hts a (by simp)) i1
      refine ⟨j1, ?_⟩
      rw [j4, List.flatMap_cons, j2, ← i2]
      simp only [List.map_append, List.map_cons, List.map_nil, LastOf.same j3]

/-- C70: a line is recognised as beginning with a timestamp in the middle of a log iff it is at its beginning.  (Partial: newline is a delimiter; no
variable has a reserved name; the addresses of the NFA states are in the order of their creation.) -/
theorem C70_first_or_later_partial (hC : s.Compiled addr t L) (hmono : ∀ a b, a < b → addr a < addr b) (hnl : s.IsDelim newline) (hres : s.Reserved)
    {line : List Nat} (hb : ∀ c ∈ line, c < 256) : L.BeginsWithTs line ↔ L.FirstWithTs line := first_or_later hC hmono hnl hres hb

/-! ### The hypotheses are met, and both conditions on the logs are needed -/

set_option maxRecDepth 100000 in
set_option synthInstance.maxSize 2000 in
/-- Logs that meet the hypotheses: `T b⏎` and `T a`. -/
example : ∃ (s : SchemaAST) (t : ParserTables) (L : Lexer) (p : BufferParser), s.Compiled id t L ∧ s.vars ≠ [] ∧
    (s.IsDelim newline ∧ s.Reserved ∧ s.LineTimestamps) ∧ p.Idle t L ∧ ([84, 32, 98, 10] : List Nat).getLast? = some newline ∧
    (p.parseBuffer 5 0 ([84, 32, 98, 10] ++ [0]) 4 true).beginsWithTimestamp ∧ (p.parseBuffer 4 0 ([84, 32, 97] ++ [0]) 3 true).beginsWithTimestamp := by
  obtain ⟨t, L, p, h1, h2, h3⟩ := newParser_spec evSchema_sensible (by decide +kernel)
  refine ⟨evSchema, t, L, p, h1, by simp [evSchema], evSchema_lines, h3, rfl, ?_⟩
  have : (newParser evSchema).map (fun p =>
      (((p.parseBuffer 5 0 ([84, 32, 98, 10] ++ [0]) 4 true).events.head?.map fun o => o.view.getTimestamp.isSome),
       ((p.parseBuffer 4 0 ([84, 32, 97] ++ [0]) 3 true).events.head?.map fun o => o.view.getTimestamp.isSome))) = some (some true, some true) := by
    decide +kernel
  rw [h2] at this
  simp only [Option.map_some, Option.some.injEq, Prod.mk.injEq, Option.map_eq_some_iff] at this
  exact this

set_option maxRecDepth 100000 in
set_option synthInstance.maxSize 2000 in
/-- C70: logs without timestamps cannot be put together: `a⏎` is the event `a⏎` and an empty one, `a` is the event `a`, but together they are the
events `a⏎` and `a`. -/
theorem C70_no_timestamp_refuted : ∃ (s : SchemaAST) (t : ParserTables) (L : Lexer) (p : BufferParser), s.Compiled id t L ∧ s.vars ≠ [] ∧
    (s.IsDelim newline ∧ s.Reserved ∧ s.LineTimestamps) ∧ p.Idle t L ∧
    ((p.parseBuffer 8 0 ([97, 10] ++ [0]) 2 true).printed (fun _ => [97, 10] ++ [0]) t.getIdSymbol 8).map (·.text) = [some [97, 10], some []] ∧
    ((p.parseBuffer 8 0 ([97] ++ [0]) 1 true).printed (fun _ => [97] ++ [0]) t.getIdSymbol 8).map (·.text) = [some [97]] ∧
    ((p.parseBuffer 8 0 ([97, 10, 97] ++ [0]) 3 true).printed (fun _ => [97, 10, 97] ++ [0]) t.getIdSymbol 8).map (·.text) =
      [some [97, 10], some [97]] := by
  obtain ⟨t, L, p, h1, h2, h3⟩ := newParser_spec evSchema_sensible (by decide +kernel)
  refine ⟨evSchema, t, L, p, h1, by simp [evSchema], evSchema_lines, h3, ?_⟩
  have hn : t.getIdSymbol = namesOf evSchema := by
    funext i
    unfold namesOf
    rw [h1.ok]
  rw [hn]
  have : (newParser evSchema).map (fun p =>
      (((p.parseBuffer 8 0 ([97, 10] ++ [0]) 2 true).printed (fun _ => [97, 10] ++ [0]) (namesOf evSchema) 8).map (·.text),
       ((p.parseBuffer 8 0 ([97] ++ [0]) 1 true).printed (fun _ => [97] ++ [0]) (namesOf evSchema) 8).map (·.text),
       ((p.parseBuffer 8 0 ([97, 10, 97] ++ [0]) 3 true).printed (fun _ => [97, 10, 97] ++ [0]) (namesOf evSchema) 8).map (·.text))) =
      some ([some [97, 10], some []], [some [97]], [some [97, 10], some [97]]) := by decide +kernel
  rw [h2] at this
  simp only [Option.map_some, Option.some.injEq, Prod.mk.injEq] at this
  exact this

end LogSurgeon
