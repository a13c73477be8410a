import Verif.Proofs.LineVars
import Verif.Props.LineEvents
import Verif.Props.BufferClient
/-
C69: the variables of a log are found line by line.

The reader needs: `Spec/LineVars.lean` (`newlinePieces`, `stripNl`) and `Model/BufferClient.lean` (`Printed`: what a program prints of the events of
a buffer).
-/
namespace LogSurgeon

variable {s : SchemaAST} {addr : Nat → Nat} {t : ParserTables} {L : Lexer}

theorem printed_vars (T : List Nat) (names : Nat → Option String) (var : Nat) {es : List PEvent} (h : ∀ e ∈ es, ∀ x ∈ e.toks, x.kind ≠ tokenEnd) :
    ((es.map (PEvent.printed T names var)).flatMap fun a => a.vars.map (Option.map stripNl)) =
      (es.flatMap fun e => e.toks.flatMap (PTok.varText T var)).map some := by
  rw [List.flatMap_map, List.map_flatMap]
  refine List.flatMap_congr fun e he => ?_
  have h := h e he
  simp only [PEvent.printed]
  generalize e.toks = xs at h
  induction xs with
  | nil => rfl
  | cons x xs ih =>
    have ih := ih (fun y hy => h y (List.mem_cons_of_mem _ hy))
    have hx := h x (by simp)
    rw [List.flatMap_cons]
    by_cases hk : x.kind = var
    · rw [List.filter_cons_of_pos (by simpa using hk), List.map_cons, List.map_cons, ih]
      simp [PTok.varText, hk, hk ▸ hx]
    · rw [List.filter_cons_of_neg (by simpa using hk), ih]
      simp [PTok.varText, hk]

/-- No end token is in an event. -/
theorem segment_noEnd {T : List Nat} : ∀ (xs : List PTok) (cur : Option PEvent), (∀ e, cur = some e → ∀ x ∈ e.toks, x.kind ≠ tokenEnd) →
    ∀ e ∈ segment T cur xs, ∀ x ∈ e.toks, x.kind ≠ tokenEnd := by
  intro xs
  have hnl : ∀ x : PTok, x.nl.kind ≠ tokenEnd := by intro x h; cases h
  induction xs with
  | nil => intro cur _ e he; cases cur <;> simp [segment] at he
  | cons x xs ih =>
    intro cur hcur e he
    have hstart : ∀ z : PTok, z.kind ≠ tokenEnd → ∀ e, some (PEvent.start z) = some e → ∀ x ∈ e.toks, x.kind ≠ tokenEnd := by
      rintro z hz e he x hx
      cases he
      simp only [PEvent.start, List.mem_singleton] at hx
      exact hx ▸ hz
    cases cur with
    | none =>
      rw [segment] at he
      split at he
      · simp only [List.mem_singleton] at he
        subst he
        intro x hx
        cases hx
      · rename_i h1
        split at he
        · rcases List.mem_cons.mp he with rfl | he
          · intro y hy
            simp only [List.mem_singleton] at hy
            exact hy ▸ hnl x
          · exact ih _ (hstart x.rest h1) e he
        · exact ih _ (hstart x h1) e he
    | some e0 =>
      have h0 := hcur e0 rfl
      have hadd : ∀ z : PTok, z.kind ≠ tokenEnd → ∀ y ∈ (e0.add z).toks, y.kind ≠ tokenEnd := by
        intro z hz y hy
        simp only [PEvent.add, List.mem_append, List.mem_singleton] at hy
        rcases hy with hy | rfl
        · exact h0 y hy
        · exact hz
      rw [segment] at he
      split at he
      · simp only [List.mem_singleton] at he
        exact he ▸ h0
      · rename_i h1
        split at he
        · rcases List.mem_cons.mp he with rfl | he
          · exact hadd x h1
          · exact ih none (fun e h => by cases h) e he
        · split at he
          · rcases List.mem_cons.mp he with rfl | he
            · exact hadd _ (hnl x)
            · exact ih _ (hstart x.rest h1) e he
          · exact ih _ (fun e h => by cases h; exact hadd x h1) e he

/-- C69: the variables of a log with a newline somewhere are those of the part in front of the newline and those of the part from the newline on:
a line cannot change what is found in another line.  `vars` are the variables of kind `var` reported for all events of a log, whatever the
parser was used for before and wherever the log is in memory; newlines in front of a variable are left out, since a newline in front of a variable
is reported with the variable or not, depending on the event.  (Partial: newline is a delimiter; no variable has a reserved name; timestamps contain
no newline; the byte 0xFD does not occur; `var` is not the id of the texts without variable.) -/
theorem C69_append_partial (hC : s.Compiled addr t L) (hv : s.vars ≠ []) (hnl : s.IsDelim newline) (hres : s.Reserved) (hline : s.LineTimestamps)
    {var : Nat} (hvar : var ≠ tokenUncaught) : ∃ vars : List Nat → List (Option (List Nat)),
    (∀ {p : BufferParser} (_ : p.Idle t L) {file : List Nat} {pad : List Nat} (_ : pad ≠ []) (ptr : Nat) {k : Nat} (_ : file.length < k)
        {m : Mem} (_ : m ptr = file ++ pad),
        ((p.parseBuffer k ptr (file ++ pad) file.length true).printed m t.getIdSymbol var).flatMap (fun a => a.vars.map (Option.map stripNl)) =
          vars file) ∧
      (∀ a b, cCharStartOfFile ∉ a → cCharStartOfFile ∉ b → vars (a ++ newline :: b) = vars a ++ vars (newline :: b)) ∧
      vars [] = [] := by
  obtain ⟨q, hq, hqa, hw⟩ := whole_printed hC hv
  have hO := buildLexer_ok hC.ok
  have hres' : s.NlReserved := fun v hv => ⟨(hres v hv).2.2, (hres v hv).2.1⟩
  have hnil : ((L.toks [] true (.sof q)).1.flatMap (PTok.varText [] var)) = [] := by
    obtain ⟨_, hW⟩ := whole_facts hC hq hqa []
    rw [List.flatMap_eq_nil_iff]
    intro x hx
    have h1 := (hW.le.2 x hx).2
    unfold PTok.varText
    refine if_neg fun h => h.2 ?_
    by_contra hne
    have h2 := (tiles_mem hW x hx).2 hne
    have h3 : x.e ≤ 0 := h1
    omega
  refine ⟨fun T => ((L.toks T true (.sof q)).1.flatMap (PTok.varText T var)).map some, ?_, ?_, ?_⟩
  · intro p hI file pad hpad ptr k hk m hm
    obtain ⟨_, hW⟩ := whole_facts hC hq hqa file
    have hsound := pureAll_sound (hO.nlOk hC.sensible hC.inj) (s := file) (fin := true) (file.length - (Cfg.sof q).cov + 1) (.sof q) ⟨hq, hqa⟩
    have hEnd : EndLast (L.toks file true (.sof q)).1 := endLast_of_tiles (s := file) (hO.typesProper hC.sensible) hW hsound
    rw [(hw hI ptr hpad hk hm var).1, printed_vars _ _ _ (segment_noEnd _ none (fun e h => by cases h)),
      segment_vars hvar _ none hEnd (fun x hx => (nlToks hO hC.sensible hC.inj hres' (hsound x hx)).1)]
    rfl
  · intro a b ha hb
    by_cases ha0 : a = []
    · subst ha0
      simp only [List.nil_append, hnil, List.map_nil]
    · have hfd : cCharStartOfFile ∉ a ++ newline :: b := by
        intro h
        rcases List.mem_append.mp h with h | h
        · exact ha h
        · rcases List.mem_cons.mp h with h | h
          · exact absurd h (by decide)
          · exact hb h
      have := vars_join hC hnl hline hq hqa hfd (b := a.length) (by simp) (List.length_pos_iff.mpr ha0) var
      rw [List.take_left, List.drop_left] at this
      simp only [this, List.map_append]
  · simp only [hnil, List.map_nil]

/-- C69: the variables of a log are those of its pieces, each parsed by itself; each newline begins a new piece.  (Partial: as
`C69_append_partial`.) -/
theorem C69_pieces_partial (hC : s.Compiled addr t L) (hv : s.vars ≠ []) (hnl : s.IsDelim newline) (hres : s.Reserved) (hline : s.LineTimestamps)
    {var : Nat} (hvar : var ≠ tokenUncaught) {p p' : BufferParser} (hI : p.Idle t L) (hI' : p'.Idle t L) {file : List Nat}
    (hfd : cCharStartOfFile ∉ file) {pad pad' : List Nat} (hpad : pad ≠ []) (hpad' : pad' ≠ []) (ptr ptr' : Nat) {k k' : Nat} (hk : file.length < k)
    (hk' : file.length < k') {m : Mem} (hm : m ptr = file ++ pad) {m' : List Nat → Mem} (hm' : ∀ piece, m' piece ptr' = piece ++ pad') :
    ((p.parseBuffer k ptr (file ++ pad) file.length true).printed m t.getIdSymbol var).flatMap (fun a => a.vars.map (Option.map stripNl)) =
      (newlinePieces file).flatMap fun piece =>
        ((p'.parseBuffer k' ptr' (piece ++ pad') piece.length true).printed (m' piece) t.getIdSymbol var).flatMap
          fun a => a.vars.map (Option.map stripNl) := by
  obtain ⟨vars, h1, h2, h3⟩ := C69_append_partial hC hv hnl hres hline hvar
  rw [h1 hI hpad ptr hk hm]
  generalize hps : newlinePieces file = ps
  clear hk hm
  induction ps generalizing file with
  | nil => rw [pieces_nil hps, h3]; rfl
  | cons piece ps ih =>
    obtain ⟨g1, T', rfl, g2, g3⟩ := pieces_cons hps
    simp only [List.length_append] at hk'
    rw [List.flatMap_cons, h1 hI' hpad' ptr' (by omega) (hm' piece), ← ih (fun h => hfd (by simp [h])) (by omega) g2]
    cases T' with
    | nil => rw [List.append_nil, h3, List.append_nil]
    | cons c b =>
      have hc := g3 (by simp)
      simp only [List.head?_cons, Option.some.injEq] at hc
      subst hc
      exact h2 piece b (fun h => hfd (by simp [h])) (fun h => hfd (by simp [h]))

/-- The pieces of a log are the log; none is empty, and a newline is only at the beginning of a piece. -/
theorem C69_divided (file : List Nat) : (newlinePieces file).flatten = file ∧
    ∀ piece ∈ newlinePieces file, ∃ c rest, piece = c :: rest ∧ newline ∉ rest := by
  induction file with
  | nil => exact ⟨rfl, fun p h => by cases h⟩
  | cons c rest ih =>
    obtain ⟨i1, i2⟩ := ih
    rw [newlinePieces]
    cases hr : newlinePieces rest with
    | nil =>
      rw [pieces_nil hr]
      exact ⟨rfl, fun p h => by simp only [List.mem_singleton] at h; exact ⟨c, [], h, by simp⟩⟩
    | cons p ps =>
      rw [hr] at i1 i2
      simp only
      split
      · refine ⟨by rw [List.flatten_cons, i1]; rfl, fun p' h => ?_⟩
        rcases List.mem_cons.mp h with rfl | h
        · exact ⟨c, [], rfl, by simp⟩
        · exact i2 p' h
      · rename_i hp
        refine ⟨by rw [List.flatten_cons, ← i1]; rfl, fun p' h => ?_⟩
        rcases List.mem_cons.mp h with rfl | h
        · obtain ⟨d, r, rfl, hd⟩ := i2 p (by simp)
          refine ⟨c, d :: r, rfl, ?_⟩
          intro h
          rcases List.mem_cons.mp h with h | h
          · exact hp (by rw [← h]; rfl)
          · exact hd h
        · exact i2 p' (by simp [h])

/-! ### The hypotheses are met, and a newline in front of a variable is reported with it or not -/

set_option maxRecDepth 100000 in
set_option synthInstance.maxSize 2000 in
/-- C69: why newlines in front of variables are left out: in `a⏎b` the variable is `b`, in `⏎b` by itself it is `⏎b`.  The hypotheses of
`C69_pieces_partial` are met, and the pieces are `a` and `⏎b`. -/
theorem C69_newline_refuted : ∃ (s : SchemaAST) (t : ParserTables) (L : Lexer) (p : BufferParser) (file : List Nat) (var : Nat), s.Compiled id t L ∧
    s.vars ≠ [] ∧ s.IsDelim newline ∧ s.Reserved ∧ s.LineTimestamps ∧ var ≠ tokenUncaught ∧ p.Idle t L ∧ cCharStartOfFile ∉ file ∧
    newlinePieces file = [[97], [newline, 98]] ∧
    ((p.parseBuffer 8 1 (file ++ [0]) file.length true).printed (fun _ => file ++ [0]) t.getIdSymbol var).flatMap (·.vars) = [some [98]] ∧
    ((p.parseBuffer 8 1 ([newline, 98] ++ [0]) 2 true).printed (fun _ => [newline, 98] ++ [0]) t.getIdSymbol var).flatMap (·.vars) =
      [some [newline, 98]] := by
  obtain ⟨t, L, p, h1, h2, h3⟩ := newParser_spec plainSchema_sensible (by decide +kernel)
  have hv : ∀ v ∈ plainSchema.vars, v.name = "x" := by
    intro v hv
    simp only [plainSchema, List.mem_cons, List.not_mem_nil, or_false] at hv
    subst hv
    rfl
  have hn : t.getIdSymbol = namesOf plainSchema := by
    funext i
    unfold namesOf
    rw [h1.ok]
  refine ⟨plainSchema, t, L, p, [97, 10, 98], 8, h1, by simp [plainSchema], .inr ⟨[32, 10], rfl, by decide⟩, ?_, ?_, by decide, h3, by decide, rfl,
    ?_, ?_⟩
  · intro v h
    rw [hv v h]
    decide
  · intro v h ht
    rw [hv v h] at ht
    exact absurd ht (by decide)
  · rw [hn]
    have : (newParser plainSchema).map (fun p => ((p.parseBuffer 8 1 ([97, 10, 98] ++ [0]) 3 true).printed
        (fun _ => [97, 10, 98] ++ [0]) (namesOf plainSchema) 8).flatMap (·.vars)) = some [some [98]] := by decide +kernel
    rw [h2] at this
    exact Option.some.inj this
  · rw [hn]
    have : (newParser plainSchema).map (fun p => ((p.parseBuffer 8 1 ([10, 98] ++ [0]) 2 true).printed
        (fun _ => [10, 98] ++ [0]) (namesOf plainSchema) 8).flatMap (·.vars)) = some [some [10, 98]] := by decide +kernel
    rw [h2] at this
    exact Option.some.inj this

end LogSurgeon
