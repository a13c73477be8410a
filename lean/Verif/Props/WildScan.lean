import Verif.Proofs.WildScan
import Verif.Proofs.LexAll
import Verif.Props.Dfa
/-
C39: search strings that end in a wildcard.

The client (as in CLP's query code) lays the search text without its last character over the input buffer, resets the
lexer and calls `scan_with_wildcard` with the wildcard character.  `asserts` tells whether assertions are compiled in.

The reader needs `Rule.AcceptsAlone` (Spec/Automata.lean), `Recognised` and `wildSearchToken` below.
-/
namespace LogSurgeon

/-- Some rule recognises the whole of `s`. -/
def Recognised (rules : List Rule) (s : List Nat) : Prop := ∃ r ∈ rules, r.AcceptsAlone s

/-- Strings of bytes without delimiters. -/
def NoDelims (delims : List Nat) (s : List Nat) : Prop :=
  ∀ c ∈ s, c < cSizeOfByte ∧ c ∉ delims ∧ c ≠ cCharStartOfFile

/-- The lexer for some rules and delimiters. -/
def lexerOf (d : Dfa) (delims : List Nat) : Lexer := { dfa := d, isDelim := delimTable delims }

/-- `set_storage(text)`, `reset()`, `scan_with_wildcard(wildcard)`. -/
def wildSearchToken (L : Lexer) (asserts : Bool) (wildcard : Nat) (st : LexState) (b : InBuf) (ptr : Nat)
    (text : List Nat) : Except Fail Token :=
  (L.scanWithWildcard asserts wildcard (Lexer.reset st)
    (({ b with mem := fun i => if i = ptr then text else b.mem i }).setStorage ptr text.length 0 true)).2.2

open Classical in
/-- The token covers the whole text and carries the ids of the rules that recognise it. -/
def IsVariable (rules : List Rule) (ptr : Nat) (text : List Nat) (r : Except Fail Token) : Prop :=
  ∃ t ids, r = .ok t ∧ t.buf = ptr ∧ t.startPos = 0 ∧ t.endPos = text.length ∧ t.types = some ids ∧
    ids.Perm ((rules.filter (fun r => r.AcceptsAlone text)).map Rule.id)

/-- The token is an uncaught string: a prefix of the text. -/
def IsUncaught (ptr : Nat) (text : List Nat) (r : Except Fail Token) : Prop :=
  ∃ t, r = .ok t ∧ t.buf = ptr ∧ t.startPos = 0 ∧ t.endPos ≤ text.length ∧ t.types = some [tokenUncaught]

namespace WildProps

theorem nonDelims_iff {d : Dfa} {delims s : List Nat} : (lexerOf d delims).NonDelims s ↔ NoDelims delims s := by
  simp only [Lexer.NonDelims, NoDelims, lexerOf, delimTable]
  refine forall_congr' fun c => imp_congr_right fun _ => and_congr_right fun _ => ?_
  simp

variable {rules : List Rule} {addr : Nat → Nat} {d : Dfa}

theorem recognised_iff (hinj : ∀ a b, addr a = addr b → a = b) (hd : generateDfa rules addr = some d) {s : List Nat}
    (hs : AllBytes s) : Recognised rules s ↔ ∃ q, d.run 0 s = some q ∧ d.isAccepting q = true := by
  have hp := C10_ids_complete hinj hd hs
  have key : d.idsOn s ≠ [] ↔ ∃ q, d.run 0 s = some q ∧ d.isAccepting q = true := by
    unfold Dfa.idsOn Dfa.isAccepting
    cases d.run 0 s with
    | none => simp
    | some q => simp [List.isEmpty_iff]
  rw [← key, Ne, ← List.length_eq_zero_iff, hp.length_eq]
  simp [Recognised]

theorem view (L : Lexer) (st : LexState) (b : InBuf) (ptr : Nat) (text : List Nat) :
    View (({ b with mem := fun i => if i = ptr then text else b.mem i }).setStorage ptr text.length 0 true) text true := by
  have := (startOn_view L st b ptr (content := text) (Nat.le_refl _) true).1
  rwa [List.take_length] at this

/-- What the scan does, before the wildcard is looked at. -/
theorem scan (L : Lexer) (asserts : Bool) (wc : Nat) (st : LexState) (b : InBuf) (ptr : Nat) {text : List Nat} (hnl : newline ∉ text) :
    (∀ q, L.dfa.run 0 text = some q → ∃ st' b' st0 b0, wildSearchToken L asserts wc st b ptr text = (L.wildEnd wc q st' b').2.2 ∧
      Lexer.AtEnd L st0 b0 text.length q st' b' ∧ st0.startPos = 0 ∧ st0.lastMatchPos = 0 ∧ b0.active = ptr) ∧
    (L.dfa.run 0 text = none →
      (asserts = true → wildSearchToken L asserts wc st b ptr text = .error .throws) ∧
      (asserts = false → IsUncaught ptr text (wildSearchToken L asserts wc st b ptr text))) := by
  have hV := view L st b ptr text
  obtain ⟨h1, h2⟩ := Lexer.wildLoop_spec (L := L) hnl asserts wc
    (Lexer.scanFuel (({ b with mem := fun i => if i = ptr then text else b.mem i }).setStorage ptr text.length 0 true))
    (q := 0) (st := {}) hV rfl (Nat.zero_le _)
    (by show text.length + 1 ≤ 0 + (2 * (text.length * 2) + 4); omega) (fun h => by cases h)
  refine ⟨fun q hq => ?_, fun hq => ⟨fun ha => (h2 hq).1 ha, fun ha => ?_⟩⟩
  · obtain ⟨st', b', e, he⟩ := h1 q hq
    exact ⟨st', b', _, _, congrArg (·.2.2) e, he, rfl, rfl, rfl⟩
  · obtain ⟨st', b', e, e1, e2, e3, e4⟩ := (h2 hq).2 ha
    exact ⟨_, congrArg (·.2.2) e, e3, e1, e2, rfl⟩

end WildProps
open WildProps

variable {rules : List Rule} {addr : Nat → Nat} {d : Dfa}

/-- C39, `*`: a search text without newlines is reported as a variable exactly when every completion by non-delimiter
characters (the empty one included) is recognised by some rule; the search terminates. -/
theorem C39_star (hinj : ∀ a b, addr a = addr b → a = b) (hd : generateDfa rules addr = some d) (delims : List Nat)
    (asserts : Bool) (st : LexState) (b : InBuf) (ptr : Nat) {text : List Nat} (hb : AllBytes text) (hnl : newline ∉ text) :
    ((∀ s, NoDelims delims s → Recognised rules (text ++ s)) →
      IsVariable rules ptr text (wildSearchToken (lexerOf d delims) asserts 42 st b ptr text)) ∧
    ((¬ ∀ s, NoDelims delims s → Recognised rules (text ++ s)) → asserts = false ∨ d.run 0 text ≠ none →
      IsUncaught ptr text (wildSearchToken (lexerOf d delims) asserts 42 st b ptr text)) := by
  obtain ⟨h1, h2⟩ := scan (lexerOf d delims) asserts 42 st b ptr hnl
  have hall : ∀ {q}, d.run 0 text = some q → ((∀ s, NoDelims delims s → Recognised rules (text ++ s)) ↔
      ∀ s, (lexerOf d delims).NonDelims s → ∃ q', d.run q s = some q' ∧ d.isAccepting q' = true) := by
    intro q hq
    refine forall_congr' fun s => ?_
    rw [nonDelims_iff]
    refine imp_congr_right fun hs => ?_
    have hbs : AllBytes (text ++ s) := by
      intro c hc
      rcases List.mem_append.mp hc with hc | hc
      · exact hb c hc
      · exact (hs c hc).1
    rw [recognised_iff hinj hd hbs, Lexer.run_append, hq]
    rfl
  constructor
  · intro hr
    obtain ⟨q, hq, ha⟩ := (recognised_iff hinj hd hb).mp (by simpa using hr [] (by simp [NoDelims]))
    obtain ⟨st', b', st0, b0, e, he, e1, e2, e3⟩ := h1 q hq
    obtain ⟨st2, b2, t, f1, f2, f3, f4, f5, f6⟩ := (Lexer.wildEnd_star he).1 ((hall hq).mp hr)
    refine ⟨t, d.ids q, by rw [e, f1], f4.trans e3, f2.trans e1, f3, f6, ?_⟩
    have := C10_ids_complete hinj hd hb
    simpa [Dfa.idsOn, hq] using this
  · intro hr ha
    cases hq : d.run 0 text with
    | none =>
      rcases ha with ha | ha
      · exact (h2 hq).2 ha
      · exact (ha hq).elim
    | some q =>
      obtain ⟨st', b', st0, b0, e, he, e1, e2, e3⟩ := h1 q hq
      obtain ⟨st2, b2, t, f1, f2, f3, f4, f5, f6⟩ := (Lexer.wildEnd_star he).2 (fun h => hr ((hall hq).mpr h))
      exact ⟨t, by rw [e, f1], f4.trans e3, f2.trans e2, Nat.le_of_eq f3, f6⟩

/-- C39: with assertions compiled in, a text on which the automaton dies aborts the program. -/
theorem C39_assert_refuted (delims : List Nat) (wc : Nat) (st : LexState) (b : InBuf)
    (ptr : Nat) {text : List Nat} (hnl : newline ∉ text) (hdead : d.run 0 text = none) :
    wildSearchToken (lexerOf d delims) true wc st b ptr text = .error .throws :=
  ((scan (lexerOf d delims) true wc st b ptr hnl).2 hdead).1 rfl

/-- C39, `?`, the complete behaviour on a text that some rule recognises: a variable if every one-byte
completion is recognised (delimiters included); otherwise the first byte whose completion is not recognised decides:
uncaught string if the automaton is alive after it, undefined behaviour (a null pointer is dereferenced) if it is dead. -/
theorem C39_question_partial (hinj : ∀ a b, addr a = addr b → a = b) (hd : generateDfa rules addr = some d) (delims : List Nat)
    (asserts : Bool) (st : LexState) (b : InBuf) (ptr : Nat) {text : List Nat} (hb : AllBytes text) (hnl : newline ∉ text)
    (hr : Recognised rules text) :
    ((∀ c < cSizeOfByte, Recognised rules (text ++ [c])) →
      IsVariable rules ptr text (wildSearchToken (lexerOf d delims) asserts 63 st b ptr text)) ∧
    (∀ c < cSizeOfByte, (∀ c' < c, Recognised rules (text ++ [c'])) → ¬ Recognised rules (text ++ [c]) →
      (d.run 0 (text ++ [c]) ≠ none →
        IsUncaught ptr text (wildSearchToken (lexerOf d delims) asserts 63 st b ptr text)) ∧
      (d.run 0 (text ++ [c]) = none →
        wildSearchToken (lexerOf d delims) asserts 63 st b ptr text = .error .ub)) := by
  obtain ⟨q, hq, ha⟩ := (recognised_iff hinj hd hb).mp hr
  have hrun : ∀ c, d.run 0 (text ++ [c]) = d.next q c := by
    intro c
    rw [Lexer.run_append, hq]
    cases h : d.next q c <;> simp [Dfa.run, h]
  have hrec : ∀ c < cSizeOfByte, (Recognised rules (text ++ [c]) ↔ ∃ q', d.next q c = some q' ∧ d.isAccepting q' = true) := by
    intro c hc
    rw [recognised_iff hinj hd (s := text ++ [c]) (by
      intro x hx
      rcases List.mem_append.mp hx with hx | hx
      · exact hb x hx
      · simp at hx; subst hx; exact hc), hrun]
  obtain ⟨st', b', st0, b0, e, he, e1, e2, e3⟩ := (scan (lexerOf d delims) asserts 63 st b ptr hnl).1 q hq
  obtain ⟨m1, m2, m3⟩ := he.yes ha
  have hend : (lexerOf d delims).wildEnd 63 q st' b' =
      match (lexerOf d delims).wildOne q (List.range cSizeOfByte) with
      | none => (st', b', .error .ub)
      | some false => Lexer.wildUncaught st' b'
      | some true => Lexer.wildMatch st' b' := by
    unfold Lexer.wildEnd
    rw [if_neg (by simp [m1, m2, he.pos]), if_pos rfl]
    rfl
  obtain ⟨w1, w2, w3⟩ := Lexer.wildOne_spec (L := lexerOf d delims) q (List.range cSizeOfByte)
  have split : ∀ c < cSizeOfByte, List.range cSizeOfByte = List.range c ++ c :: (List.range (cSizeOfByte - (c + 1))).map (c + 1 + ·) := by
    intro c hc
    have : cSizeOfByte = (c + 1) + (cSizeOfByte - (c + 1)) := by omega
    rw [this, List.range_add, List.range_succ]
    simp
  rw [e, hend]
  constructor
  · intro hall
    rw [w1.mpr (fun c hc => (hrec c (List.mem_range.mp hc)).mp (hall c (List.mem_range.mp hc)))]
    refine ⟨_, d.ids q, rfl, he.active.trans e3, he.start.trans e1, m2, m3, ?_⟩
    have := C10_ids_complete hinj hd hb
    simpa [Dfa.idsOn, hq] using this
  · intro c hc hbefore hno
    rw [hrun]
    have hpre : ∀ x ∈ List.range c, ∃ q', d.next q x = some q' ∧ d.isAccepting q' = true := fun x hx =>
      (hrec x (by have := List.mem_range.mp hx; omega)).mp (hbefore x (List.mem_range.mp hx))
    constructor
    · intro hne
      cases hn : d.next q c with
      | none => exact (hne hn).elim
      | some q' =>
        have hna : d.isAccepting q' = false := by
          cases h : d.isAccepting q' with
          | false => rfl
          | true => exact (hno ((hrec c hc).mpr ⟨q', hn, h⟩)).elim
        rw [w2.mpr ⟨List.range c, c, _, q', split c hc, hn, hna, hpre⟩]
        exact ⟨_, rfl, he.active.trans e3, he.last.trans e2, Nat.le_of_eq he.pos, rfl⟩
    · intro hn
      rw [w3.mpr ⟨List.range c, c, _, split c hc, hn, hpre⟩]

/-- C39, no wildcard: with any other character the text is a variable exactly if some rule recognises it. -/
theorem C39_plain (hinj : ∀ a b, addr a = addr b → a = b) (hd : generateDfa rules addr = some d) (delims : List Nat)
    (asserts : Bool) (wc : Nat) (hw : wc ≠ 42 ∧ wc ≠ 63) (st : LexState) (b : InBuf) (ptr : Nat) {text : List Nat} (hb : AllBytes text)
    (hnl : newline ∉ text) :
    (Recognised rules text →
      IsVariable rules ptr text (wildSearchToken (lexerOf d delims) asserts wc st b ptr text)) ∧
    (¬ Recognised rules text → asserts = false ∨ d.run 0 text ≠ none →
      IsUncaught ptr text (wildSearchToken (lexerOf d delims) asserts wc st b ptr text)) := by
  obtain ⟨h1, h2⟩ := scan (lexerOf d delims) asserts wc st b ptr hnl
  rw [recognised_iff hinj hd hb]
  constructor
  · rintro ⟨q, hq, ha⟩
    obtain ⟨st', b', st0, b0, e, he, e1, e2, e3⟩ := h1 q hq
    obtain ⟨m1, m2, m3⟩ := he.yes ha
    have hend : (lexerOf d delims).wildEnd wc q st' b' = Lexer.wildMatch st' b' := by
      unfold Lexer.wildEnd
      rw [if_neg (by simp [m1, m2, he.pos]), if_neg hw.2, if_neg hw.1]
    rw [e, hend]
    refine ⟨_, d.ids q, rfl, he.active.trans e3, he.start.trans e1, m2, m3, ?_⟩
    have := C10_ids_complete hinj hd hb
    simpa [Dfa.idsOn, hq] using this
  · intro hno ha
    cases hq : d.run 0 text with
    | none =>
      rcases ha with ha | ha
      · exact (h2 hq).2 ha
      · exact (ha hq).elim
    | some q =>
      obtain ⟨st', b', st0, b0, e, he, e1, e2, e3⟩ := h1 q hq
      have hna : d.isAccepting q = false := by
        cases h : d.isAccepting q with
        | false => rfl
        | true => exact (hno ⟨q, hq, h⟩).elim
      have hend : (lexerOf d delims).wildEnd wc q st' b' = Lexer.wildUncaught st' b' := by
        unfold Lexer.wildEnd
        rw [if_pos (by rcases he.no hna with h1 | h1 <;> simp [h1, he.pos])]
      rw [e, hend]
      exact ⟨_, rfl, he.active.trans e3, he.last.trans e2, Nat.le_of_eq he.pos, rfl⟩

/-! ### Examples -/

/-- Rule 8: the letter `a`; rule 9: `a` and then at least one more character. -/
def wildRules : List Rule :=
  [⟨8, .literal [] 97⟩,
   ⟨9, .cat [] (.literal [] 97) (.mult [] (.group [] false false [(0, 255)]) 1 0)⟩]

/-- A natural number in `[0-9]+`. -/
def digitRules : List Rule := [⟨8, .mult [] (.group [] false false [(48, 57)]) 1 0⟩]

/-- An unused buffer. -/
def wildBuf : InBuf := { mem := fun _ => [], staticSize := 8, size := 8, consumedPos := 0 }

/-- The types of the token of a search. -/
def wildTypes (rules : List Rule) (wc : Nat) (text : List Nat) : Option (Except Fail (Option (List Nat))) :=
  (generateDfa rules id).map fun d =>
    (wildSearchToken (lexerOf d [32, 10]) true wc {} wildBuf 7 text).map Token.types

-- `a*` is a variable, `1*` is not (`1x` is no number), nor is `x*`-like text that no rule knows
set_option maxRecDepth 1000000 in
theorem wildTypes_a : wildTypes wildRules 42 [97] = some (.ok (some [8])) := by decide +kernel
set_option maxRecDepth 1000000 in
example : wildTypes digitRules 42 [49] = some (.ok (some [1])) := by decide +kernel
set_option maxRecDepth 1000000 in
example : wildTypes wildRules 63 [97, 98] = some (.ok (some [9])) := by decide +kernel
set_option maxRecDepth 1000000 in
example : wildTypes digitRules 42 [120, 120] = some (.error .throws) := by decide +kernel

theorem id_inj (a b : Nat) (h : id a = id b) : a = b := h

/-- C39 does not hold for `?`: the text `1` is a number, and so is its completion `12`, but asking for `1?`
is undefined behaviour. -/
theorem C39_question_refuted : ∃ (rules : List Rule) (d : Dfa) (text : List Nat), generateDfa rules id = some d ∧
    Recognised rules text ∧ Recognised rules (text ++ [50]) ∧ ∀ (delims : List Nat) asserts st b ptr,
    wildSearchToken (lexerOf d delims) asserts 63 st b ptr text = .error .ub := by
  obtain ⟨d, hd⟩ : ∃ d, generateDfa digitRules id = some d := by
    obtain ⟨n, hn⟩ : ∃ n, buildNfa digitRules = some n := buildNfa_total _ (by simp [digitRules, Regex.NoInteger])
    obtain ⟨d, hd, _⟩ := C10_dfa_equiv_nfa hn id_inj
    exact ⟨d, hd⟩
  have hrec : ∀ s, AllBytes s → (Recognised digitRules s ↔ d.idsOn s ≠ []) := by
    intro s hs
    rw [Ne, ← List.length_eq_zero_iff, (C10_ids_complete id_inj hd hs).length_eq]
    simp [Recognised]
  have ev : ∀ s x, (generateDfa digitRules id).map (fun d => (d.idsOn s, d.run 0 s)) = some x → (d.idsOn s, d.run 0 s) = x := by
    intro s x h; rw [hd] at h; simpa using h
  have e1 := ev [49] ([8], some 1) (by decide +kernel)
  have e2 := ev [49, 50] ([8], some 1) (by decide +kernel)
  have e3 := ev [49, 0] ([], none) (by decide +kernel)
  simp only [Prod.mk.injEq] at e1 e2 e3
  have hb : ∀ s, s = [49] ∨ s = [49, 50] ∨ s = [49, 0] → AllBytes s := by
    rintro s (rfl | rfl | rfl) <;> simp [AllBytes, cSizeOfByte]
  refine ⟨digitRules, d, [49], hd, (hrec _ (hb _ (.inl rfl))).mpr (by simp [e1.1]),
    (hrec _ (hb _ (.inr (.inl rfl)))).mpr (by simp [e2.1]), fun delims asserts st b ptr => ?_⟩
  exact ((C39_question_partial id_inj hd delims asserts st b ptr (hb _ (.inl rfl)) (by decide)
    ((hrec _ (hb _ (.inl rfl))).mpr (by simp [e1.1]))).2 0 (by decide) (by simp)
    (fun h => (hrec _ (hb _ (.inr (.inr rfl)))).mp h e3.1)).2 e3.2

/-- C39: the reported types are those of the text itself, not those of its completions: `a*` is reported with type
8 only, although `ab` has type 9 only. -/
theorem C39_types_refuted : ∃ (rules : List Rule) (d : Dfa), generateDfa rules id = some d ∧
    d.idsOn [97, 98] = [9] ∧ ∃ t, wildSearchToken (lexerOf d [32, 10]) true 42 {} wildBuf 7 [97] = .ok t ∧ t.types = some [8] := by
  obtain ⟨d, hd⟩ : ∃ d, generateDfa wildRules id = some d := by
    obtain ⟨n, hn⟩ : ∃ n, buildNfa wildRules = some n := buildNfa_total _ (by simp [wildRules, Regex.NoInteger])
    obtain ⟨d, hd, _⟩ := C10_dfa_equiv_nfa hn id_inj
    exact ⟨d, hd⟩
  have e1 := wildTypes_a
  have e2 : (generateDfa wildRules id).map (fun d => d.idsOn [97, 98]) = some [9] := by decide +kernel
  rw [hd] at e2
  simp only [wildTypes, hd, Option.map_some, Option.some.injEq] at e1
  refine ⟨wildRules, d, hd, by simpa using e2, ?_⟩
  cases h : wildSearchToken (lexerOf d [32, 10]) true 42 {} wildBuf 7 [97] with
  | error e => rw [h] at e1; cases e1
  | ok t => rw [h] at e1; exact ⟨t, rfl, by simpa [Except.map] using e1⟩

end LogSurgeon
