import Verif.Props.BufferClient
import Verif.Props.Reader
import Verif.Model.ReaderClient
/-
C51: the documented client of `ReaderParser` (examples/reader-parser.cpp) prints what the documented client of `BufferParser` prints.
-/
namespace LogSurgeon
open Ctx

/-- What is printed for an event, from what a client sees of it. -/
def Seen.printed (names : Nat → Option String) (var : Nat) (o : Seen) : Printed where
  text := o.text
  timestamp := o.timestamp.map (·.1)
  vars := (o.vars var).map (·.1)
  logtype := o.logtype names
  multiline := o.multiline
  kept := o.kept

theorem print_seen (m : Mem) (names : Nat → Option String) (var : Nat) (v : EventView) :
    v.print m names var = (v.seen m).printed names var := by
  unfold EventView.print EventView.seen Seen.printed
  simp only [List.map_map, Option.map_map]
  rfl

/-- A file stream is a full reader. -/
theorem fileReader_full : fileReader.Full fun f => if f.eof then [] else f.rest := by
  intro f n hn
  obtain ⟨rest, eof⟩ := f
  cases eof with
  | true => simp [fileReader]
  | false =>
    simp only [fileReader, Bool.false_eq_true, if_false]
    cases rest with
    | nil => simp [hn]
    | cons c cs =>
      have h0 : ((c :: cs).take n).length ≠ 0 := by simp; omega
      have h1 : ¬ (((c :: cs).take n).length = 0 ∧ decide ((c :: cs).length < n) = true) := fun h => h0 h.1
      rw [if_neg h1]
      simp only [reduceCtorEq, if_false, and_true, decide_eq_true_eq]
      split
      · rw [List.drop_eq_nil_of_le (by omega)]
      · rfl

theorem runClient_of {σ : Type} {r : Reader σ} {j : Nat} {names : Nat → Option String} {var : Nat} : ∀ (k : Nat) (p : ReaderParser σ),
    p.done = false → (p.parseAll r j k).status = none →
    ∀ d, p.runClient r j names var (k + 1 + d) = ((p.parseAll r j k).events.map (Seen.printed names var), .done) := by
  intro k
  induction k with
  | zero => intro p _ h; cases h
  | succ k ih =>
    intro p hp h d
    rw [show k + 1 + 1 + d = (k + 1 + d) + 1 by omega]
    unfold ReaderParser.runClient
    unfold ReaderParser.parseAll at h ⊢
    rw [hp]
    simp only [Bool.false_eq_true, if_false]
    generalize p.parseNextEvent r j = res at h ⊢
    obtain ⟨p', o⟩ := res
    cases o with
    | error e => cases h
    | ok u =>
      simp only at h ⊢
      by_cases hd : p'.done = true
      · rw [if_pos hd] at h ⊢
        rw [show k + 1 + d = (k + d) + 1 by omega]
        unfold ReaderParser.runClient
        rw [if_pos hd]
        simp [print_seen]
      · rw [if_neg hd] at h ⊢
        rw [ih p' (by simpa using hd) h d]
        simp [print_seen]

variable {s : SchemaAST} {addr : Nat → Nat} {t : ParserTables} {L : Lexer}

/-- C51: the example for `ReaderParser` prints for a log file what is printed for the events of a parse of the whole file in one buffer, if
the events fit its buffer.  (Partial: the conditions `hlen` and `hfit` on the file, see C28.) -/
theorem C51_whole_partial (hC : s.Compiled addr t L) (hv : s.vars ≠ []) {h : Nat} (hh : 2 ≤ h) {P : ReaderParser FileStream} (hI : P.Idle t L h)
    {pb : BufferParser} (hIb : pb.Idle t L) {file : List Nat} (hlen : file.length % (2 * h) = 0 → file = []) (hfit : pb.Fits h file)
    {pad : List Nat} (hpad : pad ≠ []) (ptr : Nat) {n : Nat} (hn : file.length < n) {m : Mem} (hm : m ptr = file ++ pad) (var : Nat)
    {j k : Nat} (hj : 0 < j) (hk : file.length + 2 ≤ k) :
    processLogsReader j t.getIdSymbol var k P file =
      ((pb.parseBuffer n ptr (file ++ pad) file.length true).printed m t.getIdSymbol var, .done) := by
  obtain ⟨q, hq, hqa, hw⟩ := whole_printed hC hv
  rw [(hw hIb ptr hpad hn hm var).1]
  have h1 := (hw hIb 1 (pad := [0]) (by simp) (Nat.lt_succ_self file.length) (m := fun _ => file ++ [0]) rfl var).1
  obtain ⟨a1, a2, _⟩ := parseReader_spec hC hv hh fileReader_full hI hIb ⟨file, false⟩ hlen hfit hj (Nat.lt_succ_self _)
  have a3 := runClient_of (names := t.getIdSymbol) (var := var) _ _ rfl a1 (k - (file.length + 2))
  have e : file.length + 1 + 1 + (k - (file.length + 2)) = k := by omega
  unfold processLogsReader
  rw [← h1]
  have a4 : (P.resetAndSetReader ⟨file, false⟩).runClient fileReader j t.getIdSymbol var (file.length + 1 + 1 + (k - (file.length + 2))) =
      ((P.parseReader fileReader j (file.length + 1) ⟨file, false⟩).events.map (Seen.printed t.getIdSymbol var), .done) := a3
  have a5 : (P.parseReader fileReader j (file.length + 1) ⟨file, false⟩).events = pb.seenOf file true := a2
  rw [e, a5] at a4
  rw [a4]
  unfold BufferParser.seenOf RunOut.printed
  rw [List.map_map]
  congr 1
  apply List.map_congr_left
  intro o _
  exact (print_seen _ _ _ _).symm

/-- C51: the two examples print the same, whatever the sizes of their buffers.  (Partial: the conditions on the file of C28, and those of
C49.) -/
theorem C51_same_partial (hC : s.Compiled addr t L) (hv : s.vars ≠ []) (hmono : ∀ a b, a < b → addr a < addr b) (hnl : s.IsDelim newline)
    (hres : s.Reserved) (hline : s.LineTimestamps) {h : Nat} (hh : 2 ≤ h) {P : ReaderParser FileStream} (hI : P.Idle t L h)
    {p : BufferParser} (hIb : p.Idle t L) (alloc : Nat → Nat) {cap : Nat} (hcap : 0 < cap) {file : List Nat} (hb : ∀ c ∈ file, c < 256)
    (hfd : cCharStartOfFile ∉ file) (hlen : file.length % (2 * h) = 0 → file = []) (hfit : p.Fits h file) {var : Nat}
    (hv5 : var ≠ tokenFirstTimestamp) (hv6 : var ≠ tokenNewlineTimestamp)
    (hts : (p.parseBuffer (file.length + 1) 0 (file ++ [0]) file.length true).beginsWithTimestamp) {j : Nat} (hj : 0 < j) :
    ∃ K, ∀ k ≥ K, processLogsReader j t.getIdSymbol var k P file = processLogs alloc t.getIdSymbol var k p cap file := by
  obtain ⟨K, hK⟩ := C49_chunks_partial hC hv hmono hnl hres hline hIb hIb alloc hcap hb hfd (pad := [0]) (by simp) 0 (Nat.lt_succ_self _)
    (m := fun _ => file ++ [0]) rfl hv5 hv6 hts
  refine ⟨max K (file.length + 2), fun k hk => ?_⟩
  rw [hK k (by omega), C51_whole_partial hC hv hh hI hIb hlen hfit (pad := [0]) (by simp) 0 (Nat.lt_succ_self _) (m := fun _ => file ++ [0])
    rfl var hj (by omega)]

end LogSurgeon
