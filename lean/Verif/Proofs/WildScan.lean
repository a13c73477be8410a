import Verif.Model.LexerWildcard
import Verif.Spec.Automata
import Verif.Proofs.Scan
import Mathlib.Data.List.Perm.Subperm
/-
The search of `scan_with_wildcard`, and the scan loop before it.
-/
namespace LogSurgeon

/-- Strings of bytes that are not delimiters. -/
def Lexer.NonDelims (L : Lexer) (s : List Nat) : Prop := ∀ c ∈ s, c < cSizeOfByte ∧ L.isDelim c = false

namespace Lexer
variable {L : Lexer}

theorem run_append (d : Dfa) (q : Nat) (s t : List Nat) : d.run q (s ++ t) = (d.run q s).bind fun q' => d.run q' t := by
  induction s generalizing q with
  | nil => rfl
  | cons c s ih =>
    simp only [List.cons_append, Dfa.run]
    cases d.next q c with
    | none => rfl
    | some q' => simp only [Option.bind_some]; exact ih q'

/-- `o` is where the DFA is after some non-delimiters from `q0`. -/
def WReach (L : Lexer) (q0 : Nat) (o : Option Nat) : Prop := ∃ s, L.NonDelims s ∧ L.dfa.run q0 s = o

theorem WReach.step {q0 q c : Nat} (h : L.WReach q0 (some q)) (hc : c < cSizeOfByte) (hd : L.isDelim c = false) :
    L.WReach q0 (L.dfa.next q c) := by
  obtain ⟨s, h1, h2⟩ := h
  refine ⟨s ++ [c], ?_, ?_⟩
  · intro x hx
    rcases List.mem_append.mp hx with hx | hx
    · exact h1 x hx
    · simp at hx; subst hx; exact ⟨hc, hd⟩
  · rw [run_append, h2]
    cases h : L.dfa.next q c <;> simp [Dfa.run, h]

theorem mem_wildSuccs {vis : List Nat} {q : Nat} {o : Option Nat} : o ∈ L.wildSuccs vis q ↔
    (∀ x ∈ vis, o ≠ some x) ∧ ∃ c, c < cSizeOfByte ∧ L.isDelim c = false ∧ L.dfa.next q c = o := by
  simp only [wildSuccs, List.mem_reverse, List.mem_filterMap, List.mem_range]
  constructor
  · rintro ⟨c, hc, h⟩
    split at h
    · cases h
    · rename_i hd
      split at h
      · rename_i hn
        cases h
        exact ⟨by simp, c, hc, by simpa using hd, hn⟩
      · rename_i q' hn
        split at h
        · cases h
        · rename_i hv
          cases h
          exact ⟨fun x hx e => hv (by cases e; exact hx), c, hc, by simpa using hd, hn⟩
  · rintro ⟨h1, c, hc, hd, h2⟩
    refine ⟨c, hc, ?_⟩
    rw [if_neg (by simp [hd])]
    subst h2
    cases hn : L.dfa.next q c with
    | none => rfl
    | some q' => simp only; rw [if_neg (fun hv => h1 q' hv (by rw [hn]))]

theorem length_wildSuccs {vis : List Nat} {q : Nat} : (L.wildSuccs vis q).length ≤ cSizeOfByte := by
  simp only [wildSuccs, List.length_reverse]
  refine Nat.le_trans (List.length_filterMap_le _ _) ?_
  simp

/-- All non-delimiter successors of `q` are in `vis` or in `stack`. -/
def Covered (L : Lexer) (vis : List Nat) (stack : List (Option Nat)) (q : Nat) : Prop :=
  ∀ c, c < cSizeOfByte → L.isDelim c = false →
    (∃ x ∈ vis, L.dfa.next q c = some x) ∨ L.dfa.next q c ∈ stack

structure WInv (L : Lexer) (q0 : Nat) (stack : List (Option Nat)) (vis : List Nat) : Prop where
  nodup : vis.Nodup
  acc : ∀ q ∈ vis, L.dfa.isAccepting q = true
  reach : ∀ o ∈ stack, L.WReach q0 o
  start : q0 ∈ vis ∨ some q0 ∈ stack
  cov : ∀ q ∈ vis, L.Covered vis stack q
  /-- a visited state that is still on the stack lies below its unvisited successors -/
  below : ∀ above q rest, stack = above ++ some q :: rest → q ∈ vis → L.Covered vis above q

theorem accepting_lt {d : Dfa} {q : Nat} (h : d.isAccepting q = true) : q < d.states.length := by
  refine Decidable.byContradiction fun hn => ?_
  simp only [Dfa.isAccepting, Dfa.ids, List.getElem?_eq_none (by omega : d.states.length ≤ q)] at h
  simp at h

theorem WInv.length {q0 : Nat} {stack vis} (h : L.WInv q0 stack vis) : vis.length ≤ L.dfa.states.length := by
  have hsub : vis ⊆ List.range L.dfa.states.length := fun q hq => List.mem_range.mpr (accepting_lt (h.acc q hq))
  simpa using (h.nodup.subperm hsub).length_le

theorem wild_done {q0 : Nat} {vis : List Nat} (h : L.WInv q0 [] vis) : ∀ s, L.NonDelims s →
    ∃ q, L.dfa.run q0 s = some q ∧ L.dfa.isAccepting q = true := by
  have hstart : q0 ∈ vis := h.start.resolve_right (by simp)
  have key : ∀ s q, q ∈ vis → L.NonDelims s → ∃ q', L.dfa.run q s = some q' ∧ q' ∈ vis := by
    intro s
    induction s with
    | nil => intro q hq _; exact ⟨q, rfl, hq⟩
    | cons c s ih =>
      intro q hq hs
      rcases h.cov q hq c (hs c (by simp)).1 (hs c (by simp)).2 with ⟨x, hx, hn⟩ | hn
      · obtain ⟨q', h1, h2⟩ := ih x hx (fun d hd => hs d (by simp [hd]))
        exact ⟨q', by simp only [Dfa.run, hn, Option.bind_some]; exact h1, h2⟩
      · cases hn
  intro s hs
  obtain ⟨q', h1, h2⟩ := key s q0 hstart hs
  exact ⟨q', h1, h.acc q' h2⟩

theorem wildSearch_spec {q0 : Nat} (k : Nat) : ∀ {stack : List (Option Nat)} {vis : List Nat}, L.WInv q0 stack vis →
    cSizeOfByte * (L.dfa.states.length - vis.length) + stack.length ≤ k →
    (L.wildSearch k stack vis = some true ∧ ∀ s, L.NonDelims s → ∃ q, L.dfa.run q0 s = some q ∧ L.dfa.isAccepting q = true) ∨
    (L.wildSearch k stack vis = some false ∧ ∃ s, L.NonDelims s ∧ ∀ q, L.dfa.run q0 s = some q → L.dfa.isAccepting q = false) := by
  induction k with
  | zero =>
    intro stack vis h hk
    cases stack with
    | cons o rest => simp at hk
    | nil => exact .inl ⟨by simp [wildSearch], wild_done h⟩
  | succ k ih =>
    intro stack vis h hk
    cases stack with
    | nil => exact .inl ⟨by simp [wildSearch], wild_done h⟩
    | cons o rest =>
      cases o with
      | none =>
        obtain ⟨s, h1, h2⟩ := h.reach none (by simp)
        exact .inr ⟨rfl, s, h1, fun q hq => by rw [h2] at hq; cases hq⟩
      | some q =>
        cases ha : L.dfa.isAccepting q with
        | false =>
          obtain ⟨s, h1, h2⟩ := h.reach (some q) (by simp)
          refine .inr ⟨by simp [wildSearch, ha], s, h1, fun q' hq => ?_⟩
          rw [h2] at hq; cases hq; exact ha
        | true =>
          simp only [wildSearch, ha, Bool.true_eq_false, if_false]
          by_cases hv : q ∈ vis
          · rw [if_pos hv]
            have hnil : L.wildSuccs vis q = [] := by
              rw [List.eq_nil_iff_forall_not_mem]
              intro o ho
              obtain ⟨h1, c, hc, hd, h2⟩ := mem_wildSuccs.mp ho
              rcases h.below [] q rest rfl hv c hc hd with ⟨x, hx, hx'⟩ | hx
              · exact h1 x hx (h2.symm.trans hx')
              · cases hx
            rw [hnil, List.nil_append]
            refine ih ⟨h.nodup, h.acc, fun o ho => h.reach o (by simp [ho]), ?_, ?_, ?_⟩ (by simp at hk; omega)
            · rcases h.start with h1 | h1
              · exact .inl h1
              · rcases List.mem_cons.mp h1 with h1 | h1
                · cases h1; exact .inl hv
                · exact .inr h1
            · intro p hp c hc hd
              rcases h.cov p hp c hc hd with h1 | h1
              · exact .inl h1
              · rcases List.mem_cons.mp h1 with h1 | h1
                · exact .inl ⟨q, hv, h1⟩
                · exact .inr h1
            · intro above p r he hp c hc hd
              rcases h.below (some q :: above) p r (by rw [he]; rfl) hp c hc hd with h1 | h1
              · exact .inl h1
              · rcases List.mem_cons.mp h1 with h1 | h1
                · exact .inl ⟨q, hv, h1⟩
                · exact .inr h1
          · rw [if_neg hv]
            have hI : L.WInv q0 (L.wildSuccs (q :: vis) q ++ rest) (q :: vis) := by
              have cq : ∀ st, L.Covered (q :: vis) (L.wildSuccs (q :: vis) q ++ st) q := by
                intro st c hc hd
                by_cases hx : ∃ x ∈ q :: vis, L.dfa.next q c = some x
                · exact .inl hx
                · refine .inr (List.mem_append_left _ (mem_wildSuccs.mpr ⟨?_, c, hc, hd, rfl⟩))
                  intro x hx' e; exact hx ⟨x, hx', e⟩
              have grow : ∀ {p st st'}, L.Covered vis (some q :: st) p → (∀ o ∈ st, o ∈ st') →
                  L.Covered (q :: vis) st' p := by
                intro p st st' hc hs c hc' hd
                rcases hc c hc' hd with ⟨x, hx, hx'⟩ | h1
                · exact .inl ⟨x, by simp [hx], hx'⟩
                · rcases List.mem_cons.mp h1 with h1 | h1
                  · exact .inl ⟨q, by simp, h1⟩
                  · exact .inr (hs _ h1)
              refine ⟨List.nodup_cons.mpr ⟨hv, h.nodup⟩, ?_, ?_, ?_, ?_, ?_⟩
              · intro p hp
                rcases List.mem_cons.mp hp with rfl | hp
                · exact ha
                · exact h.acc p hp
              · intro o ho
                rcases List.mem_append.mp ho with ho | ho
                · obtain ⟨_, c, hc, hd, h2⟩ := mem_wildSuccs.mp ho
                  subst h2
                  exact (h.reach (some q) (by simp)).step hc hd
                · exact h.reach o (by simp [ho])
              · rcases h.start with h1 | h1
                · exact .inl (by simp [h1])
                · rcases List.mem_cons.mp h1 with h1 | h1
                  · cases h1; exact .inl (by simp)
                  · exact .inr (by simp [h1])
              · intro p hp
                rcases List.mem_cons.mp hp with rfl | hp
                · exact cq rest
                · exact grow (h.cov p hp) (fun o ho => by simp [ho])
              · intro above p r he hp
                -- the visited `p` cannot be among the pushed states
                have hnp : some p ∉ L.wildSuccs (q :: vis) q := fun hm =>
                  (mem_wildSuccs.mp hm).1 p hp rfl
                obtain ⟨a', ha', hr'⟩ : ∃ a', above = L.wildSuccs (q :: vis) q ++ a' ∧ rest = a' ++ some p :: r := by
                  rcases List.append_eq_append_iff.mp he with ⟨a', h1, h2⟩ | ⟨a', h1, h2⟩
                  · exact ⟨a', h1, h2⟩
                  · cases a' with
                    | nil => exact ⟨[], by simpa using h1.symm, by simpa using h2.symm⟩
                    | cons x xs =>
                      simp only [List.cons_append, List.cons.injEq] at h2
                      exact absurd (by rw [h1, ← h2.1]; simp) hnp
                subst ha'
                rcases List.mem_cons.mp hp with rfl | hp
                · exact cq a'
                · exact grow (h.below (some q :: a') p r (by rw [hr']; rfl) hp) (fun o ho => by simp [ho])
            refine ih hI ?_
            have h1 := hI.length
            have h2 := length_wildSuccs (L := L) (vis := q :: vis) (q := q)
            simp only [List.length_cons, List.length_append] at hk h1 ⊢
            generalize L.dfa.states.length = m at *
            have : m - vis.length = (m - (vis.length + 1)) + 1 := by omega
            rw [this, Nat.mul_add] at hk
            omega
theorem wildSearch_start (q0 : Nat) :
    (L.wildSearch L.wildFuel [some q0] [] = some true ∧ ∀ s, L.NonDelims s → ∃ q, L.dfa.run q0 s = some q ∧ L.dfa.isAccepting q = true) ∨
    (L.wildSearch L.wildFuel [some q0] [] = some false ∧ ∃ s, L.NonDelims s ∧ ∀ q, L.dfa.run q0 s = some q → L.dfa.isAccepting q = false) := by
  refine wildSearch_spec _ ⟨.nil, by simp, ?_, by simp, by simp, by simp⟩ (by simp [wildFuel])
  intro o ho
  simp at ho; subst ho
  exact ⟨[], by simp [NonDelims], rfl⟩

/-! ### The loop before the end of the text -/

/-- How the loop ends when the DFA survives the text. -/
structure AtEnd (L : Lexer) (st0 : LexState) (b0 : InBuf) (len q : Nat) (st : LexState) (b : InBuf) : Prop where
  last : st.lastMatchPos = st0.lastMatchPos
  start : st.startPos = st0.startPos
  pos : b.pos = len
  active : b.active = b0.active
  size : b.size = b0.size
  yes : L.dfa.isAccepting q = true → st.isMatch = true ∧ st.matchPos = len ∧ st.typeIds = some (L.dfa.ids q)
  no : L.dfa.isAccepting q = false → st.isMatch = false ∨ st.matchPos ≠ len

theorem wildLoop_spec {s : List Nat} (hnl : newline ∉ s) (asserts : Bool) (wc : Nat) (k : Nat) :
    ∀ {q : Nat} {st : LexState} {b : InBuf}, View b s true → b.consumed = false → b.pos ≤ s.length →
    s.length + 1 ≤ b.pos + k → (st.isMatch = true → st.matchPos < b.pos) →
    (∀ q', L.dfa.run q (s.drop b.pos) = some q' →
      ∃ st' b', L.wildLoop asserts wc k (some q) st b = L.wildEnd wc q' st' b' ∧ AtEnd L st b s.length q' st' b') ∧
    (L.dfa.run q (s.drop b.pos) = none →
      (asserts = true → (L.wildLoop asserts wc k (some q) st b).2.2 = .error .throws) ∧
      (asserts = false → ∃ st' b', L.wildLoop asserts wc k (some q) st b = wildUncaught st' b' ∧
        st'.lastMatchPos = st.lastMatchPos ∧ b'.pos ≤ s.length ∧ b'.active = b.active ∧ b'.size = b.size)) := by
  induction k with
  | zero => intro q st b hV hc hp hk; omega
  | succ k ih =>
    intro q st b hV hc hp hk hm
    rcases Nat.lt_or_eq_of_le hp with hlt | heq
    · -- a character of the text
      have hg := getNext_lt hV hlt
      have hne : s[b.pos] ≠ newline := fun e => hnl (e ▸ List.getElem_mem _)
      have hdrop : s.drop b.pos = s[b.pos] :: s.drop (b.pos + 1) := List.drop_eq_getElem_cons hlt
      have hnn : ∀ st b', L.noteNewline q b.pos s[b.pos] st b' = some (st, L.dfa.next q s[b.pos]) := by
        intro st b'
        unfold noteNewline
        rw [if_neg (by simpa using hne)]
      obtain ⟨b1, hb1⟩ : ∃ b1 : InBuf, b1 = { b with pos := b.pos + 1 } := ⟨_, rfl⟩
      have hg' : b.getNext = (b1, .char s[b.pos]) := by rw [hb1]; exact hg
      have e1 : b1.consumed = false := by rw [hb1]; exact hc
      have e2 : b1.pos = b.pos + 1 := by rw [hb1]
      have e3 : b1.active = b.active := by rw [hb1]
      have e4 : b1.size = b.size := by rw [hb1]
      have hV1 : View b1 s true := by rw [hb1]; exact hV.upd2 (b.pos + 1) b.consumed
      obtain ⟨s1, hs1⟩ : ∃ s1, s1 = L.noteMatch q b.pos s[b.pos] st b1 := ⟨_, rfl⟩
      have hstep : L.wildLoop asserts wc (k + 1) (some q) st b =
          if (L.dfa.next q s[b.pos]).isNone then
            if asserts then (s1, b1, .error .throws) else L.wildEnd wc q s1 b1
          else L.wildLoop asserts wc k (L.dfa.next q s[b.pos]) s1 b1 := by
        simp only [wildLoop, hg', hnn, e1, ← hs1, Bool.false_or, Bool.not_false, Bool.and_true]
      obtain ⟨a1, a2, a3⟩ : s1.lastMatchPos = st.lastMatchPos ∧ s1.startPos = st.startPos ∧
          (s1.isMatch = true → s1.matchPos < b.pos + 1) := by
        rw [hs1]
        unfold noteMatch
        split
        · exact ⟨rfl, rfl, fun _ => Nat.lt_succ_self _⟩
        · exact ⟨rfl, rfl, fun h => Nat.lt_succ_of_lt (hm h)⟩
      rw [hstep, hdrop]
      simp only [Dfa.run]
      cases hn : L.dfa.next q s[b.pos] with
      | none =>
        simp only [Option.isNone_none, if_true, Option.bind_none]
        refine ⟨(fun q' h => by cases h), fun _ => ⟨fun ha => ?_, fun ha => ?_⟩⟩
        · simp [ha]
        · simp only [ha, Bool.false_eq_true, if_false]
          refine ⟨s1, b1, ?_, a1, by omega, e3, e4⟩
          unfold wildEnd
          rw [if_pos]
          cases h1 : s1.isMatch with
          | false => simp
          | true =>
            have := a3 h1
            simp only [Bool.not_true, Bool.true_and, Bool.false_or, bne_iff_ne, ne_eq]
            omega
      | some q1 =>
        simp only [Option.isNone_some, Bool.false_eq_true, if_false, Option.bind_some]
        obtain ⟨c1, c2⟩ := ih (q := q1) (st := s1) (b := b1) hV1 e1 (by omega) (by omega) (by rw [e2]; exact a3)
        rw [e2] at c1 c2
        refine ⟨fun q' h => ?_, fun h => ⟨fun ha => (c2 h).1 ha, fun ha => ?_⟩⟩
        · obtain ⟨st', b', d1, d2⟩ := c1 q' h
          exact ⟨st', b', d1, d2.last.trans a1, d2.start.trans a2, d2.pos, d2.active.trans e3, d2.size.trans e4,
            d2.yes, d2.no⟩
        · obtain ⟨st', b', d1, d2, d3, d4, d5⟩ := (c2 h).2 ha
          exact ⟨st', b', d1, d2.trans a1, d3, d4.trans e3, d5.trans e4⟩
    · -- the end
      have hg := getNext_eof hV heq
      have hnn : ∀ st b', L.noteNewline q b.pos cCharEOF st b' = some (st, L.dfa.next q cCharEOF) := by
        intro st b'
        unfold noteNewline
        rw [if_neg (by decide)]
      have hdrop : s.drop b.pos = [] := by rw [heq]; simp
      rw [hdrop]
      refine ⟨fun q' h => ?_, fun h => by cases h⟩
      cases h
      refine ⟨L.noteMatch q b.pos cCharEOF st { b with consumed := true }, { b with consumed := true }, ?_, ?_⟩
      · simp only [wildLoop, hg, hnn, Bool.true_or, if_true, Bool.not_true, Bool.and_false, Bool.false_eq_true,
          if_false]
      · unfold noteMatch
        cases ha : L.dfa.isAccepting q with
        | true =>
          simp only [Bool.true_or, Bool.or_true, Bool.true_and, if_true]
          exact ⟨rfl, rfl, heq, rfl, rfl, fun _ => ⟨rfl, heq, rfl⟩, fun h => by rw [ha] at h; cases h⟩
        | false =>
          simp only [Bool.and_false, Bool.false_eq_true, if_false]
          refine ⟨rfl, rfl, heq, rfl, rfl, (fun h => by rw [ha] at h; cases h), fun _ => ?_⟩
          cases h1 : st.isMatch with
          | false => exact .inl rfl
          | true => right; have := hm h1; omega

/-- The token returned for a text read from DFA state `q0`. -/
theorem wildEnd_star {q : Nat} {st0 st : LexState} {b0 b : InBuf} {len : Nat} (h : AtEnd L st0 b0 len q st b) :
    ((∀ s, L.NonDelims s → ∃ q', L.dfa.run q s = some q' ∧ L.dfa.isAccepting q' = true) →
      ∃ st' b' t, L.wildEnd 42 q st b = (st', b', .ok t) ∧ t.startPos = st0.startPos ∧ t.endPos = len ∧
        t.buf = b0.active ∧ t.bufSize = b0.size ∧ t.types = some (L.dfa.ids q)) ∧
    (¬ (∀ s, L.NonDelims s → ∃ q', L.dfa.run q s = some q' ∧ L.dfa.isAccepting q' = true) →
      ∃ st' b' t, L.wildEnd 42 q st b = (st', b', .ok t) ∧ t.startPos = st0.lastMatchPos ∧ t.endPos = len ∧
        t.buf = b0.active ∧ t.bufSize = b0.size ∧ t.types = some [tokenUncaught]) := by
  have unc : ∃ st' b' t, wildUncaught st b = (st', b', .ok t) ∧ t.startPos = st0.lastMatchPos ∧ t.endPos = len ∧
      t.buf = b0.active ∧ t.bufSize = b0.size ∧ t.types = some [tokenUncaught] :=
    ⟨st, b, _, rfl, h.last, h.pos, h.active, h.size, rfl⟩
  have mat : L.dfa.isAccepting q = true → ∃ st' b' t, wildMatch st b = (st', b', .ok t) ∧
      t.startPos = st0.startPos ∧ t.endPos = len ∧
      t.buf = b0.active ∧ t.bufSize = b0.size ∧ t.types = some (L.dfa.ids q) := by
    intro ha
    obtain ⟨_, h2, h3⟩ := h.yes ha
    exact ⟨_, _, _, rfl, h.start, h2, h.active, h.size, h3⟩
  unfold wildEnd
  cases ha : L.dfa.isAccepting q with
  | false =>
    rw [if_pos (by rcases h.no ha with h1 | h1 <;> simp [h1, h.pos])]
    refine ⟨fun hr => ?_, fun _ => unc⟩
    obtain ⟨q', h1, h2⟩ := hr [] (by simp [NonDelims])
    cases h1; rw [ha] at h2; cases h2
  | true =>
    obtain ⟨h1, h2, _⟩ := h.yes ha
    rw [if_neg (by simp [h1, h2, h.pos]), if_neg (by decide), if_pos rfl]
    rcases wildSearch_start (L := L) q with ⟨e, hs⟩ | ⟨e, s, hs, hs'⟩
    · rw [e]
      exact ⟨fun _ => mat ha, fun hn => (hn hs).elim⟩
    · rw [e]
      refine ⟨fun hr => ?_, fun _ => unc⟩
      obtain ⟨q', g1, g2⟩ := hr s hs
      rw [hs' q' g1] at g2; cases g2

/-- The loop for `?`. -/
theorem wildOne_spec (q : Nat) (cs : List Nat) :
    (L.wildOne q cs = some true ↔ ∀ c ∈ cs, ∃ q', L.dfa.next q c = some q' ∧ L.dfa.isAccepting q' = true) ∧
    (L.wildOne q cs = some false ↔ ∃ pre c post q', cs = pre ++ c :: post ∧ L.dfa.next q c = some q' ∧
      L.dfa.isAccepting q' = false ∧ ∀ d ∈ pre, ∃ q', L.dfa.next q d = some q' ∧ L.dfa.isAccepting q' = true) ∧
    (L.wildOne q cs = none ↔ ∃ pre c post, cs = pre ++ c :: post ∧ L.dfa.next q c = none ∧
      ∀ d ∈ pre, ∃ q', L.dfa.next q d = some q' ∧ L.dfa.isAccepting q' = true) := by
  induction cs with
  | nil => simp [wildOne]
  | cons c cs ih =>
    obtain ⟨i1, i2, i3⟩ := ih
    simp only [wildOne]
    cases hn : L.dfa.next q c with
    | none =>
      refine ⟨by simp [hn], ?_, ?_⟩
      · simp only [reduceCtorEq, false_iff]
        rintro ⟨pre, d, post, q', h1, h2, h3, h4⟩
        cases pre with
        | nil => simp at h1; rw [← h1.1, hn] at h2; cases h2
        | cons x xs =>
          simp at h1
          obtain ⟨q', h5, _⟩ := h4 x (by simp)
          rw [← h1.1, hn] at h5; cases h5
      · simp only [true_iff]
        exact ⟨[], c, cs, rfl, hn, by simp⟩
    | some q1 =>
      cases ha : L.dfa.isAccepting q1 with
      | false =>
        simp only [ha, if_true]
        refine ⟨?_, ?_, ?_⟩
        · simp only [Option.some.injEq, Bool.false_eq_true, false_iff]
          intro h
          obtain ⟨q', h1, h2⟩ := h c (by simp)
          rw [hn] at h1; cases h1; rw [ha] at h2; cases h2
        · simp only [true_iff]
          exact ⟨[], c, cs, q1, rfl, hn, ha, by simp⟩
        · simp only [reduceCtorEq, false_iff]
          rintro ⟨pre, d, post, h1, h2, h4⟩
          cases pre with
          | nil => simp at h1; rw [← h1.1, hn] at h2; cases h2
          | cons x xs =>
            simp at h1
            obtain ⟨q', h5, h6⟩ := h4 x (by simp)
            rw [← h1.1, hn] at h5; cases h5; rw [ha] at h6; cases h6
      | true =>
        simp only [ha, Bool.true_eq_false, if_false]
        have hcok : ∃ q', L.dfa.next q c = some q' ∧ L.dfa.isAccepting q' = true := ⟨q1, hn, ha⟩
        refine ⟨by rw [i1]; simp only [List.mem_cons, forall_eq_or_imp]; exact ⟨fun h => ⟨hcok, h⟩, (·.2)⟩, ?_, ?_⟩
        · rw [i2]
          constructor
          · rintro ⟨pre, d, post, q', h1, h2, h3, h4⟩
            refine ⟨c :: pre, d, post, q', by simp [h1], h2, h3, ?_⟩
            intro x hx
            rcases List.mem_cons.mp hx with rfl | hx
            · exact hcok
            · exact h4 x hx
          · rintro ⟨pre, d, post, q', h1, h2, h3, h4⟩
            cases pre with
            | nil =>
              simp at h1; rw [← h1.1, hn] at h2; cases h2; rw [ha] at h3; cases h3
            | cons x xs =>
              simp at h1
              exact ⟨xs, d, post, q', h1.2, h2, h3, fun y hy => h4 y (by simp [hy])⟩
        · rw [i3]
          constructor
          · rintro ⟨pre, d, post, h1, h2, h4⟩
            refine ⟨c :: pre, d, post, by simp [h1], h2, ?_⟩
            intro x hx
            rcases List.mem_cons.mp hx with rfl | hx
            · exact hcok
            · exact h4 x hx
          · rintro ⟨pre, d, post, h1, h2, h4⟩
            cases pre with
            | nil => simp at h1; rw [← h1.1, hn] at h2; cases h2
            | cons x xs =>
              simp at h1
              exact ⟨xs, d, post, h1.2, h2, fun y hy => h4 y (by simp [hy])⟩

end Lexer
end LogSurgeon
