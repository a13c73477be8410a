import Verif.Proofs.Scan
import Verif.Spec.Lexing
/-
Properties of the pure lexer `find`, and the lexer as a transition system on configurations.
-/
namespace LogSurgeon

theorem slice_self (s : List Nat) (a : Nat) : slice s a a = [] := by simp [slice]

theorem slice_succ {s : List Nat} {a i : Nat} (ha : a ≤ i) (hi : i < s.length) :
    slice s a (i + 1) = slice s a i ++ [s[i]] := by
  unfold slice
  rw [show i + 1 - a = (i - a) + 1 by omega, List.take_add_one, List.getElem?_drop,
    show a + (i - a) = i by omega, List.getElem?_eq_getElem hi]
  rfl

theorem slice_length {s : List Nat} {a e : Nat} (h : e ≤ s.length) : (slice s a e).length = e - a := by
  simp [slice]; omega

theorem slice_append {s : List Nat} {a b e : Nat} (h1 : a ≤ b) (h2 : b ≤ e) :
    slice s a e = slice s a b ++ slice s b e := by
  unfold slice
  rw [show e - a = (b - a) + (e - b) by omega, List.take_add]
  congr 1
  rw [List.drop_drop, show a + (b - a) = b by omega]

theorem run_append (d : Dfa) (q : Nat) (u v : List Nat) :
    d.run q (u ++ v) = (d.run q u).bind fun q' => d.run q' v := by
  induction u generalizing q with
  | nil => rfl
  | cons c u ih =>
    simp only [List.cons_append, Dfa.run]
    cases d.next q c with
    | none => rfl
    | some q' => exact ih q'

theorem run_one (d : Dfa) (q c : Nat) : d.run q [c] = d.next q c := by
  simp [Dfa.run]

/-- The bytes read by a run. -/
def pre (sof : Bool) : List Nat := if sof then [cCharStartOfFile] else []

theorem typesOn_eq {L : Lexer} {s : List Nat} {sof : Bool} {a e q : Nat}
    (h : L.dfa.run 0 (pre sof ++ slice s a e) = some q) : L.typesOn s sof a e = L.dfa.ids q := by
  unfold Lexer.typesOn Dfa.idsOn
  unfold pre at h
  rw [h]; rfl

theorem isAccepting_iff (d : Dfa) (q : Nat) : d.isAccepting q = true ↔ d.ids q ≠ [] := by
  simp [Dfa.isAccepting]

/-- What a run in progress knows: for some choice of the virtual prefix, the DFA state is that of the
bytes read so far, and the last candidate is a typed match. -/
structure RunOk (L : Lexer) (s : List Nat) (sofOk : Bool) (p q a i : Nat) (m : Option (Nat × List Nat))
    (sof : Bool) : Prop where
  pa : p ≤ a
  ai : a ≤ i
  sof0 : sof = true → a = 0 ∧ sofOk = true
  run : L.dfa.run 0 (pre sof ++ slice s a i) = some q
  start : a = i → L.dfa.isAccepting q = false
  cand : ∀ e ty, m = some (e, ty) → e ≤ i ∧ L.Cand s sof a e ∧ ty = L.typesOn s sof a e

/-- Soundness of a found token. -/
def FoundOk (L : Lexer) (s : List Nat) (sofOk : Bool) (p : Nat) : Found → Prop
  | .tok a e ty => p ≤ a ∧ ∃ sof, (sof = true → a = 0 ∧ sofOk = true) ∧ L.Cand s sof a e ∧ ty = L.typesOn s sof a e
  | _ => True

theorem cand_step {L : Lexer} (hd : L.hasDelims = true) {s : List Nat} {sofOk : Bool} {p q a i : Nat}
    {m : Option (Nat × List Nat)} {sof : Bool} (h : RunOk L s sofOk p q a i m sof) (hi : i < s.length) :
    ∀ e ty, L.cand q i s[i] m = some (e, ty) → e ≤ i ∧ L.Cand s sof a e ∧ ty = L.typesOn s sof a e := by
  intro e ty hc
  unfold Lexer.cand at hc
  split at hc
  · rename_i hcond
    simp only [hd, Bool.not_true, Bool.or_false, Bool.and_eq_true] at hcond
    simp only [Option.some.injEq, Prod.mk.injEq] at hc
    obtain ⟨rfl, rfl⟩ := hc
    have hne : a ≠ i := by
      intro he; have := h.start he; rw [hcond.2] at this; simp at this
    have hai := h.ai
    refine ⟨Nat.le_refl _, ⟨by omega, by omega, ?_, Or.inr (Or.inl ⟨s[i], List.getElem?_eq_getElem hi, hcond.1⟩)⟩,
      (typesOn_eq h.run).symm⟩
    rw [typesOn_eq h.run]
    exact (isAccepting_iff ..).mp hcond.2
  · exact h.cand e ty hc

/-- The newline token alone is a candidate. -/
structure NlOk (L : Lexer) : Prop extends LexOk L where
  delims : L.hasDelims = true
  nlAcc : L.dfa.idsOn [newline] ≠ []

theorem enter_ok {L : Lexer} (hL : NlOk L) {s : List Nat} {sofOk : Bool} {p i : Nat} (hp : p ≤ i) (hi : i < s.length)
    {q a m} (h : L.enter s[i] i = some (q, a, m)) : RunOk L s sofOk p q a (i + 1) m false := by
  unfold Lexer.enter at h
  simp only [Option.map_eq_some_iff, Prod.mk.injEq] at h
  obtain ⟨q', hq', rfl, rfl, rfl⟩ := h
  have hsl : slice s i (i + 1) = [s[i]] := by
    rw [slice_succ (Nat.le_refl _) hi, slice_self]; rfl
  have hrun : L.dfa.run 0 (pre false ++ slice s i (i + 1)) = some q' := by
    rw [hsl]; simp [pre, Dfa.run, hq']
  refine ⟨hp, by omega, by simp, hrun, by omega, ?_⟩
  intro e ty he
  split at he
  · rename_i hn
    simp only [Bool.and_eq_true, beq_iff_eq] at hn
    simp only [Option.some.injEq, Prod.mk.injEq] at he
    obtain ⟨rfl, rfl⟩ := he
    have hty := typesOn_eq hrun
    refine ⟨Nat.le_refl _, ⟨by omega, by omega, ?_, Or.inr (Or.inr ⟨rfl, by rw [hsl, hn.1]⟩)⟩, hty.symm⟩
    have : L.typesOn s false i (i + 1) = L.dfa.idsOn [newline] := by
      unfold Lexer.typesOn; rw [hsl, hn.1]; rfl
    rw [this]; exact hL.nlAcc
  · simp at he

/-- What is found is a candidate with the right types. -/
theorem find_sound {L : Lexer} (hL : NlOk L) {s : List Nat} {sofOk fin : Bool} {p : Nat} :
    ∀ (r : List Nat) (i : Nat) (cur : Cur), s.drop i = r → i ≤ s.length → p ≤ i →
      (∀ q a m, cur = some (q, a, m) → ∃ sof, RunOk L s sofOk p q a i m sof) →
      FoundOk L s sofOk p (L.find fin cur i r) := by
  intro r
  induction r with
  | nil =>
    intro i cur hr hi hp hcur
    have hie : i = s.length := by
      have := congrArg List.length hr; simp at this; omega
    match cur with
    | none => rw [Lexer.find]; cases fin <;> simp [FoundOk]
    | some (q, a, m) =>
      obtain ⟨sof, h⟩ := hcur q a m rfl
      rw [Lexer.find]
      cases fin with
      | false => simp [FoundOk]
      | true =>
        simp only [if_true]
        by_cases hacc : L.dfa.isAccepting q = true
        · simp only [hacc, if_true]
          have hne : a ≠ i := by
            intro he; have := h.start he; rw [hacc] at this; simp at this
          have hai := h.ai
          refine ⟨h.pa, sof, h.sof0, ⟨by omega, hi, ?_, Or.inl hie⟩, (typesOn_eq h.run).symm⟩
          rw [typesOn_eq h.run]; exact (isAccepting_iff ..).mp hacc
        · rw [if_neg hacc]
          cases m with
          | none => simp [FoundOk]
          | some x =>
            obtain ⟨e, ty⟩ := x
            obtain ⟨_, h2, h3⟩ := h.cand e ty rfl
            exact ⟨h.pa, sof, h.sof0, h2, h3⟩
  | cons c r ih =>
    intro i cur hr hi hp hcur
    have hlt : i < s.length := by
      have := congrArg List.length hr; simp at this; omega
    have hci : c = s[i] := by
      rw [List.drop_eq_getElem_cons hlt] at hr; exact (List.cons.inj hr).1.symm
    have hr' : s.drop (i + 1) = r := by
      rw [List.drop_eq_getElem_cons hlt] at hr; exact (List.cons.inj hr).2
    subst hci
    have henter : ∀ q a m, (if L.isHit s[i] = true then L.enter s[i] i else none) = some (q, a, m) →
        ∃ sof, RunOk L s sofOk p q a (i + 1) m sof := by
      intro q a m h
      split at h
      · exact ⟨false, enter_ok hL hp hlt h⟩
      · simp at h
    match cur with
    | none =>
      rw [Lexer.find]
      exact ih (i + 1) _ hr' hlt (by omega) henter
    | some (q, a, m) =>
      obtain ⟨sof, h⟩ := hcur q a m rfl
      rw [Lexer.find]
      have hcand := cand_step hL.delims h hlt
      split
      · exact ih (i + 1) _ hr' hlt (by omega) (fun q a m h => ⟨false, enter_ok hL hp hlt h⟩)
      · cases hn : L.dfa.next q s[i] with
        | some q' =>
          simp only
          refine ih (i + 1) _ hr' hlt (by omega) ?_
          intro q2 a2 m2 heq
          simp only [Option.some.injEq, Prod.mk.injEq] at heq
          obtain ⟨rfl, rfl, rfl⟩ := heq
          have hai := h.ai
          refine ⟨sof, h.pa, by omega, h.sof0, ?_, by omega, ?_⟩
          · rw [slice_succ h.ai hlt, ← List.append_assoc, run_append, h.run]
            simp [Dfa.run, hn]
          · intro e ty he
            obtain ⟨h1, h2, h3⟩ := hcand e ty he
            exact ⟨by omega, h2, h3⟩
        | none =>
          simp only
          cases hc : L.cand q i s[i] m with
          | none => exact ih (i + 1) _ hr' hlt (by omega) henter
          | some x =>
            obtain ⟨e, ty⟩ := x
            obtain ⟨_, h2, h3⟩ := hcand e ty hc
            exact ⟨h.pa, sof, h.sof0, h2, h3⟩

/-! ### Extending an unfinished input (C03) -/

theorem find_extend (L : Lexer) (fin : Bool) : ∀ (r t : List Nat) (i : Nat) (cur : Cur),
    L.find false cur i r ≠ .more → L.find fin cur i (r ++ t) = L.find false cur i r := by
  intro r
  induction r with
  | nil => intro t i cur h; match cur with
    | none => simp [Lexer.find] at h
    | some (q, a, m) => simp [Lexer.find] at h
  | cons c r ih =>
    intro t i cur h
    match cur with
    | none =>
      simp only [List.cons_append, Lexer.find] at h ⊢
      exact ih t _ _ h
    | some (q, a, m) =>
      simp only [List.cons_append, Lexer.find] at h ⊢
      split
      · rw [if_pos (by assumption)] at h; exact ih t _ _ h
      · rw [if_neg (by assumption)] at h
        cases hn : L.dfa.next q c with
        | some q' => simp only [hn] at h ⊢; exact ih t _ _ h
        | none =>
          simp only [hn] at h ⊢
          cases hc : L.cand q i c m with
          | some x => rfl
          | none => simp only [hc] at h ⊢; exact ih t _ _ h

theorem find_fin (L : Lexer) : ∀ (r : List Nat) (i : Nat) (cur : Cur), L.find true cur i r ≠ .more := by
  intro r
  induction r with
  | nil => intro i cur; match cur with
    | none => simp [Lexer.find]
    | some (q, a, m) => simp only [Lexer.find, if_true]; split <;> simp
  | cons c r ih =>
    intro i cur
    match cur with
    | none => simp only [Lexer.find]; exact ih _ _
    | some (q, a, m) =>
      simp only [Lexer.find]
      split
      · exact ih _ _
      · cases L.dfa.next q c with
        | some q' => exact ih _ _
        | none =>
          simp only
          split
          · simp
          · exact ih _ _

theorem find_unfin (L : Lexer) : ∀ (r : List Nat) (i : Nat) (cur : Cur), L.find false cur i r ≠ .nothing := by
  intro r
  induction r with
  | nil => intro i cur; match cur with
    | none => simp [Lexer.find]
    | some (q, a, m) => simp [Lexer.find]
  | cons c r ih =>
    intro i cur
    match cur with
    | none => simp only [Lexer.find]; exact ih _ _
    | some (q, a, m) =>
      simp only [Lexer.find]
      split
      · exact ih _ _
      · cases L.dfa.next q c with
        | some q' => exact ih _ _
        | none =>
          simp only
          split
          · simp
          · exact ih _ _

end LogSurgeon
