import Verif.Proofs.LexAll
import Verif.Proofs.OutBuf
/-
The token sequence without a bound on the number of calls.
-/
namespace LogSurgeon

/-- The bound is irrelevant once it is large enough. -/
theorem pureAll_fuel {L : Lexer} (hL : NlOk L) (hT : TypesProper L) {s : List Nat} {fin : Bool} :
    ∀ (k k' : Nat) (c : Cfg), CfgOk L s c → c.cov ≤ s.length → s.length - c.cov < k → s.length - c.cov < k' →
      L.pureAll s fin k c = L.pureAll s fin k' c := by
  intro k
  induction k with
  | zero => intro k' c _ _ h; omega
  | succ k ih =>
    intro k' c hc hcl hk hk'
    obtain ⟨k', rfl⟩ : ∃ j, k' = j + 1 := ⟨k' - 1, by omega⟩
    unfold Lexer.pureAll
    cases hn : L.nextTok s fin c with
    | none => rfl
    | some y =>
      obtain ⟨x, c'⟩ := y
      simp only
      obtain ⟨hc', hxa, hcov, hxe, _⟩ := nextTok_ok hL hc hn
      rcases nextTok_end hL hT hc hn with ⟨h1, h2, h3⟩ | ⟨h1, h2⟩
      · rw [if_pos h1, if_pos h1]
      · rw [if_neg h1, if_neg h1, ih k' c' hc' (by omega) (by omega) (by omega)]

/-- All tokens from a configuration on. -/
def Lexer.toks (L : Lexer) (s : List Nat) (fin : Bool) (c : Cfg) : List PTok × Option Fail :=
  L.pureAll s fin (s.length - c.cov + 1) c

theorem toks_eq {L : Lexer} (hL : NlOk L) (hT : TypesProper L) {s : List Nat} {fin : Bool} {c : Cfg} (hc : CfgOk L s c)
    (hcl : c.cov ≤ s.length) : L.toks s fin c = match L.nextTok s fin c with
      | none => ([], some .oob)
      | some (x, c') =>
        if x.ty = [tokenEnd] then ([x], none) else (x :: (L.toks s fin c').1, (L.toks s fin c').2) := by
  unfold Lexer.toks
  rw [Lexer.pureAll]
  cases hn : L.nextTok s fin c with
  | none => rfl
  | some y =>
    obtain ⟨x, c'⟩ := y
    simp only
    obtain ⟨hc', hxa, hcov, hxe, _⟩ := nextTok_ok hL hc hn
    rcases nextTok_end hL hT hc hn with ⟨h1, h2, h3⟩ | ⟨h1, h2⟩
    · rw [if_pos h1, if_pos h1]
    · rw [if_neg h1, if_neg h1]
      rw [pureAll_fuel hL hT (s.length - c.cov) (s.length - c'.cov + 1) c' hc' (by omega) (by omega) (by omega)]

/-- What an unfinished text promises about a pending token: its end has been seen. -/
def CfgGood (L : Lexer) (s : List Nat) (fin : Bool) (c : Cfg) : Prop :=
  fin = false → ∀ a e ty, c = .pend a e ty → ty ≠ [tokenEnd] ∧ (e < s.length ∨ ty = L.dfa.idsOn [newline])

/-- In an unfinished text a token is not the end token, and its end has been seen. -/
theorem nextTok_unfin {L : Lexer} (hL : NlOk L) (hT : TypesProper L) (hd : ∃ d, L.isDelim d = false) {s : List Nat}
    {c c' : Cfg} {x : PTok} (hc : CfgOk L s c) (hcl : c.cov ≤ s.length) (hg : CfgGood L s false c)
    (h : L.nextTok s false c = some (x, c')) :
    CfgGood L s false c' ∧ x.ty ≠ [tokenEnd] ∧ (x.e < s.length ∨ x.ty = L.dfa.idsOn [newline]) := by
  obtain ⟨d, hd⟩ := hd
  by_cases hp : ∃ a e ty, c = .pend a e ty
  · obtain ⟨a, e, ty, rfl⟩ := hp
    simp only [Lexer.nextTok, Option.some.injEq, Prod.mk.injEq] at h
    obtain ⟨rfl, rfl⟩ := h
    obtain ⟨h1, h2⟩ := hg rfl a e ty rfl
    exact ⟨fun _ _ _ _ h => by simp at h, h1, h2⟩
  · have hnp : ∀ a e ty, c ≠ .pend a e ty := fun a e ty h => hp ⟨a, e, ty, h⟩
    have hx := nextTok_extend (t := [d]) (fin := false) hcl h
    have hok : CfgOk L (s ++ [d]) c := by
      match c, hc with
      | .sof q, hc => exact hc
      | .at p, hc => show p ≤ _; simp only [List.length_append]; exact Nat.le_trans hc (by omega)
      | .pend a e ty, _ => exact absurd rfl (hnp a e ty)
    have hfs := look_sound hL (fin := false) hok hnp
    have hu : ∀ t, L.look t false c ≠ .nothing := by
      intro t
      match c with
      | .sof q => exact fun h => find_unfin _ _ _ _ h
      | .at p => exact fun h => find_unfin _ _ _ _ h
      | .pend a e ty => simp [Lexer.look]
    have hnt : ∀ t, L.nextTok t false c = match L.look t false c with
        | .tok a e ty =>
          if c.cov = a then some (⟨a, e, ty⟩, .at e) else some (⟨c.cov, a, [tokenUncaught]⟩, .pend a e ty)
        | .nothing =>
          if c.cov = t.length then some (⟨t.length, t.length, [tokenEnd]⟩, .at t.length)
          else some (⟨c.cov, t.length, [tokenUncaught]⟩, .pend t.length t.length [tokenEnd])
        | .more => none := by
      intro t
      match c with
      | .sof q => rfl
      | .at p => rfl
      | .pend a e ty => exact absurd rfl (hnp a e ty)
    obtain ⟨hc', hxa, hcov, hxe, hxx⟩ := nextTok_ok hL hc h
    rw [hnt] at h hx
    cases hf : L.look (s ++ [d]) false c with
    | more => rw [hf] at hx; cases hx
    | nothing => exact absurd hf (hu _)
    | tok a e ty =>
      rw [hf] at hfs hx
      obtain ⟨hpa, sof, hsof, hcand, hty⟩ := hfs
      have hne : ty ≠ [tokenEnd] := by rw [hty]; exact types_ne_end hT
      have hseen : e ≤ s.length → e < s.length ∨ ty = L.dfa.idsOn [newline] := by
        intro he
        rcases Nat.lt_or_ge e s.length with h1 | h1
        · exact .inl h1
        right
        rcases hcand.2.2.2 with h2 | ⟨c2, h2, h3⟩ | ⟨h2, h3⟩
        · simp only [List.length_append, List.length_singleton] at h2; omega
        · have : e = s.length := by omega
          subst this
          simp at h2
          subst h2
          rw [hd] at h3; cases h3
        · rw [hty, h2]; unfold Lexer.typesOn; rw [h3]; rfl
      have hae := hcand.1
      simp only at hx
      split at hx <;> simp only [Option.some.injEq, Prod.mk.injEq] at hx <;> obtain ⟨rfl, rfl⟩ := hx
      · exact ⟨fun _ _ _ _ h => by simp at h, hne, hseen hxe⟩
      · have hes : e ≤ s.length := by
          rcases hc' with ⟨_, h2, _⟩ | ⟨_, h2, _⟩
          · exact h2
          · exact Nat.le_of_eq h2
        refine ⟨fun _ a' e' ty' h => ?_, by simp [tokenEnd, tokenUncaught], .inl (by simp only; omega)⟩
        simp only [Cfg.pend.injEq] at h
        obtain ⟨rfl, rfl, rfl⟩ := h
        exact ⟨hne, hseen hes⟩

end LogSurgeon
