import Verif.Proofs.Cfg
import Mathlib.Data.List.Forall2
/-
The whole token sequence of a text.
-/
namespace LogSurgeon

theorem types_ne_end {L : Lexer} {s : List Nat} {sof : Bool} {a e : Nat} (hT : TypesProper L) :
    L.typesOn s sof a e ≠ [tokenEnd] := by
  unfold Lexer.typesOn Dfa.idsOn
  cases L.dfa.run 0 ((if sof = true then [cCharStartOfFile] else []) ++ slice s a e) with
  | none => simp
  | some q => intro h; exact (hT q).2 (by
      have : L.dfa.ids q = [tokenEnd] := h
      rw [this]; simp)

/-- The token sequence from a configuration (`k` = number of tokens at most). -/
def Lexer.pureAll (L : Lexer) (s : List Nat) (fin : Bool) : Nat → Cfg → List PTok × Option Fail
  | 0, _ => ([], some .diverge)
  | k + 1, c =>
    match L.nextTok s fin c with
    | none => ([], some .oob)
    | some (x, c') =>
      if x.ty = [tokenEnd] then ([x], none)
      else (x :: (pureAll L s fin k c').1, (pureAll L s fin k c').2)

/-- Repeated scanning gives the pure sequence. -/
theorem scanAll_pure {L : Lexer} (hL : NlOk L) (hT : TypesProper L) {s : List Nat} {fin : Bool} :
    ∀ (k : Nat) (st : LexState) (b b0 : InBuf) (c : Cfg), View b s fin → PosOk s b → CfgOk L s c → CfgRel L s st b c →
      b.active = b0.active → b.size = b0.size →
      (L.scanAll k st b).2 = (L.pureAll s fin k c).2 ∧
      List.Forall₂ (TokRel L s b0) (L.scanAll k st b).1 (L.pureAll s fin k c).1 := by
  intro k
  induction k with
  | zero => intro st b b0 c _ _ _ _ _ _; exact ⟨rfl, .nil⟩
  | succ k ih =>
    intro st b b0 c hV hP hc hR ha hs
    obtain ⟨⟨p', c1, hb'⟩, hP', h⟩ := scan_next hL hT hV hP hc hR
    unfold Lexer.scanAll Lexer.pureAll
    cases hn : L.nextTok s fin c with
    | none =>
      rw [hn] at h
      generalize hsc : L.scan st b = r at *
      obtain ⟨r1, r2, r3⟩ := r
      simp only at h
      subst h
      exact ⟨rfl, .nil⟩
    | some y =>
      obtain ⟨x, c'⟩ := y
      rw [hn] at h
      obtain ⟨t, ht, hrel, hR'⟩ := h
      have hok := nextTok_ok hL hc hn
      generalize hsc : L.scan st b = r at *
      obtain ⟨r1, r2, r3⟩ := r
      simp only at ht hb' hP' hR'
      subst ht
      have hrel0 : TokRel L s b0 t x :=
        ⟨hrel.start, hrel.stop, hrel.buf.trans ha, hrel.size.trans hs, hrel.types, hrel.wrap, hrel.line⟩
      have hty : (t.types = some [tokenEnd]) ↔ (x.ty = [tokenEnd]) := by rw [hrel.types]; simp
      simp only
      by_cases he : x.ty = [tokenEnd]
      · rw [if_pos he, if_pos (hty.mpr he)]
        exact ⟨rfl, .cons hrel0 .nil⟩
      · rw [if_neg he, if_neg (fun h => he (hty.mp h))]
        have := ih r1 r2 b0 c' (by rw [hb']; exact hV.upd2 _ _) hP' hok.1 hR' (by rw [hb']; exact ha) (by rw [hb']; exact hs)
        exact ⟨this.1, .cons hrel0 this.2⟩

/-- Only the end token is typed as such. -/
theorem nextTok_end {L : Lexer} (hL : NlOk L) (hT : TypesProper L) {s : List Nat} {fin : Bool} {c c' : Cfg} {x : PTok}
    (hc : CfgOk L s c) (h : L.nextTok s fin c = some (x, c')) :
    (x.ty = [tokenEnd] ∧ x = ⟨s.length, s.length, [tokenEnd]⟩ ∧ c' = .at s.length) ∨ (x.ty ≠ [tokenEnd] ∧ x.a < x.e) := by
  obtain ⟨hc', hxa, hcov, hxe, hx⟩ := nextTok_ok hL hc h
  rcases hx with ⟨h1, h2⟩ | ⟨rfl, h2⟩
  · right
    refine ⟨?_, h1⟩
    rcases h2 with ⟨sof, _, _, h3⟩ | ⟨h3, _⟩
    · rw [h3]; exact types_ne_end hT
    · rw [h3]; simp [tokenEnd, tokenUncaught]
  · exact .inl ⟨rfl, rfl, h2⟩

/-- The pure sequence tiles a finished text. -/
theorem pureAll_tiles {L : Lexer} (hL : NlOk L) (hT : TypesProper L) {s : List Nat} :
    ∀ (k : Nat) (c : Cfg), CfgOk L s c → c.cov ≤ s.length → s.length - c.cov < k →
      (L.pureAll s true k c).2 = none ∧ Tiles c.cov s.length (L.pureAll s true k c).1 := by
  intro k
  induction k with
  | zero => intro c _ _ h; omega
  | succ k ih =>
    intro c hc hcl hk
    unfold Lexer.pureAll
    obtain ⟨⟨x, c'⟩, hn⟩ := nextTok_fin (L := L) (s := s) (c := c)
    rw [hn]
    obtain ⟨hc', hxa, hcov, hxe, hx⟩ := nextTok_ok hL hc hn
    simp only
    rcases nextTok_end hL hT hc hn with ⟨h1, h2, h3⟩ | ⟨h1, h2⟩
    · rw [if_pos h1]
      refine ⟨rfl, ?_, h2⟩
      rw [← hxa, h2]
    · rw [if_neg h1]
      have := ih c' hc' (by omega) (by omega)
      refine ⟨this.1, ?_⟩
      have h4 := this.2
      match hl : (L.pureAll s true k c').1, h4 with
      | t :: ts, h4 => exact ⟨hxa, by omega, h1, by rw [← hcov]; exact h4⟩

/-- Tokens of an unfinished text tile a prefix of it. -/
theorem pureAll_unfin_cfg {L : Lexer} (hL : NlOk L) (hT : TypesProper L) {s : List Nat} :
    ∀ (k : Nat) (c : Cfg), CfgOk L s c → c.cov ≤ s.length → s.length - c.cov < k →
      (∀ a e ty, c = .pend a e ty → ty ≠ [tokenEnd]) →
      (L.pureAll s false k c).2 = some .oob ∧ ∃ p ≤ s.length, TilesTo c.cov p (L.pureAll s false k c).1 ∧
        ∃ c', CfgOk L s c' ∧ c'.cov = p ∧ L.nextTok s false c' = none := by
  intro k
  induction k with
  | zero => intro c _ _ h; omega
  | succ k ih =>
    intro c hc hcl hk hp
    unfold Lexer.pureAll
    cases hn : L.nextTok s false c with
    | none => exact ⟨rfl, c.cov, hcl, rfl, c, hc, rfl, hn⟩
    | some y =>
      obtain ⟨x, c'⟩ := y
      simp only
      have hend : x.ty ≠ [tokenEnd] ∧ (∀ a e ty, c' = .pend a e ty → ty ≠ [tokenEnd]) := by
        match c with
        | .pend a e ty =>
          simp only [Lexer.nextTok, Option.some.injEq, Prod.mk.injEq] at hn
          obtain ⟨rfl, rfl⟩ := hn
          exact ⟨hp a e ty rfl, by simp⟩
        | .sof q =>
          have hu : L.look s false (.sof q) ≠ .nothing := fun h => find_unfin _ _ _ _ h
          have hfs := look_sound hL (fin := false) hc (by intros; simp)
          simp only [Lexer.nextTok] at hn
          split at hn
          · rename_i a e ty hf
            rw [hf] at hfs
            obtain ⟨_, sof, _, _, hty⟩ := hfs
            have := types_ne_end (s := s) (sof := sof) (a := a) (e := e) hT
            split at hn <;> simp only [Option.some.injEq, Prod.mk.injEq] at hn <;> obtain ⟨rfl, rfl⟩ := hn
            · exact ⟨by rw [hty]; exact this, by simp⟩
            · refine ⟨by simp [tokenEnd, tokenUncaught], ?_⟩
              intro a' e' ty' h
              simp only [Cfg.pend.injEq] at h
              rw [← h.2.2, hty]; exact this
          · rename_i hf; exact absurd hf hu
          · simp at hn
        | .at p =>
          have hu : L.look s false (.at p) ≠ .nothing := fun h => find_unfin _ _ _ _ h
          have hfs := look_sound hL (fin := false) hc (by intros; simp)
          simp only [Lexer.nextTok] at hn
          split at hn
          · rename_i a e ty hf
            rw [hf] at hfs
            obtain ⟨_, sof, _, _, hty⟩ := hfs
            have := types_ne_end (s := s) (sof := sof) (a := a) (e := e) hT
            split at hn <;> simp only [Option.some.injEq, Prod.mk.injEq] at hn <;> obtain ⟨rfl, rfl⟩ := hn
            · exact ⟨by rw [hty]; exact this, by simp⟩
            · refine ⟨by simp [tokenEnd, tokenUncaught], ?_⟩
              intro a' e' ty' h
              simp only [Cfg.pend.injEq] at h
              rw [← h.2.2, hty]; exact this
          · rename_i hf; exact absurd hf hu
          · simp at hn
      rw [if_neg hend.1]
      obtain ⟨hc', hxa, hcov, hxe, hx⟩ := nextTok_ok hL hc hn
      rcases nextTok_end hL hT hc hn with ⟨h1, h2, h3⟩ | ⟨h1, h2⟩
      · exact absurd h1 hend.1
      · obtain ⟨h3, p, hp, h4, h5⟩ := ih c' hc' (by omega) (by omega) hend.2
        exact ⟨h3, p, hp, ⟨hxa, by omega, h1, by rw [← hcov]; exact h4⟩, h5⟩

theorem pureAll_unfin {L : Lexer} (hL : NlOk L) (hT : TypesProper L) {s : List Nat}
    (k : Nat) (c : Cfg) (h1 : CfgOk L s c) (h2 : c.cov ≤ s.length) (h3 : s.length - c.cov < k)
    (h4 : ∀ a e ty, c = .pend a e ty → ty ≠ [tokenEnd]) :
    (L.pureAll s false k c).2 = some .oob ∧ ∃ p ≤ s.length, TilesTo c.cov p (L.pureAll s false k c).1 := by
  obtain ⟨a, p, b, c, _⟩ := pureAll_unfin_cfg hL hT k c h1 h2 h3 h4
  exact ⟨a, p, b, c⟩

/-- What is found without the end of the text in sight is found in every longer text. -/
theorem nextTok_extend {L : Lexer} {s t : List Nat} {fin : Bool} {c : Cfg} {y} (hcl : c.cov ≤ s.length)
    (h : L.nextTok s false c = some y) : L.nextTok (s ++ t) fin c = some y := by
  match c with
  | .pend a e ty => exact h
  | .sof q =>
    simp only [Lexer.nextTok, Lexer.look] at h ⊢
    have h1 : L.find false (some (q, 0, none)) 0 s ≠ .more := by intro h2; rw [h2] at h; simp at h
    rw [find_extend L fin s t 0 _ h1]
    have h2 := find_unfin L s 0 (some (q, 0, none))
    split at h
    · exact h
    · rename_i hf; exact absurd hf h2
    · simp at h
  | .at p =>
    simp only [Lexer.nextTok, Lexer.look] at h ⊢
    have h1 : L.find false (some (0, p, none)) p (s.drop p) ≠ .more := by intro h2; rw [h2] at h; simp at h
    have hd : (s ++ t).drop p = s.drop p ++ t := by
      have : p ≤ s.length := hcl
      rw [List.drop_append, Nat.sub_eq_zero_of_le this, List.drop_zero]
    rw [hd, find_extend L fin (s.drop p) t p _ h1]
    have h2 := find_unfin L (s.drop p) p (some (0, p, none))
    split at h
    · exact h
    · rename_i hf; exact absurd hf h2
    · simp at h

/-- Tokens found in an unfinished text are the first tokens of every longer text. -/
theorem pureAll_extend {L : Lexer} (hL : NlOk L) {s t : List Nat} {fin : Bool} :
    ∀ (k : Nat) (c : Cfg), CfgOk L s c → c.cov ≤ s.length →
      ∀ k', k ≤ k' → (L.pureAll s false k c).1 <+: (L.pureAll (s ++ t) fin k' c).1 := by
  intro k
  induction k with
  | zero => intro c _ _ k' _; simp [Lexer.pureAll]
  | succ k ih =>
    intro c hc hcl k' hk
    obtain ⟨k', rfl⟩ : ∃ j, k' = j + 1 := ⟨k' - 1, by omega⟩
    unfold Lexer.pureAll
    cases hn : L.nextTok s false c with
    | none => simp
    | some y =>
      obtain ⟨x, c'⟩ := y
      rw [nextTok_extend hcl hn]
      simp only
      obtain ⟨hc', hxa, hcov, hxe, hx⟩ := nextTok_ok hL hc hn
      split
      · simp
      · exact List.cons_prefix_cons.mpr ⟨rfl, ih c' hc' (by omega) k' (by omega)⟩

/-- Every token is the end token, an uncaught string, or a candidate with all its types; and an uncaught
string is followed by something else. -/
theorem pureAll_sound {L : Lexer} (hL : NlOk L) {s : List Nat} {fin : Bool} :
    ∀ (k : Nat) (c : Cfg), CfgOk L s c → ∀ x ∈ (L.pureAll s fin k c).1,
      (x.ty = [tokenUncaught] ∨ x = ⟨s.length, s.length, [tokenEnd]⟩ ∨
        L.Recognised s x) := by
  intro k
  induction k with
  | zero => intro c _; simp [Lexer.pureAll]
  | succ k ih =>
    intro c hc x hx
    unfold Lexer.pureAll at hx
    cases hn : L.nextTok s fin c with
    | none => simp [hn] at hx
    | some y =>
      obtain ⟨x', c'⟩ := y
      rw [hn] at hx
      obtain ⟨hc', hxa, hcov, hxe, hx'⟩ := nextTok_ok hL hc hn
      have h1 : (x'.ty = [tokenUncaught] ∨ x' = ⟨s.length, s.length, [tokenEnd]⟩ ∨
        L.Recognised s x') := by
        rcases hx' with ⟨_, h | ⟨h, _⟩⟩ | ⟨h, _⟩
        · exact .inr (.inr h)
        · exact .inl h
        · exact .inr (.inl h)
      simp only at hx
      split at hx
      · simp only [List.mem_singleton] at hx; subst hx; exact h1
      · simp only [List.mem_cons] at hx
        rcases hx with rfl | hx
        · exact h1
        · exact ih c' hc' x hx

end LogSurgeon
