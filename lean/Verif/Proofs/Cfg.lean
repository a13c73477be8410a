import Verif.Proofs.Find
/-
The lexer as a transition system on configurations over a fixed text.
-/
namespace LogSurgeon

/-- Where the lexer is between two calls of `scan`. -/
inductive Cfg where
  /-- start of file: the virtual character has been read, DFA state `q` -/
  | sof (q : Nat)
  | at (p : Nat)
  | pend (a e : Nat) (ty : List Nat)
deriving Repr, DecidableEq

/-- First byte not yet covered by a returned token. -/
def Cfg.cov : Cfg → Nat
  | .sof _ => 0
  | .at p => p
  | .pend a _ _ => a

namespace Lexer

/-- What the pure lexer finds from a configuration (not pending). -/
def look (L : Lexer) (s : List Nat) (fin : Bool) : Cfg → Found
  | .sof q => L.find fin (some (q, 0, none)) 0 s
  | .at p => L.find fin (some (0, p, none)) p (s.drop p)
  | .pend a e ty => .tok a e ty

/-- Next token and configuration. -/
def nextTok (L : Lexer) (s : List Nat) (fin : Bool) (c : Cfg) : Option (PTok × Cfg) :=
  match c with
  | .pend a e ty => some (⟨a, e, ty⟩, .at e)
  | _ =>
    match L.look s fin c with
    | .tok a e ty =>
      if c.cov = a then some (⟨a, e, ty⟩, .at e) else some (⟨c.cov, a, [tokenUncaught]⟩, .pend a e ty)
    | .nothing =>
      if c.cov = s.length then some (⟨s.length, s.length, [tokenEnd]⟩, .at s.length)
      else some (⟨c.cov, s.length, [tokenUncaught]⟩, .pend s.length s.length [tokenEnd])
    | .more => none

end Lexer

/-- The lexer's fields represent the configuration. -/
def CfgRel (L : Lexer) (s : List Nat) (st : LexState) (b : InBuf) : Cfg → Prop
  | .sof q => st.asked = true ∧ st.prevState = some q ∧ st.isMatch = false ∧ st.startPos = 0 ∧
      st.lastMatchPos = 0 ∧ b.pos = 0 ∧ st.line = 0 ∧ st.matchLine = 0 ∧ st.lastMatchLine = 0
  | .at p => AtQ L s st b p
  | .pend a e ty => AtP L s st b a e ty

/-- A returned token, with its line number. -/
structure TokRel (L : Lexer) (s : List Nat) (b : InBuf) (t : Token) (x : PTok) : Prop where
  start : t.startPos = x.a
  stop : t.endPos = x.e
  buf : t.buf = b.active
  size : t.bufSize = b.size
  types : t.types = some x.ty
  wrap : t.wrap = []
  line : NlDelim L → t.line = nlCount s (if x.ty = [tokenUncaught] then x.a else x.e)

theorem IsTok.rel {L s b t a e ty l} (h : IsTok b t a e ty l)
    (hl : NlDelim L → l = nlCount s (if ty = [tokenUncaught] then a else e)) :
    TokRel L s b t ⟨a, e, ty⟩ :=
  ⟨h.start, h.stop, h.buf, h.size, h.types, h.wrap, fun hn => by rw [h.line_eq, hl hn]⟩

/-- The consumed flag and the position are consistent. -/
def PosOk (s : List Nat) (b : InBuf) : Prop := b.consumed = true → b.pos = s.length ∧ b.ends s = true

/-- No rule has the reserved id of the uncaught string or of the end token. -/
def TypesProper (L : Lexer) : Prop := ∀ q, tokenUncaught ∉ L.dfa.ids q ∧ tokenEnd ∉ L.dfa.ids q

theorem types_ne {L : Lexer} {s : List Nat} {sof : Bool} {a e : Nat} (hT : TypesProper L)
    : L.typesOn s sof a e ≠ [tokenUncaught] := by
  unfold Lexer.typesOn Dfa.idsOn
  cases L.dfa.run 0 ((if sof = true then [cCharStartOfFile] else []) ++ slice s a e) with
  | none => simp
  | some q => intro h; exact (hT q).1 (by
      have : L.dfa.ids q = [tokenUncaught] := h
      rw [this]; simp)

/-- Configurations over a text. -/
def CfgOk (L : Lexer) (s : List Nat) : Cfg → Prop
  | .sof q => L.dfa.next 0 cCharStartOfFile = some q ∧ L.dfa.isAccepting q = false
  | .at p => p ≤ s.length
  | .pend a e ty => (a < e ∧ e ≤ s.length ∧ L.Recognised s ⟨a, e, ty⟩) ∨
      (a = s.length ∧ e = s.length ∧ ty = [tokenEnd])

/-- What `look` finds is sound. -/
theorem look_sound {L : Lexer} (hL : NlOk L) {s : List Nat} {fin : Bool} {c : Cfg} (hc : CfgOk L s c)
    (hnp : ∀ a e ty, c ≠ .pend a e ty) : FoundOk L s true c.cov (L.look s fin c) := by
  match c, hc with
  | .pend a e ty, _ => exact absurd rfl (hnp a e ty)
  | .sof q, ⟨h1, h2⟩ =>
    refine find_sound hL s 0 _ (by simp) (by omega) (Nat.le_refl _) ?_
    intro q2 a m h
    simp only [Option.some.injEq, Prod.mk.injEq] at h
    obtain ⟨rfl, rfl, rfl⟩ := h
    refine ⟨true, Nat.le_refl _, Nat.le_refl _, fun _ => ⟨rfl, rfl⟩, ?_, fun _ => h2, by simp⟩
    simp [pre, slice_self, Dfa.run, h1]
  | .at p, hp =>
    refine find_sound hL (s.drop p) p _ rfl hp (Nat.le_refl _) ?_
    intro q2 a m h
    simp only [Option.some.injEq, Prod.mk.injEq] at h
    obtain ⟨rfl, rfl, rfl⟩ := h
    refine ⟨false, Nat.le_refl _, Nat.le_refl _, by simp, ?_, fun _ => hL.root, by simp⟩
    simp [pre, slice_self, Dfa.run]

/-- A token moves the covered position forward; only the end token is empty. -/
theorem nextTok_ok {L : Lexer} (hL : NlOk L) {s : List Nat} {fin : Bool} {c c' : Cfg} {x : PTok}
    (hc : CfgOk L s c) (h : L.nextTok s fin c = some (x, c')) :
    CfgOk L s c' ∧ x.a = c.cov ∧ c'.cov = x.e ∧ x.e ≤ s.length ∧
    ((x.a < x.e ∧ (L.Recognised s x ∨
        (x.ty = [tokenUncaught] ∧ ∃ a e ty, c' = .pend a e ty))) ∨
     (x = ⟨s.length, s.length, [tokenEnd]⟩ ∧ c' = .at s.length)) := by
  match c with
  | .pend a e ty =>
    simp only [Lexer.nextTok, Option.some.injEq, Prod.mk.injEq] at h
    obtain ⟨rfl, rfl⟩ := h
    rcases hc with ⟨h1, h2, h3⟩ | ⟨rfl, rfl, rfl⟩
    · exact ⟨h2, rfl, rfl, h2, Or.inl ⟨h1, Or.inl h3⟩⟩
    · exact ⟨Nat.le_refl _, rfl, rfl, Nat.le_refl _, Or.inr ⟨rfl, rfl⟩⟩
  | .sof q =>
    have hs := look_sound hL (fin := fin) hc (by intros; simp)
    simp only [Lexer.nextTok] at h
    cases hf : L.look s fin (.sof q) with
    | more => simp [hf] at h
    | nothing =>
      simp only [hf] at h
      split at h <;> simp only [Option.some.injEq, Prod.mk.injEq] at h <;> obtain ⟨rfl, rfl⟩ := h
      · rename_i he
        exact ⟨Nat.le_refl _, he.symm, rfl, Nat.le_refl _, Or.inr ⟨rfl, rfl⟩⟩
      · rename_i he
        refine ⟨Or.inr ⟨rfl, rfl, rfl⟩, rfl, rfl, Nat.le_refl _, Or.inl ⟨?_, Or.inr ⟨rfl, _, _, _, rfl⟩⟩⟩
        simp only [Cfg.cov] at he ⊢; omega
    | tok a e ty =>
      rw [hf] at hs
      obtain ⟨hp, sof, hsof, hcand, hty⟩ := hs
      simp only [hf] at h
      have hae := hcand.1
      have hen := hcand.2.1
      split at h <;> simp only [Option.some.injEq, Prod.mk.injEq] at h <;> obtain ⟨rfl, rfl⟩ := h
      · rename_i he
        exact ⟨hen, he.symm, rfl, hen, Or.inl ⟨hae, Or.inl ⟨sof, fun h => (hsof h).1, hcand, hty⟩⟩⟩
      · rename_i he
        refine ⟨Or.inl ⟨hae, hen, sof, fun h => (hsof h).1, hcand, hty⟩, rfl, rfl, by simp only; omega, Or.inl ⟨?_, Or.inr ⟨rfl, _, _, _, rfl⟩⟩⟩
        simp only [Cfg.cov] at he hp ⊢; omega
  | .at p =>
    have hs := look_sound hL (fin := fin) hc (by intros; simp)
    have hp' : p ≤ s.length := hc
    simp only [Lexer.nextTok] at h
    cases hf : L.look s fin (.at p) with
    | more => simp [hf] at h
    | nothing =>
      simp only [hf] at h
      split at h <;> simp only [Option.some.injEq, Prod.mk.injEq] at h <;> obtain ⟨rfl, rfl⟩ := h
      · rename_i he
        exact ⟨Nat.le_refl _, he.symm, rfl, Nat.le_refl _, Or.inr ⟨rfl, rfl⟩⟩
      · rename_i he
        refine ⟨Or.inr ⟨rfl, rfl, rfl⟩, rfl, rfl, Nat.le_refl _, Or.inl ⟨?_, Or.inr ⟨rfl, _, _, _, rfl⟩⟩⟩
        simp only [Cfg.cov] at he ⊢; omega
    | tok a e ty =>
      rw [hf] at hs
      obtain ⟨hp, sof, hsof, hcand, hty⟩ := hs
      simp only [hf] at h
      have hae := hcand.1
      have hen := hcand.2.1
      split at h <;> simp only [Option.some.injEq, Prod.mk.injEq] at h <;> obtain ⟨rfl, rfl⟩ := h
      · rename_i he
        exact ⟨hen, he.symm, rfl, hen, Or.inl ⟨hae, Or.inl ⟨sof, fun h => (hsof h).1, hcand, hty⟩⟩⟩
      · rename_i he
        refine ⟨Or.inl ⟨hae, hen, sof, fun h => (hsof h).1, hcand, hty⟩, rfl, rfl, by simp only; omega, Or.inl ⟨?_, Or.inr ⟨rfl, _, _, _, rfl⟩⟩⟩
        simp only [Cfg.cov] at he hp ⊢; omega

theorem nextTok_fin {L : Lexer} {s : List Nat} {c : Cfg} : ∃ x, L.nextTok s true c = some x := by
  have key : ∀ c', L.look s true c' ≠ .more := by
    intro c'
    match c' with
    | .sof q => exact fun h => find_fin _ _ _ _ h
    | .at p => exact fun h => find_fin _ _ _ _ h
    | .pend a e ty => simp [Lexer.look]
  unfold Lexer.nextTok
  split
  · exact ⟨_, rfl⟩
  · have := key c
    cases hf : L.look s true c with
    | more => exact absurd hf this
    | nothing => simp only; split <;> exact ⟨_, rfl⟩
    | tok a e ty => simp only; split <;> exact ⟨_, rfl⟩

/-- One call of `scan` is one step of the configuration. -/
theorem scan_next {L : Lexer} (hL : NlOk L) (hT : TypesProper L) {s : List Nat} {fin : Bool} {st : LexState}
    {b : InBuf} {c : Cfg} (hV : View b s fin) (hP : PosOk s b) (hc : CfgOk L s c) (hR : CfgRel L s st b c) :
    (∃ pos' c', (L.scan st b).2.1 = { b with pos := pos', consumed := c' }) ∧ PosOk s (L.scan st b).2.1 ∧
    match L.nextTok s fin c with
    | none => (L.scan st b).2.2 = .error .oob
    | some (x, c') => ∃ t, (L.scan st b).2.2 = .ok t ∧ TokRel L s b t x ∧
        CfgRel L s (L.scan st b).1 (L.scan st b).2.1 c' := by
  -- from an outcome of `find` to the claim
  have main : ∀ (c : Cfg) (lline : Nat) (r : LexState × InBuf × Except Fail Token),
      (∀ a e ty, c ≠ .pend a e ty) → CfgOk L s c → (NlDelim L → lline = nlCount s c.cov) →
      Outcome L s c.cov lline b (L.look s fin c) r →
      (∃ pos' c', r.2.1 = { b with pos := pos', consumed := c' }) ∧ PosOk s r.2.1 ∧
      match L.nextTok s fin c with
      | none => r.2.2 = .error .oob
      | some (x, c') => ∃ t, r.2.2 = .ok t ∧ TokRel L s b t x ∧ CfgRel L s r.1 r.2.1 c' := by
    intro c lline r hnp hc hll ⟨⟨p', c', hb', hp'⟩, ho⟩
    have hfs := look_sound hL (fin := fin) hc hnp
    refine ⟨⟨p', c', hb'⟩, ?_, ?_⟩
    · rw [hb']; exact hp'
    · have hnt : L.nextTok s fin c = match L.look s fin c with
        | .tok a e ty =>
          if c.cov = a then some (⟨a, e, ty⟩, .at e) else some (⟨c.cov, a, [tokenUncaught]⟩, .pend a e ty)
        | .nothing =>
          if c.cov = s.length then some (⟨s.length, s.length, [tokenEnd]⟩, .at s.length)
          else some (⟨c.cov, s.length, [tokenUncaught]⟩, .pend s.length s.length [tokenEnd])
        | .more => none := by
        match c with
        | .sof q => rfl
        | .at p => rfl
        | .pend a e ty => exact absurd rfl (hnp a e ty)
      rw [hnt]
      cases hf : L.look s fin c with
      | more => rw [hf] at ho; exact ho
      | nothing =>
        rw [hf] at ho
        simp only at ho ⊢
        split at ho
        · rename_i he
          obtain ⟨h1, t, l, h2, h3, h4⟩ := ho
          rw [if_pos he]
          refine ⟨t, h2, h3.rel ?_, h1⟩
          rw [if_neg (by simp [tokenEnd, tokenUncaught])]; exact h4
        · rename_i he
          obtain ⟨h1, t, h2, h3⟩ := ho
          rw [if_neg he]
          refine ⟨t, h2, h3.rel ?_, h1⟩
          rw [if_pos rfl]; exact hll
      | tok a e ty =>
        rw [hf] at ho hfs
        obtain ⟨_, sof, _, _, hty⟩ := hfs
        simp only at ho ⊢
        split at ho
        · rename_i he
          obtain ⟨h1, t, l, h2, h3, h4⟩ := ho
          rw [if_pos he]
          refine ⟨t, h2, h3.rel ?_, h1⟩
          rw [if_neg (by rw [hty]; exact types_ne hT)]; exact h4
        · rename_i he
          obtain ⟨h1, t, h2, h3⟩ := ho
          rw [if_neg he]
          refine ⟨t, h2, h3.rel ?_, h1⟩
          rw [if_pos rfl]; exact hll
  have hself : ∃ p c, b = { b with pos := p, consumed := c } := ⟨b.pos, b.consumed, rfl⟩
  have hP' : b.consumed = true → b.pos = s.length ∧ fin = true := by
    intro h; have := hP h; exact ⟨this.1, by rw [← hV.fin_eq]; exact this.2⟩
  have hsz : s.length ≤ b.size / 2 := hV.half
  match c with
  | .pend a e ty =>
    obtain ⟨h1, h2, h3, h4, h5, h6, h7, h8⟩ : AtP L s st b a e ty := hR
    have hscan : L.scan st b = ({ st with isMatch := false, lastMatchPos := st.matchPos, lastMatchLine := st.matchLine }, b,
        .ok (Lexer.mkToken b st.startPos st.matchPos st.matchLine st.typeIds)) := by
      unfold Lexer.scan; rw [if_neg (by simp [h1]), if_pos h2]
    rw [hscan]
    refine ⟨hself, hP, ?_⟩
    simp only [Lexer.nextTok]
    refine ⟨_, rfl, ⟨h3, h4, rfl, rfl, h5, rfl, fun hn => ?_⟩, ?_⟩
    · have hne : ty ≠ [tokenUncaught] := by
        rcases hc with ⟨_, _, sof, _, _, hty⟩ | ⟨_, _, hty⟩
        · simp only at hty; rw [hty]; exact types_ne hT
        · rw [hty]; simp [tokenEnd, tokenUncaught]
      rw [if_neg hne]; exact h8 hn
    · exact ⟨h1, rfl, h4, h6, h7, h8⟩
  | .sof q =>
    obtain ⟨h1, h2, h3, h4, h5, h6, h7, h8, h9⟩ := hR
    have hscan : L.scan st b = L.scanLoop (Lexer.scanFuel b) (some q) { st with asked := false } b := by
      unfold Lexer.scan; rw [if_pos h1, h2]
    rw [hscan]
    have := scanLoop_find hL.toLexOk (Lexer.scanFuel b) q 0 none { st with asked := false } b b hV hself (by omega)
      (by unfold Lexer.scanFuel; omega) h4 h3 hP' rfl
      ⟨fun _ => by simp [h6, h7, nlCount], fun _ h => by simp [h3] at h, fun _ _ => by simp [h7, h8]⟩
      (fun _ h => by
        have : s.length = 0 := by rw [← h]; exact h5
        have h0 : s = [] := List.length_eq_zero_iff.mp this
        simp [h9, h0, nlCount])
    refine main (.sof q) st.lastMatchLine _ (by intros; simp) hc ?_ ?_
    · intro _; simp [h9, Cfg.cov, nlCount]
    · have hr : ∀ (cov i : Nat) r, cov = 0 → i = 0 →
          Outcome L s cov st.lastMatchLine b (L.find fin (some (q, 0, none)) i (s.drop i)) r →
          Outcome L s 0 st.lastMatchLine b (L.find fin (some (q, 0, none)) 0 s) r := by
        rintro _ _ r rfl rfl h; exact h
      exact hr _ _ _ h5 h6 this
  | .at p =>
    obtain ⟨h1, h2, h3, h4, h5, h6⟩ : AtQ L s st b p := hR
    have hp : p ≤ s.length := hc
    have hscan : L.scan st b = L.scanLoop (Lexer.scanFuel b) (some 0)
        { st with startPos := b.pos, matchPos := b.pos, matchLine := st.line, typeIds := none } b := by
      unfold Lexer.scan; rw [if_neg (by simp [h1]), if_neg (by simp [h2])]
    rw [hscan]
    have := scanLoop_find hL.toLexOk (Lexer.scanFuel b) 0 p none
      { st with startPos := b.pos, matchPos := b.pos, matchLine := st.line, typeIds := none } b b hV hself (by omega)
      (by unfold Lexer.scanFuel; omega) h4 h2 hP' h1
      ⟨fun hn => by simp only; rw [h5 hn, h4], fun _ h => by simp [h2] at h, fun _ _ => rfl⟩
      (fun hn h => by
        have : p = s.length := by rw [← h3]; exact h
        rw [← this]; exact h6 hn)
    refine main (.at p) st.lastMatchLine _ (by intros; simp) hc ?_ ?_
    · exact h6
    · have hr : ∀ (cov i : Nat) r, cov = p → i = p →
          Outcome L s cov st.lastMatchLine b (L.find fin (some (0, p, none)) i (s.drop i)) r →
          Outcome L s p st.lastMatchLine b (L.find fin (some (0, p, none)) p (s.drop p)) r := by
        rintro _ _ r rfl rfl h; exact h
      exact hr _ _ _ h3 h4 this

end LogSurgeon
