import Verif.Proofs.Tokens
/-
No newline is inside an uncaught string (C38).
-/
namespace LogSurgeon

/-- No newline at positions `[p, i)`. -/
def NoNl (s : List Nat) (p i : Nat) : Prop := ∀ x, p ≤ x → x < i → s[x]? ≠ some newline

theorem NoNl.succ {s : List Nat} {p i : Nat} (h : NoNl s p i) (h' : s[i]? ≠ some newline) : NoNl s p (i + 1) := by
  intro x h1 h2
  by_cases hx : x = i
  · subst hx; exact h'
  · exact h x h1 (by omega)

theorem NoNl.append {s : List Nat} {p a i : Nat} (h : NoNl s p a) (h' : NoNl s a i) : NoNl s p i := by
  intro x h1 h2
  by_cases hx : x < a
  · exact h x h1 hx
  · exact h' x (by omega) h2

def NlInv (s : List Nat) (p i : Nat) : Cur → Prop
  | none => NoNl s p i
  | some (_, a, m) => p ≤ a ∧ NoNl s p a ∧ (m = none → NoNl s a i)

def NlFound (s : List Nat) (p : Nat) : Found → Prop
  | .tok a _ _ => NoNl s p a
  | .nothing => NoNl s p s.length
  | .more => True

theorem enter_nl {L : Lexer} (hL : LexOk L) (hN : NlDelim L) {s : List Nat} {p i : Nat} (hp : p ≤ i) (hi : i < s.length)
    (h : NoNl s p i) : NlInv s p (i + 1) (L.enter s[i] i) := by
  unfold Lexer.enter
  cases hn : L.dfa.next 0 s[i] with
  | none =>
    refine h.succ ?_
    intro he
    rw [List.getElem?_eq_getElem hi, Option.some.injEq] at he
    have := hL.nl hN.1
    rw [← he, hn] at this; simp at this
  | some q =>
    refine ⟨hp, h, fun hm => ?_⟩
    intro x h1 h2 hx
    have : x = i := by omega
    subst this
    rw [List.getElem?_eq_getElem hi, Option.some.injEq] at hx
    simp [hx, hN.1] at hm

theorem restart_nl {L : Lexer} (hL : LexOk L) (hN : NlDelim L) {s : List Nat} {p i : Nat} (hp : p ≤ i) (hi : i < s.length)
    (h : NoNl s p i) : NlInv s p (i + 1) (if L.isHit s[i] then L.enter s[i] i else none) := by
  split
  · exact enter_nl hL hN hp hi h
  · rename_i hh
    refine h.succ ?_
    intro he
    rw [List.getElem?_eq_getElem hi, Option.some.injEq] at he
    rw [he] at hh
    exact hh (by simp [Lexer.isHit, Lexer.isFirst, hL.nl hN.1, hN.2])

theorem find_nl {L : Lexer} (hL : LexOk L) (hN : NlDelim L) {s : List Nat} {fin : Bool} {p : Nat} :
    ∀ (r : List Nat) (i : Nat) (cur : Cur), s.drop i = r → i ≤ s.length → p ≤ i → NlInv s p i cur →
      NlFound s p (L.find fin cur i r) := by
  intro r
  induction r with
  | nil =>
    intro i cur hr hi hp hinv
    have hlen : i = s.length := by
      have : (s.drop i).length = 0 := by rw [hr]; rfl
      rw [List.length_drop] at this; omega
    match cur, hinv with
    | none, hinv =>
      simp only [Lexer.find]
      split
      · subst hlen; exact hinv
      · trivial
    | some (q, a, m), hinv =>
      obtain ⟨h1, h2, h3⟩ := hinv
      simp only [Lexer.find]
      split
      · by_cases hacc : L.dfa.isAccepting q = true
        · rw [if_pos hacc]; exact h2
        · rw [if_neg hacc]
          match m with
          | some (e, ty) => exact h2
          | none => subst hlen; exact h2.append (h3 rfl)
      · trivial
  | cons c r ih =>
    intro i cur hr hi hp hinv
    have hil : i < s.length := by
      have : (s.drop i).length = r.length + 1 := by rw [hr]; rfl
      rw [List.length_drop] at this; omega
    rw [List.drop_eq_getElem_cons hil] at hr
    simp only [List.cons.injEq] at hr
    obtain ⟨rfl, hr⟩ := hr
    match cur, hinv with
    | none, hinv =>
      simp only [Lexer.find]
      exact ih _ _ hr (by omega) (by omega) (restart_nl hL hN hp hil hinv)
    | some (q, a, m), hinv =>
      obtain ⟨h1, h2, h3⟩ := hinv
      have hcm : L.cand q i s[i] m = none → m = none := by
        unfold Lexer.cand; split
        · simp
        · exact id
      simp only [Lexer.find]
      split
      · rename_i hcond
        simp only [Bool.and_eq_true, beq_iff_eq, Option.isNone_iff_eq_none] at hcond
        exact ih _ _ hr (by omega) (by omega) (enter_nl hL hN hp hil (h2.append (h3 (hcm hcond.2))))
      · rename_i hcond
        cases hn : L.dfa.next q s[i] with
        | some q' =>
          refine ih _ _ hr (by omega) (by omega) ⟨h1, h2, fun hc => (h3 (hcm hc)).succ ?_⟩
          intro he
          rw [List.getElem?_eq_getElem hil, Option.some.injEq] at he
          simp [he, hN.1] at hcond
          rw [he] at hc; rw [hc] at hcond; simp at hcond
        | none =>
          cases hc : L.cand q i s[i] m with
          | some x => exact h2
          | none =>
            exact ih _ _ hr (by omega) (by omega) (restart_nl hL hN hp hil (h2.append (h3 (hcm hc))))

theorem look_nl {L : Lexer} (hL : LexOk L) (hN : NlDelim L) {s : List Nat} {fin : Bool} {c : Cfg} (hc : CfgOk L s c)
    (hnp : ∀ a e ty, c ≠ .pend a e ty) : NlFound s c.cov (L.look s fin c) := by
  match c, hc with
  | .pend a e ty, _ => exact absurd rfl (hnp a e ty)
  | .sof q, hc =>
    exact find_nl hL hN _ _ _ (by simp) (by omega) (Nat.le_refl _) ⟨Nat.le_refl _, (by intro x h1 h2; omega), fun _ => (by intro x h1 h2; omega)⟩
  | .at p, hc =>
    exact find_nl hL hN _ _ _ rfl hc (Nat.le_refl _) ⟨Nat.le_refl _, (by intro x h1 h2; simp only [Cfg.cov] at *; omega), fun _ => (by intro x h1 h2; omega)⟩

/-- A token typed as uncaught contains no newline. -/
theorem nextTok_nl {L : Lexer} (hL : NlOk L) (hT : TypesProper L) (hN : NlDelim L) {s : List Nat} {fin : Bool} {c c' : Cfg}
    {x : PTok} (hc : CfgOk L s c) (h : L.nextTok s fin c = some (x, c')) (hx : x.ty = [tokenUncaught]) :
    NoNl s x.a x.e := by
  have main : (∀ a e ty, c ≠ .pend a e ty) → NoNl s x.a x.e := by
    intro hnp
    have hnl := look_nl hL.toLexOk hN (fin := fin) hc hnp
    have hfs := look_sound hL (fin := fin) hc hnp
    have hnt : L.nextTok s fin c = match L.look s fin c with
      | .tok a e ty =>
        if c.cov = a then some (⟨a, e, ty⟩, .at e) else some (⟨c.cov, a, [tokenUncaught]⟩, .pend a e ty)
      | .nothing =>
        if c.cov = s.length then some (⟨s.length, s.length, [tokenEnd]⟩, .at s.length)
        else some (⟨c.cov, s.length, [tokenUncaught]⟩, .pend s.length s.length [tokenEnd])
      | .more => none := by
      match c with
      | .sof q => rfl
      | .at p => rfl
      | .pend a e ty => exact absurd rfl (hnp a e ty)
    rw [hnt] at h
    cases hf : L.look s fin c with
    | more => rw [hf] at h; simp at h
    | nothing =>
      rw [hf] at h hnl
      simp only at h
      split at h <;> simp only [Option.some.injEq, Prod.mk.injEq] at h <;> obtain ⟨rfl, rfl⟩ := h
      · intro x h1 h2; simp only at h1 h2; omega
      · exact hnl
    | tok a e ty =>
      rw [hf] at h hnl hfs
      simp only at h
      split at h <;> simp only [Option.some.injEq, Prod.mk.injEq] at h <;> obtain ⟨rfl, rfl⟩ := h
      · obtain ⟨_, sof, _, _, hty⟩ := hfs
        exact absurd (hty.symm.trans hx) (types_ne hT)
      · exact hnl
  match c, hc, h, main with
  | .pend a e ty, hc, h, _ =>
    simp only [Lexer.nextTok, Option.some.injEq, Prod.mk.injEq] at h
    obtain ⟨rfl, rfl⟩ := h
    rcases hc with ⟨_, _, sof, _, _, hty⟩ | ⟨_, _, hty⟩
    · exact absurd (hty.symm.trans hx) (types_ne hT)
    · simp [hty, tokenEnd, tokenUncaught] at hx
  | .sof q, hc, h, main => exact main (by intros; simp)
  | .at p, hc, h, main => exact main (by intros; simp)

theorem nlCount_eq {s : List Nat} : ∀ {p i : Nat}, p ≤ i → i ≤ s.length → NoNl s p i → nlCount s p = nlCount s i := by
  intro p i
  induction i with
  | zero => intro h _ _; have : p = 0 := by omega
            subst this; rfl
  | succ i ih =>
    intro h hi hn
    by_cases hp : p = i + 1
    · rw [hp]
    · have h1 : i < s.length := by omega
      rw [nlCount_succ h1, ← ih (by omega) (by omega) (fun x h1 h2 => hn x h1 (by omega))]
      have := hn i (by omega) (by omega)
      rw [List.getElem?_eq_getElem h1] at this
      rw [if_neg (by simpa using this)]; rfl

theorem pureAll_nl {L : Lexer} (hL : NlOk L) (hT : TypesProper L) (hN : NlDelim L) {s : List Nat} {fin : Bool} :
    ∀ (k : Nat) (c : Cfg), CfgOk L s c → ∀ x ∈ (L.pureAll s fin k c).1, x.ty = [tokenUncaught] → NoNl s x.a x.e := by
  intro k
  induction k with
  | zero => intro c _; simp [Lexer.pureAll]
  | succ k ih =>
    intro c hc x hx hty
    unfold Lexer.pureAll at hx
    cases hn : L.nextTok s fin c with
    | none => simp [hn] at hx
    | some y =>
      obtain ⟨x', c'⟩ := y
      rw [hn] at hx
      obtain ⟨hc', _⟩ := nextTok_ok hL hc hn
      simp only at hx
      split at hx
      · simp only [List.mem_singleton] at hx; subst hx; exact nextTok_nl hL hT hN hc hn hty
      · simp only [List.mem_cons] at hx
        rcases hx with rfl | hx
        · exact nextTok_nl hL hT hN hc hn hty
        · exact ih c' hc' x hx hty

end LogSurgeon
