import Verif.Proofs.Tokens
/-
The token sequence is the declarative one (C06).
-/
namespace LogSurgeon

theorem SchemaLike.nlOk {L : Lexer} (h : SchemaLike L) : NlOk L where
  root := by
    have := h.root
    simp only [Dfa.idsOn, Dfa.run, Option.map_some, Option.getD_some] at this
    simp [Dfa.isAccepting, this]
  nl := by
    intro _
    have := h.nlRule
    unfold Dfa.idsOn at this
    cases hn : L.dfa.next 0 newline with
    | none => simp [Dfa.run, hn] at this
    | some q => rfl
  delims := h.delims
  nlAcc := h.nlRule

/-- A candidate needs an alive run. -/
theorem Lexer.Cand.alive {L : Lexer} {s : List Nat} {sof : Bool} {a e : Nat} (h : L.Cand s sof a e) :
    (L.dfa.run 0 (pre sof ++ slice s a e)).isSome := by
  have := h.2.2.1
  unfold Lexer.typesOn Dfa.idsOn at this
  unfold pre
  cases hr : L.dfa.run 0 ((if sof = true then [cCharStartOfFile] else []) ++ slice s a e) with
  | none => simp [hr] at this
  | some q => rfl

theorem alive_append {d : Dfa} {u v : List Nat} (h : (d.run 0 (u ++ v)).isSome) : (d.run 0 u).isSome := by
  rw [run_append] at h
  cases hr : d.run 0 u with
  | none => simp [hr] at h
  | some q => rfl

theorem slice_cons {s : List Nat} {a e : Nat} (ha : a < e) (he : e ≤ s.length) :
    slice s a e = s[a] :: slice s (a + 1) e := by
  unfold slice
  rw [List.drop_eq_getElem_cons (by omega)]
  obtain ⟨k, hk⟩ : ∃ k, e - a = k + 1 := ⟨e - a - 1, by omega⟩
  rw [hk, List.take_succ_cons, show e - (a + 1) = k by omega]

theorem mem_slice {s : List Nat} {a e x : Nat} (h1 : a ≤ x) (h2 : x < e) (h3 : e ≤ s.length) : s[x] ∈ slice s a e := by
  have h : slice s a e = slice s a x ++ slice s x e := slice_append h1 (by omega)
  rw [h, slice_cons h2 h3]; simp

/-- No candidate starts at a character that is not a delimiter. -/
theorem no_cand_nondelim {L : Lexer} (hL : SchemaLike L) {s : List Nat} (hs : cCharStartOfFile ∉ s) {x e : Nat}
    (hx : x < s.length) (hd : L.isDelim s[x] = false) : ¬ L.Cand s false x e := by
  intro hc
  have hal := hc.alive
  have hxe := hc.1
  have hel := hc.2.1
  simp only [pre, Bool.false_eq_true, if_false, List.nil_append] at hal
  rw [slice_cons hxe hel] at hal
  have hne : s[x] ≠ newline := by intro h; rw [h, hL.nlDelim] at hd; simp at hd
  have hnf : s[x] ≠ cCharStartOfFile := by intro h; exact hs (h ▸ List.getElem_mem hx)
  have := (hL.inner _ _ hal hne hnf).1
  rw [hd] at this; simp at this

/-- No candidate starts at a character that no rule starts with. -/
theorem no_cand_nofirst {L : Lexer} {s : List Nat} {x e : Nat}
    (hx : x < s.length) (hd : L.dfa.next 0 s[x] = none) : ¬ L.Cand s false x e := by
  intro hc
  have hal := hc.alive
  simp only [pre, Bool.false_eq_true, if_false, List.nil_append] at hal
  rw [slice_cons hc.1 hc.2.1] at hal
  simp [Dfa.run, hd] at hal

/-- No candidate starts at a character that is no hit. -/
theorem no_cand_nohit {L : Lexer} (hL : SchemaLike L) {s : List Nat} (hs : cCharStartOfFile ∉ s) {x e : Nat}
    (hx : x < s.length) (hd : L.isHit s[x] = false) : ¬ L.Cand s false x e := by
  unfold Lexer.isHit Lexer.isFirst at hd
  cases hn : L.dfa.next 0 s[x] with
  | none => exact no_cand_nofirst hx hn
  | some q =>
    simp only [hn, Option.isSome_some, Bool.true_and] at hd
    exact no_cand_nondelim hL hs hx hd

theorem nl_hit {L : Lexer} (hL : SchemaLike L) : L.isHit newline = true := by
  unfold Lexer.isHit Lexer.isFirst
  rw [hL.nlOk.nl hL.delims, hL.nlDelim]; rfl

/-- The knowledge of a run in progress. -/
structure RunInv (L : Lexer) (s : List Nat) (p q a i : Nat) (m : Option (Nat × List Nat)) : Prop where
  pa : p ≤ a
  ai : a < i
  il : i ≤ s.length
  before : L.NoneIn s p a
  run : L.dfa.run 0 (slice s a i) = some q
  plain : s[a]? ≠ some newline → m = none ∧ ∀ x (hx : x < s.length), a < x → x < i → L.isDelim s[x] = false
  nl : s[a]? = some newline → ∃ e, m = some (e, L.typesOn s false a e) ∧ e ≤ i ∧ L.Cand s false a e ∧
    ∀ e', L.Cand s false a e' → e' < i → e' ≤ e

def CurInv (L : Lexer) (s : List Nat) (p i : Nat) : Cur → Prop
  | none => L.NoneIn s p i
  | some (q, a, m) => RunInv L s p q a i m

def FoundSpec (L : Lexer) (s : List Nat) (p : Nat) : Found → Prop
  | .tok a e ty => p ≤ a ∧ L.NoneIn s p a ∧ L.Longest s false a e ∧ ty = L.typesOn s false a e
  | .nothing => L.NoneIn s p s.length
  | .more => False

theorem noneIn_succ {L : Lexer} {s : List Nat} {p i : Nat} (h : L.NoneIn s p i) (h' : ∀ e, ¬ L.Cand s false i e) :
    L.NoneIn s p (i + 1) := by
  intro x e hp hx
  by_cases hxi : x = i
  · subst hxi; exact h' e
  · exact h x e hp (by omega)

/-- Starting a run. -/
theorem enter_inv {L : Lexer} (hL : SchemaLike L) {s : List Nat} {p i : Nat} (hp : p ≤ i) (hi : i < s.length)
    (h : L.NoneIn s p i) : CurInv L s p (i + 1) (L.enter s[i] i) := by
  unfold Lexer.enter
  cases hn : L.dfa.next 0 s[i] with
  | none => exact noneIn_succ h (fun e => no_cand_nofirst hi hn)
  | some q =>
    have hsl : slice s i (i + 1) = [s[i]] := by
      rw [slice_succ (Nat.le_refl _) hi, slice_self]; rfl
    have hrun : L.dfa.run 0 (slice s i (i + 1)) = some q := by rw [hsl]; simp [Dfa.run, hn]
    refine ⟨hp, by omega, hi, h, hrun, ?_, ?_⟩
    · intro hne
      rw [List.getElem?_eq_getElem hi] at hne
      have : (s[i] == newline) = false := by simpa using hne
      exact ⟨by simp [this], by intro x hx h1 h2; omega⟩
    · intro heq
      rw [List.getElem?_eq_getElem hi, Option.some.injEq] at heq
      have hty : L.typesOn s false i (i + 1) = L.dfa.ids q := typesOn_eq (sof := false) (by simpa [pre] using hrun)
      refine ⟨i + 1, ?_, Nat.le_refl _, ⟨by omega, by omega, ?_, Or.inr (Or.inr ⟨rfl, by rw [hsl, heq]⟩)⟩, by omega⟩
      · simp [heq, hL.delims, hty]
      · unfold Lexer.typesOn; rw [hsl, heq]; exact hL.nlRule

/-- A character that ends the run without a candidate: continue as if nothing was there. -/
theorem restart_inv {L : Lexer} (hL : SchemaLike L) {s : List Nat} (hs : cCharStartOfFile ∉ s) {p i : Nat} (hp : p ≤ i)
    (hi : i < s.length) (h : L.NoneIn s p i) : CurInv L s p (i + 1) (if L.isHit s[i] then L.enter s[i] i else none) := by
  split
  · exact enter_inv hL hp hi h
  · rename_i hh
    exact noneIn_succ h (fun e => no_cand_nohit hL hs hi (by simpa using hh))

/-- Candidates of a run that is alive up to `i`. -/
theorem cand_at {L : Lexer} {s : List Nat} {sof : Bool} {a i q : Nat} (hai : a < i) (hi : i ≤ s.length)
    (hrun : L.dfa.run 0 (pre sof ++ slice s a i) = some q)
    (hend : i = s.length ∨ ∃ c, s[i]? = some c ∧ L.isDelim c = true) (hacc : L.dfa.isAccepting q = true) :
    L.Cand s sof a i := by
  refine ⟨hai, hi, ?_, ?_⟩
  · rw [typesOn_eq hrun]; exact (isAccepting_iff ..).mp hacc
  · rcases hend with h | h
    · exact .inl h
    · exact .inr (.inl h)

theorem cand_acc {L : Lexer} {s : List Nat} {sof : Bool} {a i q : Nat}
    (hrun : L.dfa.run 0 (pre sof ++ slice s a i) = some q) (hc : L.Cand s sof a i) : L.dfa.isAccepting q = true := by
  have := hc.2.2.1
  rw [typesOn_eq hrun] at this
  exact (isAccepting_iff ..).mpr this

/-- Beyond the death of the run there is no candidate. -/
theorem cand_dead {L : Lexer} {s : List Nat} {sof : Bool} {a i q e : Nat} (hai : a ≤ i) (hi : i < s.length)
    (hrun : L.dfa.run 0 (pre sof ++ slice s a i) = some q) (hd : L.dfa.next q s[i] = none) (hc : L.Cand s sof a e) : e ≤ i := by
  by_contra hlt
  have hal := hc.alive
  have : slice s a e = slice s a (i + 1) ++ slice s (i + 1) e := slice_append (by omega) (by omega)
  rw [this, slice_succ hai hi, ← List.append_assoc] at hal
  have hal := alive_append hal
  rw [← List.append_assoc, run_append, hrun] at hal
  simp [run_one, hd] at hal

theorem find_longest {L : Lexer} (hL : SchemaLike L) {s : List Nat} (hs : cCharStartOfFile ∉ s) {p : Nat} :
    ∀ (r : List Nat) (i : Nat) (cur : Cur), s.drop i = r → i ≤ s.length → p ≤ i → CurInv L s p i cur →
      FoundSpec L s p (L.find true cur i r) := by
  intro r
  induction r with
  | nil =>
    intro i cur hr hi hp hinv
    have hlen : i = s.length := by
      have : (s.drop i).length = 0 := by rw [hr]; rfl
      rw [List.length_drop] at this; omega
    match cur, hinv with
    | none, hinv => simp only [Lexer.find, if_true]; subst hlen; exact hinv
    | some (q, a, m), hinv =>
      simp only [Lexer.find, if_true]
      have hrun : L.dfa.run 0 (pre false ++ slice s a i) = some q := by simpa [pre] using hinv.run
      by_cases hacc : L.dfa.isAccepting q = true
      · rw [if_pos hacc]
        refine ⟨hinv.pa, hinv.before, ⟨cand_at hinv.ai hi hrun (.inl hlen) hacc, ?_⟩, (typesOn_eq hrun).symm⟩
        intro e' he'; have := he'.2.1; omega
      · rw [if_neg hacc]
        have hno : ∀ e', L.Cand s false a e' → e' < i := by
          intro e' he'
          have h1 := he'.2.1
          by_contra h2
          have : e' = i := by omega
          subst this
          exact hacc (cand_acc hrun he')
        by_cases hnl : s[a]? = some newline
        · obtain ⟨e, rfl, h1, h2, h3⟩ := hinv.nl hnl
          exact ⟨hinv.pa, hinv.before, ⟨h2, fun e' he' => h3 e' he' (hno e' he')⟩, rfl⟩
        · obtain ⟨rfl, h1⟩ := hinv.plain hnl
          simp only
          intro x e hpx hx hc
          by_cases hxa : x < a
          · exact hinv.before x e hpx hxa hc
          · by_cases hxa : x = a
            · subst hxa
              have h4 := hno e hc
              rcases hc.2.2.2 with h | ⟨c, h, h'⟩ | ⟨_, h⟩
              · omega
              · have hel : e < s.length := by omega
                rw [List.getElem?_eq_getElem hel, Option.some.injEq] at h
                have := h1 e hel hc.1 h4
                rw [h, h'] at this; simp at this
              · rw [slice_cons hc.1 hc.2.1] at h
                simp only [List.cons.injEq] at h
                exact hnl (by rw [List.getElem?_eq_getElem hx, h.1])
            · exact no_cand_nondelim hL hs hx (h1 x hx (by omega) (by omega)) hc
  | cons c r ih =>
    intro i cur hr hi hp hinv
    have hil : i < s.length := by
      have : (s.drop i).length = r.length + 1 := by rw [hr]; rfl
      rw [List.length_drop] at this; omega
    rw [List.drop_eq_getElem_cons hil] at hr
    simp only [List.cons.injEq] at hr
    obtain ⟨rfl, hr⟩ := hr
    match cur, hinv with
    | none, hinv =>
      simp only [Lexer.find]
      exact ih _ _ hr (by omega) (by omega) (restart_inv hL hs hp hil hinv)
    | some (q, a, m), hinv =>
      have hrun : L.dfa.run 0 (pre false ++ slice s a i) = some q := by simpa [pre] using hinv.run
      have hsuc : ∀ q', L.dfa.next q s[i] = some q' → L.dfa.run 0 (slice s a (i + 1)) = some q' := by
        intro q' h
        rw [slice_succ (Nat.le_of_lt hinv.ai) hil, run_append, hinv.run]
        simp [run_one, h]
      simp only [Lexer.find]
      by_cases hnl : s[a]? = some newline
      · -- the run starts with a newline: there is always a candidate
        obtain ⟨e, rfl, h1, h2, h3⟩ := hinv.nl hnl
        -- candidate after this character
        obtain ⟨e1, hc1, h4, h5, h6⟩ : ∃ e1, L.cand q i s[i] (some (e, L.typesOn s false a e)) = some (e1, L.typesOn s false a e1) ∧
            e1 ≤ i ∧ L.Cand s false a e1 ∧ ∀ e', L.Cand s false a e' → e' ≤ i → e' ≤ e1 := by
          unfold Lexer.cand
          simp only [hL.delims, Bool.not_true, Bool.or_false]
          by_cases hcd : (L.isDelim s[i] && L.dfa.isAccepting q) = true
          · rw [if_pos hcd]
            simp only [Bool.and_eq_true] at hcd
            refine ⟨i, by rw [typesOn_eq hrun], Nat.le_refl _, ?_, fun e' _ h => h⟩
            exact cand_at hinv.ai hi hrun (.inr ⟨s[i], List.getElem?_eq_getElem hil, hcd.1⟩) hcd.2
          · rw [if_neg hcd]
            refine ⟨e, rfl, h1, h2, fun e' he' hle => ?_⟩
            by_cases hlt : e' < i
            · exact h3 e' he' hlt
            · have : e' = i := by omega
              subst this
              rcases he'.2.2.2 with h | ⟨c, h, h'⟩ | ⟨_, h⟩
              · omega
              · rw [List.getElem?_eq_getElem hil, Option.some.injEq] at h
                rw [h, h', cand_acc hrun he'] at hcd
                simp at hcd
              · -- the newline alone: e' = a + 1 ≤ e
                have hl := slice_length (s := s) (a := a) he'.2.1
                rw [h] at hl
                have := h2.1
                simp at hl; omega
        rw [hc1]
        simp only [Option.isNone_some, Bool.and_false, Bool.false_eq_true, if_false]
        cases hn : L.dfa.next q s[i] with
        | some q' =>
          refine ih _ _ hr (by omega) (by omega) ⟨hinv.pa, by have := hinv.ai; omega, by omega, hinv.before, hsuc q' hn, ?_, ?_⟩
          · intro h; exact absurd hnl h
          · intro _; exact ⟨e1, rfl, by omega, h5, fun e' he' h => h6 e' he' (by omega)⟩
        | none =>
          refine ⟨hinv.pa, hinv.before, ⟨h5, fun e' he' => h6 e' he' ?_⟩, rfl⟩
          exact cand_dead (Nat.le_of_lt hinv.ai) hil hrun hn he'
      · obtain ⟨rfl, h1⟩ := hinv.plain hnl
        have ha := hinv.ai
        have hal : a < s.length := by omega
        have hna : s[a] ≠ newline := by intro h; exact hnl (by rw [List.getElem?_eq_getElem hal, h])
        have hnf : s[a] ≠ cCharStartOfFile := by intro h; exact hs (h ▸ List.getElem_mem hal)
        -- no other candidates up to here
        have hnone : (L.cand q i s[i] none = none → ∀ e, L.Cand s false a e → i < e) := by
          intro hcn e hc
          by_contra hle
          rcases hc.2.2.2 with h | ⟨c, h, h'⟩ | ⟨_, h⟩
          · omega
          · by_cases hei : e = i
            · subst hei
              rw [List.getElem?_eq_getElem hil, Option.some.injEq] at h
              unfold Lexer.cand at hcn
              rw [if_pos (by rw [h, h', cand_acc hrun hc]; rfl)] at hcn
              simp at hcn
            · have hel : e < s.length := by omega
              rw [List.getElem?_eq_getElem hel, Option.some.injEq] at h
              have := h1 e hel hc.1 (by omega)
              rw [h, h'] at this; simp at this
          · rw [slice_cons hc.1 hc.2.1] at h
            simp only [List.cons.injEq] at h
            exact hna h.1
        -- a delimiter kills the run
        have hdead : L.isDelim s[i] = true → L.dfa.next q s[i] = none := by
          intro hd
          by_contra hne
          obtain ⟨q', hq'⟩ := Option.ne_none_iff_exists'.mp hne
          have hr' := hsuc q' hq'
          rw [slice_cons (by omega) (by omega)] at hr'
          have := (hL.inner _ _ (by rw [hr']; rfl) hna hnf).2 s[i] (mem_slice (by omega) (by omega) (by omega))
          rw [hd] at this; simp at this
        have hrest : L.cand q i s[i] none = none → L.dfa.next q s[i] = none → L.NoneIn s p i := by
          intro hcn hd x e hpx hx hc
          by_cases hxa : x < a
          · exact hinv.before x e hpx hxa hc
          · by_cases hxa : x = a
            · subst hxa
              have h2 := hnone hcn e hc
              have h3 := cand_dead (Nat.le_of_lt ha) hil hrun hd hc
              omega
            · exact no_cand_nondelim hL hs (by omega) (h1 x (by omega) (by omega) hx) hc
        split
        · -- a newline and no candidate
          rename_i hcond
          simp only [Bool.and_eq_true, beq_iff_eq, Option.isNone_iff_eq_none] at hcond
          have hd := hdead (by rw [hcond.1.1]; exact hL.nlDelim)
          exact ih _ _ hr (by omega) (by omega) (enter_inv hL hp hil (hrest hcond.2 hd))
        · rename_i hcond
          cases hn : L.dfa.next q s[i] with
          | some q' =>
            have hnd : L.isDelim s[i] = false := by
              by_contra h; have := hdead (by simpa using h); rw [hn] at this; simp at this
            have hcn : L.cand q i s[i] none = none := by simp [Lexer.cand, hnd, hL.delims]
            rw [hcn]
            refine ih _ _ hr (by omega) (by omega) ⟨hinv.pa, by omega, by omega, hinv.before, hsuc q' hn, ?_, ?_⟩
            · intro _
              refine ⟨rfl, fun x hx h2 h3 => ?_⟩
              by_cases hxi : x = i
              · subst hxi; exact hnd
              · exact h1 x hx h2 (by omega)
            · intro h; exact absurd h hnl
          | none =>
            cases hcd : L.cand q i s[i] none with
            | none =>
              simp only
              exact ih _ _ hr (by omega) (by omega) (restart_inv hL hs hp hil (hrest hcd hn))
            | some x =>
              obtain ⟨e, ty⟩ := x
              unfold Lexer.cand at hcd
              split at hcd
              · rename_i hacc
                simp only [hL.delims, Bool.not_true, Bool.or_false, Bool.and_eq_true] at hacc
                simp only [Option.some.injEq, Prod.mk.injEq] at hcd
                obtain ⟨rfl, rfl⟩ := hcd
                refine ⟨hinv.pa, hinv.before, ⟨cand_at ha hi hrun (.inr ⟨s[i], List.getElem?_eq_getElem hil, hacc.1⟩) hacc.2, ?_⟩,
                  (typesOn_eq hrun).symm⟩
                intro e' he'
                exact cand_dead (Nat.le_of_lt ha) hil hrun hn he'
              · simp at hcd

/-- Looking from the end of the previous token. -/
theorem look_at {L : Lexer} (hL : SchemaLike L) {s : List Nat} (hs : cCharStartOfFile ∉ s) {p : Nat} (hp : p ≤ s.length) :
    FoundSpec L s p (L.look s true (.at p)) := by
  have hnone : L.NoneIn s p p := by intro x e h1 h2; omega
  have heq : L.look s true (.at p) = L.find true none p (s.drop p) := by
    simp only [Lexer.look]
    by_cases hl : p < s.length
    · rw [List.drop_eq_getElem_cons hl]
      simp only [Lexer.find]
      have hcn : L.cand 0 p s[p] none = none := by
        simp [Lexer.cand, hL.nlOk.root]
      rw [hcn]
      by_cases hn : s[p] = newline
      · rw [if_pos (by simp [hn, hL.delims]), hn, if_pos (nl_hit hL)]
      · rw [if_neg (by simp [hn])]
        cases hd : L.dfa.next 0 s[p] with
        | none =>
          simp only
        | some q =>
          have hdl : L.isDelim s[p] = true := by
            refine (hL.inner s[p] [] (by simp [Dfa.run, hd]) hn ?_).1
            intro h; exact hs (h ▸ List.getElem_mem hl)
          rw [if_pos (by simp [Lexer.isHit, Lexer.isFirst, hd, hdl])]
          simp [Lexer.enter, hd, hn]
    · rw [List.drop_eq_nil_of_le (by omega)]
      simp [Lexer.find, hL.nlOk.root]
  rw [heq]
  exact find_longest hL hs _ _ _ rfl hp (Nat.le_refl _) hnone

/-- What is found from the start of file. -/
def SofSpec (L : Lexer) (s : List Nat) (f : Found) : Prop :=
  (∃ e' e, L.Cand s true 0 e' ∧ newline ∉ s.take e' ∧ L.Longest s true 0 e ∧ f = .tok 0 e (L.typesOn s true 0 e)) ∨
  (L.NoStart s ∧ ∃ h, L.Hidden s h ∧ FoundSpec L s h f)

theorem find_sof {L : Lexer} (hL : SchemaLike L) {s : List Nat} (hs : cCharStartOfFile ∉ s) :
    ∀ (r : List Nat) (i q : Nat) (m : Option (Nat × List Nat)), s.drop i = r → i ≤ s.length →
      L.dfa.run 0 (pre true ++ slice s 0 i) = some q → (i = 0 → L.dfa.isAccepting q = false) →
      (m = none → newline ∉ s.take i ∧ ∀ e, L.Cand s true 0 e → i ≤ e) →
      (∀ e ty, m = some (e, ty) → ty = L.typesOn s true 0 e ∧ L.Cand s true 0 e ∧ (∃ e', L.Cand s true 0 e' ∧ newline ∉ s.take e') ∧
        ∀ e', L.Cand s true 0 e' → e' < i → e' ≤ e) →
      SofSpec L s (L.find true (some (q, 0, m)) i r) := by
  intro r
  have htake : ∀ i, slice s 0 i = s.take i := by intro i; simp [slice]
  have hnone : ∀ i, L.NoneIn s i i := by intro i x e h1 h2; omega
  induction r with
  | nil =>
    intro i q m hr hi hrun h0 hm1 hm2
    have hlen : i = s.length := by
      have : (s.drop i).length = 0 := by rw [hr]; rfl
      rw [List.length_drop] at this; omega
    simp only [Lexer.find, if_true]
    by_cases hacc : L.dfa.isAccepting q = true
    · rw [if_pos hacc]
      have hpos : 0 < i := by
        by_contra h; rw [h0 (by omega)] at hacc; simp at hacc
      have hcand : L.Cand s true 0 i := cand_at hpos hi hrun (.inl hlen) hacc
      have hex : ∃ e', L.Cand s true 0 e' ∧ newline ∉ s.take e' := by
        match m with
        | none => exact ⟨i, hcand, (hm1 rfl).1⟩
        | some (e, ty) => exact (hm2 e ty rfl).2.2.1
      obtain ⟨e', he1, he2⟩ := hex
      refine .inl ⟨e', i, he1, he2, ⟨hcand, ?_⟩, by rw [typesOn_eq hrun]⟩
      intro e' he'; have := he'.2.1; omega
    · rw [if_neg hacc]
      have hno : ∀ e', L.Cand s true 0 e' → e' < i := by
        intro e' he'
        have h1 := he'.2.1
        by_contra h2
        have : e' = i := by omega
        subst this
        exact hacc (cand_acc hrun he')
      match m with
      | some (e, ty) =>
        obtain ⟨rfl, h1, ⟨e', g1, g2⟩, h2⟩ := hm2 e ty rfl
        exact .inl ⟨e', e, g1, g2, ⟨h1, fun e' he' => h2 e' he' (hno e' he')⟩, rfl⟩
      | none =>
        refine .inr ⟨fun e he => ?_, s.length, ⟨Nat.le_refl _, ?_, ?_, fun h' h1 h2 => by omega⟩, hnone _⟩
        · have h1 := (hm1 rfl).2 e he; have h2 := hno e he; omega
        · rw [← hlen, ← htake]
          show (L.dfa.run 0 (pre true ++ slice s 0 i)).isSome
          rw [hrun]; rfl
        · rw [← hlen]; exact (hm1 rfl).1
  | cons c r ih =>
    intro i q m hr hi hrun h0 hm1 hm2
    have hil : i < s.length := by
      have : (s.drop i).length = r.length + 1 := by rw [hr]; rfl
      rw [List.length_drop] at this; omega
    rw [List.drop_eq_getElem_cons hil] at hr
    simp only [List.cons.injEq] at hr
    obtain ⟨rfl, hr⟩ := hr
    have hsuc : ∀ q', L.dfa.next q s[i] = some q' → L.dfa.run 0 (pre true ++ slice s 0 (i + 1)) = some q' := by
      intro q' h
      rw [slice_succ (Nat.zero_le _) hil, ← List.append_assoc, run_append, hrun]
      simp [run_one, h]
    -- the candidate after this character
    have hcn : L.cand q i s[i] m = none → newline ∉ s.take i ∧ ∀ e, L.Cand s true 0 e → i + 1 ≤ e := by
      intro hcn
      unfold Lexer.cand at hcn
      split at hcn
      · simp at hcn
      · rename_i hacc
        refine ⟨(hm1 hcn).1, fun e he => ?_⟩
        have h1 := (hm1 hcn).2 e he
        by_contra hlt
        have : e = i := by omega
        subst this
        rcases he.2.2.2 with h | ⟨c, h, h'⟩ | ⟨h, _⟩
        · omega
        · rw [List.getElem?_eq_getElem hil, Option.some.injEq] at h
          rw [h, h', cand_acc hrun he] at hacc
          simp at hacc
        · simp at h
    have hcs : ∀ e ty, L.cand q i s[i] m = some (e, ty) → ty = L.typesOn s true 0 e ∧ L.Cand s true 0 e ∧
        (∃ e', L.Cand s true 0 e' ∧ newline ∉ s.take e') ∧ ∀ e', L.Cand s true 0 e' → e' < i + 1 → e' ≤ e := by
      intro e ty hcs
      unfold Lexer.cand at hcs
      split at hcs
      · rename_i hacc
        simp only [hL.delims, Bool.not_true, Bool.or_false, Bool.and_eq_true] at hacc
        simp only [Option.some.injEq, Prod.mk.injEq] at hcs
        obtain ⟨rfl, rfl⟩ := hcs
        have hpos : 0 < i := by
          by_contra h; rw [h0 (by omega)] at hacc; simp at hacc
        have hcand : L.Cand s true 0 i := cand_at hpos hi hrun (.inr ⟨s[i], List.getElem?_eq_getElem hil, hacc.1⟩) hacc.2
        refine ⟨(typesOn_eq hrun).symm, hcand, ?_, fun e' _ h => by omega⟩
        match m with
        | none => exact ⟨i, hcand, (hm1 rfl).1⟩
        | some (e, ty) => exact (hm2 e ty rfl).2.2.1
      · rename_i hacc
        obtain ⟨h1, h2, h2', h3⟩ := hm2 e ty hcs
        refine ⟨h1, h2, h2', fun e' he' hlt => ?_⟩
        by_cases hei : e' = i
        · subst hei
          exfalso
          rcases he'.2.2.2 with h | ⟨c, h, h'⟩ | ⟨h, _⟩
          · omega
          · rw [List.getElem?_eq_getElem hil, Option.some.injEq] at h
            rw [h, h', cand_acc hrun he'] at hacc
            simp at hacc
          · simp at h
        · exact h3 e' he' (by omega)
    have halive : (L.dfa.run 0 (cCharStartOfFile :: s.take i)).isSome := by
      rw [← htake]
      show (L.dfa.run 0 (pre true ++ slice s 0 i)).isSome
      rw [hrun]; rfl
    simp only [Lexer.find]
    split
    · rename_i hcond
      simp only [Bool.and_eq_true, beq_iff_eq, Option.isNone_iff_eq_none] at hcond
      obtain ⟨h1, h2⟩ := hcn hcond.2
      have hmem : ∀ h', i < h' → newline ∈ s.take h' := by
        intro h' hh
        rw [← hcond.1.1]
        exact List.mem_take_iff_getElem.mpr ⟨i, by omega, rfl⟩
      exact .inr ⟨fun e he => hmem e (h2 e he), i, ⟨hi, halive, h1, fun h' hh _ => .inl (hmem h' hh)⟩,
        find_longest hL hs _ _ _ hr (by omega) (by omega) (enter_inv hL (Nat.le_refl _) hil (hnone i))⟩
    · rename_i hcond
      cases hn : L.dfa.next q s[i] with
      | some q' =>
        refine ih (i + 1) q' _ hr (by omega) (hsuc q' hn) (by omega) (fun hc => ⟨?_, (hcn hc).2⟩) hcs
        intro hm
        rw [List.take_add_one, List.getElem?_eq_getElem hil] at hm
        rcases List.mem_append.mp hm with hm | hm
        · exact (hcn hc).1 hm
        · have : newline = s[i] := by simpa using hm
          exact hcond (by simp [← this, hL.delims]; rw [this, hc])
      | none =>
        cases hcd : L.cand q i s[i] m with
        | none =>
          obtain ⟨h1, h2⟩ := hcn hcd
          refine .inr ⟨fun e he => ?_, i, ⟨hi, halive, h1, fun h' hh hl => .inr ?_⟩,
            find_longest hL hs _ _ _ hr (by omega) (by omega) (restart_inv hL hs (Nat.le_refl _) hil (hnone i))⟩
          · have h4 := h2 e he
            have h5 := cand_dead (Nat.zero_le _) hil hrun hn he
            omega
          · have e1 : slice s 0 h' = slice s 0 (i + 1) ++ slice s (i + 1) h' := slice_append (by omega) (by omega)
            rw [← htake, show cCharStartOfFile :: slice s 0 h' = pre true ++ slice s 0 h' from rfl, e1, slice_succ (Nat.zero_le _) hil, ← List.append_assoc,
              run_append, ← List.append_assoc, run_append, hrun]
            simp [run_one, hn]
        | some x =>
          obtain ⟨e, ty⟩ := x
          obtain ⟨rfl, h1, ⟨e', g1, g2⟩, h2⟩ := hcs e ty hcd
          refine .inl ⟨e', e, g1, g2, ⟨h1, fun e' he' => h2 e' he' ?_⟩, rfl⟩
          have := cand_dead (Nat.zero_le _) hil hrun hn he'
          omega

theorem look_sof {L : Lexer} (hL : SchemaLike L) {s : List Nat} (hs : cCharStartOfFile ∉ s) {q : Nat}
    (hq : CfgOk L s (.sof q)) : SofSpec L s (L.look s true (.sof q)) := by
  refine find_sof hL hs s 0 q none (by simp) (by omega) (by simp [pre, slice_self, Dfa.run, hq.1]) (fun _ => hq.2)
    (fun _ => ⟨by simp, by omega⟩) (by simp)

/-- From a found token on, the sequence is the specified one. -/
theorem pureAll_found {L : Lexer} (hT : TypesProper L) {s : List Nat} {c : Cfg} {k : Nat}
    (hnp : ∀ a e ty, c ≠ .pend a e ty) (hcl : c.cov ≤ s.length) (hk : s.length - c.cov < k + 1)
    (hf : FoundSpec L s c.cov (L.look s true c))
    (ih : ∀ k' < k + 1, ∀ p, p ≤ s.length → s.length - p < k' → LexSpec L s p (L.pureAll s true k' (.at p)).1) :
    LexSpec L s c.cov (L.pureAll s true (k + 1) c).1 := by
  have hnt : L.nextTok s true c = match L.look s true c with
    | .tok a e ty =>
      if c.cov = a then some (⟨a, e, ty⟩, .at e) else some (⟨c.cov, a, [tokenUncaught]⟩, .pend a e ty)
    | .nothing =>
      if c.cov = s.length then some (⟨s.length, s.length, [tokenEnd]⟩, .at s.length)
      else some (⟨c.cov, s.length, [tokenUncaught]⟩, .pend s.length s.length [tokenEnd])
    | .more => none := by
    match c with
    | .sof q => rfl
    | .at p => rfl
    | .pend a e ty => exact absurd rfl (hnp a e ty)
  rw [Lexer.pureAll, hnt]
  generalize hp : c.cov = p at *
  cases hl : L.look s true c with
  | more => rw [hl] at hf; exact absurd hf (by simp [FoundSpec])
  | nothing =>
    rw [hl] at hf
    simp only
    by_cases he : p = s.length
    · rw [if_pos he]; subst he
      simp only [if_true]
      exact .done
    · rw [if_neg he]
      simp only
      rw [if_neg (by simp [tokenEnd, tokenUncaught])]
      obtain ⟨k, rfl⟩ : ∃ j, k = j + 1 := ⟨k - 1, by omega⟩
      simp only [Lexer.pureAll, Lexer.nextTok, if_true]
      exact .rest (by omega) hf
  | tok a e ty =>
    rw [hl] at hf
    obtain ⟨h1, h2, h3, rfl⟩ := hf
    have hae := h3.1.1
    have hen := h3.1.2.1
    simp only
    by_cases he : p = a
    · rw [if_pos he]; subst he
      simp only
      rw [if_neg (types_ne_end hT)]
      exact .here h3 (ih k (by omega) e hen (by omega))
    · rw [if_neg he]
      simp only
      rw [if_neg (by simp [tokenEnd, tokenUncaught])]
      obtain ⟨k, rfl⟩ : ∃ j, k = j + 1 := ⟨k - 1, by omega⟩
      simp only [Lexer.pureAll, Lexer.nextTok]
      rw [if_neg (types_ne_end hT)]
      exact .later (by omega) h2 h3 (ih k (by omega) e hen (by omega))

theorem pureAll_spec {L : Lexer} (hL : SchemaLike L) (hT : TypesProper L) {s : List Nat} (hs : cCharStartOfFile ∉ s) :
    ∀ (k p : Nat), p ≤ s.length → s.length - p < k → LexSpec L s p (L.pureAll s true k (.at p)).1 := by
  intro k
  induction k using Nat.strongRecOn with
  | _ k ih =>
    intro p hp hk
    obtain ⟨k, rfl⟩ : ∃ j, k = j + 1 := ⟨k - 1, by omega⟩
    exact pureAll_found (c := .at p) hT (by intros; simp) hp hk (look_at hL hs hp) (fun k' hk' p hp h => ih k' hk' p hp h)

theorem pureAll_exact {L : Lexer} (hL : SchemaLike L) (hT : TypesProper L) {s : List Nat} (hs : cCharStartOfFile ∉ s)
    {q k : Nat} (hq : CfgOk L s (.sof q)) (hk : s.length < k) : LexExact L s (L.pureAll s true k (.sof q)).1 := by
  obtain ⟨k, rfl⟩ : ∃ j, k = j + 1 := ⟨k - 1, by omega⟩
  rcases look_sof hL hs hq with ⟨e', e, h0, h0', h1, h2⟩ | ⟨h1, h, h2, h3⟩
  · have hae := h1.1.1
    have hen := h1.1.2.1
    rw [Lexer.pureAll]
    simp only [Lexer.nextTok, h2, Cfg.cov, if_true]
    rw [if_neg (types_ne_end hT)]
    exact .start h0 h0' h1 (pureAll_spec hL hT hs k e hen (by omega))
  · rw [Lexer.pureAll]
    simp only [Lexer.nextTok]
    cases hl : L.look s true (.sof q) with
    | more => rw [hl] at h3; exact absurd h3 (by simp [FoundSpec])
    | nothing =>
      rw [hl] at h3
      simp only
      by_cases he : 0 = s.length
      · have : s = [] := List.eq_nil_of_length_eq_zero he.symm
        subst this
        rw [if_pos (show (Cfg.sof q).cov = ([] : List Nat).length from rfl)]
        simp only [List.length_nil, if_true]
        exact .done rfl
      · rw [if_neg (show ¬ (Cfg.sof q).cov = _ from he)]
        simp only
        rw [if_neg (by simp [tokenEnd, tokenUncaught])]
        obtain ⟨k, rfl⟩ : ∃ j, k = j + 1 := ⟨k - 1, by omega⟩
        simp only [Lexer.pureAll, Lexer.nextTok, if_true]
        exact .rest h1 h2 (by omega) h3
    | tok a e ty =>
      rw [hl] at h3
      obtain ⟨g1, g2, g3, rfl⟩ := h3
      have hae := g3.1.1
      have hen := g3.1.2.1
      simp only
      by_cases he : 0 = a
      · rw [if_pos (show (Cfg.sof q).cov = _ from he)]; subst he
        simp only
        rw [if_neg (types_ne_end hT)]
        have : h = 0 := by omega
        subst this
        exact .here h1 h2 g3 (pureAll_spec hL hT hs k e hen (by omega))
      · rw [if_neg (show ¬ (Cfg.sof q).cov = _ from he)]
        simp only
        rw [if_neg (by simp [tokenEnd, tokenUncaught])]
        obtain ⟨k, rfl⟩ : ∃ j, k = j + 1 := ⟨k - 1, by omega⟩
        simp only [Lexer.pureAll, Lexer.nextTok]
        rw [if_neg (types_ne_end hT)]
        exact .later h1 h2 (by omega) g1 g2 g3 (pureAll_spec hL hT hs k e hen (by omega))

/-- Under the condition of `LexSpecAll` nothing is missed. -/
theorem LexExact.all {L : Lexer} (hL : SchemaLike L) {s : List Nat} (hs : cCharStartOfFile ∉ s) (hc : SofClear L s) {toks : List PTok}
    (h : LexExact L s toks) : LexSpecAll L s toks := by
  have hstart : L.NoStart s → ∀ e, ¬ L.Cand s true 0 e := by
    intro hn e he
    have hal := he.alive
    refine hc.1 e ?_ (hn e he)
    simpa [pre, slice] using hal
  have hclear : ∀ h, L.Hidden s h → (∀ e, ¬ L.Cand s true 0 e) → L.NoneIn s 0 h := by
    intro h hh hno x e _ hx hcx
    rcases hc.2 with ⟨e, he⟩ | h'
    · exact hno e he
    · have hxl : x < s.length := by have := hh.1; omega
      have := h' h hh.2.1 s[x] (List.mem_take_iff_getElem.mpr ⟨x, by have := hh.1; omega, rfl⟩)
      exact no_cand_nondelim hL hs hxl this hcx
  have glue : ∀ {h a}, L.NoneIn s 0 h → L.NoneIn s h a → L.NoneIn s 0 a := by
    intro h a h1 h2 x e _ hx
    by_cases hxh : x < h
    · exact h1 x e (by omega) hxh
    · exact h2 x e (by omega) hx
  cases h with
  | start _ _ h1 h2 => exact .sof h1 h2
  | done h =>
    subst h
    refine .plain (fun e he => ?_) .done
    have h1 := he.1; have h2 := he.2.1; simp at h2; omega
  | rest h1 h2 h3 h4 => exact .plain (hstart h1) (.rest h3 (glue (hclear _ h2 (hstart h1)) h4))
  | here h1 h2 h3 h4 => exact .plain (hstart h1) (.here h3 h4)
  | later h1 h2 h3 h4 h5 h6 h7 => exact .plain (hstart h1) (.later h3 (glue (hclear _ h2 (hstart h1)) h5) h6 h7)

theorem pureAll_specAll {L : Lexer} (hL : SchemaLike L) (hT : TypesProper L) {s : List Nat} (hs : cCharStartOfFile ∉ s)
    (hc : SofClear L s) {q k : Nat} (hq : CfgOk L s (.sof q)) (hk : s.length < k) :
    LexSpecAll L s (L.pureAll s true k (.sof q)).1 := (pureAll_exact hL hT hs hq hk).all hL hs hc

/-! ### The specification determines the tokens -/

theorem Lexer.Longest.unique {L : Lexer} {s sof a e e'} (h : L.Longest s sof a e) (h' : L.Longest s sof a e') : e = e' :=
  Nat.le_antisymm (h'.2 e h.1) (h.2 e' h'.1)

theorem LexSpec.unique {L : Lexer} {s : List Nat} {p : Nat} {t t' : List PTok} (h : LexSpec L s p t) (h' : LexSpec L s p t') :
    t = t' := by
  induction h generalizing t' with
  | done =>
    cases h' with
    | done => rfl
    | rest h1 h2 => omega
    | here h1 h2 => have := h1.1.1; have := h1.1.2.1; omega
    | later h1 h2 h3 h4 => have := h3.1.1; have := h3.1.2.1; omega
  | rest h1 h2 =>
    cases h' with
    | done => omega
    | rest h3 h4 => rfl
    | here h3 h4 => exact absurd h3.1 (h2 _ _ (Nat.le_refl _) h1)
    | later h3 h4 h5 h6 =>
      exact absurd h5.1 (h2 _ _ (by omega) (by have := h5.1.1; have := h5.1.2.1; omega))
  | @here p e toks h1 h2 ih =>
    have hlt : p < s.length := by have := h1.1.1; have := h1.1.2.1; omega
    cases h' with
    | done => omega
    | rest h3 h4 => exact absurd h1.1 (h4 _ _ (Nat.le_refl _) hlt)
    | here h3 h4 => obtain rfl := h1.unique h3; rw [ih h4]
    | later h3 h4 h5 h6 => exact absurd h1.1 (h4 _ _ (Nat.le_refl _) h3)
  | @later p a e toks h1 h2 h3 h4 ih =>
    have hlt : a < s.length := by have := h3.1.1; have := h3.1.2.1; omega
    cases h' with
    | done => omega
    | rest h5 h6 => exact absurd h3.1 (h6 _ _ (by omega) hlt)
    | here h5 h6 => exact absurd h5.1 (h2 _ _ (Nat.le_refl _) h1)
    | @later _ a' _ _ h5 h6 h7 h8 =>
      have : a = a' := by
        rcases Nat.lt_trichotomy a a' with h | h | h
        · exact absurd h3.1 (h6 _ _ (by omega) h)
        · exact h
        · exact absurd h7.1 (h2 _ _ (by omega) h)
      subst this
      obtain rfl := h3.unique h7; rw [ih h8]

theorem LexSpecAll.unique {L : Lexer} {s : List Nat} {t t' : List PTok} (h : LexSpecAll L s t) (h' : LexSpecAll L s t') :
    t = t' := by
  cases h with
  | sof h1 h2 =>
    cases h' with
    | sof h3 h4 => obtain rfl := h1.unique h3; rw [h2.unique h4]
    | plain h3 h4 => exact absurd h1.1 (h3 _)
  | plain h1 h2 =>
    cases h' with
    | sof h3 h4 => exact absurd h3.1 (h1 _)
    | plain h3 h4 => exact h2.unique h4

theorem Lexer.Hidden.unique {L : Lexer} {s : List Nat} {h h' : Nat} (H : L.Hidden s h) (H' : L.Hidden s h') : h = h' := by
  rcases Nat.lt_trichotomy h h' with e | e | e
  · rcases H.2.2.2 h' e H'.1 with g | g
    · exact absurd g H'.2.2.1
    · rw [H'.2.1] at g; cases g
  · exact e
  · rcases H'.2.2.2 h e H.1 with g | g
    · exact absurd g H.2.2.1
    · rw [H.2.1] at g; cases g

theorem LexExact.unique {L : Lexer} {s : List Nat} {t t' : List PTok} (h : LexExact L s t) (h' : LexExact L s t') : t = t' := by
  have hlt : ∀ {sof : Bool} {a e : Nat}, L.Longest s sof a e → a < s.length := by
    intro sof a e h
    have := h.1.1; have := h.1.2.1; omega
  cases h with
  | start h1 h1' h2 h3 =>
    cases h' with
    | start _ _ h4 h5 => obtain rfl := h2.unique h4; rw [h3.unique h5]
    | done e => subst e; have := hlt h2; simp at this
    | rest g | here g | later g => exact absurd (g _ h1) h1'
  | done e =>
    subst e
    cases h' with
    | start _ _ h2 => have := hlt h2; simp at this
    | done => rfl
    | rest _ _ h => simp at h
    | here _ _ h2 => have := hlt h2; simp at this
    | later _ _ _ _ _ h2 => have := hlt h2; simp at this
  | rest h1 h2 h3 h4 =>
    cases h' with
    | start g1 g2 _ _ => exact absurd (h1 _ g1) g2
    | done e => subst e; simp at h3
    | rest => rfl
    | here _ g2 g3 g4 => obtain rfl := h2.unique g2; exact absurd g3.1 (h4 _ _ (Nat.le_refl _) h3)
    | later _ g2 _ g3 _ g4 => obtain rfl := h2.unique g2; exact absurd g4.1 (h4 _ _ g3 (hlt g4))
  | here h1 h2 h3 h4 =>
    cases h' with
    | start g1 g2 _ _ => exact absurd (h1 _ g1) g2
    | done e => subst e; have := hlt h3; simp at this
    | rest _ g2 g3 g4 => obtain rfl := h2.unique g2; exact absurd h3.1 (g4 _ _ (Nat.le_refl _) g3)
    | here _ _ g3 g4 => obtain rfl := h3.unique g3; rw [h4.unique g4]
    | later _ g2 g3 _ g4 => obtain rfl := h2.unique g2; exact absurd h3.1 (g4 _ _ (Nat.le_refl _) g3)
  | @later h a e toks h1 h2 h3 h4 h5 h6 h7 =>
    cases h' with
    | start g1 g2 _ _ => exact absurd (h1 _ g1) g2
    | done e => subst e; have := hlt h6; simp at this
    | rest _ g2 _ g3 => obtain rfl := h2.unique g2; exact absurd h6.1 (g3 _ _ h4 (hlt h6))
    | here _ g2 g3 => obtain rfl := h2.unique g2; exact absurd g3.1 (h5 _ _ (Nat.le_refl _) h3)
    | @later h' a' _ _ _ g2 g3 g4 g5 g6 g7 =>
      obtain rfl := h2.unique g2
      have : a = a' := by
        rcases Nat.lt_trichotomy a a' with h | h | h
        · exact absurd h6.1 (g5 _ _ h4 h)
        · exact h
        · exact absurd g6.1 (h5 _ _ g4 h)
      subst this
      obtain rfl := h6.unique g6; rw [h7.unique g7]

end LogSurgeon
