import Verif.Spec.Search
import Verif.Proofs.Longest
/-
The tokens of every text (C55).
-/
namespace LogSurgeon

/-- What the automaton of a schema satisfies. -/
structure Opening (L : Lexer) : Prop where
  nlOk : NlOk L
  first : ∀ c, (L.dfa.next 0 c).isSome → L.isDelim c = true ∨ c = newline

/-- The text behind the first character (behind the virtual one at the start of the file). -/
def body (s : List Nat) (sof : Bool) (a e : Nat) : List Nat := if sof then slice s a e else slice s (a + 1) e

def SearchF (L : Lexer) (s : List Nat) (x : Nat) (fresh : Bool) (f : Found) : Prop :=
  (∃ a e, Search L s x fresh (some (a, e)) ∧ f = .tok a e (L.typesOn s false a e)) ∨ (Search L s x fresh none ∧ f = .nothing)

/-- `Gap` and `Hidden` in one. -/
def GapS (L : Lexer) (s : List Nat) (sof : Bool) (a y : Nat) : Prop :=
  a ≤ y ∧ (sof = false → a < y) ∧ y ≤ s.length ∧ (L.dfa.run 0 (pre sof ++ slice s a y)).isSome ∧ newline ∉ body s sof a y ∧
  ∀ y', y < y' → y' ≤ s.length → newline ∈ body s sof a y' ∨ (L.dfa.run 0 (pre sof ++ slice s a y')).isSome = false

theorem GapS.gap {L : Lexer} {s : List Nat} {a y : Nat} (h : GapS L s false a y) : L.Gap s a y := by
  obtain ⟨_, h2, h3, h4, h5, h6⟩ := h
  exact ⟨h2 rfl, h3, by simpa [pre] using h4, h5, by simpa [pre, body] using h6⟩

theorem GapS.hidden {L : Lexer} {s : List Nat} {y : Nat} (h : GapS L s true 0 y) : L.Hidden s y := by
  obtain ⟨_, _, h3, h4, h5, h6⟩ := h
  exact ⟨h3, by simpa [pre, slice] using h4, by simpa [body, slice] using h5, by simpa [pre, body, slice] using h6⟩

/-- A run in progress, and what is known if it leads to a token or does not. -/
structure Going (L : Lexer) (s : List Nat) (P : Found → Prop) (q a i : Nat) (m : Option (Nat × List Nat)) (sof : Bool) : Prop where
  ai : a ≤ i
  ai' : sof = false → a < i
  il : i ≤ s.length
  run : L.dfa.run 0 (pre sof ++ slice s a i) = some q
  start : a = i → L.dfa.isAccepting q = false
  none : m = none → newline ∉ body s sof a i ∧ (∀ e, L.Cand s sof a e → i ≤ e) ∧ (sof = false → s[a]? ≠ some newline)
  some : ∀ e ty, m = some (e, ty) → ty = L.typesOn s sof a e ∧ L.Cand s sof a e ∧ (∃ e', L.Cand s sof a e' ∧ newline ∉ body s sof a e') ∧
    ∀ e', L.Cand s sof a e' → e' < i → e' ≤ e
  found : ∀ e e', L.Cand s sof a e' → newline ∉ body s sof a e' → L.Longest s sof a e → P (.tok a e (L.typesOn s sof a e))
  stuck : ∀ y, (∀ e, L.Cand s sof a e → newline ∈ body s sof a e) → GapS L s sof a y → ∀ f, SearchF L s y true f → P f

def GoingC (L : Lexer) (s : List Nat) (P : Found → Prop) (i : Nat) : Cur → Prop
  | none => ∀ f, SearchF L s i false f → P f
  | some (q, a, m) => ∃ sof, Going L s P q a i m sof

variable {L : Lexer} {s : List Nat} {P : Found → Prop}

theorem starts_iff {i : Nat} (hi : i < s.length) {b : Bool} : L.Starts s i b ↔ (L.dfa.next 0 s[i]).isSome ∧ (b = true ∨ L.isDelim s[i] = true) := by
  unfold Lexer.Starts
  rw [List.getElem?_eq_getElem hi]
  constructor
  · rintro ⟨c, h1, h2, h3⟩
    cases h1
    rw [run_one] at h2
    exact ⟨h2, h3⟩
  · rintro ⟨h1, h2⟩
    exact ⟨_, rfl, by rw [run_one]; exact h1, h2⟩

theorem enter_going (hL : Opening L) {i : Nat} (hi : i < s.length) {b : Bool} (hb : b = true ∨ L.isDelim s[i] = true)
    (hP : ∀ f, SearchF L s i b f → P f) : GoingC L s P (i + 1) (L.enter s[i] i) := by
  unfold Lexer.enter
  cases hn : L.dfa.next 0 s[i] with
  | none =>
    intro f hf
    apply hP
    have hno : ¬ L.Starts s i b := by rw [starts_iff hi, hn]; simp
    rcases hf with ⟨a, e, h, rfl⟩ | ⟨h, rfl⟩
    · exact .inl ⟨a, e, .skip hi hno h, rfl⟩
    · exact .inr ⟨.skip hi hno h, rfl⟩
  | some q =>
    have hst : L.Starts s i b := (starts_iff hi).mpr ⟨by rw [hn]; rfl, hb⟩
    have hsl : slice s i (i + 1) = [s[i]] := by rw [slice_succ (Nat.le_refl _) hi, slice_self]; rfl
    have hrun : L.dfa.run 0 (pre false ++ slice s i (i + 1)) = some q := by rw [hsl]; simp [pre, Dfa.run, hn]
    have hbody : body s false i (i + 1) = [] := by simp [body, slice_self]
    refine ⟨false, by omega, fun _ => by omega, hi, hrun, fun h => by omega, ?_, ?_, ?_, ?_⟩
    · intro hm
      refine ⟨by rw [hbody]; simp, fun e he => he.1, fun _ h => ?_⟩
      rw [List.getElem?_eq_getElem hi, Option.some.injEq] at h
      simp [h, hL.nlOk.delims] at hm
    · intro e ty hm
      split at hm
      · rename_i hc
        simp only [Bool.and_eq_true, beq_iff_eq] at hc
        simp only [Option.some.injEq, Prod.mk.injEq] at hm
        obtain ⟨rfl, rfl⟩ := hm
        have hcand : L.Cand s false i (i + 1) := by
          refine ⟨by omega, by omega, ?_, .inr (.inr ⟨rfl, by rw [hsl, hc.1]⟩)⟩
          unfold Lexer.typesOn
          rw [hsl, hc.1]
          exact hL.nlOk.nlAcc
        exact ⟨(typesOn_eq hrun).symm, hcand, ⟨i + 1, hcand, by rw [hbody]; simp⟩, fun e' _ h => by omega⟩
      · cases hm
    · intro e e' h1 h2 h3
      exact hP _ (.inl ⟨i, e, .found hst h1 h2 h3, rfl⟩)
    · intro y h1 h2 f hf
      apply hP
      rcases hf with ⟨a, e, h, rfl⟩ | ⟨h, rfl⟩
      · exact .inl ⟨a, e, .past hst h1 h2.gap h, rfl⟩
      · exact .inr ⟨.past hst h1 h2.gap h, rfl⟩

theorem restart_going (hL : Opening L) {i : Nat} (hi : i < s.length) {b : Bool} (hb : b = true → s[i] ≠ newline)
    (hP : ∀ f, SearchF L s i b f → P f) : GoingC L s P (i + 1) (if L.isHit s[i] then L.enter s[i] i else none) := by
  split
  · rename_i hh
    simp only [Lexer.isHit, Lexer.isFirst, Bool.and_eq_true] at hh
    exact enter_going hL hi (.inr hh.2) hP
  · rename_i hh
    intro f hf
    apply hP
    have hno : ¬ L.Starts s i b := by
      rw [starts_iff hi]
      rintro ⟨h1, h2⟩
      apply hh
      simp only [Lexer.isHit, Lexer.isFirst, Bool.and_eq_true]
      refine ⟨h1, ?_⟩
      rcases h2 with h2 | h2
      · exact (hL.first _ h1).resolve_right (hb h2)
      · exact h2
    rcases hf with ⟨a, e, h, rfl⟩ | ⟨h, rfl⟩
    · exact .inl ⟨a, e, .skip hi hno h, rfl⟩
    · exact .inr ⟨.skip hi hno h, rfl⟩

theorem body_succ {sof : Bool} {a i : Nat} (ha : a ≤ i) (ha' : sof = false → a < i) (hi : i < s.length) : body s sof a (i + 1) = body s sof a i ++ [s[i]] := by
  cases sof with
  | true => exact slice_succ ha hi
  | false => exact slice_succ (ha' rfl) hi

theorem mem_body {sof : Bool} {a i e : Nat} (ha : a ≤ i) (ha' : sof = false → a < i) (hi : i < e) (he : e ≤ s.length) : s[i] ∈ body s sof a e := by
  cases sof with
  | true => exact mem_slice ha hi he
  | false => exact mem_slice (ha' rfl) hi he

theorem find_going (hL : Opening L) : ∀ (r : List Nat) (i : Nat) (cur : Cur), s.drop i = r → i ≤ s.length → GoingC L s P i cur → P (L.find true cur i r) := by
  intro r
  induction r with
  | nil =>
    intro i cur hr hi hinv
    have hlen : i = s.length := by
      have : (s.drop i).length = 0 := by rw [hr]; rfl
      rw [List.length_drop] at this; omega
    match cur, hinv with
    | none, hinv =>
      simp only [Lexer.find, if_true]
      exact hinv _ (.inr ⟨by rw [hlen]; exact .nothing, rfl⟩)
    | some (q, a, m), ⟨sof, hg⟩ =>
      simp only [Lexer.find, if_true]
      by_cases hacc : L.dfa.isAccepting q = true
      · rw [if_pos hacc]
        have hpos : a < i := by
          have := hg.ai
          rcases Nat.lt_or_ge a i with h | h
          · exact h
          · have := hg.start (by omega); rw [hacc] at this; cases this
        have hcand : L.Cand s sof a i := cand_at hpos hi hg.run (.inl hlen) hacc
        obtain ⟨e', h1, h2⟩ : ∃ e', L.Cand s sof a e' ∧ newline ∉ body s sof a e' := by
          match m, hg with
          | none, hg => exact ⟨i, hcand, (hg.none rfl).1⟩
          | some (e, ty), hg => exact (hg.some e ty rfl).2.2.1
        have := hg.found i e' h1 h2 ⟨hcand, fun e'' he => by have := he.2.1; omega⟩
        rwa [typesOn_eq hg.run] at this
      · rw [if_neg hacc]
        have hno : ∀ e', L.Cand s sof a e' → e' < i := by
          intro e' he'
          have h1 := he'.2.1
          by_contra h2
          have : e' = i := by omega
          subst this
          exact hacc (cand_acc hg.run he')
        match m, hg with
        | some (e, ty), hg =>
          obtain ⟨rfl, h1, ⟨e', g1, g2⟩, h2⟩ := hg.some e ty rfl
          exact hg.found e e' g1 g2 ⟨h1, fun e' he' => h2 e' he' (hno e' he')⟩
        | none, hg =>
          obtain ⟨h1, h2, h3⟩ := hg.none rfl
          refine hg.stuck i (fun e he => ?_) ⟨hg.ai, hg.ai', hi, by rw [hg.run]; rfl, h1, fun y' h4 h5 => by omega⟩ _
            (.inr ⟨by rw [hlen]; exact .nothing, rfl⟩)
          have := h2 e he; have := hno e he; omega
  | cons c r ih =>
    intro i cur hr hi hinv
    have hil : i < s.length := by
      have : (s.drop i).length = r.length + 1 := by rw [hr]; rfl
      rw [List.length_drop] at this; omega
    rw [List.drop_eq_getElem_cons hil] at hr
    simp only [List.cons.injEq] at hr
    obtain ⟨rfl, hr⟩ := hr
    match cur, hinv with
    | none, hinv =>
      simp only [Lexer.find]
      exact ih _ _ hr (by omega) (restart_going hL hil (b := false) (fun h => by cases h) hinv)
    | some (q, a, m), ⟨sof, hg⟩ =>
      have hsuc : ∀ q', L.dfa.next q s[i] = some q' → L.dfa.run 0 (pre sof ++ slice s a (i + 1)) = some q' := by
        intro q' h
        rw [slice_succ hg.ai hil, ← List.append_assoc, run_append, hg.run]
        simp [run_one, h]
      have hcn : L.cand q i s[i] m = none → newline ∉ body s sof a i ∧ (∀ e, L.Cand s sof a e → i + 1 ≤ e) ∧ (sof = false → s[a]? ≠ some newline) := by
        intro hcn
        unfold Lexer.cand at hcn
        split at hcn
        · simp at hcn
        · rename_i hacc
          obtain ⟨g1, g2, g3⟩ := hg.none hcn
          refine ⟨g1, fun e he => ?_, g3⟩
          have h1 := g2 e he
          by_contra hlt
          have : e = i := by omega
          subst this
          rcases he.2.2.2 with h | ⟨c, h, h'⟩ | ⟨h0, h⟩
          · omega
          · rw [List.getElem?_eq_getElem hil, Option.some.injEq] at h
            rw [h, h', cand_acc hg.run he] at hacc
            simp at hacc
          · rw [slice_cons he.1 he.2.1] at h
            simp only [List.cons.injEq] at h
            exact g3 h0 (by rw [List.getElem?_eq_getElem (by have := he.1; omega), h.1])
      have hcs : ∀ e ty, L.cand q i s[i] m = some (e, ty) → ty = L.typesOn s sof a e ∧ L.Cand s sof a e ∧
          (∃ e', L.Cand s sof a e' ∧ newline ∉ body s sof a e') ∧ ∀ e', L.Cand s sof a e' → e' < i + 1 → e' ≤ e := by
        intro e ty hcs
        unfold Lexer.cand at hcs
        split at hcs
        · rename_i hacc
          simp only [hL.nlOk.delims, Bool.not_true, Bool.or_false, Bool.and_eq_true] at hacc
          simp only [Option.some.injEq, Prod.mk.injEq] at hcs
          obtain ⟨rfl, rfl⟩ := hcs
          have hpos : a < i := by
            have := hg.ai
            rcases Nat.lt_or_ge a i with h | h
            · exact h
            · have := hg.start (by omega); rw [hacc.2] at this; cases this
          have hcand : L.Cand s sof a i := cand_at hpos hi hg.run (.inr ⟨s[i], List.getElem?_eq_getElem hil, hacc.1⟩) hacc.2
          refine ⟨(typesOn_eq hg.run).symm, hcand, ?_, fun e' _ h => by omega⟩
          match m, hg with
          | none, hg => exact ⟨i, hcand, (hg.none rfl).1⟩
          | some (e, ty), hg => exact (hg.some e ty rfl).2.2.1
        · rename_i hacc
          obtain ⟨h1, h2, h2', h3⟩ := hg.some e ty hcs
          refine ⟨h1, h2, h2', fun e' he' hlt => ?_⟩
          by_cases hei : e' = i
          · subst hei
            rcases he'.2.2.2 with h | ⟨c, h, h'⟩ | ⟨_, h⟩
            · omega
            · rw [List.getElem?_eq_getElem hil, Option.some.injEq] at h
              rw [h, h', cand_acc hg.run he'] at hacc
              simp at hacc
            · have hl := slice_length (s := s) (a := a) he'.2.1
              rw [h] at hl
              have := h2.1
              simp at hl; omega
          · exact h3 e' he' (by omega)
      have hai : i = a → L.cand q i s[i] m = m := by
        intro e
        have := hg.start e.symm
        simp [Lexer.cand, this]
      simp only [Lexer.find]
      split
      · rename_i hcond
        simp only [Bool.and_eq_true, beq_iff_eq, Option.isNone_iff_eq_none] at hcond
        obtain ⟨h1, h2, h3⟩ := hcn hcond.2
        have hmem : ∀ e, i < e → e ≤ s.length → newline ∈ body s sof a e := by
          intro e h h'
          rw [← hcond.1.1]
          exact mem_body hg.ai hg.ai' h h'
        refine ih _ _ hr (by omega) (enter_going hL hil (b := true) (.inl rfl) fun f hf => hg.stuck i (fun e he => hmem e (h2 e he) he.2.1) ?_ f hf)
        exact ⟨hg.ai, hg.ai', hi, by rw [hg.run]; rfl, h1, fun y' h4 h5 => .inl (hmem y' h4 h5)⟩
      · rename_i hcond
        cases hn : L.dfa.next q s[i] with
        | some q' =>
          refine ih _ _ hr (by omega) ⟨sof, by have := hg.ai; omega, fun _ => by have := hg.ai; omega, by omega, hsuc q' hn,
            fun h => by have := hg.ai; omega, fun hc => ⟨?_, (hcn hc).2⟩, hcs, hg.found, hg.stuck⟩
          rw [body_succ hg.ai hg.ai' hil]
          intro hm
          rcases List.mem_append.mp hm with hm | hm
          · exact (hcn hc).1 hm
          · have : newline = s[i] := by simpa using hm
            exact hcond (by simp [← this, hL.nlOk.delims]; rw [this, hc])
        | none =>
          cases hcd : L.cand q i s[i] m with
          | none =>
            obtain ⟨h1, h2, h3⟩ := hcn hcd
            refine ih _ _ hr (by omega) (restart_going hL hil (b := true) (fun _ e => ?_) fun f hf => hg.stuck i (fun e he => ?_) ?_ f hf)
            · exact hcond (by simp [e, hL.nlOk.delims]; rw [← e]; simpa using hcd)
            · have h4 := h2 e he
              have h5 := cand_dead hg.ai hil hg.run hn he
              omega
            · refine ⟨hg.ai, hg.ai', hi, by rw [hg.run]; rfl, h1, fun y' h4 h5 => .inr ?_⟩
              have e1 : slice s a y' = slice s a (i + 1) ++ slice s (i + 1) y' := slice_append (by have := hg.ai; omega) (by omega)
              rw [e1, slice_succ hg.ai hil, ← List.append_assoc, run_append, ← List.append_assoc, run_append, hg.run]
              simp [run_one, hn]
          | some x =>
            obtain ⟨e, ty⟩ := x
            obtain ⟨rfl, h1, ⟨e', g1, g2⟩, h2⟩ := hcs e ty hcd
            refine hg.found e e' g1 g2 ⟨h1, fun e' he' => h2 e' he' ?_⟩
            have := cand_dead hg.ai hil hg.run hn he'
            omega

/-- Looking from the end of the previous token. -/
theorem look_at_search (hL : Opening L) {p : Nat} (hp : p ≤ s.length) : SearchF L s p true (L.look s true (.at p)) := by
  simp only [Lexer.look]
  by_cases hl : p < s.length
  · rw [List.drop_eq_getElem_cons hl]
    simp only [Lexer.find]
    have hcn : L.cand 0 p s[p] none = none := by simp [Lexer.cand, hL.nlOk.root]
    rw [hcn]
    by_cases hn : s[p] = newline
    · rw [if_pos (by simp [hn, hL.nlOk.delims])]
      exact find_going (P := SearchF L s p true) hL _ _ _ rfl (by omega) (enter_going hL hl (.inl rfl) fun _ h => h)
    · rw [if_neg (by simp [hn])]
      cases hd : L.dfa.next 0 s[p] with
      | none => exact find_going (P := SearchF L s p true) hL _ _ _ rfl (by omega) (restart_going hL hl (fun _ => hn) fun _ h => h)
      | some q =>
        simp only
        have := enter_going (P := SearchF L s p true) hL hl (b := true) (.inl rfl) fun _ h => h
        simp only [Lexer.enter, hd, Option.map_some, beq_eq_false_iff_ne.mpr hn, Bool.false_and, Bool.false_eq_true, if_false] at this
        exact find_going hL _ _ _ rfl (by omega) this
  · have : p = s.length := by omega
    rw [List.drop_eq_nil_of_le (by omega)]
    simp only [Lexer.find, hL.nlOk.root, if_true, Bool.false_eq_true, if_false]
    exact .inr ⟨by rw [this]; exact .nothing, rfl⟩

/-- Looking from the start of the file. -/
theorem look_sof_search (hL : Opening L) {q : Nat} (hq : CfgOk L s (.sof q)) :
    (∃ e' e, L.Cand s true 0 e' ∧ newline ∉ s.take e' ∧ L.Longest s true 0 e ∧ L.look s true (.sof q) = .tok 0 e (L.typesOn s true 0 e)) ∨
    (L.NoStart s ∧ ∃ h, L.Hidden s h ∧ SearchF L s h true (L.look s true (.sof q))) := by
  refine find_going (s := s) (P := fun f => (∃ e' e, L.Cand s true 0 e' ∧ newline ∉ s.take e' ∧ L.Longest s true 0 e ∧ f = .tok 0 e (L.typesOn s true 0 e)) ∨
    (L.NoStart s ∧ ∃ h, L.Hidden s h ∧ SearchF L s h true f)) hL s 0 (some (q, 0, none)) (by simp) (by omega) ⟨true, ?_⟩
  refine { ai := Nat.le_refl _, ai' := ?_, il := by omega, run := ?_, start := fun _ => hq.2, none := ?_, some := ?_, found := ?_, stuck := ?_ }
  · intro h; cases h
  · simp [pre, slice_self, Dfa.run, hq.1]
  · exact fun _ => ⟨by simp [body, slice_self], fun e _ => by omega, fun h => by cases h⟩
  · intro e ty h; cases h
  · intro e e' h1 h2 h3
    exact .inl ⟨e', e, h1, by simpa [body, slice] using h2, h3, rfl⟩
  · intro y h1 h2 f hf
    exact .inr ⟨fun e he => by simpa [body, slice] using h1 e he, y, h2.hidden, hf⟩

theorem Search.le {x : Nat} {b : Bool} {r : Option (Nat × Nat)} (h : Search L s x b r) : x ≤ s.length := by
  induction h with
  | nothing => exact Nat.le_refl _
  | found _ _ _ h => have := h.1.1; have := h.1.2.1; omega
  | skip h => omega
  | past _ _ h => have := h.1; have := h.2.1; omega

theorem Search.some {x : Nat} {b : Bool} {a e : Nat} (h : Search L s x b (some (a, e))) : x ≤ a ∧ a < e ∧ e ≤ s.length ∧ L.Longest s false a e := by
  generalize hr : Option.some (a, e) = r at h
  induction h with
  | nothing => cases hr
  | found _ _ _ h => cases hr; exact ⟨Nat.le_refl _, h.1.1, h.1.2.1, h⟩
  | skip _ _ _ ih => obtain ⟨h1, h2⟩ := ih hr; exact ⟨by omega, h2⟩
  | past _ _ h _ ih => obtain ⟨h1, h2⟩ := ih hr; have := h.1; exact ⟨by omega, h2⟩

theorem pureAll_at (hL : Opening L) (hT : TypesProper L) {c : Cfg} {h k : Nat} (hnp : ∀ a e ty, c ≠ .pend a e ty)
    (hch : c.cov ≤ h) (hk : s.length - c.cov < k + 1) (hf : SearchF L s h true (L.look s true c))
    (ih : ∀ k' < k + 1, ∀ p, p ≤ s.length → s.length - p < k' → Lexed L s p p (L.pureAll s true k' (.at p)).1) :
    Lexed L s c.cov h (L.pureAll s true (k + 1) c).1 := by
  have hnt : L.nextTok s true c = match L.look s true c with
    | .tok a e ty =>
      if c.cov = a then some (⟨a, e, ty⟩, .at e) else some (⟨c.cov, a, [tokenUncaught]⟩, .pend a e ty)
    | .nothing =>
      if c.cov = s.length then some (⟨s.length, s.length, [tokenEnd]⟩, .at s.length)
      else some (⟨c.cov, s.length, [tokenUncaught]⟩, .pend s.length s.length [tokenEnd])
    | .more => none := by
    match c with
    | .sof q => rfl
    | .at p => rfl
    | .pend a e ty => exact absurd rfl (hnp a e ty)
  rw [Lexer.pureAll, hnt]
  generalize hp : c.cov = p at *
  rcases hf with ⟨a, e, h1, h2⟩ | ⟨h1, h2⟩
  · rw [h2]
    obtain ⟨g1, g2, g3, g4⟩ := h1.some
    simp only
    by_cases he : p = a
    · rw [if_pos he]; subst he
      simp only
      rw [if_neg (types_ne_end hT)]
      exact .here h1 (ih k (by omega) e g3 (by omega))
    · rw [if_neg he]
      simp only
      rw [if_neg (by simp [tokenEnd, tokenUncaught])]
      obtain ⟨k, rfl⟩ : ∃ j, k = j + 1 := ⟨k - 1, by omega⟩
      simp only [Lexer.pureAll, Lexer.nextTok]
      rw [if_neg (types_ne_end hT)]
      exact .later (by omega) h1 (ih k (by omega) e g3 (by omega))
  · rw [h2]
    have := h1.le
    simp only
    by_cases he : p = s.length
    · have : h = s.length := by omega
      rw [if_pos he]; subst he; subst this
      simp only [if_true]
      exact .done
    · rw [if_neg he]
      simp only
      rw [if_neg (by simp [tokenEnd, tokenUncaught])]
      obtain ⟨k, rfl⟩ : ∃ j, k = j + 1 := ⟨k - 1, by omega⟩
      simp only [Lexer.pureAll, Lexer.nextTok, if_true]
      exact .rest (by omega) h1

theorem pureAll_lexed (hL : Opening L) (hT : TypesProper L) :
    ∀ (k p : Nat), p ≤ s.length → s.length - p < k → Lexed L s p p (L.pureAll s true k (.at p)).1 := by
  intro k
  induction k using Nat.strongRecOn with
  | _ k ih =>
    intro p hp hk
    obtain ⟨k, rfl⟩ : ∃ j, k = j + 1 := ⟨k - 1, by omega⟩
    exact pureAll_at (c := .at p) hL hT (by intros; simp) (Nat.le_refl _) hk (look_at_search hL hp) (fun k' hk' p hp h => ih k' hk' p hp h)

theorem pureAll_all (hL : Opening L) (hT : TypesProper L) {q k : Nat} (hq : CfgOk L s (.sof q)) (hk : s.length < k) :
    LexedAll L s (L.pureAll s true k (.sof q)).1 := by
  obtain ⟨k, rfl⟩ : ∃ j, k = j + 1 := ⟨k - 1, by omega⟩
  rcases look_sof_search hL hq with ⟨e', e, h0, h0', h1, h2⟩ | ⟨h1, h, h2, h3⟩
  · have hae := h1.1.1
    have hen := h1.1.2.1
    rw [Lexer.pureAll]
    simp only [Lexer.nextTok, h2, Cfg.cov, if_true]
    rw [if_neg (types_ne_end hT)]
    exact .start h0 h0' h1 (pureAll_lexed hL hT k e hen (by omega))
  · exact .plain h1 h2 (pureAll_at (c := .sof q) hL hT (by intros; simp) (Nat.zero_le _) (by simp only [Cfg.cov]; omega) h3
      (fun k' _ p hp h => pureAll_lexed hL hT k' p hp h))

/-! ### The specification determines the tokens -/

theorem Lexer.Gap.unique {x y y' : Nat} (H : L.Gap s x y) (H' : L.Gap s x y') : y = y' := by
  rcases Nat.lt_trichotomy y y' with e | e | e
  · rcases H.2.2.2.2 y' e H'.2.1 with g | g
    · exact absurd g H'.2.2.2.1
    · rw [H'.2.2.1] at g; cases g
  · exact e
  · rcases H'.2.2.2.2 y e H.2.1 with g | g
    · exact absurd g H.2.2.2.1
    · rw [H.2.2.1] at g; cases g

theorem Lexer.Starts.lt {x : Nat} {b : Bool} (h : L.Starts s x b) : x < s.length := by
  obtain ⟨c, h, _⟩ := h
  exact (List.getElem?_eq_some_iff.mp h).1

theorem Search.unique {x : Nat} {b : Bool} {r r' : Option (Nat × Nat)} (h : Search L s x b r) (h' : Search L s x b r') : r = r' := by
  induction h generalizing r' with
  | nothing =>
    generalize hx : s.length = x at h'
    cases h' with
    | nothing => rfl
    | found h => have := h.lt; omega
    | skip h => omega
    | past h => have := h.lt; omega
  | found h1 h2 h3 h4 =>
    cases h' with
    | nothing => have := h1.lt; omega
    | found _ _ _ g4 => rw [h4.unique g4]
    | skip _ h => exact absurd h1 h
    | past _ h => exact absurd (h _ h2) h3
  | skip h1 h2 _ ih =>
    cases h' with
    | nothing => omega
    | found g => exact absurd g h2
    | skip _ _ g => exact ih g
    | past g => exact absurd g h2
  | past h1 h2 h3 _ ih =>
    cases h' with
    | nothing => have := h1.lt; omega
    | found _ g2 g3 => exact absurd (h2 _ g2) g3
    | skip _ h => exact absurd h1 h
    | past _ _ g3 g4 => rw [← h3.unique g3] at g4; exact ih g4

theorem Lexed.unique {p h : Nat} {t t' : List PTok} (H : Lexed L s p h t) (H' : Lexed L s p h t') : t = t' := by
  have hlt : ∀ {p h e : Nat}, Search L s h true (some (p, e)) → p < s.length := by
    intro p h e h
    have := h.some; omega
  induction H generalizing t' with
  | done =>
    cases H' with
    | done => rfl
    | rest h => omega
    | here h => have := hlt h; omega
    | later h g => have := hlt g; omega
  | rest h1 h2 =>
    cases H' with
    | done => omega
    | rest => rfl
    | here g => cases h2.unique g
    | later _ g => cases h2.unique g
  | here h1 h2 ih =>
    cases H' with
    | done => have := hlt h1; omega
    | rest _ g => cases h1.unique g
    | here g1 g2 => cases h1.unique g1; rw [ih g2]
    | later g0 g1 => cases h1.unique g1; omega
  | later h0 h1 h2 ih =>
    cases H' with
    | done => have := hlt h1; omega
    | rest _ g => cases h1.unique g
    | here g1 => cases h1.unique g1; omega
    | later _ g1 g2 => cases h1.unique g1; rw [ih g2]

theorem LexedAll.unique {t t' : List PTok} (h : LexedAll L s t) (h' : LexedAll L s t') : t = t' := by
  cases h with
  | start h1 h2 h3 h4 =>
    cases h' with
    | start _ _ g3 g4 => obtain rfl := h3.unique g3; rw [h4.unique g4]
    | plain g => exact absurd (g _ h1) h2
  | plain h1 h2 h3 =>
    cases h' with
    | start g1 g2 => exact absurd (h1 _ g1) g2
    | plain _ g2 g3 => obtain rfl := h2.unique g2; exact h3.unique g3

end LogSurgeon
