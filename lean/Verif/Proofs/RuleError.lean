import Verif.Model.RuleError
import Verif.Spec.RuleError
import Verif.Props.FileReader
import Verif.Proofs.EndToEnd
/-
The messages of `add_rules`.
-/
namespace LogSurgeon

/-- What is left when the text of a message is forgotten. -/
def RuleFail.erase : RuleFail → Fail
  | .message _ => .throws
  | .fail e => e

theorem readLine_of_lines : ∀ (k n : Nat) (r : FileReader) (l0 l1 : List Nat) (out : List (List Nat)) (t : List Nat),
    FileReader.readLines 10 false k r l0 = some out → out[n]? = some t → readLine (n + 1) r l1 = some t := by
  intro k
  induction k with
  | zero => intro n r l0 l1 out t h; cases h
  | succ k ih =>
    intro n r l0 l1 out t h ht
    have hs : r.tryReadToDelimiter 10 false false l1 = r.tryReadToDelimiter 10 false false l0 := by
      simp [FileReader.tryReadToDelimiter]
    unfold FileReader.readLines at h
    unfold readLine
    rw [hs]
    generalize r.tryReadToDelimiter 10 false false l0 = res at h ⊢
    match res, h with
    | none, h => cases h
    | some (r', c, line), h =>
      have hne : c ≠ .endOfFile := by
        rintro rfl
        simp only [Option.some.injEq] at h
        subst h
        simp at ht
      have h' : (FileReader.readLines 10 false k r' line).map (line :: ·) = some out := by
        cases c <;> first | exact absurd rfl hne | exact h
      simp only [Option.map_eq_some_iff] at h'
      obtain ⟨out', h1, rfl⟩ := h'
      cases n with
      | zero =>
        simp only [List.getElem?_cons_zero, Option.some.injEq] at ht
        subst ht
        rfl
      | succ n => exact ih n r' line line out' t h1 ht

/-- An open file can be read however often. -/
theorem readLine_total : ∀ (n : Nat) (f : OpenFile) (l : List Nat), ∃ t, readLine n { file := some f } l = some t := by
  intro n
  induction n with
  | zero => exact fun f l => ⟨l, rfl⟩
  | succ n ih =>
    intro f l
    unfold readLine
    have : ∃ f' c l', FileReader.tryReadToDelimiter { file := some f } 10 false false l = some ({ file := some f' }, c, l') := by
      obtain ⟨r', c, got, h1, h2, h3⟩ := C40_append f.content l 10 false f.pos f.eof
      have hf : (⟨f.content, f.pos, f.eof⟩ : OpenFile) = f := rfl
      rw [hf] at h2
      have h2' := h2
      unfold FileReader.tryReadToDelimiter at h2
      simp only at h2
      split at h2
      · split at h2
        · simp only [Option.some.injEq, Prod.mk.injEq] at h2
          obtain ⟨h2, _, _⟩ := h2
          subst h2
          exact ⟨_, _, _, h2'⟩
        · cases h2
      · simp only [Option.some.injEq, Prod.mk.injEq] at h2
        obtain ⟨h2, _, _⟩ := h2
        subst h2
        exact ⟨_, _, _, h2'⟩
    obtain ⟨f', c, l', h⟩ := this
    rw [h]
    exact ih f' l'

theorem ruleError_message (fs : List Nat → Option (List Nat)) (path : List Nat) (name : String) (line d : Nat) :
    ∃ more, ruleError fs path name line d = .message (ruleHead path name line d ++ more) := by
  unfold ruleError FileReader.tryOpen
  cases fs path with
  | none => exact ⟨[], by simp⟩
  | some content =>
    obtain ⟨t, ht⟩ := readLine_total (line + 1) { content := content } []
    simp only [ht]
    exact ⟨_, rfl⟩

theorem addVarM_erase (fs : List Nat → Option (List Nat)) (path ds : List Nat) (t : ParserTables) (v : SchemaVar) (line : Nat) :
    (ParserTables.addVarM fs path ds t v line).mapError RuleFail.erase = ParserTables.addVar ds t v := by
  unfold ParserTables.addVarM ParserTables.addVar
  by_cases hn : v.name = "timestamp"
  · simp only [if_pos hn]; rfl
  · simp only [if_neg hn]
    cases hf : ds.find? (v.regex.removeDelims ds).possible with
    | none =>
      rw [List.find?_eq_none] at hf
      have : ds.any (v.regex.removeDelims ds).possible = false := by
        rw [List.any_eq_false]; exact hf
      rw [this]; rfl
    | some d =>
      have h1 := List.find?_some hf
      have h2 := List.mem_of_find?_eq_some hf
      have : ds.any (v.regex.removeDelims ds).possible = true := List.any_eq_true.mpr ⟨d, h2, h1⟩
      rw [this]
      obtain ⟨more, hm⟩ := ruleError_message fs path v.name line d
      simp only [hm]
      rfl

theorem addVarsM_erase (fs : List Nat → Option (List Nat)) (path ds : List Nat) : ∀ (vs : List (SchemaVar × Nat)) (t : ParserTables),
    (ParserTables.addVarsM fs path ds vs t).mapError RuleFail.erase = ParserTables.addVars ds (vs.map (·.1)) t := by
  intro vs
  induction vs with
  | nil => intro t; rfl
  | cons x vs ih =>
    obtain ⟨v, line⟩ := x
    intro t
    have h := addVarM_erase fs path ds t v line
    simp only [List.map_cons, ParserTables.addVarsM, ParserTables.addVars]
    rw [← h]
    cases ParserTables.addVarM fs path ds t v line with
    | error e => rfl
    | ok t' => exact ih t'

theorem addRulesM_erase (fs : List Nat → Option (List Nat)) (path : List Nat) (s : SchemaAST) (lines : List Nat)
    (hl : s.vars.length ≤ lines.length) :
    (ParserTables.addRulesM fs path s lines).mapError RuleFail.erase = ParserTables.addRules s := by
  unfold ParserTables.addRulesM ParserTables.addRules
  cases ParserTables.addAllDelimiters s.delims ParserTables.init with
  | none => rfl
  | some t =>
    cases he : t.delimList.isEmpty with
    | true => simp only [he, if_true]; rfl
    | false =>
      simp only [he]
      have := addVarsM_erase fs path t.delimList (s.vars.zip lines) (t.addRule "newLine" (.mkLiteral newline))
      rw [List.map_fst_zip (by omega)] at this
      exact this

/-- The first variable that contains a delimiter is complained about. -/
theorem addVarsM_first (fs : List Nat → Option (List Nat)) (path ds : List Nat) : ∀ (vs : List (SchemaVar × Nat)) (i : Nat) (v : SchemaVar) (line d : Nat)
    (t : ParserTables), vs[i]? = some (v, line) → v.name ≠ "timestamp" → ds.find? (v.regex.removeDelims ds).possible = some d →
    (∀ (j : Nat) x, j < i → vs[j]? = some x → x.1.name ≠ "timestamp" → ∀ d ∈ ds, (x.1.regex.removeDelims ds).possible d = false) →
    ParserTables.addVarsM fs path ds vs t = .error (ruleError fs path v.name line d) := by
  intro vs
  induction vs with
  | nil => intro i v line d t h; simp at h
  | cons x vs ih =>
    obtain ⟨v', line'⟩ := x
    intro i v line d t h hn hf hfirst
    cases i with
    | zero =>
      simp only [List.getElem?_cons_zero, Option.some.injEq, Prod.mk.injEq] at h
      obtain ⟨rfl, rfl⟩ := h
      simp only [ParserTables.addVarsM, ParserTables.addVarM, if_neg hn, hf]
    | succ i =>
      have : ∃ t', ParserTables.addVarM fs path ds t v' line' = .ok t' := by
        unfold ParserTables.addVarM
        by_cases hn' : v'.name = "timestamp"
        · exact ⟨_, if_pos hn'⟩
        · simp only [if_neg hn']
          have : ds.find? (v'.regex.removeDelims ds).possible = none := by
            rw [List.find?_eq_none]
            intro d' hd'
            have := hfirst 0 (v', line') (by omega) rfl hn' d' hd'
            simp only at this
            simp [this]
          rw [this]
          exact ⟨_, rfl⟩
      obtain ⟨t', ht'⟩ := this
      simp only [ParserTables.addVarsM, ht']
      exact ih i v line d t' h hn hf (fun j x hj hx => hfirst (j + 1) x (by omega) (by simpa using hx))

theorem find_least {ds : List Nat} (hs : ds.Pairwise (· < ·)) {p : Nat → Bool} {d : Nat} (hd : d ∈ ds) (hp : p d = true)
    (hmin : ∀ d' ∈ ds, p d' = true → d ≤ d') : ds.find? p = some d := by
  cases hf : ds.find? p with
  | none =>
    rw [List.find?_eq_none] at hf
    exact absurd hp (hf d hd)
  | some e =>
    have h1 := List.find?_some hf
    have h2 := List.mem_of_find?_eq_some hf
    have h3 := hmin e h2 h1
    by_cases he : e = d
    · rw [he]
    · exfalso
      obtain ⟨_, as, bs, h4, h5⟩ := List.find?_eq_some_iff_append.mp hf
      rw [h4] at hd hs
      rw [List.mem_append, List.mem_cons] at hd
      rcases hd with hd | hd | hd
      · have := h5 d hd; simp [hp] at this
      · exact he hd.symm
      · have hs := (List.pairwise_append.mp hs).2.1
        have := (List.pairwise_cons.mp hs).1 d hd
        omega

theorem colonPos_spec : ∀ (name pat : List Nat), 58 ∉ name → colonPos (name ++ 58 :: pat) = name.length + 1 := by
  intro name
  induction name with
  | nil => intro pat _; simp [colonPos]
  | cons c cs ih =>
    intro pat h
    rw [List.mem_cons, not_or] at h
    simp only [List.cons_append, colonPos]
    rw [if_neg (fun e => h.1 e.symm), ih pat h.2]
    rfl

theorem ruleDetail_marked {name pat : List Nat} (h : 58 ∉ name) : ruleDetail (name ++ 58 :: pat) = markedLine name pat := by
  unfold ruleDetail markedLine
  rw [colonPos_spec name pat h]
  have h10 : List.replicate 10 32 = asciiBytes "          " := by decide
  have hc : asciiBytes ":" = [58] := by decide
  have hn : asciiBytes "\n" = [10] := by decide
  have hlen : (name ++ 58 :: pat).length - (name.length + 1) = pat.length := by simp; omega
  rw [h10, hc, hn, hlen]
  simp

theorem ruleHead_complaint {path : List Nat} {name : String} {line d : Nat} (h : line + 1 < 2 ^ 32) :
    ruleHead path name line d = delimiterComplaint path (line + 1) name d := by
  unfold ruleHead delimiterComplaint
  rw [Nat.mod_eq_of_lt h]
  rfl

theorem delimBytes_sorted (a : SchemaAST) : a.delimBytes.Pairwise (· < ·) :=
  List.Pairwise.filter _ List.pairwise_lt_range

open SchemaText in
/-- What `add_rules` throws if a variable contains a delimiter. -/
theorem addRulesM_offence {s : SchemaText} {a : SchemaAST} (hb : s.Builds a) (hw : s.Wf) (hne : s.delims ≠ []) {i : Nat} {name : String} {d : Nat}
    (h : s.FirstOffence i name d) {lines : List Nat} {line : Nat} (hl : lines[i]? = some line)
    (fs : List Nat → Option (List Nat)) (path : List Nat) :
    ParserTables.addRulesM fs path a lines = .error (ruleError fs path name line d) := by
  have hd : ∀ ds ∈ a.delims, ds ≠ [] ∧ ∀ d ∈ ds, d < cSizeOfByte := by
    intro ds hds
    rw [hb.1] at hds
    exact ⟨(hw.delims ds hds).1, fun d h => Nat.lt_trans ((hw.delims ds hds).2 d h) (by decide)⟩
  obtain ⟨t0, ht0⟩ := addAllDelimiters_total a.delims hd ParserTables.init
  obtain ⟨_, _, _, a4, _, _⟩ := addAllDelimiters_spec a.delims ht0
  have hl0 : t0.delimList = a.delimBytes := by
    unfold ParserTables.delimList SchemaAST.delimBytes
    rw [a4]
    cases hgl : a.delims.getLast? with
    | none =>
      rw [List.getLast?_eq_none_iff, hb.1] at hgl
      exact absurd hgl hne
    | some ds =>
      congr 1
      funext c
      simp [delimTable_eq]
  have hmem : ∀ c, c ∈ a.delimBytes ↔ (c ∈ s.delimiters ∨ c = 0xFD) := fun c => (hb.mem_delimBytes hw c).trans or_comm
  have at_ : ∀ {j : Nat} {v}, s.vars[j]? = some v → ∃ x, a.vars[j]? = some x ∧ x.name = v.1 ∧ v.2.elab = some x.regex := by
    intro j v hv
    have hlen := hb.2.length_eq
    have hj : j < s.vars.length := (List.getElem?_eq_some_iff.mp hv).1
    obtain ⟨_, hv'⟩ := List.getElem?_eq_some_iff.mp hv
    refine ⟨a.vars[j]'(by omega), List.getElem?_eq_getElem (by omega), ?_⟩
    have := List.forall₂_iff_get.mp hb.2
    have := this.2 j hj (by omega)
    simp only [List.get_eq_getElem] at this
    rw [hv'] at this
    exact this
  obtain ⟨p, hp1, hp2, hp3⟩ := h.here
  obtain ⟨x, hx1, hx2, hx3⟩ := at_ hp1
  simp only at hx2 hx3
  have hposs : ∀ {c}, c ∈ a.delimBytes → ((x.regex.removeDelims a.delimBytes).possible c = true ↔ p.Mentions false c) :=
    fun hc => removed_possible (delimBytes_ne a) (delimBytes_max a) hc p hx3
  have hdm : d ∈ a.delimBytes := (hmem d).mpr hp2.2.1
  unfold ParserTables.addRulesM
  rw [ht0]
  simp only [hl0]
  have : a.delimBytes.isEmpty = false := by simpa using delimBytes_ne a
  rw [this]
  simp only [Bool.false_eq_true, if_false]
  rw [← hx2]
  refine addVarsM_first fs path a.delimBytes (a.vars.zip lines) i x line d _ ?_ (by rw [hx2]; exact hp2.1) ?_ ?_
  · rw [List.getElem?_zip_eq_some]; exact ⟨hx1, hl⟩
  · refine find_least (delimBytes_sorted a) hdm ((hposs hdm).mpr hp2.2.2) ?_
    intro d' hd' hp'
    exact hp3 d' ⟨hp2.1, (hmem d').mp hd', (hposs hd').mp hp'⟩
  · rintro j ⟨v, l⟩ hj hv hts d' hd'
    rw [List.getElem?_zip_eq_some] at hv
    simp only at hv hts ⊢
    have hji : j < s.vars.length := by
      have := (List.getElem?_eq_some_iff.mp hp1).1; omega
    have hsv := List.getElem?_eq_getElem hji
    obtain ⟨x', e1, e2, e3⟩ := at_ hsv
    rw [e1] at hv
    have hx' : x' = v := by simpa using hv.1
    subst hx'
    rw [Bool.eq_false_iff]
    intro hpo
    have := (removed_possible (delimBytes_ne a) (delimBytes_max a) hd' _ e3).mp hpo
    exact h.first j _ hj hsv d' ⟨by rw [← e2]; exact hts, (hmem d').mp hd', this⟩

end LogSurgeon
