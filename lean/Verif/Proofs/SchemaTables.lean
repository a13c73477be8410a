import Verif.Spec.Schema
import Mathlib.Data.List.Forall2
/-
Symbol tables, delimiters and rules after `add_rules`.
-/
namespace LogSurgeon

/-- Consistency of the two symbol maps. -/
structure SymOk (t : ParserTables) : Prop where
  names : (t.symbolId.map (·.1)).Nodup
  ids : ∀ i, i < t.symbolId.length ↔ i ∈ t.symbolId.map (·.2)
  idsNodup : (t.symbolId.map (·.2)).Nodup
  swap : t.idSymbol = t.symbolId.map fun p => (p.2, p.1)
  reserved : ∀ p ∈ reserved, p ∈ t.symbolId

theorem symOk_init : SymOk ParserTables.init := by
  refine ⟨by decide, ?_, by decide, rfl, fun p hp => hp⟩
  intro i
  show i < 8 ↔ i ∈ [0, 1, 2, 3, 4, 5, 6, 7]
  simp; omega

theorem lookup_isSome_iff {α β : Type} [BEq α] [LawfulBEq α] {a : α} {l : List (α × β)} :
    (∃ b, l.lookup a = some b) ↔ a ∈ l.map (·.1) := by
  induction l with
  | nil => simp
  | cons x l ih =>
    obtain ⟨x1, x2⟩ := x
    simp only [List.lookup_cons]
    by_cases h : a = x1
    · subst h; simp
    · have : (a == x1) = false := by simpa using h
      simp only [this, List.map_cons, List.mem_cons, h, false_or]
      exact ih

theorem lookup_eq_some_of_nodup {α β : Type} [BEq α] [LawfulBEq α] {a : α} {b : β} {l : List (α × β)}
    (hn : (l.map (·.1)).Nodup) : l.lookup a = some b ↔ (a, b) ∈ l := by
  induction l with
  | nil => simp
  | cons x l ih =>
    obtain ⟨x1, x2⟩ := x
    simp only [List.map_cons, List.nodup_cons] at hn
    simp only [List.lookup_cons]
    by_cases h : a = x1
    · subst h
      simp only [beq_self_eq_true, List.mem_cons, Prod.mk.injEq, true_and]
      constructor
      · intro h; simp at h; exact .inl h.symm
      · rintro (h | h)
        · simp [h]
        · exact absurd (List.mem_map_of_mem (f := (·.1)) h) hn.1
    · have : (a == x1) = false := by simpa using h
      simp only [this, List.mem_cons, Prod.mk.injEq, h, false_and, false_or]
      exact ih hn.2

theorem SymOk.inverse {t : ParserTables} (h : SymOk t) (name : String) (id : Nat) :
    t.getSymbolId name = some id ↔ t.getIdSymbol id = some name := by
  unfold ParserTables.getSymbolId ParserTables.getIdSymbol
  rw [lookup_eq_some_of_nodup h.names, lookup_eq_some_of_nodup (by
    rw [h.swap, List.map_map]; exact h.idsNodup), h.swap]
  simp

theorem symOk_addRule {t : ParserTables} (h : SymOk t) (name : String) (re : Regex) :
    SymOk (t.addRule name re) := by
  unfold ParserTables.addRule
  split
  · exact ⟨h.names, h.ids, h.idsNodup, h.swap, h.reserved⟩
  · rename_i hl
    have hn : name ∉ t.symbolId.map (·.1) := by
      intro hc
      obtain ⟨b, hb⟩ := lookup_isSome_iff.mpr hc
      rw [hb] at hl; cases hl
    refine ⟨?_, ?_, ?_, ?_, ?_⟩
    · simp only [List.map_cons, List.nodup_cons]; exact ⟨hn, h.names⟩
    · intro i
      simp only [List.length_cons, List.map_cons, List.mem_cons]
      rw [← h.ids i]; omega
    · simp only [List.map_cons, List.nodup_cons]
      exact ⟨fun hc => by have := (h.ids t.symbolId.length).mpr hc; omega, h.idsNodup⟩
    · simp [h.swap]
    · intro p hp; exact .tail _ (h.reserved p hp)

/-- Adding a rule: the names known afterwards, the old entries are kept, the new rule has the id of its name. -/
theorem addRule_spec {t : ParserTables} (h : SymOk t) (name : String) (re : Regex) :
    (∀ x i, t.symbolId.lookup x = some i → (t.addRule name re).symbolId.lookup x = some i) ∧
    (∀ x, (∃ i, (t.addRule name re).symbolId.lookup x = some i) ↔ (∃ i, t.symbolId.lookup x = some i) ∨ x = name) ∧
    ∃ i, (t.addRule name re).symbolId.lookup name = some i ∧ (t.addRule name re).rules = t.rules ++ [⟨i, re⟩] := by
  unfold ParserTables.addRule
  split
  · rename_i id hl
    refine ⟨fun _ _ h => h, fun x => ⟨.inl, ?_⟩, id, hl, rfl⟩
    rintro (h | rfl)
    · exact h
    · exact ⟨id, hl⟩
  · rename_i hl
    refine ⟨?_, ?_, t.symbolId.length, by simp, rfl⟩
    · intro x i hx
      have : (x == name) = false := by
        apply beq_false_of_ne
        rintro rfl
        rw [hx] at hl; cases hl
      simp only [List.lookup_cons, this, hx]
    · intro x
      by_cases hx : x = name
      · subst hx; simp
      · have : (x == name) = false := by simpa using hx
        simp only [List.lookup_cons, this, hx, or_false]

theorem addRule_delims (t : ParserTables) (name : String) (re : Regex) :
    (t.addRule name re).isDelim = t.isDelim ∧ (t.addRule name re).hasDelims = t.hasDelims := by
  unfold ParserTables.addRule; split <;> exact ⟨rfl, rfl⟩

/-- Adding named rules one after the other. -/
def addNamed : List (String × Regex) → ParserTables → ParserTables
  | [], t => t
  | (n, r) :: l, t => addNamed l (t.addRule n r)

theorem addNamed_append (l l' : List (String × Regex)) (t : ParserTables) :
    addNamed (l ++ l') t = addNamed l' (addNamed l t) := by
  induction l generalizing t with
  | nil => rfl
  | cons x l ih => obtain ⟨n, r⟩ := x; exact ih _

theorem addNamed_spec (l : List (String × Regex)) : ∀ {t : ParserTables}, SymOk t →
    SymOk (addNamed l t) ∧
    (∀ x i, t.symbolId.lookup x = some i → (addNamed l t).symbolId.lookup x = some i) ∧
    (∀ x, (∃ i, (addNamed l t).symbolId.lookup x = some i) ↔ (∃ i, t.symbolId.lookup x = some i) ∨ x ∈ l.map (·.1)) ∧
    (∃ rs, (addNamed l t).rules = t.rules ++ rs ∧
      List.Forall₂ (fun nr r => (addNamed l t).symbolId.lookup nr.1 = some r.id ∧ r.regex = nr.2) l rs) ∧
    (addNamed l t).isDelim = t.isDelim ∧ (addNamed l t).hasDelims = t.hasDelims := by
  induction l with
  | nil => intro t h; exact ⟨h, fun _ _ h => h, by simp [addNamed], ⟨[], by simp [addNamed], .nil⟩, rfl, rfl⟩
  | cons x l ih =>
    intro t h
    obtain ⟨n, r⟩ := x
    obtain ⟨a1, a2, i, a3, a4⟩ := addRule_spec h n r
    obtain ⟨d1, d2⟩ := addRule_delims t n r
    obtain ⟨b1, b2, b3, ⟨rs, b4, b5⟩, b6, b7⟩ := ih (symOk_addRule h n r)
    refine ⟨b1, fun x j hx => b2 x j (a1 x j hx), ?_, ⟨⟨i, r⟩ :: rs, ?_, ?_⟩, by rw [← d1]; exact b6, by rw [← d2]; exact b7⟩
    · intro x
      show (∃ i, (addNamed l (t.addRule n r)).symbolId.lookup x = some i) ↔ _
      rw [b3 x, a2 x]
      simp only [List.map_cons, List.mem_cons]
      constructor
      · rintro ((h | h) | h)
        · exact .inl h
        · exact .inr (.inl h)
        · exact .inr (.inr h)
      · rintro (h | h | h)
        · exact .inl (.inl h)
        · exact .inl (.inr h)
        · exact .inr h
    · show (addNamed l (t.addRule n r)).rules = _
      rw [b4, a4]; simp
    · exact .cons ⟨b2 _ _ a3, rfl⟩ b5

theorem addVars_eq (ds : List Nat) (vs : List SchemaVar) : ∀ {t t' : ParserTables},
    ParserTables.addVars ds vs t = .ok t' →
    t' = addNamed (vs.flatMap (SchemaVar.rules ds)) t ∧
    ∀ v ∈ vs, v.name ≠ "timestamp" → ∀ d ∈ ds, (v.regex.removeDelims ds).possible d = false := by
  induction vs with
  | nil =>
    intro t t' h
    simp only [ParserTables.addVars, Except.ok.injEq] at h
    subst h; exact ⟨rfl, by simp⟩
  | cons v vs ih =>
    intro t t' h
    simp only [ParserTables.addVars] at h
    split at h
    · cases h
    · rename_i t1 h1
      obtain ⟨e1, e2⟩ := ih h
      unfold ParserTables.addVar at h1
      split at h1
      · rename_i hts
        simp only [Except.ok.injEq] at h1
        refine ⟨?_, ?_⟩
        · rw [e1, List.flatMap_cons, addNamed_append]
          congr 1
          rw [← h1]
          simp only [SchemaVar.rules, hts, if_true]
          rfl
        · intro v' hv' hne
          rcases List.mem_cons.mp hv' with rfl | hv'
          · exact absurd hts hne
          · exact e2 v' hv' hne
      · rename_i hts
        dsimp only at h1
        split at h1
        · cases h1
        · rename_i hany
          simp only [Except.ok.injEq] at h1
          refine ⟨?_, ?_⟩
          · rw [e1, List.flatMap_cons, addNamed_append]
            congr 1
            rw [← h1]
            simp only [SchemaVar.rules, hts, if_false]
            rfl
          · intro v' hv' hne d hd
            rcases List.mem_cons.mp hv' with rfl | hv'
            · simp only [List.any_eq_true, not_exists, not_and, Bool.not_eq_true] at hany
              exact hany d hd
            · exact e2 v' hv' hne d hd

theorem addAllDelimiters_spec (l : List (List Nat)) : ∀ {t t' : ParserTables},
    ParserTables.addAllDelimiters l t = some t' →
    t'.symbolId = t.symbolId ∧ t'.idSymbol = t.idSymbol ∧ t'.rules = t.rules ∧
    t'.isDelim = (match l.getLast? with | none => t.isDelim | some ds => delimTable ds) ∧
    t'.hasDelims = (t.hasDelims || !l.isEmpty) ∧
    (∀ ds ∈ l, ds ≠ [] ∧ ∀ d ∈ ds, d < cSizeOfByte) := by
  induction l with
  | nil =>
    intro t t' h
    simp only [ParserTables.addAllDelimiters, Option.some.injEq] at h
    subst h; simp
  | cons d l ih =>
    intro t t' h
    simp only [ParserTables.addAllDelimiters, Option.bind_eq_some_iff] at h
    obtain ⟨t1, h1, h2⟩ := h
    unfold ParserTables.addDelimiters at h1
    split at h1
    · cases h1
    · rename_i hcond
      simp only [Option.some.injEq] at h1
      simp only [Bool.or_eq_true, List.isEmpty_iff, List.any_eq_true, decide_eq_true_eq, not_or, not_exists,
        not_and, Nat.not_le] at hcond
      obtain ⟨a1, a2, a3, a4, a5, a6⟩ := ih h2
      subst h1
      refine ⟨a1, a2, a3, ?_, ?_, ?_⟩
      · rw [a4]
        cases l with
        | nil => simp
        | cons x xs =>
          rw [List.getLast?_cons_cons]
          cases hgl : (x :: xs).getLast? with
          | none => simp at hgl
          | some y => rfl
      · rw [a5]; simp
      · intro ds hds
        rcases List.mem_cons.mp hds with rfl | hds
        · exact hcond
        · exact a6 ds hds

theorem delimTable_eq (ds : List Nat) (c : Nat) :
    delimTable ds c = (c == cCharStartOfFile || ds.contains c) := by
  unfold delimTable; rw [Bool.or_comm]

/-- Everything about the tables of an accepted schema. -/
theorem addRules_ok {s : SchemaAST} {t : ParserTables} (h : ParserTables.addRules s = .ok t) :
    ∃ ds, s.delims.getLast? = some ds ∧ ds ≠ [] ∧ (∀ d ∈ ds, d < cSizeOfByte) ∧
    t.isDelim = delimTable ds ∧ t.hasDelims = true ∧ SymOk t ∧
    (∀ x, (∃ i, t.symbolId.lookup x = some i) ↔
      (∃ i, (x, i) ∈ reserved) ∨ ∃ v ∈ s.vars, v.name = x ∧ v.name ≠ "timestamp") ∧
    List.Forall₂ (fun nr r => t.symbolId.lookup nr.1 = some r.id ∧ r.regex = nr.2) s.namedRules t.rules ∧
    ∀ v ∈ s.vars, v.name ≠ "timestamp" → ∀ d ∈ s.delimBytes, (v.regex.removeDelims s.delimBytes).possible d = false := by
  unfold ParserTables.addRules at h
  split at h
  · cases h
  · rename_i t0 h0
    obtain ⟨a1, a2, a3, a4, a5, a6⟩ := addAllDelimiters_spec s.delims h0
    split at h
    · cases h
    · rename_i hne
      cases hgl : s.delims.getLast? with
      | none =>
        rw [hgl] at a4
        simp [ParserTables.delimList, a4, ParserTables.init] at hne
      | some ds =>
        rw [hgl] at a4
        simp only at a4
        have hmem : ds ∈ s.delims := List.mem_of_getLast? hgl
        have hdl : t0.delimList = s.delimBytes := by
          unfold ParserTables.delimList SchemaAST.delimBytes
          rw [a4, hgl]
          simp only [Option.getD_some]
          congr 1
          funext c
          exact delimTable_eq ds c
        rw [hdl] at h
        have hsym0 : SymOk t0 := by
          have := symOk_init
          refine ⟨by rw [a1]; exact this.names, by rw [a1]; exact this.ids, by rw [a1]; exact this.idsNodup,
            by rw [a1, a2]; exact this.swap, by rw [a1]; exact this.reserved⟩
        obtain ⟨e1, e2⟩ := addVars_eq _ _ h
        have e1' : t = addNamed s.namedRules t0 := e1
        obtain ⟨b1, b2, b3, ⟨rs, b4, b5⟩, b6, b7⟩ := addNamed_spec s.namedRules hsym0
        rw [← e1'] at b1 b2 b3 b4 b5 b6 b7
        have hr0 : t0.rules = [] := a3
        rw [hr0, List.nil_append] at b4
        refine ⟨ds, rfl, (a6 ds hmem).1, (a6 ds hmem).2, by rw [b6, a4], ?_, b1, ?_, by rw [b4]; exact b5, e2⟩
        · rw [b7, a5]
          have : s.delims ≠ [] := List.ne_nil_of_mem hmem
          simp [this]
        · intro x
          rw [b3 x]
          have hres : (∃ i, t0.symbolId.lookup x = some i) ↔ ∃ i, (x, i) ∈ reserved := by
            rw [a1]
            simp only [lookup_eq_some_of_nodup (show (ParserTables.init.symbolId.map (·.1)).Nodup from symOk_init.names)]
            rfl
          rw [hres]
          constructor
          · rintro (h | h)
            · exact .inl h
            · simp only [SchemaAST.namedRules, List.map_cons, List.mem_cons, List.mem_map, List.mem_flatMap] at h
              rcases h with rfl | ⟨nr, ⟨v, hv, hnr⟩, rfl⟩
              · exact .inl ⟨7, by decide⟩
              · unfold SchemaVar.rules at hnr
                split at hnr
                · simp only [List.mem_cons, List.not_mem_nil, or_false] at hnr
                  rcases hnr with rfl | rfl
                  · exact .inl ⟨5, (by decide : ("firstTimestamp", 5) ∈ reserved)⟩
                  · exact .inl ⟨6, (by decide : ("newLineTimestamp", 6) ∈ reserved)⟩
                · rename_i hts
                  simp only [List.mem_cons, List.not_mem_nil, or_false] at hnr
                  subst hnr
                  exact .inr ⟨v, hv, rfl, hts⟩
          · rintro (h | ⟨v, hv, rfl, hts⟩)
            · exact .inl h
            · right
              simp only [SchemaAST.namedRules, List.map_cons, List.mem_cons, List.mem_map, List.mem_flatMap]
              refine .inr ⟨(v.name, .cat [] (.group [] false false (s.delimBytes.map fun d => (d, d)))
                (v.regex.removeDelims s.delimBytes)), ⟨v, hv, ?_⟩, rfl⟩
              unfold SchemaVar.rules; rw [if_neg hts]; exact .head _

end LogSurgeon
