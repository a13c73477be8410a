import Verif.Proofs.Query
/-
C50: the answers of the search example.

`examples/intersect-test.cpp` builds a schema with `Schema::add_variable`, makes a DFA of its patterns, and for each search string
prints the variables that can match it.  `intersectProgram` is its model, the schema and the search strings being parameters.
-/
namespace LogSurgeon

/-- A variable and the environment of the call that declares it are fine. -/
def DeclOk (v : SchemaEnv × VarText) : Prop := v.1.Ok ∧ v.1.orders.Ok (schemaGrammar (v.1.specials.map (·.2))) ∧ v.2.Ok

/-- A search string and the environment of its query are fine. -/
def QueryOk (q : QueryEnv × List Nat) : Prop :=
  q.1.schema.Ok ∧ q.1.schema.orders.Ok (schemaGrammar (q.1.schema.specials.map (·.2))) ∧ (∀ a b, q.1.addr a = q.1.addr b → a = b) ∧ IsQuery q.2

/-- The program with bounds for the steps of the schema parsers. -/
def searchWithin (fuel steps : Nat) (addr : Nat → Nat) (vs : List (SchemaEnv × VarText)) (qs : List (QueryEnv × List Nat)) : Except Fail (List (List String) × Nat) :=
  intersectProgram addr (vs.map fun v => (v.1.within fuel steps, v.2.name ++ 58 :: v.2.text))
    (qs.map fun q => ({ q.1 with schema := q.1.schema.within fuel steps }, q.2)) 0

/-- C50: for each search string the names of exactly those variables are printed, in the order of the schema, that have an instance
which matches the search string, provided that `*` is read as one or more in both.  Restrictions: those on patterns (`VarText.Ok`) and search strings (`IsQuery`), and
the texts of all calls must fit into the array for children, as nothing in it is ever freed. -/
theorem C50_answers_partial {addr : Nat → Nat} (hinj : ∀ a b, addr a = addr b → a = b) {vs : List (SchemaEnv × VarText)} {qs : List (QueryEnv × List Nat)}
    (hvs : ∀ v ∈ vs, DeclOk v) (hqs : ∀ q ∈ qs, QueryOk q)
    (hroom : 5 * ((vs.map fun v => (v.2.name ++ 58 :: v.2.text).length).sum + (qs.map fun q => (queryText q.2).length).sum) ≤ 10000) :
    ∃ n kids, ∀ fuel steps, n ≤ fuel → n ≤ steps → searchWithin fuel steps addr vs qs = .ok (qs.map fun q => searchAnswers (vs.map (·.2)) q.2, kids) :=
  program_answers hinj hvs hqs (kids := 0) (by rw [Nat.zero_add]; exact hroom)

theorem glob_zero {q s : List Nat} (h : Glob 1 q s) : Glob 0 q s := by
  induction h with
  | nil => exact .nil
  | char h _ ih => exact .char h ih
  | star _ _ ih => exact .star (Nat.zero_le _) ih

theorem meets_properly {v : VarText} (hv : v.Ok) (hno : v.pat.NoOpenChoice) {q : List Nat} (h : v.Meets q) : v.MeetsProperly q := by
  obtain ⟨s, hs, h1, h2⟩ := h
  obtain ⟨re, hre⟩ := elab_total _ hv.2.2.2.1 hv.2.2.2.2
  obtain ⟨_, _, _, _, m1, m2⟩ := elab_spec _ hre hv.2.2.2.1
  exact ⟨s, hs, (m1 s).mp (matchesWith_mono (fun h => h.elim) _ s ((m2 s).mpr ((C08_reading_partial hre hv.2.2.2.1 hno hs).mp h1))), glob_zero h2⟩

/-- C50: nothing wrong is printed: a variable whose name is printed has an instance that matches the search string, `*` being any text, in search strings and patterns.  (No alternative of a pattern may end in `*` or `+`, see `C50_open_refuted`.) -/
theorem C50_sound_partial {addr : Nat → Nat} (hinj : ∀ a b, addr a = addr b → a = b) {vs : List (SchemaEnv × VarText)} {qs : List (QueryEnv × List Nat)}
    (hvs : ∀ v ∈ vs, DeclOk v) (hno : ∀ v ∈ vs, v.2.pat.NoOpenChoice) (hqs : ∀ q ∈ qs, QueryOk q)
    (hroom : 5 * ((vs.map fun v => (v.2.name ++ 58 :: v.2.text).length).sum + (qs.map fun q => (queryText q.2).length).sum) ≤ 10000) :
    ∃ n kids outs, (∀ fuel steps, n ≤ fuel → n ≤ steps → searchWithin fuel steps addr vs qs = .ok (outs, kids)) ∧
      List.Forall₂ (fun q names => ∀ name ∈ names, ∃ v ∈ vs, asString v.2.name = name ∧ v.2.MeetsProperly q.2) qs outs := by
  classical
  obtain ⟨n, kids, h⟩ := C50_answers_partial hinj hvs hqs hroom
  refine ⟨n, kids, _, h, ?_⟩
  rw [List.forall₂_map_right_iff, List.forall₂_same]
  intro q _ name hname
  obtain ⟨x, hx, e⟩ := List.mem_map.mp hname
  obtain ⟨h1, h2⟩ := List.mem_filter.mp hx
  obtain ⟨v, hv, rfl⟩ := List.mem_map.mp h1
  exact ⟨v, hv, e, meets_properly (hvs v hv).2.2 (hno v hv) (of_decide_eq_true h2)⟩

theorem glob_noStar {k : Nat} : ∀ {q s : List Nat}, 42 ∉ q → Glob k q s → s = q
  | _, _, _, .nil => rfl
  | _, _, h, .char _ g => by rw [List.mem_cons, not_or] at h; rw [glob_noStar h.2 g]
  | _, _, h, .star _ _ => absurd (List.mem_cons_self ..) h

theorem glob_self {k : Nat} : ∀ {q : List Nat}, 42 ∉ q → Glob k q q
  | [], _ => .nil
  | c :: q, h => by
    rw [List.mem_cons, not_or] at h
    exact .char (Ne.symm h.1) (glob_self h.2)

open Classical in
/-- C50: for search strings without wildcards and a schema without `*` and `{0,n}` the answer is right: the variables of which the search string is an
instance. -/
theorem C50_literal_partial {addr : Nat → Nat} (hinj : ∀ a b, addr a = addr b → a = b) {vs : List (SchemaEnv × VarText)} {qs : List (QueryEnv × List Nat)}
    (hvs : ∀ v ∈ vs, DeclOk v) (hqs : ∀ q ∈ qs, QueryOk q) (hz : ∀ v ∈ vs, v.2.pat.NoZero) (hno : ∀ v ∈ vs, v.2.pat.NoOpenChoice) (hq : ∀ q ∈ qs, 42 ∉ q.2)
    (hroom : 5 * ((vs.map fun v => (v.2.name ++ 58 :: v.2.text).length).sum + (qs.map fun q => (queryText q.2).length).sum) ≤ 10000) :
    ∃ n kids, ∀ fuel steps, n ≤ fuel → n ≤ steps → searchWithin fuel steps addr vs qs =
      .ok (qs.map fun q => (vs.filter fun v => decide (v.2.pat.Matches q.2)).map fun v => asString v.2.name, kids) := by
  obtain ⟨n, kids, h⟩ := C50_answers_partial hinj hvs hqs hroom
  refine ⟨n, kids, fun fuel steps f1 f2 => ?_⟩
  rw [h fuel steps f1 f2]
  refine congrArg (fun x => Except.ok (x, kids)) (List.map_congr_left fun q hqm => ?_)
  unfold searchAnswers
  rw [List.filter_map, List.map_map]
  congr 1
  apply List.filter_congr
  intro v hv
  obtain ⟨_, _, h1⟩ := hvs v hv
  obtain ⟨re, hre⟩ := elab_total _ h1.2.2.2.1 h1.2.2.2.2
  obtain ⟨_, _, _, m0, m1, m2⟩ := elab_spec _ hre h1.2.2.2.1
  have hb : AllBytes q.2 := by
    intro c hc
    rcases (hqs q hqm).2.2.2.2.1 c hc with h | h
    · unfold Plain AlphaNum at h
      simp at h
      show c < 256
      omega
    · exact absurd (h ▸ hc) (hq q hqm)
  simp only [Function.comp_apply]
  congr 1
  apply propext
  constructor
  · rintro ⟨s, _, h3, h4⟩
    rw [glob_noStar (hq q hqm) h4] at h3
    exact (m1 _).mp (matchesWith_noEmpty re (m0 (hz v hv)) _ ((m2 _).mpr ((C08_reading_partial hre h1.2.2.2.1 (hno v hv) hb).mp h3)))
  · intro h
    exact ⟨q.2, hb, C07_reading hre h1.2.2.2.1 hb <| (m2 _).mp (matchesWith_noEmpty re (m0 (hz v hv)) _ ((m1 _).mpr h)), glob_self (hq q hqm)⟩

/-! ### What is missed -/

/-- `name:text` where the text has no special characters. -/
def literalVar (name text : List Nat) : VarText := ⟨name, text, queryPat text⟩

theorem process_literal : ∀ {w : List Nat}, 42 ∉ w → processQuery w = w
  | [], _ => rfl
  | c :: w, h => by
    rw [List.mem_cons, not_or] at h
    rw [processQuery, if_neg (Ne.symm h.1), process_literal h.2]

theorem literal_ok {name text : List Nat} (hn : IsName name) (ht : text ≠ []) (hp : ∀ c ∈ text, Plain c) (hk : ¬ delimitersWord <:+: name ++ 58 :: text) :
    (literalVar name text).Ok := by
  obtain ⟨g1, g2, _⟩ := queryPat_good text
  have h42 : 42 ∉ text := by
    intro h
    have := hp 42 h
    simp [Plain, AlphaNum] at this
  refine ⟨hn, ?_, hk, g1, g2⟩
  have := written_query (k := name.length + 1) ht fun c hc => .inl (hp c hc)
  rwa [process_literal h42] at this

/-- The texts that match a search string, computed. -/
def globb (k : Nat) : List Nat → List Nat → Bool
  | [], s => s.isEmpty
  | c :: q, s =>
    if c = 42 then (List.range (s.length + 1)).any fun i => decide (k ≤ i) && globb k q (s.drop i)
    else s.head? == some c && globb k q s.tail

theorem globb_iff {k : Nat} : ∀ {q s : List Nat}, globb k q s = true ↔ Glob k q s
  | [], s => by
    rw [globb, List.isEmpty_iff]
    constructor
    · rintro rfl; exact .nil
    · intro h; cases h; rfl
  | c :: q, s => by
    rw [globb]
    by_cases e : c = 42
    · rw [if_pos e, List.any_eq_true]
      subst e
      constructor
      · rintro ⟨i, hi, h⟩
        rw [Bool.and_eq_true, decide_eq_true_eq] at h
        have hi := List.mem_range.mp hi
        have := Glob.star (t := s.take i) (by rw [List.length_take]; omega) (globb_iff.mp h.2)
        rwa [List.take_append_drop] at this
      · intro h
        cases h with
        | char h _ => exact absurd rfl h
        | star ht h =>
          rename_i t s
          refine ⟨t.length, List.mem_range.mpr (by simp; omega), ?_⟩
          rw [Bool.and_eq_true, decide_eq_true_eq, List.drop_left]
          exact ⟨ht, globb_iff.mpr h⟩
    · rw [if_neg e]
      cases s with
      | nil =>
        constructor
        · intro h; simp at h
        · intro h
          generalize hl : ([] : List Nat) = l at h
          cases h with
          | char => cases hl
          | star => exact absurd rfl e
      | cons x s =>
        simp only [List.head?_cons, List.tail_cons, Bool.and_eq_true, beq_iff_eq, Option.some.injEq]
        constructor
        · rintro ⟨rfl, h⟩; exact .char e (globb_iff.mp h)
        · intro h
          generalize hl : x :: s = l at h
          cases h with
          | char _ h => cases hl; exact ⟨rfl, globb_iff.mpr h⟩
          | star => exact absurd rfl e

theorem literal_reads {text : List Nat} (h0 : text ≠ []) {s : List Nat} (hs : AllBytes s) : (queryPat text).ReadAs [] s ↔ Glob 1 text s := by
  obtain ⟨g1, g2, g3⟩ := queryPat_good text
  obtain ⟨re, hre⟩ := elab_total _ g1 g2
  rw [C08_reading_partial hre g1 g3 hs, query_matches h0 hs]

/-- A variable without special characters meets a search string if its text matches it. -/
theorem literal_meets {name text : List Nat} (hp : ∀ c ∈ text, Plain c) (h0 : text ≠ []) {q : List Nat} :
    (literalVar name text).Meets q ↔ globb 1 q text = true := by
  have h42 : 42 ∉ text := by
    intro h
    have := hp 42 h
    simp [Plain, AlphaNum] at this
  have hb : AllBytes text := by
    intro c hc
    have := hp c hc
    unfold Plain AlphaNum at this
    simp at this
    show c < 256
    omega
  rw [globb_iff]
  have key := @literal_reads text h0
  constructor
  · rintro ⟨s, hs, h1, h2⟩
    rw [glob_noStar h42 ((key hs).mp h1)] at h2
    exact h2
  · intro h
    exact ⟨text, hb, (key hb).mpr (glob_self h42), h⟩

theorem answers_literal {vs : List (List Nat × List Nat)} (h : ∀ v ∈ vs, v.2 ≠ [] ∧ ∀ c ∈ v.2, Plain c) (q : List Nat) :
    searchAnswers (vs.map fun v => literalVar v.1 v.2) q = (vs.filter fun v => globb 1 q v.2).map fun v => asString v.1 := by
  classical
  unfold searchAnswers
  rw [List.filter_map, List.map_map]
  congr 1
  apply List.filter_congr
  intro v hv
  simp only [Function.comp_apply]
  rw [Bool.eq_iff_iff, decide_eq_true_eq]
  exact literal_meets (h v hv).2 (h v hv).1

/-- The second schema of the example: `v1:1`, `v2:2`, `v3:3`, `v4:abc12`, `v5:23def`, `v6:123`. -/
def searchVars : List (List Nat × List Nat) :=
  [([118, 49], [49]), ([118, 50], [50]), ([118, 51], [51]), ([118, 52], [97, 98, 99, 49, 50]), ([118, 53], [50, 51, 100, 101, 102]), ([118, 54], [49, 50, 51])]

/-- The search strings of the example: `*1*`, `*a*`, `*a1*`, `*=*`, `abc123`, `=`, `1`, `a*1`, `a1`. -/
def searchStrings : List (List Nat) :=
  [[42, 49, 42], [42, 97, 42], [42, 97, 49, 42], [42, 61, 42], [97, 98, 99, 49, 50, 51], [61], [49], [97, 42, 49], [97, 49]]

instance (c : Nat) : Decidable (AlphaNum c) := by unfold AlphaNum; infer_instance
instance (c : Nat) : Decidable (Plain c) := by unfold Plain; infer_instance
instance (n : List Nat) : Decidable (IsName n) := by unfold IsName; infer_instance
instance (q : List Nat) : Decidable (IsQuery q) := by unfold IsQuery; infer_instance

theorem searchVars_ok : ∀ v ∈ searchVars, (literalVar v.1 v.2).Ok := by
  have h : ∀ v ∈ searchVars, IsName v.1 ∧ v.2 ≠ [] ∧ (∀ c ∈ v.2, Plain c) ∧ ¬ delimitersWord <:+: v.1 ++ 58 :: v.2 := by decide
  intro v hv
  obtain ⟨h1, h2, h3, h4⟩ := h v hv
  exact literal_ok h1 h2 h3 h4

theorem searchVars_answers (q : List Nat) :
    searchAnswers (searchVars.map fun v => literalVar v.1 v.2) q = (searchVars.filter fun v => globb 1 q v.2).map fun v => asString v.1 :=
  answers_literal (by decide) q

/-- The environment of the examples. -/
def exQueryEnv : QueryEnv := ⟨exEnv, id, fun _ => 0⟩

/-- C50 for the second schema of the example and all its search strings: this is what the program prints. -/
theorem C50_example : ∃ n kids, ∀ fuel steps, n ≤ fuel → n ≤ steps →
    searchWithin fuel steps id (searchVars.map fun v => (exEnv, literalVar v.1 v.2)) (searchStrings.map fun q => (exQueryEnv, q)) =
      .ok ([["v4"], [], [], [], [], [], ["v1"], [], []], kids) := by
  obtain ⟨n, kids, h⟩ := C50_answers_partial (addr := id) (fun _ _ h => h) (vs := searchVars.map fun v => (exEnv, literalVar v.1 v.2))
    (qs := searchStrings.map fun q => (exQueryEnv, q))
    (by
      intro v hv
      obtain ⟨x, hx, rfl⟩ := List.mem_map.mp hv
      exact ⟨exEnv_ok, exEnv_orders, searchVars_ok x hx⟩)
    (by
      intro v hv
      obtain ⟨x, hx, rfl⟩ := List.mem_map.mp hv
      have hq : ∀ q ∈ searchStrings, IsQuery q := by decide
      exact ⟨exEnv_ok, exEnv_orders, fun _ _ h => h, hq x hx⟩)
    (by decide)
  refine ⟨n, kids, fun fuel steps f1 f2 => ?_⟩
  rw [h fuel steps f1 f2, List.map_map, List.map_map]
  refine congrArg (fun x => Except.ok (x, kids)) ?_
  have : ((fun q : QueryEnv × List Nat => searchAnswers (searchVars.map (Prod.snd ∘ fun v => (exEnv, literalVar v.1 v.2))) q.2) ∘ fun q => (exQueryEnv, q)) =
      fun q => (searchVars.filter fun v => globb 1 q v.2).map fun v => asString v.1 := by
    funext q
    exact searchVars_answers q
  rw [this]
  decide +kernel

/-- The reading of `*` in C50 cannot be the usual one: three variables of this schema have an instance that contains `1`, and for the search
string `*1*` the program prints one of them. -/
theorem C50_missed_refuted : ∃ (vs : List VarText) (q : List Nat), (∀ v ∈ vs, v.Ok) ∧ IsQuery q ∧
    (∃ n kids, ∀ fuel steps, n ≤ fuel → n ≤ steps → searchWithin fuel steps id (vs.map fun v => (exEnv, v)) [(exQueryEnv, q)] = .ok ([["v4"]], kids)) ∧
    ∀ i ∈ [0, 3, 5], ∃ v, vs[i]? = some v ∧ v.MeetsProperly q := by
  have hok : ∀ v ∈ searchVars.map fun v => literalVar v.1 v.2, v.Ok := by
    intro v hv
    obtain ⟨x, hx, rfl⟩ := List.mem_map.mp hv
    exact searchVars_ok x hx
  refine ⟨searchVars.map fun v => literalVar v.1 v.2, [42, 49, 42], hok, by decide, ?_, ?_⟩
  · obtain ⟨n, kids, h⟩ := C50_answers_partial (addr := id) (fun _ _ h => h) (vs := (searchVars.map fun v => literalVar v.1 v.2).map fun v => (exEnv, v))
      (qs := [(exQueryEnv, [42, 49, 42])])
      (by
        intro v hv
        obtain ⟨x, hx, rfl⟩ := List.mem_map.mp hv
        exact ⟨exEnv_ok, exEnv_orders, hok x hx⟩)
      (by
        intro q hq
        simp only [List.mem_cons, List.not_mem_nil, or_false] at hq
        subst hq
        exact ⟨exEnv_ok, exEnv_orders, fun _ _ h => h, by decide⟩)
      (by decide)
    refine ⟨n, kids, fun fuel steps f1 f2 => ?_⟩
    rw [h fuel steps f1 f2]
    refine congrArg (fun x => Except.ok (x, kids)) ?_
    simp only [List.map_cons, List.map_nil]
    rw [show ((searchVars.map fun v => literalVar v.1 v.2).map fun v => (exEnv, v)).map (·.2) = searchVars.map fun v => literalVar v.1 v.2 by
      rw [List.map_map]; exact List.map_id _, searchVars_answers]
    decide +kernel
  · have lit : ∀ {name text : List Nat}, text ≠ [] → 42 ∉ text → AllBytes text → (literalVar name text).Ok → globb 0 [42, 49, 42] text = true →
        (literalVar name text).MeetsProperly [42, 49, 42] := by
      intro name text h0 h42 hb hok hg
      obtain ⟨s, hs, h1, h2⟩ := meets_properly hok (queryPat_good text).2.2 (q := text) ⟨text, hb, (literal_reads h0 hb).mpr (glob_self h42), glob_self h42⟩
      rw [glob_noStar h42 h2] at h1
      exact ⟨text, hb, h1, globb_iff.mp hg⟩
    have hby : ∀ {t : List Nat}, (∀ c ∈ t, c < 256) → AllBytes t := fun h => h
    intro i hi
    simp only [List.mem_cons, List.not_mem_nil, or_false] at hi
    rcases hi with rfl | rfl | rfl
    · exact ⟨_, rfl, lit (by decide) (by decide) (hby (by decide)) (searchVars_ok _ (by decide)) (by decide)⟩
    · exact ⟨_, rfl, lit (by decide) (by decide) (hby (by decide)) (searchVars_ok _ (by decide)) (by decide)⟩
    · exact ⟨_, rfl, lit (by decide) (by decide) (hby (by decide)) (searchVars_ok _ (by decide)) (by decide)⟩

/-! ### What is wrong -/

/-- `v:a+|b` -/
def openVar : VarText := ⟨[118], [97, 43, 124, 98], .or (.plus (.lit 97)) (.lit 98)⟩

theorem openVar_ok : openVar.Ok := by
  refine ⟨by decide, ?_, by decide, ⟨trivial, trivial⟩, ⟨trivial, trivial⟩⟩
  have lit : ∀ {k}, ∀ c, Plain c → Written .literal k [c] (.lit c) := fun c h => .char (.plain h)
  exact .ofChoice (.or (u := [97, 43]) (v := [98]) (.ofRepeated (.plus (w := [97]) (.ofLiteral (lit 97 (by decide))))) (lit 98 (by decide)))

/-- `C50_sound_partial` needs its condition on alternatives: for the variable `a+|b` and the search string `ba` the program prints the variable, which has no such
instance. -/
theorem C50_open_refuted : openVar.Ok ∧ IsQuery [98, 97] ∧
    (∃ n kids, ∀ fuel steps, n ≤ fuel → n ≤ steps → searchWithin fuel steps id [(exEnv, openVar)] [(exQueryEnv, [98, 97])] = .ok ([["v"]], kids)) ∧
    ¬ openVar.MeetsProperly [98, 97] := by
  classical
  refine ⟨openVar_ok, by decide, ?_, ?_⟩
  · obtain ⟨n, kids, h⟩ := C50_answers_partial (addr := id) (fun _ _ h => h) (vs := [(exEnv, openVar)]) (qs := [(exQueryEnv, [98, 97])])
      (by simpa using ⟨exEnv_ok, exEnv_orders, openVar_ok⟩)
      (by simpa using ⟨exEnv_ok, exEnv_orders, fun _ _ h => h, by decide⟩)
      (by decide)
    refine ⟨n, kids, fun fuel steps f1 f2 => ?_⟩
    rw [h fuel steps f1 f2]
    have hm : openVar.Meets [98, 97] := by
      refine ⟨[98, 97], by simp [AllBytes, cSizeOfByte], ?_, glob_self (by decide)⟩
      exact ⟨[98], [97], 1, rfl, .inr ⟨98, rfl, rfl⟩, Repeat.succ (s := [97]) (t := []) (.inl (.inr ⟨rfl, 97, rfl, rfl⟩)) .zero⟩
    simp only [List.map_cons, List.map_nil, searchAnswers, List.filter_cons, hm, decide_true, if_true, List.filter_nil]
    rfl
  · rintro ⟨s, _, h1, h2⟩
    rw [glob_noStar (by decide) h2] at h1
    rcases h1 with ⟨k, _, h⟩ | h
    · have : ∀ {k : Nat} {w : List Nat}, Repeat ((Pat.lit 97).Matches) k w → ∀ c ∈ w, c = 97 := by
        intro k w h
        induction h with
        | zero => simp
        | succ h _ ih =>
          intro c hc
          rcases List.mem_append.mp hc with hc | hc
          · rw [show _ = [97] from h] at hc
            simpa using hc
          · exact ih c hc
      exact absurd (this h 98 (by simp)) (by decide)
    · cases h

/-! ### Many search strings -/

theorem process_length (q : List Nat) : q.length ≤ (processQuery q).length := by
  induction q with
  | nil => exact Nat.le_refl _
  | cons c q ih => rw [processQuery]; split <;> simp <;> omega

theorem process_le (q : List Nat) : (processQuery q).length ≤ 2 * q.length := by
  induction q with
  | nil => exact Nat.le_refl _
  | cons c q ih => rw [processQuery]; split <;> simp <;> omega

/-- Without the bound on the room C50 is false: no run of the program gets through more than 1428 search strings (of at most 11000 characters), as each of
them takes at least seven entries of the array for children. -/
theorem C50_many_refuted {addr : Nat → Nat} {vars : List (SchemaEnv × List Nat)} {qs : List (QueryEnv × List Nat)} {kids : Nat}
    (hv : ∀ v ∈ vars, v.1.Ok ∧ v.2.length < 24000 ∧ AllBytes v.2 ∧ 10 ∉ v.2) (hk : kids ≤ 10000)
    (hqs : ∀ q ∈ qs, q.1.schema.Ok ∧ IsQuery q.2 ∧ q.2.length ≤ 11000) (hmany : 1428 < qs.length) (r : List (List String) × Nat) :
    intersectProgram addr vars qs kids ≠ .ok r := by
  have hadd : ∀ (vars : List (SchemaEnv × List Nat)) (kids : Nat) (s : SchemaAST) {a k}, kids ≤ 10000 → (∀ v ∈ vars, v.1.Ok ∧ v.2.length < 24000 ∧ AllBytes v.2 ∧ 10 ∉ v.2) →
      addVariables vars kids s = .ok (a, k) → k ≤ 10000 := by
    intro vars
    induction vars with
    | nil => intro kids s a k hk _ h; cases h; exact hk
    | cons v vars ih =>
      intro kids s a k hk hv h
      obtain ⟨E, w⟩ := v
      rw [addVariables] at h
      obtain ⟨g1, g2, g3, g4⟩ := hv (E, w) (by simp)
      unfold schemaAddVariable at h
      cases ht : trySchemaString E kids w with
      | error e => rw [ht] at h; cases h
      | ok x =>
        obtain ⟨a1, k1⟩ := x
        have hk1 := (schema_long g1 g2 g3 (string_delivers g2) g4 hk ht).2
        rw [ht] at h
        simp only at h
        split at h
        · cases h
        · rename_i s' k' hs
          split at hs
          · cases hs
          · cases hs
            exact ih _ _ hk1 (fun v hv' => hv v (by simp [hv'])) h
  have hask : ∀ (qs : List (QueryEnv × List Nat)) (kids : Nat) (names : List String) (d : Dfa) {as k}, kids ≤ 10000 →
      (∀ q ∈ qs, q.1.schema.Ok ∧ IsQuery q.2 ∧ q.2.length ≤ 11000) → intersectQueries names d qs kids = .ok (as, k) → kids + 7 * qs.length ≤ k ∧ k ≤ 10000 := by
    intro qs
    induction qs with
    | nil => intro kids names d as k hk _ h; cases h; exact ⟨by simp, hk⟩
    | cons q qs ih =>
      intro kids names d as k hk hq h
      obtain ⟨E, w⟩ := q
      obtain ⟨g1, ⟨q1, q2, q3⟩, g3⟩ := hq (E, w) (by simp)
      simp only at q1 q2 q3 g3 g1
      rw [intersectQueries] at h
      have hl1 : 8 ≤ (queryText w).length := by
        have := process_length w
        have : w.length ≠ 0 := fun e => q1 (List.length_eq_zero_iff.mp e)
        simp only [queryText, List.length_append, List.length_cons, List.length_nil]
        omega
      have hl2 : (queryText w).length < 24000 := by
        have := process_le w
        simp only [queryText, List.length_append, List.length_cons, List.length_nil]
        omega
      have hwr := written_query (k := 0) q1 q2
      have hb : AllBytes (queryText w) := allBytes_append.mpr ⟨fun c hc => by simp at hc; show c < 256; omega, written_bytes hwr⟩
      have hn : 10 ∉ queryText w := by
        intro h
        rcases List.mem_append.mp h with h | h
        · simp at h
        · exact written_line hwr h
      unfold intersectQuery schemaAddVariable at h
      cases ht : trySchemaString E.schema kids (queryText w) with
      | error e => rw [ht] at h; cases h
      | ok x =>
        obtain ⟨a1, k1⟩ := x
        obtain ⟨e1, e2⟩ := schema_long g1 hl2 hb (string_delivers hl2) hn hk ht
        rw [lexemes_noKeyword fun h => q3 (keyword_queryText h), chars, List.length_map] at e1
        rw [ht] at h
        simp only at h
        cases hav : ({} : SchemaAST).addVariable a1 (-1) with
        | none => rw [hav] at h; cases h
        | some s2 =>
          rw [hav] at h
          simp only at h
          split at h
          · cases h
          · rename_i as1 k2 hs
            have hk2 : k2 = k1 := by
              split at hs
              · cases hs
              · split at hs
                · cases hs
                · cases hs; rfl
            subst hk2
            split at h
            · cases h
            · rename_i hs2
              cases h
              obtain ⟨i1, i2⟩ := ih _ _ _ e2 (fun q hq' => hq q (by simp [hq'])) hs2
              refine ⟨?_, i2⟩
              simp only [List.length_cons]
              omega
  intro h
  unfold intersectProgram at h
  split at h
  · cases h
  · rename_i a k1 ha
    simp only at h
    split at h
    · cases h
    · obtain ⟨as, k2⟩ := r
      have := hask _ _ _ _ (hadd _ _ _ hk hv ha) hqs h
      omega

end LogSurgeon
