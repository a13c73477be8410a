import Verif.Proofs.LineEvents
import Verif.Props.Reading
import Verif.Proofs.SchemaDer
/-
Which lines begin with a timestamp, in terms of the schema.
-/
namespace LogSurgeon

variable {s : SchemaAST} {addr : Nat → Nat} {t : ParserTables} {L : Lexer}

theorem takes_head (hres : s.Reserved) {n : String} {w : List Nat} (h : s.Takes n w) : (n = "newLine" → w = [newline]) ∧
    (n = "firstTimestamp" → w.head? = some cCharStartOfFile) ∧ (n = "newLineTimestamp" → w.head? = some newline) := by
  cases h with
  | newLine => exact ⟨fun _ => rfl, fun h => absurd h (by decide), fun _ => rfl⟩
  | firstTimestamp _ _ _ _ => exact ⟨fun h => absurd h (by decide), fun _ => rfl, fun h => absurd h (by decide)⟩
  | newLineTimestamp _ _ _ _ => exact ⟨fun h => absurd h (by decide), fun h => absurd h (by decide), fun _ => rfl⟩
  | var hv _ _ _ _ => exact ⟨fun h => absurd h (hres _ hv).2.2, fun h => absurd h (hres _ hv).1, fun h => absurd h (hres _ hv).2.1⟩

theorem head_filter {α : Type} {p : α → Bool} {f : α → Nat} {i : Nat} : ∀ {xs ys : List α}, (∀ x ∈ xs, p x = true → f x = i) →
    (∃ x ∈ xs, p x = true) → (((xs ++ ys).filter p).map f).head? = some i := by
  intro xs
  induction xs with
  | nil => rintro ys _ ⟨x, hx, _⟩; cases hx
  | cons a xs ih =>
    rintro ys h ⟨x, hx, hp⟩
    rw [List.cons_append, List.filter_cons]
    by_cases ha : p a = true
    · rw [if_pos ha]
      simp [h a (by simp) ha]
    · rw [if_neg ha]
      refine ih (fun x hx => h x (by simp [hx])) ⟨x, ?_, hp⟩
      rcases List.mem_cons.mp hx with rfl | hx
      · exact absurd hp ha
      · exact hx

open Classical in
/-- The first type of a text is that of a timestamp iff the schema takes it for one. -/
theorem head_type (hC : s.Compiled addr t L) (hmono : ∀ a b, a < b → addr a < addr b) (hres : s.Reserved) (hord : s.TimestampsFirst)
    {w : List Nat} (hw : AllBytes w) (hlen : 2 ≤ w.length) {name : String} (hname : name = "firstTimestamp" ∨ name = "newLineTimestamp") {id : Nat}
    (hid : t.getSymbolId name = some id) : (L.dfa.idsOn w).head? = some id ↔ s.Takes name w := by
  have hpat : ∀ v ∈ s.vars, ∃ p : Pat, p.elab = some v.regex := fun v hv => by
    obtain ⟨_, p, h, _⟩ := hC.sensible v hv
    exact ⟨p, h⟩
  constructor
  · intro h
    exact (C54_types hpat hC.inj hC.ok hid hw).mp (List.mem_of_mem_head? h)
  · intro htake
    have h := buildLexer_ok hC.ok
    have hg := h.gen
    simp only [generateDfa, Option.bind_eq_some_iff] at hg
    obtain ⟨n, hn, hd⟩ := hg
    obtain ⟨d, hd', _, _, _, h4⟩ := dfa_ids_spec hn hC.inj
    rw [hd] at hd'
    cases hd'
    rw [h4 hmono _ hw]
    obtain ⟨ds, _, _, _, _, _, hsym, _, h8, _⟩ := addRules_ok h.tables
    obtain ⟨tss, vs, hvars, ht1, ht2⟩ := hord
    unfold SchemaAST.namedRules at h8
    rw [hvars, List.flatMap_append, ← List.cons_append] at h8
    obtain ⟨ra, rb, hr, hra, _⟩ := forall₂_append_inv h8
    rw [hr]
    have hacc : ∀ r ∈ ra, (r.AcceptsAlone w ↔ (ruleLang r.regex).text w) := fun r hr' => acceptsAlone_iff hn (by rw [hr]; simp [hr']) w
    have hhead := takes_head hres htake
    refine head_filter ?_ ?_
    · intro r hr' hp
      have hp := (hacc r hr').mp (of_decide_eq_true hp)
      obtain ⟨⟨m, re⟩, h1, h2, h3⟩ := forall₂_right hra r hr'
      simp only at h2 h3
      have hkind : RuleKind s m re := ruleKind_iff.mp (by
        unfold SchemaAST.namedRules
        rw [hvars, List.flatMap_append, ← List.cons_append]
        exact List.mem_append_left _ h1)
      have hm : s.Takes m w := kind_takes hpat hkind (h3 ▸ hp)
      have hhead2 := takes_head hres hm
      have hmn : m = name := by
        have hcases : m = "newLine" ∨ m = "firstTimestamp" ∨ m = "newLineTimestamp" := by
          rcases List.mem_cons.mp h1 with h | h
          · exact .inl (Prod.mk.inj h).1
          · obtain ⟨v, hv, h⟩ := List.mem_flatMap.mp h
            unfold SchemaVar.rules at h
            rw [if_pos (ht1 v hv)] at h
            simp only [List.mem_cons, Prod.mk.injEq, List.not_mem_nil, or_false] at h
            rcases h with ⟨rfl, _⟩ | ⟨rfl, _⟩
            · exact .inr (.inl rfl)
            · exact .inr (.inr rfl)
        rcases hcases with h | h | h
        · have := hhead2.1 h
          rw [this] at hlen
          simp at hlen
        · rcases hname with h' | h'
          · rw [h, h']
          · have := (hhead2.2.1 h).symm.trans (hhead.2.2 h')
            exact absurd this (by decide)
        · rcases hname with h' | h'
          · have := (hhead2.2.2 h).symm.trans (hhead.2.1 h')
            exact absurd this (by decide)
          · rw [h, h']
      rw [hmn] at h2
      exact Option.some.inj (h2.symm.trans hid)
    · obtain ⟨re, hk, htext⟩ := takes_kind hw htake
      have hmem : (name, re) ∈ ("newLine", Regex.literal [] newline) :: tss.flatMap (SchemaVar.rules s.delimBytes) := by
        have hts : ∀ v ∈ s.vars, v.name = "timestamp" → v ∈ tss := by
          intro v hv hvt
          rw [hvars] at hv
          rcases List.mem_append.mp hv with h | h
          · exact h
          · exact absurd hvt (ht2 v h)
        have hr := ruleKind_iff.mpr hk
        unfold SchemaAST.namedRules at hr
        rcases List.mem_cons.mp hr with h | h
        · exact h ▸ List.mem_cons_self
        · obtain ⟨v, hv, h⟩ := List.mem_flatMap.mp h
          refine List.mem_cons_of_mem _ (List.mem_flatMap.mpr ⟨v, hts v hv ?_, h⟩)
          by_cases hvt : v.name = "timestamp"
          · exact hvt
          · exfalso
            unfold SchemaVar.rules at h
            rw [if_neg hvt] at h
            simp only [List.mem_singleton, Prod.mk.injEq] at h
            rcases hname with h' | h'
            · exact (hres v hv).1 (h.1 ▸ h')
            · exact (hres v hv).2.1 (h.1 ▸ h')
      obtain ⟨r, hr1, hr2, hr3⟩ := forall₂_left hra _ hmem
      refine ⟨r, hr1, decide_eq_true ((hacc r hr1).mpr ?_)⟩
      rw [hr3]
      exact htext

theorem some_type (hC : s.Compiled addr t L) {w : List Nat} (hw : AllBytes w) : L.dfa.idsOn w ≠ [] ↔ ∃ n, s.Takes n w := by
  have hpat : ∀ v ∈ s.vars, ∃ p : Pat, p.elab = some v.regex := fun v hv => by
    obtain ⟨_, p, h, _⟩ := hC.sensible v hv
    exact ⟨p, h⟩
  have hO := buildLexer_ok hC.ok
  constructor
  · intro h
    obtain ⟨i, hi⟩ := List.exists_mem_of_ne_nil _ h
    obtain ⟨n, _, _, hid, _⟩ := hO.text_kind hC.sensible hC.inj hi
    exact ⟨n, (C54_types hpat hC.inj hC.ok hid hw).mp hi⟩
  · rintro ⟨n, hn⟩
    obtain ⟨re, hk, _⟩ := takes_kind hw hn
    obtain ⟨r, _, _, hid⟩ := hO.rule hk
    exact List.ne_nil_of_mem ((C54_types hpat hC.inj hC.ok hid hw).mpr hn)

theorem over_iff (hC : s.Compiled addr t L) {T u rest : List Nat} (hT : T = u ++ rest) :
    s.Over rest ↔ u.length = T.length ∨ ∃ c, T[u.length]? = some c ∧ L.isDelim c = true := by
  have hO := buildLexer_ok hC.ok
  subst hT
  cases rest with
  | nil => simp [SchemaAST.Over]
  | cons d r =>
    constructor
    · rintro (h | ⟨d', r', h, h2⟩)
      · cases h
      · cases h
        exact .inr ⟨d, by simp, (hO.delim d).mpr h2⟩
    · rintro (h | ⟨c, h1, h2⟩)
      · simp at h
      · simp at h1
        subst h1
        exact .inr ⟨d, r, rfl, (hO.delim d).mp h2⟩

theorem typesOn_line {u rest : List Nat} : L.typesOn (newline :: (u ++ rest)) false 0 (u.length + 1) = L.dfa.idsOn (newline :: u) := by
  unfold Lexer.typesOn slice
  simp

theorem typesOn_first {u rest : List Nat} : L.typesOn (u ++ rest) true 0 u.length = L.dfa.idsOn (cCharStartOfFile :: u) := by
  unfold Lexer.typesOn slice
  simp

theorem cand_line (hC : s.Compiled addr t L) {u rest : List Nat} (hb : AllBytes u) :
    L.Cand (newline :: (u ++ rest)) false 0 (u.length + 1) ↔ (∃ n, s.Takes n (newline :: u)) ∧ (s.Over rest ∨ u = []) := by
  have hw : AllBytes (newline :: u) := by
    intro c hc
    rcases List.mem_cons.mp hc with rfl | hc
    · decide
    · exact hb c hc
  have hov := over_iff hC (T := newline :: (u ++ rest)) (u := newline :: u) (rest := rest) rfl
  simp only [List.length_cons] at hov
  have hs : slice (newline :: (u ++ rest)) 0 (u.length + 1) = newline :: u := by simp [slice]
  unfold Lexer.Cand
  rw [typesOn_line, some_type hC hw, hs, hov]
  simp only [List.length_cons, List.length_append, Nat.zero_lt_succ, true_and, List.cons.injEq]
  constructor
  · rintro ⟨_, h2, h3 | h3 | h3⟩
    · exact ⟨h2, .inl (.inl h3)⟩
    · exact ⟨h2, .inl (.inr h3)⟩
    · exact ⟨h2, .inr h3⟩
  · rintro ⟨h2, (h3 | h3) | h3⟩
    · exact ⟨by omega, h2, .inl h3⟩
    · exact ⟨by omega, h2, .inr (.inl h3)⟩
    · exact ⟨by omega, h2, .inr (.inr h3)⟩

theorem cand_first (hC : s.Compiled addr t L) {u rest : List Nat} (hb : AllBytes u) :
    L.Cand (u ++ rest) true 0 u.length ↔ u ≠ [] ∧ (∃ n, s.Takes n (cCharStartOfFile :: u)) ∧ s.Over rest := by
  have hw : AllBytes (cCharStartOfFile :: u) := by
    intro c hc
    rcases List.mem_cons.mp hc with rfl | hc
    · decide
    · exact hb c hc
  have hov := over_iff hC (T := u ++ rest) (u := u) (rest := rest) rfl
  unfold Lexer.Cand
  rw [typesOn_first, some_type hC hw, hov, List.length_pos_iff]
  simp only [List.length_append, Bool.true_eq_false, false_and, or_false]
  constructor
  · rintro ⟨h1, _, h2, h3⟩
    exact ⟨h1, h2, h3⟩
  · rintro ⟨h1, h2, h3⟩
    exact ⟨h1, by omega, h2, h3⟩

theorem cut {line : List Nat} {k : Nat} (h : k ≤ line.length) : ∃ u rest, line = u ++ rest ∧ u.length = k :=
  ⟨line.take k, line.drop k, (List.take_append_drop k line).symm, by simp [h]⟩

theorem line_ts (hC : s.Compiled addr t L) (hmono : ∀ a b, a < b → addr a < addr b) (hres : s.Reserved) (hord : s.TimestampsFirst)
    {line : List Nat} (hb : AllBytes line) : L.BeginsWithTs line ↔ s.LongestIs newline "newLineTimestamp" line := by
  have hO := buildLexer_ok hC.ok
  obtain ⟨b1, _, b3, _⟩ := C16_bijection hC.ok
  have hid : t.getSymbolId "newLineTimestamp" = some tokenNewlineTimestamp := b3 ("newLineTimestamp", 6) (by simp)
  have hbu : ∀ {u rest : List Nat}, line = u ++ rest → AllBytes u := fun h c hc => hb c (by rw [h]; simp [hc])
  have hty : ∀ {u rest : List Nat}, line = u ++ rest →
      ((L.typesOn (newline :: line) false 0 (u.length + 1)).head? = some tokenNewlineTimestamp ↔ s.Takes "newLineTimestamp" (newline :: u)) := by
    intro u rest h
    have hw : AllBytes (newline :: u) := by
      intro c hc
      rcases List.mem_cons.mp hc with rfl | hc
      · decide
      · exact hbu h c hc
    rw [h, typesOn_line]
    cases u with
    | nil =>
      constructor
      · intro h
        exact absurd (hO.nlOnly hC.sensible hC.inj _ (List.mem_of_mem_head? h)) (by decide)
      · intro h
        have hpat : ∀ v ∈ s.vars, ∃ p : Pat, p.elab = some v.regex := fun v hv => by
          obtain ⟨_, p, h, _⟩ := hC.sensible v hv
          exact ⟨p, h⟩
        obtain ⟨v, h1, h2⟩ := hO.nlTs hC.sensible hC.inj hres ((C54_types hpat hC.inj hC.ok hid hw).mpr h)
        cases h1
        exact absurd rfl h2
    | cons c u => exact head_type hC hmono hres hord hw (by simp) (.inr rfl) hid
  constructor
  · rintro ⟨e, ⟨h1, h2⟩, h3⟩
    have he := h1.1
    have hel := h1.2.1
    simp only [List.length_cons] at hel
    obtain ⟨u, rest, hl, hu⟩ := cut (line := line) (k := e - 1) (by omega)
    obtain rfl : e = u.length + 1 := by omega
    have ht := (hty hl).mp h3
    have hc := (cand_line hC (rest := rest) (hbu hl)).mp (hl ▸ h1)
    refine ⟨u, rest, hl, ht, ?_, ?_⟩
    · rcases hc.2 with h | h
      · exact h
      · subst h
        exfalso
        have h4 := (hty hl).mpr ht
        rw [hl, typesOn_line] at h4
        exact absurd (hO.nlOnly hC.sensible hC.inj _ (List.mem_of_mem_head? h4)) (by decide)
    · intro n u' rest' hl' ht' hov'
      have := h2 (u'.length + 1) (hl'.symm ▸ (cand_line hC (hbu hl')).mpr ⟨⟨n, ht'⟩, .inl hov'⟩)
      omega
  · rintro ⟨u, rest, hl, ht, hov, hmax⟩
    refine ⟨u.length + 1, ⟨hl.symm ▸ (cand_line hC (hbu hl)).mpr ⟨⟨_, ht⟩, .inl hov⟩, ?_⟩, (hty hl).mpr ht⟩
    intro e' h'
    have he := h'.1
    have hel := h'.2.1
    simp only [List.length_cons] at hel
    obtain ⟨u', rest', hl', hu'⟩ := cut (line := line) (k := e' - 1) (by omega)
    obtain rfl : e' = u'.length + 1 := by omega
    obtain ⟨⟨n, hn⟩, h | h⟩ := (cand_line hC (rest := rest') (hbu hl')).mp (hl' ▸ h')
    · have := hmax n u' rest' hl' hn h
      omega
    · subst h
      simp

theorem first_ts (hC : s.Compiled addr t L) (hmono : ∀ a b, a < b → addr a < addr b) (hres : s.Reserved) (hord : s.TimestampsFirst)
    {line : List Nat} (hb : AllBytes line) : L.FirstWithTs line ↔ s.LongestIs cCharStartOfFile "firstTimestamp" line := by
  have hO := buildLexer_ok hC.ok
  obtain ⟨b1, _, b3, _⟩ := C16_bijection hC.ok
  have hid : t.getSymbolId "firstTimestamp" = some tokenFirstTimestamp := b3 ("firstTimestamp", 5) (by simp)
  have hpat : ∀ v ∈ s.vars, ∃ p : Pat, p.elab = some v.regex := fun v hv => by
    obtain ⟨_, p, h, _⟩ := hC.sensible v hv
    exact ⟨p, h⟩
  have hbu : ∀ {u rest : List Nat}, line = u ++ rest → AllBytes u := fun h c hc => hb c (by rw [h]; simp [hc])
  have hbw : ∀ {u rest : List Nat}, line = u ++ rest → AllBytes (cCharStartOfFile :: u) := by
    intro u rest h c hc
    rcases List.mem_cons.mp hc with rfl | hc
    · decide
    · exact hbu h c hc
  have hne : ∀ {u rest : List Nat}, line = u ++ rest → s.Takes "firstTimestamp" (cCharStartOfFile :: u) → u ≠ [] := by
    rintro u rest h ht rfl
    obtain ⟨n, re, _, _, hlen, _⟩ := hO.text_kind hC.sensible hC.inj ((C54_types hpat hC.inj hC.ok hid (hbw h)).mpr ht)
    rcases hlen with ⟨_, h⟩ | h
    · exact absurd h (by decide)
    · simp at h
  have hty : ∀ {u rest : List Nat}, line = u ++ rest → u ≠ [] →
      ((L.typesOn line true 0 u.length).head? = some tokenFirstTimestamp ↔ s.Takes "firstTimestamp" (cCharStartOfFile :: u)) := by
    intro u rest h hu
    have := List.length_pos_iff.mpr hu
    rw [h, typesOn_first]
    exact head_type hC hmono hres hord (hbw h) (by simp; omega) (.inl rfl) hid
  constructor
  · rintro ⟨e, ⟨h1, h2⟩, h3⟩
    obtain ⟨u, rest, hl, hu⟩ := cut (line := line) (k := e) h1.2.1
    subst hu
    have hc := (cand_first hC (rest := rest) (hbu hl)).mp (hl ▸ h1)
    refine ⟨u, rest, hl, (hty hl hc.1).mp h3, hc.2.2, ?_⟩
    intro n u' rest' hl' ht' hov'
    by_cases hu' : u' = []
    · subst hu'; simp
    · exact h2 u'.length (hl'.symm ▸ (cand_first hC (hbu hl')).mpr ⟨hu', ⟨n, ht'⟩, hov'⟩)
  · rintro ⟨u, rest, hl, ht, hov, hmax⟩
    have hu := hne hl ht
    refine ⟨u.length, ⟨hl.symm ▸ (cand_first hC (hbu hl)).mpr ⟨hu, ⟨_, ht⟩, hov⟩, ?_⟩, (hty hl hu).mpr ht⟩
    intro e' h'
    obtain ⟨u', rest', hl', hu'⟩ := cut (line := line) (k := e') h'.2.1
    subst hu'
    obtain ⟨_, ⟨n, hn⟩, h⟩ := (cand_first hC (rest := rest') (hbu hl')).mp (hl' ▸ h')
    exact hmax n u' rest' hl' hn h

/-! ### Lines -/

theorem splitLines_cons (T : List Nat) : ∃ ls, splitLines T = firstLine T :: ls := by
  induction T with
  | nil => exact ⟨[], rfl⟩
  | cons c T ih =>
    obtain ⟨ls, h⟩ := ih
    unfold splitLines firstLine
    by_cases hc : c = newline
    · exact ⟨_, by rw [if_pos hc, if_pos hc]⟩
    · exact ⟨ls, by rw [if_neg hc, if_neg hc, h]⟩

theorem lineEvents_grouped (f : List Nat → Bool) (T : List Nat) : ∀ acc, lineEvents f acc true T =
    (grouped f (acc ++ (splitLines T).headD []) (splitLines T).tail).map fun x => (true, x) := by
  induction T with
  | nil => intro acc; simp [lineEvents, splitLines, grouped]
  | cons c T ih =>
    intro acc
    obtain ⟨ls, h⟩ := splitLines_cons T
    rw [lineEvents]
    by_cases hc : c = newline
    · by_cases hf : f (firstLine T) = true
      · rw [if_pos ⟨hc, .inl hf⟩, hf, ih, h, splitLines, if_pos hc, h]
        simp [grouped, hf]
      · rw [if_neg (by simp [hf]), ih, h, splitLines, if_pos hc, h]
        simp [grouped, hf]
    · rw [if_neg (fun h => hc h.1), ih, splitLines, if_neg hc, h]
      simp

theorem lineEvents_plain (T : List Nat) : ∀ acc, (acc = [] → firstLine T ≠ [newline]) → (∀ l ∈ (splitLines T).tail, l ≠ [newline]) →
    lineEvents (fun _ => false) acc false T = ((acc ++ (splitLines T).headD []) :: (splitLines T).tail).map fun x => (false, x) := by
  induction T with
  | nil => intro acc _ _; simp [lineEvents, splitLines]
  | cons c T ih =>
    intro acc h1 h2
    obtain ⟨ls, h⟩ := splitLines_cons T
    rw [lineEvents]
    by_cases hc : c = newline
    · have hacc : acc ≠ [] := by
        intro h0
        refine h1 h0 ?_
        simp [firstLine, hc]
      have h2' : ∀ l ∈ firstLine T :: ls, l ≠ [newline] := by
        rw [splitLines, if_pos hc, h] at h2
        exact h2
      rw [if_pos ⟨hc, .inr ⟨rfl, hacc⟩⟩, ih [] (fun _ => h2' _ (by simp)) (by rw [h]; exact fun l hl => h2' l (by simp at hl; simp [hl])), h,
        splitLines, if_pos hc, h]
      simp
    · have h2' : ∀ l ∈ ls, l ≠ [newline] := by
        rw [splitLines, if_neg hc, h] at h2
        exact h2
      rw [if_neg (fun h => hc h.1), ih _ (by simp) (by rw [h]; exact h2'), splitLines, if_neg hc, h]
      simp

/-- A schema without timestamps. -/
theorem no_ts (hC : s.Compiled addr t L) (hres : s.Reserved) (hno : ∀ v ∈ s.vars, v.name ≠ "timestamp") (line : List Nat) :
    ¬ L.BeginsWithTs line ∧ ¬ L.FirstWithTs line := by
  have hO := buildLexer_ok hC.ok
  have key : ∀ {w : List Nat} {id : Nat} {name : String}, (id, name) = (5, "firstTimestamp") ∨ (id, name) = (6, "newLineTimestamp") →
      (L.dfa.idsOn w).head? ≠ some id := by
    intro w id name hn h
    obtain ⟨n, re, hk, hid, _⟩ := hO.text_kind hC.sensible hC.inj (List.mem_of_mem_head? h)
    have hn' := symbol_unique hO hid (m := name) (by rcases hn with h | h <;> cases h <;> decide)
    subst hn'
    cases hk with
    | newLine => rcases hn with h | h <;> exact absurd (Prod.mk.inj h).2 (by decide)
    | first hv hts => exact hno _ hv hts
    | newLineTs hv hts => exact hno _ hv hts
    | var hv _ =>
      rcases hn with h | h
      · exact (hres _ hv).1 (Prod.mk.inj h).2
      · exact (hres _ hv).2.1 (Prod.mk.inj h).2
  constructor
  · rintro ⟨e, _, h⟩
    exact key (.inr rfl) h
  · rintro ⟨e, _, h⟩
    exact key (.inl rfl) h

end LogSurgeon
