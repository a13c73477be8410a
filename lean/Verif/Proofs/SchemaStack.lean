import Verif.Proofs.SchemaRoom
import Verif.Proofs.ParseRoom
/-
The stack of the parser of schema files, and the children array.
-/
namespace LogSurgeon
open Grammar

def pairsOk (f : String → String → Bool) : List String → Bool
  | a :: b :: rest => f a b && pairsOk f (b :: rest)
  | _ => true

theorem pairsOk_spec {f : String → String → Bool} {x y : String} {rest : List String} : ∀ {pre : List String}, pairsOk f (pre ++ x :: y :: rest) = true → f x y = true
  | [], h => by simp only [List.nil_append, pairsOk, Bool.and_eq_true] at h; exact h.1
  | [a], h => by
    simp only [List.cons_append, List.nil_append, pairsOk, Bool.and_eq_true] at h
    exact h.2.1
  | a :: b :: pre, h => by
    simp only [List.cons_append, pairsOk, Bool.and_eq_true] at h
    exact pairsOk_spec (pre := b :: pre) (by simpa using h.2)

/-- What may stand before a symbol that does not belong to a line. -/
def mayPrecede (x y : String) : Bool :=
  if y = "Schema" then false else if y = "PortableNewLine" ∨ y = "CarriageReturn" then x == "Schema" else if y = "NewLine" then x == "Schema" || x == "CarriageReturn"
  else true

theorem beside_checks :
    (∀ d ∈ schemaProductions schemaSpecials, pairsOk mayPrecede d.2 = true) ∧
    (∀ d ∈ schemaProductions schemaSpecials, ∀ y ∈ d.2.head?, inLine y = false → (y = "Schema" ∧ d.1 = "Schema") ∨ (y = "NewLine" ∧ d.1 = "PortableNewLine") ∨
      (y = "CarriageReturn" ∧ d.1 = "PortableNewLine")) ∧
    besideIn ["PortableNewLine", "CarriageReturn", "NewLine"] (schemaProductions schemaSpecials) "Schema" = true ∧
    besideIn ["NewLine"] (schemaProductions schemaSpecials) "CarriageReturn" = true ∧
    (∀ d ∈ schemaProductions schemaSpecials, d.2 ≠ ["Schema"] ∧ d.2 ≠ ["CarriageReturn"] ∧ d.2 ≠ ["Schema", "CarriageReturn"]) ∧
    (∀ d ∈ schemaProductions schemaSpecials, d.2.head? = some "Schema" → d.1 = "Schema") := by decide +kernel

theorem beside_precede {ps : List (String × List String)} (hm : ∀ d ∈ ps, d ∈ schemaProductions schemaSpecials) {x y : String} (h : Beside ps x y) :
    mayPrecede x y = true := by
  induction h with
  | here hd => exact pairsOk_spec (beside_checks.1 _ (hm _ hd))
  | @left head y rest _ hd ih =>
    by_cases hy : inLine y = true
    · unfold inLine at hy
      simp only [List.contains_cons, List.contains_nil, Bool.or_false, Bool.not_eq_eq_eq_not, Bool.not_true, Bool.or_eq_false_iff, beq_eq_false_iff_ne, ne_eq] at hy
      unfold mayPrecede
      simp [hy]
    · rcases beside_checks.2.1 _ (hm _ hd) y (by simp) (by simpa using hy) with ⟨rfl, h⟩ | ⟨rfl, h⟩ | ⟨rfl, h⟩
      · simp only at h
        subst h
        exact ih
      · simp only at h
        subst h
        simp only [mayPrecede] at ih ⊢
        simp at ih ⊢
        exact .inl ih
      · simp only at h
        subst h
        simp only [mayPrecede] at ih ⊢
        simp at ih ⊢
        exact ih

/-- The stack consists of a file, at most one end of a line, and symbols of a line. -/
structure Shape (ss A N R : List String) : Prop where
  eq : ss = A ++ N ++ R
  file : A = [] ∨ A = ["Schema"]
  nl : N = [] ∨ N = ["CarriageReturn"] ∨ N = ["NewLine"] ∨ N = ["CarriageReturn", "NewLine"] ∨ N = ["PortableNewLine"]
  line : ∀ s ∈ R, inLine s = true
  empty : A = ["Schema"] → N = [] ∨ N = ["CarriageReturn"] → R = []

theorem inLine_cases (y : String) : inLine y = true ∨ y = "Schema" ∨ y = "PortableNewLine" ∨ y = "NewLine" ∨ y = "CarriageReturn" ∨ y = "$START_PRIME" := by
  unfold inLine
  by_cases h : y ∈ ["Schema", "PortableNewLine", "NewLine", "CarriageReturn", "$START_PRIME"]
  · right
    simpa using h
  · left
    simpa using h

theorem shape_of {ps : List (String × List String)} (hm : ∀ d ∈ ps, d ∈ schemaProductions schemaSpecials) : ∀ {ns : List String}, NamesFit ps ns →
    "$START_PRIME" ∉ ns → ∃ A N R, Shape ns.reverse A N R
  | [], _, _ => ⟨[], [], [], ⟨rfl, .inl rfl, .inl rfl, by simp, fun h => by cases h⟩⟩
  | y :: xs, h, hp => by
    rw [List.mem_cons, not_or] at hp
    obtain ⟨A, N, R, hS⟩ := shape_of hm h.2 hp.2
    have heq : (y :: xs).reverse = A ++ N ++ R ++ [y] := by rw [List.reverse_cons, hS.eq]
    cases xs with
    | nil =>
      have e := hS.eq
      simp only [List.reverse_nil, List.append_eq_nil_iff, List.nil_eq] at e
      obtain ⟨⟨rfl, rfl⟩, rfl⟩ := e
      rcases inLine_cases y with h | h | h | h | h | h
      · exact ⟨[], [], [y], ⟨rfl, .inl rfl, .inl rfl, by simpa using h, fun h => by cases h⟩⟩
      · exact ⟨[y], [], [], ⟨rfl, .inr (by rw [h]), .inl rfl, by simp, fun _ _ => rfl⟩⟩
      · exact ⟨[], [y], [], ⟨rfl, .inl rfl, by simp [h], by simp, fun _ _ => rfl⟩⟩
      · exact ⟨[], [y], [], ⟨rfl, .inl rfl, by simp [h], by simp, fun _ _ => rfl⟩⟩
      · exact ⟨[], [y], [], ⟨rfl, .inl rfl, by simp [h], by simp, fun _ _ => rfl⟩⟩
      · exact absurd h.symm hp.1
    | cons x xs =>
      have hb := h.1 x xs rfl
      have hpre := beside_precede hm hb
      have hlast : (A ++ N ++ R).getLast? = some x := by
        rw [← hS.eq]
        simp
      have hlast' : ∀ {z : String}, (A ++ N ++ R).getLast? = some z → z = x := fun h => by rw [hlast] at h; cases h; rfl
      -- the top is in `R`, `N` or `A`
      have hx : (∃ R', R = R' ++ [x]) ∨ (R = [] ∧ ((∃ N', N = N' ++ [x]) ∨ (N = [] ∧ A = [x]))) := by
        rcases List.eq_nil_or_concat R with rfl | ⟨R', z, rfl⟩
        · refine .inr ⟨rfl, ?_⟩
          rcases List.eq_nil_or_concat N with rfl | ⟨N', z, rfl⟩
          · refine .inr ⟨rfl, ?_⟩
            rcases hS.file with rfl | rfl
            · simp at hlast
            · simp at hlast; rw [hlast]
          · rw [hlast' (z := z) (by simp)]
            exact .inl ⟨N', by simp⟩
        · rw [hlast' (z := z) (by simp)]
          exact .inl ⟨R', by simp⟩
      have hfile : x = "Schema" → A = ["Schema"] ∧ N = [] ∧ R = [] := by
        rintro rfl
        rcases hx with ⟨R', rfl⟩ | ⟨rfl, ⟨N', rfl⟩ | ⟨rfl, rfl⟩⟩
        · exact absurd (hS.line "Schema" (by simp)) (by decide)
        · have hn := hS.nl
          rcases hn with h | h | h | h | h
          · simp at h
          all_goals
            have := congrArg List.getLast? h
            simp at this
        · exact ⟨rfl, rfl, rfl⟩
      rcases inLine_cases y with hy | rfl | rfl | rfl | rfl | rfl
      · refine ⟨A, N, R ++ [y], ⟨by rw [heq, List.append_assoc], hS.file, hS.nl, fun s hs => ?_, fun hA hN => ?_⟩⟩
        · rcases List.mem_append.mp hs with hs | hs
          · exact hS.line s hs
          · rw [List.mem_singleton.mp hs]; exact hy
        · exfalso
          have hR := hS.empty hA hN
          subst hR
          subst hA
          have hb' : ∀ L z, besideIn L (schemaProductions schemaSpecials) z = true → besideIn L ps z = true := by
            intro L z h
            rw [besideIn, List.all_eq_true] at h ⊢
            exact fun d hd => h d (hm d hd)
          rcases hN with rfl | rfl
          · have := hlast' (z := "Schema") (by simp)
            subst this
            have := besideIn_spec (hb' _ _ beside_checks.2.2.1) hb
            simp only [List.mem_cons, List.not_mem_nil, or_false] at this
            rcases this with rfl | rfl | rfl <;> exact absurd hy (by decide)
          · have := hlast' (z := "CarriageReturn") (by simp)
            subst this
            have := besideIn_spec (hb' _ _ beside_checks.2.2.2.1) hb
            simp only [List.mem_cons, List.not_mem_nil, or_false] at this
            subst this
            exact absurd hy (by decide)
      · simp [mayPrecede] at hpre
      · have hxs : x = "Schema" := by simpa [mayPrecede] using hpre
        obtain ⟨rfl, rfl, rfl⟩ := hfile hxs
        exact ⟨["Schema"], ["PortableNewLine"], [], ⟨by simpa using heq, .inr rfl, by simp, by simp, fun _ _ => rfl⟩⟩
      · have hxs : x = "Schema" ∨ x = "CarriageReturn" := by simpa [mayPrecede] using hpre
        rcases hxs with hxs | rfl
        · obtain ⟨rfl, rfl, rfl⟩ := hfile hxs
          exact ⟨["Schema"], ["NewLine"], [], ⟨by simpa using heq, .inr rfl, by simp, by simp, fun _ _ => rfl⟩⟩
        · rcases hx with ⟨R', rfl⟩ | ⟨rfl, ⟨N', rfl⟩ | ⟨rfl, rfl⟩⟩
          · exact absurd (hS.line "CarriageReturn" (by simp)) (by decide)
          · have hn : N' = [] := by
              rcases hS.nl with h | h | h | h | h
              · simp at h
              · simpa using h
              · have := congrArg List.getLast? h; simp at this
              · have := congrArg List.getLast? h; simp at this
              · have := congrArg List.getLast? h; simp at this
            subst hn
            exact ⟨A, ["CarriageReturn", "NewLine"], [], ⟨by simpa using heq, hS.file, by simp, by simp, fun _ _ => rfl⟩⟩
          · rcases hS.file with h | h
            · cases h
            · simp at h
      · have hxs : x = "Schema" := by simpa [mayPrecede] using hpre
        obtain ⟨rfl, rfl, rfl⟩ := hfile hxs
        exact ⟨["Schema"], ["CarriageReturn"], [], ⟨by simpa using heq, .inr rfl, by simp, by simp, fun _ _ => rfl⟩⟩
      · exact absurd rfl hp.1

/-! ### Room for the next node -/

mutual
theorem counter_le (resets : Nat → Bool) : ∀ (t : Tree) {k k' : Nat}, t.counter resets k = some k' → k' ≤ k + t.edges
  | .leaf _, k, k', h => by simp only [Tree.counter, Option.some.injEq] at h; omega
  | .node p cs, k, k', h => by
    simp only [Tree.counter] at h
    cases hc : Tree.counter.counters resets cs k with
    | none => rw [hc] at h; cases h
    | some k1 =>
      rw [hc] at h
      have h1 := counters_le resets cs hc
      simp only at h
      simp only [Tree.edges]
      split at h
      · cases h
      · simp only [Option.some.injEq] at h
        split at h <;> omega
theorem counters_le (resets : Nat → Bool) : ∀ (ts : List Tree) {k k' : Nat}, Tree.counter.counters resets ts k = some k' → k' ≤ k + Tree.edges.edgesAll ts
  | [], k, k', h => by simp only [Tree.counter.counters, Option.some.injEq] at h; omega
  | t :: ts, k, k', h => by
    simp only [Tree.counter.counters] at h
    cases hc : t.counter resets k with
    | none => rw [hc] at h; cases h
    | some k1 =>
      rw [hc] at h
      have h1 := counter_le resets t hc
      have h2 := counters_le resets ts h
      simp only [Tree.edges.edgesAll]
      omega
end

theorem slack_suffix {a b : List String} (h : a <:+ b) : (a.map slack).sum ≤ (b.map slack).sum := by
  obtain ⟨c, rfl⟩ := h
  simp

theorem derivation_append {decls : List (String × List String)} {isTok : Token → String → Prop} : ∀ {a b : List String} {ts : List Tree} {w : List Token},
    Derivation decls isTok (a ++ b) ts w → ∃ t1 t2 w1 w2, ts = t1 ++ t2 ∧ w = w1 ++ w2 ∧ Derivation decls isTok a t1 w1 ∧ Derivation decls isTok b t2 w2
  | [], b, ts, w, h => ⟨[], ts, [], w, rfl, rfl, .nil, h⟩
  | x :: a, b, ts, w, h => by
    rw [List.cons_append] at h
    cases h with
    | tok ht h =>
      obtain ⟨t1, t2, w1, w2, rfl, rfl, h1, h2⟩ := derivation_append h
      exact ⟨_ :: t1, t2, _ :: w1, w2, rfl, rfl, .tok ht h1, h2⟩
    | prod hd hb h =>
      obtain ⟨t1, t2, w1, w2, rfl, rfl, h1, h2⟩ := derivation_append h
      exact ⟨_ :: t1, t2, _ ++ w1, w2, rfl, by simp, .prod hd hb h1, h2⟩

theorem stack_room {ps decls : List (String × List String)} {isTok : Token → String → Prop} {text : Token → List Nat}
    (hm : ∀ d ∈ ps, d ∈ schemaProductions schemaSpecials)
    (hall : ∀ (i : Nat) d, decls[i]? = some d → d.1 = "$START_PRIME" ∨ ∃ r, (d, r) ∈ D0)
    (hlook : ∀ t s, isTok t s → slack s ≤ 5) {resets : Nat → Bool}
    (hres : ∀ p, decls[p]? = some ("Schema", ["Schema", "PortableNewLine", "SchemaVar"]) → resets p = true) {kids : Nat}
    {ns : List String} (hns : NamesFit ps ns) (hprime : "$START_PRIME" ∉ ns) {ts : List Tree} {w : List Token} (h : Derivation decls isTok ns.reverse ts w)
    {ls : List Lexeme} (hu : List.Forall₂ (SameUnit isTok text) w ls) (hfit : Fit kids ls) {k : Nat}
    (hk : Tree.counter.counters resets ts kids = some k) {d : String × List String} (hd : d ∈ ps) (hd0 : d.2 ≠ []) {ns' : List String}
    (hsuf : ns = d.2.reverse ++ ns') : k + d.2.length ≤ 10000 := by
  have hno := inLine_checks.2.2.2.2.2.2.2
  have hcr : ∀ t, isTok t "CarriageReturn" → ∀ l, SameUnit isTok text t l → l = .char 13 :=
    fun t ht l hl => stands_only inLine_checks.2.2.2.1 (by decide) ((hl.2 _).mp ht)
  have hnl : ∀ t, isTok t "NewLine" → ∀ l, SameUnit isTok text t l → l = .char 10 :=
    fun t ht l hl => stands_only inLine_checks.2.2.1 (by decide) ((hl.2 _).mp ht)
  have hd' := hm d hd
  obtain ⟨r, hr⟩ : ∃ r, (d, r) ∈ D0 := by
    obtain ⟨x, hx, e⟩ := List.mem_map.mp hd'
    exact ⟨x.2, by rw [← e]; exact hx⟩
  have hslack : d.2.length ≤ (d.2.map slack).sum := Nat.le_trans (Nat.le_add_left _ _) (slack_ok _ hr)
  obtain ⟨A, N, R, hS⟩ := shape_of hm hns hprime
  have hprime' : "$START_PRIME" ∉ ns.reverse := by simpa using hprime
  have hsuf' : d.2 <:+ ns.reverse := ⟨ns'.reverse, by rw [hsuf]; simp⟩
  rw [hS.eq] at h hsuf' hprime'
  -- what the end of the line looks like
  have hN : ∀ {t1 w1 l1}, Derivation decls isTok N t1 w1 → List.Forall₂ (SameUnit isTok text) w1 l1 →
      ((N = [] ∧ l1 = []) ∨ (N = ["CarriageReturn"] ∧ l1 = [.char 13])) ∨ l1 = [.char 10] ∨ l1 = [.char 13, .char 10] := by
    intro t1 w1 l1 hd hu
    rcases hS.nl with e | e | e | e | e
    · rw [e] at hd; cases hd; cases hu; exact .inl (.inl ⟨e, rfl⟩)
    · rw [e] at hd
      obtain ⟨t, _, _, rfl, ht, hd⟩ := derivation_only hall (by decide +kernel) (by decide) hd
      cases hd
      cases hu with
      | cons hl hu => cases hu; rw [hcr _ ht _ hl]; exact .inl (.inr ⟨e, rfl⟩)
    · exact .inr (newline_units hall hcr hnl (.inr (.inl e)) hd hu)
    · exact .inr (newline_units hall hcr hnl (.inr (.inr e)) hd hu)
    · exact .inr (newline_units hall hcr hnl (.inl e) hd hu)
  rcases hS.file with hA | hA
  · rw [hA, List.nil_append] at h hsuf' hprime'
    obtain ⟨e1, e2⟩ := edges_le hall hno hlook h hprime'
    have h2 := counters_le resets ts hk
    have h3 := slack_suffix hsuf'
    obtain ⟨t1, t2, w1, w2, rfl, rfl, d1, d2⟩ := derivation_append h
    obtain ⟨l1, l2, rfl, u1, u2⟩ := forall₂_append_inv hu
    have hone := inLine_units hall d2 hS.line u2
    rw [hu.length_eq] at e1
    suffices hs : kids + 5 * (l1 ++ l2).length ≤ 10000 by omega
    rcases hN d1 u1 with (⟨_, e⟩ | ⟨_, e⟩) | e | e
    · rw [e] at hfit ⊢
      exact (fit_one hone).1.mp hfit
    · rw [e] at hfit ⊢
      exact (fit_one (by simpa using hone)).1.mp hfit
    · rw [e] at hfit ⊢
      have := (fit_line (a := []) hone).1.mp hfit
      rw [(fit_one (by simp)).2] at this
      simp only [List.length_nil, List.length_append, List.length_cons] at this ⊢
      omega
    · rw [e] at hfit ⊢
      have := (fit_line (a := [.char 13]) hone).1.mp hfit
      rw [(fit_one (by simp)).2] at this
      simp only [List.length_nil, List.length_append, List.length_cons] at this ⊢
      omega
  · rw [hA, List.append_assoc, List.singleton_append] at h hsuf' hprime'
    rw [List.mem_cons, not_or] at hprime'
    obtain ⟨t0, ts', wa, wb, la, lb, rfl, rfl, rfl, ua, ub, db, hc⟩ := schema_counter (resets := resets) (kids := kids) hall hlook hres h _ rfl hu
    obtain ⟨k0, c1, c2⟩ := hc (fit_prefix hfit)
    simp only [Tree.counter.counters, c1] at hk
    have hk2 := counters_le resets ts' hk
    obtain ⟨e1, e2⟩ := edges_le hall hno hlook db hprime'.2
    have hlen : d.2.length ≤ ((N ++ R).map slack).sum := by
      rcases List.suffix_cons_iff.mp hsuf' with h | h
      · have hh : d.1 = "Schema" := beside_checks.2.2.2.2.2 d hd' (by rw [h]; rfl)
        rcases schema_bodies _ hr hh with h1 | ⟨r', h1, h2⟩
        · simp only at h1
          rw [h] at h1
          simp at h1
        · simp only at h1
          rw [h] at h1 ⊢
          simp only [List.cons.injEq, true_and] at h1
          rw [h1]
          rcases h2 with rfl | rfl | rfl | rfl <;> decide
      · exact Nat.le_trans hslack (slack_suffix h)
    obtain ⟨t1, t2, w1, w2, rfl, rfl, d1, d2⟩ := derivation_append db
    obtain ⟨l1, l2, rfl, u1, u2⟩ := forall₂_append_inv ub
    have hone := inLine_units hall d2 hS.line u2
    rw [ub.length_eq, List.length_append] at e1
    suffices hs : ∃ la', la ++ (l1 ++ l2) = la' ++ .char 10 :: l2 ∧ (Fit kids la' → roomBound kids la ≤ roomBound kids la') ∧ l1.length ≤ 2 by
      obtain ⟨la', hla, hba, hl⟩ := hs
      rw [hla] at hfit
      obtain ⟨f1, f2⟩ := (fit_line (k := kids) (a := la') hone).1.mp hfit
      have := hba f1
      omega
    rcases hN d1 u1 with he | e | e
    · exfalso
      have hR := hS.empty hA (he.imp And.left And.left)
      subst hR
      obtain ⟨b1, b2, b3⟩ := beside_checks.2.2.2.2.1 d hd'
      rcases he with ⟨rfl, _⟩ | ⟨rfl, _⟩
      · rcases List.suffix_cons_iff.mp hsuf' with h | h
        · exact b1 (by simpa using h)
        · exact hd0 (List.suffix_nil.mp (by simpa using h))
      · rcases List.suffix_cons_iff.mp hsuf' with h | h
        · exact b3 (by simpa using h)
        · rcases List.suffix_cons_iff.mp (by simpa using h : d.2 <:+ "CarriageReturn" :: []) with h | h
          · exact b2 h
          · exact hd0 (List.suffix_nil.mp h)
    · exact ⟨la, by rw [e]; simp, fun _ => Nat.le_refl _, by rw [e]; simp⟩
    · exact ⟨la ++ [.char 13], by rw [e]; simp, fun h => (fit_cr h).2, by rw [e]; simp⟩

/-- The tree of a text for which there is room fits. -/
theorem fit_counter {sp : List String} (hsp : sp.Perm schemaSpecials) {text : Token → List Nat} {w : List Token} {ls : List Lexeme} {tree : Tree}
    (hd : Derivation (schemaGrammar sp).decls ((schemaGrammar sp).IsTok (reserved.map (·.1) ++ schemaTerminals sp)) ["Schema"] [tree] w)
    (hu : List.Forall₂ (SameUnit ((schemaGrammar sp).IsTok (reserved.map (·.1) ++ schemaTerminals sp)) text) w ls) {kids : Nat} (hfit : Fit kids ls) :
    ∃ kids', kids' ≤ roomBound kids ls ∧ tree.counter (schemaResets (schemaGrammar sp)) kids = some kids' := by
  have hlook : ∀ t s, (schemaGrammar sp).IsTok (reserved.map (·.1) ++ schemaTerminals sp) t s → slack s ≤ 5 := fun t s h => by
    refine symWeight_checks.2.2.2.1 s ?_
    have := h.1
    rw [List.mem_append, mem_schemaTerminals hsp] at this
    exact List.mem_append.mpr this
  have hres : ∀ p, (schemaGrammar sp).decls[p]? = some ("Schema", ["Schema", "PortableNewLine", "SchemaVar"]) →
      schemaResets (schemaGrammar sp) p = true := fun p h => by unfold schemaResets; rw [h]; rfl
  obtain ⟨t0, ts', wa, wb, la, lb, e1, rfl, rfl, _, hlb, hdb, hc⟩ := schema_counter (resets := schemaResets (schemaGrammar sp)) (kids := kids)
    (decl_cases hsp) hlook hres hd _ rfl hu
  cases e1
  obtain ⟨k, h, hle⟩ := hc (fit_prefix hfit)
  cases hdb
  cases hlb
  exact ⟨k, by simpa using hle, h⟩

end LogSurgeon
