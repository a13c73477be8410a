import Verif.Proofs.SchemaTotal
import Verif.Proofs.LalrBound
import Verif.Proofs.SchemaParse
import Verif.Proofs.SchemaStack
import Verif.Props.LalrComplete
import Verif.Props.Lalr
/-
C45: the LALR(1) parser ends on every sequence of tokens, without undefined behaviour, and rejects what is not derivable.
-/
namespace LogSurgeon
open Grammar

/-- C45, no undefined behaviour.  For every grammar `(start, bd) :: ds` over the terminals `terms` as in C42, if generation reports no conflict,
then on no sequence of tokens does the parser run into undefined behaviour, with whatever number of steps, if the children fit: `sl` bounds
the children of the nodes of derivation trees by the symbols they span (a production does not have more children than the slack it uses up), at most
`K` for each token read other than end tokens, and `kids` entries are used before. -/
theorem C45_no_undefined_behaviour {terms : List String} {start : String} {bd : List String} {ds : List (String × List String)} {g : Grammar}
    (hg : g = Grammar.build terms ((start, bd) :: ds))
    (hp : ∀ d ∈ (start, bd) :: ds, d.1 ≠ "$START_PRIME" ∧ "$START_PRIME" ∉ d.2) (hpt : "$START_PRIME" ∉ terms)
    (hsep : ∀ d ∈ (start, bd) :: ds, d.1 ∉ reserved.map (·.1) ++ terms) (hend : ∀ d ∈ (start, bd) :: ds, "$end" ∉ d.2)
    (hpr : ∀ d ∈ (start, bd) :: ds, ∀ s ∈ d.2, Productive (reserved.map (·.1) ++ terms) ((start, bd) :: ds) s)
    (hsize : g.symbolId.length ≤ cNullSymbol) {o : Orders} (ho : o.Ok g) {fuel : Nat} {tb : Table} (hgen : g.generate o fuel = .ok tb)
    {sl : String → Nat} {K : Nat} (hsl : ∀ d ∈ (start, bd) :: ds, sl d.1 + d.2.length ≤ (d.2.map sl).sum)
    (hK : ∀ s ∈ reserved.map (·.1) ++ terms, sl s ≤ K) {resets : Nat → Bool} {input : List Token}
    (hty : ∀ x ∈ input, ∃ tys, x.types = some tys ∧ ∀ ty ∈ tys, ty ∈ g.terminals) {kids : Nat}
    (hkids : kids + K * (input.filter fun x => x.types ≠ some [tokenEnd]).length ≤ 10000) (k : Nat) :
    g.parse tb resets k kids input ≠ .error .ub := by
  obtain ⟨sid, t, S⟩ := sound_names hg hp hsep hpt hpr hsize ho hgen
  have hse : start ≠ "$end" := fun h => hsep (start, bd) (by simp) (by rw [h]; simp [reserved])
  exact S.no_ub hend hse hsl hK hty hkids k

/-- C45, termination.  Under the same conditions on the grammar the parser ends on every sequence of tokens, after a number of steps that is
linear in the number of tokens, if the symbols have weights such that the body of each production weighs more than its head, and a
symbol of negative weight (one that derives the empty sequence) is outweighed by whatever can begin behind it. -/
theorem C45_terminates {terms : List String} {start : String} {bd : List String} {ds : List (String × List String)} {g : Grammar}
    (hg : g = Grammar.build terms ((start, bd) :: ds))
    (hp : ∀ d ∈ (start, bd) :: ds, d.1 ≠ "$START_PRIME" ∧ "$START_PRIME" ∉ d.2) (hpt : "$START_PRIME" ∉ terms)
    (hsep : ∀ d ∈ (start, bd) :: ds, d.1 ∉ reserved.map (·.1) ++ terms) (hend : ∀ d ∈ (start, bd) :: ds, "$end" ∉ d.2)
    (hpr : ∀ d ∈ (start, bd) :: ds, ∀ s ∈ d.2, Productive (reserved.map (·.1) ++ terms) ((start, bd) :: ds) s)
    (hsize : g.symbolId.length ≤ cNullSymbol) {o : Orders} (ho : o.Ok g) {fuel : Nat} {tb : Table} (hgen : g.generate o fuel = .ok tb)
    {w : String → Int} {K B : Nat} (hw : ∀ d ∈ (start, bd) :: ds, w d.1 + 1 ≤ (d.2.map w).sum)
    (hK : ∀ s ∈ reserved.map (·.1) ++ terms, w s ≤ K) (hlow : ∀ s, -(B : Int) ≤ w s)
    (hadj : ∀ x y, w x < 0 → Beside ((start, bd) :: ds) x y → 0 ≤ w x + w y) {resets : Nat → Bool} {input : List Token}
    (hty : ∀ x ∈ input, ∃ tys, x.types = some tys ∧ ∀ ty ∈ tys, ty ∈ g.terminals) (kids : Nat) :
    ∃ res, res ≠ .error .diverge ∧ ∀ k, B + (K + 1) * (input.filter fun x => x.types ≠ some [tokenEnd]).length < k →
      g.parse tb resets k kids input = res := by
  obtain ⟨sid, t, S⟩ := sound_names hg hp hsep hpt hpr hsize ho hgen
  have hse : start ≠ "$end" := fun h => hsep (start, bd) (by simp) (by rw [h]; simp [reserved])
  have h1 := S.terminates (resets := resets) (k := B + (K + 1) * (input.filter fun x => x.types ≠ some [tokenEnd]).length + 1) hp hend hse hw hK
    hlow hadj hty kids (by omega)
  exact ⟨_, h1, fun k hk => parseLoop_mono rfl h1 k (by omega)⟩

/-- The parser decides if it ends within `N` steps and the children fit. -/
theorem decides_of {terms : List String} {start : String} {bd : List String} {ds : List (String × List String)} {g : Grammar}
    (hg : g = Grammar.build terms ((start, bd) :: ds))
    (hp : ∀ d ∈ (start, bd) :: ds, d.1 ≠ "$START_PRIME" ∧ "$START_PRIME" ∉ d.2) (hpt : "$START_PRIME" ∉ terms)
    (hsep : ∀ d ∈ (start, bd) :: ds, d.1 ∉ reserved.map (·.1) ++ terms) (hend : ∀ d ∈ (start, bd) :: ds, "$end" ∉ d.2)
    (hpr : ∀ d ∈ (start, bd) :: ds, ∀ s ∈ d.2, Productive (reserved.map (·.1) ++ terms) ((start, bd) :: ds) s)
    (hclean : EndsCleanly ((start, bd) :: ds) start) (hsize : g.symbolId.length ≤ cNullSymbol)
    {o : Orders} (ho : o.Ok g) {fuel : Nat} {tb : Table} (hgen : g.generate o fuel = .ok tb)
    {resets : Nat → Bool} {w : List Token} (hcl : ∀ x ∈ w, g.Clear tb x) {e : Token} (he : e.types = some [tokenEnd]) (rest : List Token)
    {kids N : Nat} (hterm : ∃ res, res ≠ .error .diverge ∧ ∀ k, N < k → g.parse tb resets k kids (w ++ [e]) = res) (hub : ∀ k, g.parse tb resets k kids (w ++ [e]) ≠ .error .ub)
    (hfit : ∀ tree, Derivation g.decls (g.IsTok (reserved.map (·.1) ++ terms)) [start] [tree] w → ∃ kids', tree.counter resets kids = some kids') :
    (∃ tree kids', Derivation g.decls (g.IsTok (reserved.map (·.1) ++ terms)) [start] [tree] w ∧
        ∀ k, N < k → g.parse tb resets k kids (w ++ e :: rest) = .ok (tree, rest, kids')) ∨
    ((¬ ∃ tree, Derivation g.decls (g.IsTok (reserved.map (·.1) ++ terms)) [start] [tree] w) ∧
        ∀ k, N < k → g.parse tb resets k kids (w ++ e :: rest) = .error .throws) := by
  have hendT : tokenEnd ∈ g.terminals := by
    obtain ⟨sid, t, S⟩ := sound_names hg hp hsep hpt hpr hsize ho hgen
    exact S.finT
  have hty : ∀ x ∈ w ++ [e], ∃ tys, x.types = some tys ∧ ∀ ty ∈ tys, ty ∈ g.terminals := by
    intro x hx
    rcases List.mem_append.mp hx with hx | hx
    · obtain ⟨tys, h1, h2, _⟩ := hcl x hx
      exact ⟨tys, h1, fun ty hty => (h2 ty hty).1⟩
    · rw [List.mem_singleton.mp hx]
      exact ⟨_, he, by simpa using hendT⟩
  obtain ⟨res, hres, hpar⟩ := hterm
  have hrun := hpar (N + 1) (by omega)
  have hnt : ∀ t ∈ w ++ [e], ∀ tys, t.types = some tys → ∀ ty ∈ tys, ty ∈ g.terminals := by
    intro t ht tys h1 ty h2
    obtain ⟨tys', h3, h4⟩ := hty t ht
    rw [h1] at h3
    cases h3
    exact h4 ty h2
  cases res with
  | ok x =>
    obtain ⟨tree, rest', kids'⟩ := x
    obtain ⟨used, e', h1, ⟨tys, h2, h3⟩, -, h4, -⟩ := C34_accepted_is_derivable hg hp hgen hnt hrun
    have hsplit : used = w ∧ rest' = [] := by
      rcases List.append_eq_append_iff.mp h1 with ⟨a, ha, hb⟩ | ⟨a, ha, hb⟩
      · cases a with
        | nil => simp at ha hb; exact ⟨ha, hb.2⟩
        | cons y a => simp at hb
      · cases a with
        | nil => simp at ha hb; exact ⟨ha.symm, hb.2⟩
        | cons y a =>
          exfalso
          simp only [List.cons_append, List.cons.injEq] at hb
          obtain ⟨rfl, -⟩ := hb
          obtain ⟨tys', h5, h6, -⟩ := hcl e' (by rw [ha]; simp)
          rw [h2] at h5
          cases h5
          exact (h6 _ h3).2 rfl
    obtain ⟨rfl, rfl⟩ := hsplit
    refine .inl ⟨tree, kids', h4, fun k hk => ?_⟩
    have := parseLoop_append rest _ _ _ _ _ _ (hpar k hk)
    simpa [Grammar.parse] using this
  | error f =>
    right
    have hf : f = .throws := by
      rcases parseLoop_fail hrun with h | h | h
      · exact h
      · subst h; exact absurd hrun (hub _)
      · subst h; exact absurd rfl hres
    subst hf
    refine ⟨?_, fun k hk => ?_⟩
    · rintro ⟨tree, hd⟩
      obtain ⟨kids', hk⟩ := hfit tree hd
      obtain ⟨n, hn⟩ := C42_derivable_is_accepted hg hp hpt hsep hend hpr hclean hsize ho hgen hd hcl hk he []
      have h1 := hn (n + (N + 1)) (by omega)
      have h2 := hpar (n + (N + 1)) (by omega)
      rw [h2] at h1
      cases h1
    · obtain ⟨sid, t, S⟩ := sound_names hg hp hsep hpt hpr hsize ho hgen
      have hse : start ≠ "$end" := fun h => hsep (start, bd) (by simp) (by rw [h]; simp [reserved])
      exact S.parse_end hend hse he hty rest (hpar k hk)

/-- Termination with weights, for tokens up to an end token. -/
theorem terminates_end {terms : List String} {start : String} {bd : List String} {ds : List (String × List String)} {g : Grammar}
    (hg : g = Grammar.build terms ((start, bd) :: ds))
    (hp : ∀ d ∈ (start, bd) :: ds, d.1 ≠ "$START_PRIME" ∧ "$START_PRIME" ∉ d.2) (hpt : "$START_PRIME" ∉ terms)
    (hsep : ∀ d ∈ (start, bd) :: ds, d.1 ∉ reserved.map (·.1) ++ terms) (hend : ∀ d ∈ (start, bd) :: ds, "$end" ∉ d.2)
    (hpr : ∀ d ∈ (start, bd) :: ds, ∀ s ∈ d.2, Productive (reserved.map (·.1) ++ terms) ((start, bd) :: ds) s)
    (hsize : g.symbolId.length ≤ cNullSymbol) {o : Orders} (ho : o.Ok g) {fuel : Nat} {tb : Table} (hgen : g.generate o fuel = .ok tb)
    {wt : String → Int} {C B : Nat} (hw : ∀ d ∈ (start, bd) :: ds, wt d.1 + 1 ≤ (d.2.map wt).sum)
    (hC : ∀ s ∈ reserved.map (·.1) ++ terms, wt s ≤ C) (hlow : ∀ s, -(B : Int) ≤ wt s)
    (hadj : ∀ x y, wt x < 0 → Beside ((start, bd) :: ds) x y → 0 ≤ wt x + wt y)
    {resets : Nat → Bool} {w : List Token} (hcl : ∀ x ∈ w, g.Clear tb x) {e : Token} (he : e.types = some [tokenEnd]) (kids : Nat) :
    ∃ res, res ≠ .error .diverge ∧ ∀ k, B + (C + 1) * w.length < k → g.parse tb resets k kids (w ++ [e]) = res := by
  have hendT : tokenEnd ∈ g.terminals := by
    obtain ⟨sid, t, S⟩ := sound_names hg hp hsep hpt hpr hsize ho hgen
    exact S.finT
  have hty : ∀ x ∈ w ++ [e], ∃ tys, x.types = some tys ∧ ∀ ty ∈ tys, ty ∈ g.terminals := by
    intro x hx
    rcases List.mem_append.mp hx with hx | hx
    · obtain ⟨tys, h1, h2, _⟩ := hcl x hx
      exact ⟨tys, h1, fun ty hty => (h2 ty hty).1⟩
    · rw [List.mem_singleton.mp hx]
      exact ⟨_, he, by simpa using hendT⟩
  have hlen : ((w ++ [e]).filter fun x => x.types ≠ some [tokenEnd]).length ≤ w.length := by
    rw [List.filter_append, List.filter_cons_of_neg (by simp [he])]
    simpa using List.length_filter_le _ w
  obtain ⟨res, hres, hpar⟩ := C45_terminates hg hp hpt hsep hend hpr hsize ho hgen hw hC hlow hadj (resets := resets) hty kids
  exact ⟨res, hres, fun k hk => hpar k (Nat.lt_of_le_of_lt (Nat.add_le_add_left (Nat.mul_le_mul_left (C + 1) hlen) B) hk)⟩

/-- C45 in general.  For every grammar as in C42 for which generation reports no conflict there is a number `c` such that, on every sequence
of tokens and whatever the semantic rules do to the counter of children, the parser ends after at most `c` steps for each token (and the end), and does not
run into undefined behaviour where the array has room for `c` entries for each token (and the end). -/
theorem C45_ends_always {terms : List String} {start : String} {bd : List String} {ds : List (String × List String)} {g : Grammar}
    (hg : g = Grammar.build terms ((start, bd) :: ds))
    (hp : ∀ d ∈ (start, bd) :: ds, d.1 ≠ "$START_PRIME" ∧ "$START_PRIME" ∉ d.2) (hpt : "$START_PRIME" ∉ terms)
    (hsep : ∀ d ∈ (start, bd) :: ds, d.1 ∉ reserved.map (·.1) ++ terms) (hend : ∀ d ∈ (start, bd) :: ds, "$end" ∉ d.2)
    (hpr : ∀ d ∈ (start, bd) :: ds, ∀ s ∈ d.2, Productive (reserved.map (·.1) ++ terms) ((start, bd) :: ds) s)
    (hclean : EndsCleanly ((start, bd) :: ds) start) (hsize : g.symbolId.length ≤ cNullSymbol)
    {o : Orders} (ho : o.Ok g) {fuel : Nat} {tb : Table} (hgen : g.generate o fuel = .ok tb) :
    ∃ c : Nat, ∀ (resets : Nat → Bool) (input : List Token), (∀ x ∈ input, ∃ tys, x.types = some tys ∧ ∀ ty ∈ tys, ty ∈ g.terminals) → ∀ kids,
      ∃ res, (∀ k, c * (input.length + 1) < k → g.parse tb resets k kids input = res) ∧ res ≠ .error .diverge ∧
        (kids + c * (input.length + 1) ≤ 10000 → res ≠ .error .ub) := by
  obtain ⟨sid, t, S⟩ := sound_names hg hp hsep hpt hpr hsize ho hgen
  obtain ⟨c, h, _⟩ := linear_names hg hp hpr hend hclean hsize ho hgen S
  refine ⟨c, fun resets input hty kids => ?_⟩
  have h1 := (h resets input hty kids (c * (input.length + 1) + 1)).1 (by omega)
  exact ⟨_, fun k hk => parseLoop_mono rfl h1 k (by omega), h1, fun hk => (h resets input hty kids _).2 hk⟩

/-- C45 in general, the parser decides.  For every grammar as in C42 for which generation reports no conflict there is a number `c` such that on
all tokens `w` that are clear, followed by an end token and whatever else, the parser ends after at most `c` steps for each token
(and for both ends): if `w` is derivable it returns the derivation tree, if it is not derivable it throws, provided that there
is room for as many children. -/
theorem C45_decides_always {terms : List String} {start : String} {bd : List String} {ds : List (String × List String)} {g : Grammar}
    (hg : g = Grammar.build terms ((start, bd) :: ds))
    (hp : ∀ d ∈ (start, bd) :: ds, d.1 ≠ "$START_PRIME" ∧ "$START_PRIME" ∉ d.2) (hpt : "$START_PRIME" ∉ terms)
    (hsep : ∀ d ∈ (start, bd) :: ds, d.1 ∉ reserved.map (·.1) ++ terms) (hend : ∀ d ∈ (start, bd) :: ds, "$end" ∉ d.2)
    (hpr : ∀ d ∈ (start, bd) :: ds, ∀ s ∈ d.2, Productive (reserved.map (·.1) ++ terms) ((start, bd) :: ds) s)
    (hclean : EndsCleanly ((start, bd) :: ds) start) (hsize : g.symbolId.length ≤ cNullSymbol)
    {o : Orders} (ho : o.Ok g) {fuel : Nat} {tb : Table} (hgen : g.generate o fuel = .ok tb) :
    ∃ c : Nat, ∀ (resets : Nat → Bool) (w : List Token), (∀ x ∈ w, g.Clear tb x) → ∀ (e : Token), e.types = some [tokenEnd] → ∀ (rest : List Token) (kids : Nat),
      kids + c * (w.length + 2) ≤ 10000 →
      (∃ tree kids', Derivation g.decls (g.IsTok (reserved.map (·.1) ++ terms)) [start] [tree] w ∧
        ∀ k, c * (w.length + 2) < k → g.parse tb resets k kids (w ++ e :: rest) = .ok (tree, rest, kids')) ∨
      ((¬ ∃ tree, Derivation g.decls (g.IsTok (reserved.map (·.1) ++ terms)) [start] [tree] w) ∧
        ∀ k, c * (w.length + 2) < k → g.parse tb resets k kids (w ++ e :: rest) = .error .throws) := by
  obtain ⟨sid, t, S⟩ := sound_names hg hp hsep hpt hpr hsize ho hgen
  obtain ⟨c, h, hed⟩ := linear_names hg hp hpr hend hclean hsize ho hgen S
  refine ⟨c, fun resets w hcl e he rest kids hkids => ?_⟩
  have htw : ∀ x ∈ w, Typed g x := fun x hx => by
    obtain ⟨tys, h1, h2, _⟩ := hcl x hx
    exact ⟨tys, h1, fun ty hty => (h2 ty hty).1⟩
  have hty : ∀ x ∈ w ++ [e], Typed g x := by
    intro x hx
    rcases List.mem_append.mp hx with hx | hx
    · exact htw x hx
    · rw [List.mem_singleton.mp hx]
      exact ⟨_, he, by simpa using S.finT⟩
  have hlen : (w ++ [e]).length + 1 = w.length + 2 := by simp
  have key := h resets (w ++ [e]) hty kids
  rw [hlen] at key
  have h1 := (key (c * (w.length + 2) + 1)).1 (by omega)
  refine decides_of hg hp hpt hsep hend hpr hclean hsize ho hgen hcl he rest (N := c * (w.length + 2))
    ⟨_, h1, fun k hk => parseLoop_mono rfl h1 k (by omega)⟩ (fun k => (key k).2 hkids) fun tree hd => ?_
  have h2 := hed tree w hd htw
  have h3 : c * (w.length + 1) ≤ c * (w.length + 2) := Nat.mul_le_mul_left c (by omega)
  exact C42_small_fits resets (t := tree) (k := kids) (by omega)

/-- C45, the parser decides.  Under the conditions of both and of C42, on tokens `w` that are clear, followed by an end token and whatever else, the
parser ends, after a number of steps linear in `w`: if `w` is derivable it returns the derivation tree, if it is not
derivable it throws. -/
theorem C45_decides {terms : List String} {start : String} {bd : List String} {ds : List (String × List String)} {g : Grammar}
    (hg : g = Grammar.build terms ((start, bd) :: ds))
    (hp : ∀ d ∈ (start, bd) :: ds, d.1 ≠ "$START_PRIME" ∧ "$START_PRIME" ∉ d.2) (hpt : "$START_PRIME" ∉ terms)
    (hsep : ∀ d ∈ (start, bd) :: ds, d.1 ∉ reserved.map (·.1) ++ terms) (hend : ∀ d ∈ (start, bd) :: ds, "$end" ∉ d.2)
    (hpr : ∀ d ∈ (start, bd) :: ds, ∀ s ∈ d.2, Productive (reserved.map (·.1) ++ terms) ((start, bd) :: ds) s)
    (hclean : EndsCleanly ((start, bd) :: ds) start) (hsize : g.symbolId.length ≤ cNullSymbol)
    {o : Orders} (ho : o.Ok g) {fuel : Nat} {tb : Table} (hgen : g.generate o fuel = .ok tb)
    {sl : String → Nat} {K : Nat} (hsl : ∀ d ∈ (start, bd) :: ds, sl d.1 + d.2.length ≤ (d.2.map sl).sum)
    (hK : ∀ s ∈ reserved.map (·.1) ++ terms, sl s ≤ K)
    {wt : String → Int} {C B : Nat} (hw : ∀ d ∈ (start, bd) :: ds, wt d.1 + 1 ≤ (d.2.map wt).sum)
    (hC : ∀ s ∈ reserved.map (·.1) ++ terms, wt s ≤ C) (hlow : ∀ s, -(B : Int) ≤ wt s)
    (hadj : ∀ x y, wt x < 0 → Beside ((start, bd) :: ds) x y → 0 ≤ wt x + wt y)
    {resets : Nat → Bool} {w : List Token} (hcl : ∀ x ∈ w, g.Clear tb x) {e : Token} (he : e.types = some [tokenEnd]) (rest : List Token)
    {kids : Nat} (hkids : kids + K * w.length ≤ 10000) :
    (∃ tree kids', Derivation g.decls (g.IsTok (reserved.map (·.1) ++ terms)) [start] [tree] w ∧
        ∀ k, B + (C + 1) * w.length < k → g.parse tb resets k kids (w ++ e :: rest) = .ok (tree, rest, kids')) ∨
    ((¬ ∃ tree, Derivation g.decls (g.IsTok (reserved.map (·.1) ++ terms)) [start] [tree] w) ∧
        ∀ k, B + (C + 1) * w.length < k → g.parse tb resets k kids (w ++ e :: rest) = .error .throws) := by
  have hendT : tokenEnd ∈ g.terminals := by
    obtain ⟨sid, t, S⟩ := sound_names hg hp hsep hpt hpr hsize ho hgen
    exact S.finT
  have hty : ∀ x ∈ w ++ [e], ∃ tys, x.types = some tys ∧ ∀ ty ∈ tys, ty ∈ g.terminals := by
    intro x hx
    rcases List.mem_append.mp hx with hx | hx
    · obtain ⟨tys, h1, h2, _⟩ := hcl x hx
      exact ⟨tys, h1, fun ty hty => (h2 ty hty).1⟩
    · rw [List.mem_singleton.mp hx]
      exact ⟨_, he, by simpa using hendT⟩
  have hlen : ((w ++ [e]).filter fun x => x.types ≠ some [tokenEnd]).length ≤ w.length := by
    rw [List.filter_append, List.filter_cons_of_neg (by simp [he])]
    simpa using List.length_filter_le _ w
  have hub := C45_no_undefined_behaviour hg hp hpt hsep hend hpr hsize ho hgen hsl hK (resets := resets) hty (kids := kids)
    (Nat.le_trans (Nat.add_le_add_left (Nat.mul_le_mul_left K hlen) kids) hkids)
  refine decides_of hg hp hpt hsep hend hpr hclean hsize ho hgen hcl he rest
    (terminates_end hg hp hpt hsep hend hpr hsize ho hgen hw hC hlow hadj hcl he kids) hub fun tree hd => ?_
  have hB := build_ok (terms := terms) hp
  rw [← hg] at hB
  have hne : start ≠ "$START_PRIME" := (hp (start, bd) (by simp)).1
  have hed := (edges_le_of (bad := "$START_PRIME") (sl := sl) (K := K) (fun i d hi => by
    by_cases hi1 : i = 1
    · subst hi1
      have := hi.symm.trans hB.prime
      simp only [Option.some.injEq] at this
      rw [this]
      exact .inl rfl
    · have hm := hB.decls i d hi hi1
      exact .inr ⟨(hp d hm).2, hsl d hm⟩) (fun t s h => hK s h.1) hd (by simpa using hne.symm)).1
  simp only [Tree.edges.edgesAll] at hed
  exact C42_small_fits resets (t := tree) (k := kids) (by omega)

/-- C45 for the grammar of schema files, whatever the order of the special characters: on clear tokens `w` followed by an end token the parser ends
after at most `6 * w.length + 2` steps, with the derivation tree or an exception, if `kids + 5 * w.length ≤ 10000`. -/
theorem C45_schema_files {sp : List String} (hsp : sp.Perm schemaSpecials) {o : Orders} (ho : o.Ok (schemaGrammar sp)) {fuel : Nat} {tb : Table}
    (hgen : (schemaGrammar sp).generate o fuel = .ok tb) {w : List Token} (hcl : ∀ x ∈ w, (schemaGrammar sp).Clear tb x) {e : Token}
    (he : e.types = some [tokenEnd]) (rest : List Token) {kids : Nat} (hkids : kids + 5 * w.length ≤ 10000) :
    (∃ tree kids', Derivation (schemaGrammar sp).decls ((schemaGrammar sp).IsTok (reserved.map (·.1) ++ schemaTerminals sp)) ["Schema"] [tree] w ∧
        ∀ k, 6 * w.length + 2 ≤ k →
          (schemaGrammar sp).parse tb (schemaResets (schemaGrammar sp)) k kids (w ++ e :: rest) = .ok (tree, rest, kids')) ∨
    ((¬ ∃ tree, Derivation (schemaGrammar sp).decls ((schemaGrammar sp).IsTok (reserved.map (·.1) ++ schemaTerminals sp)) ["Schema"] [tree] w) ∧
        ∀ k, 6 * w.length + 2 ≤ k →
          (schemaGrammar sp).parse tb (schemaResets (schemaGrammar sp)) k kids (w ++ e :: rest) = .error .throws) := by
  obtain ⟨c1, c2, c3, c4, c5, c6, c7⟩ := schema_conditions hsp
  obtain ⟨w1, w2, w3, w4, w5, w6⟩ := symWeight_checks
  have hm : ∀ d, d ∈ schemaProductions sp ↔ d ∈ schemaProductions schemaSpecials := mem_schemaProductions hsp
  have hT : ∀ s, s ∈ reserved.map (·.1) ++ schemaTerminals sp → s ∈ reserved.map (·.1) ++ schemaTerminals schemaSpecials := by
    intro s hs
    rw [List.mem_append, mem_schemaTerminals hsp] at hs
    exact List.mem_append.mpr hs
  have hadj : ∀ x y, symWeight x < 0 → Beside (schemaProductions sp) x y → 0 ≤ symWeight x + symWeight y := by
    intro x y hx hb
    have hx' := (symWeight_low x).2 hx
    subst hx'
    refine w6 y (besideIn_spec (ps := schemaProductions sp) ?_ hb)
    rw [besideIn, List.all_eq_true] at w5 ⊢
    exact fun d hd => w5 d ((hm d).mp hd)
  have key := C45_decides (terms := schemaTerminals sp) (start := "Schema") (bd := ["Comment"]) (ds := (schemaProductions sp).tail) rfl
    c1 c2 c3 c4 c5 c6 c7 ho hgen (sl := slack) (K := 5) (fun d hd => w2 d ((hm d).mp hd)) (fun s hs => w4 s (hT s hs))
    (wt := symWeight) (C := 5) (B := 1) (fun d hd => w1 d ((hm d).mp hd)) (fun s hs => w3 s (hT s hs)) (fun s => (symWeight_low s).1) hadj
    (resets := schemaResets (schemaGrammar sp)) hcl he rest hkids
  rcases key with ⟨tree, kids', h1, h2⟩ | ⟨h1, h2⟩
  · exact .inl ⟨tree, kids', h1, fun k hk => h2 k (by omega)⟩
  · exact .inr ⟨h1, fun k hk => h2 k (by omega)⟩

/-- The same for tokens that are the units of a text for which there is room. -/
theorem schema_decides {sp : List String} (hsp : sp.Perm schemaSpecials) {o : Orders} (ho : o.Ok (schemaGrammar sp)) {fuel : Nat} {tb : Table}
    (hgen : (schemaGrammar sp).generate o fuel = .ok tb) {w : List Token} (hcl : ∀ x ∈ w, (schemaGrammar sp).Clear tb x) {e : Token}
    (he : e.types = some [tokenEnd]) (rest : List Token) {kids : Nat} {text : Token → List Nat} {ls : List Lexeme}
    (hu : List.Forall₂ (SameUnit ((schemaGrammar sp).IsTok (reserved.map (·.1) ++ schemaTerminals sp)) text) w ls) (hfit : Fit kids ls) :
    (∃ tree kids', Derivation (schemaGrammar sp).decls ((schemaGrammar sp).IsTok (reserved.map (·.1) ++ schemaTerminals sp)) ["Schema"] [tree] w ∧
        ∀ k, 6 * w.length + 2 ≤ k →
          (schemaGrammar sp).parse tb (schemaResets (schemaGrammar sp)) k kids (w ++ e :: rest) = .ok (tree, rest, kids')) ∨
    ((¬ ∃ tree, Derivation (schemaGrammar sp).decls ((schemaGrammar sp).IsTok (reserved.map (·.1) ++ schemaTerminals sp)) ["Schema"] [tree] w) ∧
        ∀ k, 6 * w.length + 2 ≤ k →
          (schemaGrammar sp).parse tb (schemaResets (schemaGrammar sp)) k kids (w ++ e :: rest) = .error .throws) := by
  obtain ⟨c1, c2, c3, c4, c5, c6, c7⟩ := schema_conditions hsp
  obtain ⟨w1, w2, w3, w4, w5, w6⟩ := symWeight_checks
  have hm : ∀ d, d ∈ schemaProductions sp ↔ d ∈ schemaProductions schemaSpecials := mem_schemaProductions hsp
  have hT : ∀ s, s ∈ reserved.map (·.1) ++ schemaTerminals sp → s ∈ reserved.map (·.1) ++ schemaTerminals schemaSpecials := by
    intro s hs
    rw [List.mem_append, mem_schemaTerminals hsp] at hs
    exact List.mem_append.mpr hs
  have hadj : ∀ x y, symWeight x < 0 → Beside (schemaProductions sp) x y → 0 ≤ symWeight x + symWeight y := by
    intro x y hx hb
    have hx' := (symWeight_low x).2 hx
    subst hx'
    refine w6 y (besideIn_spec (ps := schemaProductions sp) ?_ hb)
    rw [besideIn, List.all_eq_true] at w5 ⊢
    exact fun d hd => w5 d ((hm d).mp hd)
  have hlook : ∀ t s, (schemaGrammar sp).IsTok (reserved.map (·.1) ++ schemaTerminals sp) t s → slack s ≤ 5 := fun t s h => w4 s (hT s h.1)
  have hres : ∀ p, (schemaGrammar sp).decls[p]? = some ("Schema", ["Schema", "PortableNewLine", "SchemaVar"]) →
      schemaResets (schemaGrammar sp) p = true := fun p h => by unfold schemaResets; rw [h]; rfl
  have hub : ∀ k, (schemaGrammar sp).parse tb (schemaResets (schemaGrammar sp)) k kids (w ++ [e]) ≠ .error .ub := by
    obtain ⟨sid, t, S⟩ := sound_names (terms := schemaTerminals sp) (start := "Schema") (bd := ["Comment"]) (ds := (schemaProductions sp).tail) rfl
      c1 c3 c2 c5 c7 ho hgen
    refine S.room c1 c4 (by decide) (by decide) (fun x hx => ?_) fun ns ts used rest' k hsplit hused hns hprime hder hcnt d hd hd0 ns' hsuf => ?_
    · rcases List.mem_append.mp hx with hx | hx
      · obtain ⟨tys, h1, h2, _⟩ := hcl x hx
        exact ⟨tys, h1, fun ty hty => (h2 ty hty).1⟩
      · rw [List.mem_singleton.mp hx]
        exact ⟨_, he, by simpa using S.finT⟩
    · have hpre : ∃ w2, w = used ++ w2 := by
        rcases List.append_eq_append_iff.mp hsplit with ⟨a, ha, _⟩ | ⟨a, ha, hb⟩
        · exact ⟨a, ha⟩
        · cases a with
          | nil => exact ⟨[], by simpa using ha.symm⟩
          | cons y a =>
            exfalso
            simp only [List.cons_append, List.cons.injEq] at hb
            refine hused y (by rw [ha]; simp) ?_
            rw [← hb.1]
            exact he
      obtain ⟨w2, rfl⟩ := hpre
      obtain ⟨l1, l2, rfl, u1, _⟩ := forall₂_append_inv hu
      exact stack_room (fun d hd => (hm d).mp hd) (decl_cases hsp) hlook hres hns hprime hder u1 (fit_prefix hfit) hcnt hd hd0 hsuf
  have key := decides_of (terms := schemaTerminals sp) (start := "Schema") (bd := ["Comment"]) (ds := (schemaProductions sp).tail) rfl
    c1 c2 c3 c4 c5 c6 c7 ho hgen (resets := schemaResets (schemaGrammar sp)) hcl he rest
    (terminates_end (terms := schemaTerminals sp) (start := "Schema") (bd := ["Comment"]) (ds := (schemaProductions sp).tail) rfl
      c1 c2 c3 c4 c5 c7 ho hgen (wt := symWeight) (C := 5) (B := 1) (fun d hd => w1 d ((hm d).mp hd)) (fun s hs => w3 s (hT s hs))
      (fun s => (symWeight_low s).1) hadj (resets := schemaResets (schemaGrammar sp)) hcl he kids) hub fun tree hd => (fit_counter hsp hd hu hfit).imp fun _ h => h.2
  rcases key with ⟨tree, kids', h1, h2⟩ | ⟨h1, h2⟩
  · exact .inl ⟨tree, kids', h1, fun k hk => h2 k (by omega)⟩
  · exact .inr ⟨h1, fun k hk => h2 k (by omega)⟩

/-! ### A grammar that meets the conditions -/
section Example

private def xTok (n : Nat) : Token := { types := some [n] }
private def xOrd : Orders := ⟨[12, 13, 14, 15], fun s => List.range s.length⟩
private def xDs : List (String × List String) :=
  [("E", ["T"]), ("T", ["NUM"]), ("T", ["LP", "E", "RP"]), ("T", ["LP", "Opt", "RP"]), ("Opt", [])]
private def xTerms : List String := ["PLUS", "NUM", "LP", "RP"]
/-- `E → E PLUS T | T`, `T → NUM | LP E RP | LP Opt RP`, `Opt → ε`. -/
private def xG : Grammar := Grammar.build xTerms (("E", ["E", "PLUS", "T"]) :: xDs)
private def xTb : Table :=
  match xG.generate xOrd 100 with
  | .ok tb => tb
  | .error _ => ⟨none, []⟩
private def xSl (s : String) : Nat := ([("E", 0), ("T", 1), ("Opt", 0)].lookup s).getD 3
private def xWt (s : String) : Int := ([("E", 0), ("T", 1), ("Opt", -1)].lookup s).getD 2

set_option maxRecDepth 100000 in
private theorem xG_facts : (match xG.generate xOrd 100 with | .ok _ => true | .error _ => false) = true ∧ (∀ p ∈ xG.prods, p.head ∈ [12, 13, 14, 15]) ∧
    (∀ n ∈ [8, 9, 10, 11], n ∈ xG.terminals) ∧ xG.symbolId.length ≤ cNullSymbol ∧
    (∀ d ∈ ("E", ["E", "PLUS", "T"]) :: xDs, d.1 ≠ "$START_PRIME" ∧ "$START_PRIME" ∉ d.2) ∧
    (∀ d ∈ ("E", ["E", "PLUS", "T"]) :: xDs, d.1 ∉ reserved.map (·.1) ++ xTerms) ∧
    (∀ d ∈ ("E", ["E", "PLUS", "T"]) :: xDs, "$end" ∉ d.2) ∧
    behindIn ["PLUS"] (("E", ["E", "PLUS", "T"]) :: xDs) "E" = true ∧
    (∀ d ∈ ("E", ["E", "PLUS", "T"]) :: xDs, d.2 ≠ ["E"]) ∧
    productiveIn (reserved.map (·.1) ++ xTerms) (("E", ["E", "PLUS", "T"]) :: xDs) [("Opt", []), ("T", ["NUM"]), ("E", ["T"])] [] = true ∧
    (∀ d ∈ ("E", ["E", "PLUS", "T"]) :: xDs, ∀ s ∈ d.2,
      s ∈ reserved.map (·.1) ++ xTerms ∨ s ∈ [("Opt", []), ("T", ["NUM"]), ("E", ["T"])].map (fun d : String × List String => d.1)) := by decide +kernel

private theorem xG_weights : (∀ d ∈ ("E", ["E", "PLUS", "T"]) :: xDs, xSl d.1 + d.2.length ≤ (d.2.map xSl).sum) ∧
    (∀ s ∈ reserved.map (·.1) ++ xTerms, xSl s ≤ 3) ∧
    (∀ d ∈ ("E", ["E", "PLUS", "T"]) :: xDs, xWt d.1 + 1 ≤ (d.2.map xWt).sum) ∧
    (∀ s ∈ reserved.map (·.1) ++ xTerms, xWt s ≤ (2 : Nat)) ∧
    (∀ x ∈ [("E", (0 : Int)), ("T", 1), ("Opt", -1)], -(1 : Nat) ≤ x.2 ∧ (x.2 < 0 → x.1 = "Opt")) ∧
    besideIn ["RP"] (("E", ["E", "PLUS", "T"]) :: xDs) "Opt" = true ∧ 0 ≤ xWt "Opt" + xWt "RP" := by decide +kernel

private theorem xWt_low (s : String) : -(1 : Nat) ≤ xWt s ∧ (xWt s < 0 → s = "Opt") := by
  unfold xWt
  cases h : ([("E", (0 : Int)), ("T", 1), ("Opt", -1)].lookup s) with
  | none => simp
  | some v => exact xG_weights.2.2.2.2.1 _ (lookup_pair h)

/-- Up to 3333 tokens of these types, in whatever order, are accepted or rejected, within `3 * w.length + 2` steps. -/
example {w : List Token} (hw : ∀ x ∈ w, ∃ n ∈ [8, 9, 10, 11], x = xTok n) (hl : w.length ≤ 3333) :
    (∃ tree kids', Derivation xG.decls (xG.IsTok (reserved.map (·.1) ++ xTerms)) ["E"] [tree] w ∧
      ∀ k, 1 + 3 * w.length < k → xG.parse xTb (fun _ => false) k 0 (w ++ [xTok 0]) = .ok (tree, [], kids')) ∨
    ((¬ ∃ tree, Derivation xG.decls (xG.IsTok (reserved.map (·.1) ++ xTerms)) ["E"] [tree] w) ∧
      ∀ k, 1 + 3 * w.length < k → xG.parse xTb (fun _ => false) k 0 (w ++ [xTok 0]) = .error .throws) := by
  obtain ⟨f1, f2, f3, f4, c1, c2, c3, c4, c5, c6, c7⟩ := xG_facts
  obtain ⟨w1, w2, w3, w4, _, w6, w7⟩ := xG_weights
  have hgen : xG.generate xOrd 100 = .ok xTb := by
    unfold xTb
    cases h : xG.generate xOrd 100 with
    | ok tb => rfl
    | error e => rw [h] at f1; cases f1
  refine C45_decides (terms := xTerms) (start := "E") (bd := ["E", "PLUS", "T"]) (ds := xDs) rfl c1 (by decide) c2 c3 ?_
    (endsCleanly_of c4 c5) f4 (o := xOrd) ⟨f2, fun ks i => by simp [xOrd]⟩ hgen (sl := xSl) (K := 3) w1 w2 (wt := xWt) (C := 2) (B := 1) w3 w4
    (fun s => (xWt_low s).1) ?_ ?_ rfl [] (by omega)
  · intro d hd s hs
    rcases c7 d hd s hs with h | h
    · exact .term h
    · obtain ⟨d', hd', rfl⟩ := List.mem_map.mp h
      exact productiveIn_spec c6 (by simp) d' hd'
  · intro x y hx hb
    have h := (xWt_low x).2 hx
    subst h
    have := besideIn_spec w6 hb
    rw [List.mem_singleton] at this
    subst this
    exact w7
  · intro x hx
    obtain ⟨n, hn, rfl⟩ := hw x hx
    exact C42_one_type_clear rfl (f3 n hn) (by rintro rfl; simp at hn; revert hn; decide)

/-- The general theorem applies to this grammar. -/
example : ∃ c : Nat, ∀ (w : List Token), (∀ x ∈ w, ∃ n ∈ [8, 9, 10, 11], x = xTok n) → c * (w.length + 2) ≤ 10000 →
    (∃ tree kids', Derivation xG.decls (xG.IsTok (reserved.map (·.1) ++ xTerms)) ["E"] [tree] w ∧
      ∀ k, c * (w.length + 2) < k → xG.parse xTb (fun _ => false) k 0 (w ++ [xTok 0]) = .ok (tree, [], kids')) ∨
    ((¬ ∃ tree, Derivation xG.decls (xG.IsTok (reserved.map (·.1) ++ xTerms)) ["E"] [tree] w) ∧
      ∀ k, c * (w.length + 2) < k → xG.parse xTb (fun _ => false) k 0 (w ++ [xTok 0]) = .error .throws) := by
  obtain ⟨f1, f2, f3, f4, c1, c2, c3, c4, c5, c6, c7⟩ := xG_facts
  have hgen : xG.generate xOrd 100 = .ok xTb := by
    unfold xTb
    cases h : xG.generate xOrd 100 with
    | ok tb => rfl
    | error e => rw [h] at f1; cases f1
  have hpr : ∀ d ∈ ("E", ["E", "PLUS", "T"]) :: xDs, ∀ s ∈ d.2, Productive (reserved.map (·.1) ++ xTerms) (("E", ["E", "PLUS", "T"]) :: xDs) s := by
    intro d hd s hs
    rcases c7 d hd s hs with h | h
    · exact .term h
    · obtain ⟨d', hd', rfl⟩ := List.mem_map.mp h
      exact productiveIn_spec c6 (by simp) d' hd'
  obtain ⟨c, hc⟩ := C45_decides_always (terms := xTerms) (start := "E") (bd := ["E", "PLUS", "T"]) (ds := xDs) rfl c1 (by decide) c2 c3 hpr
    (endsCleanly_of c4 c5) f4 (o := xOrd) ⟨f2, fun ks i => by simp [xOrd]⟩ hgen
  refine ⟨c, fun w hw hl => hc (fun _ => false) w (fun x hx => ?_) (xTok 0) rfl [] 0 (by omega)⟩
  obtain ⟨n, hn, rfl⟩ := hw x hx
  exact C42_one_type_clear rfl (f3 n hn) (by rintro rfl; simp at hn; revert hn; decide)

/-- `S → a | S`. -/
private def yG : Grammar := Grammar.build ["a"] [("S", ["a"]), ("S", ["S"])]
private def yOrd : Orders := ⟨[9, 10], fun s => List.range s.length⟩
private def yTb : Table :=
  match yG.generate yOrd 100 with
  | .ok tb => tb
  | .error _ => ⟨none, []⟩

set_option maxRecDepth 100000 in
private theorem yG_facts : (match yG.generate yOrd 100 with | .ok _ => true | .error _ => false) = true ∧ yTb.root = some 0 ∧
    yTb.actions.lookup 0 = some (List.replicate 8 (.flag false) ++ [.shift (some 1), .shift (some 2), .flag false]) ∧
    yTb.actions.lookup 1 = some (.reduce 0 :: List.replicate 10 (.flag false)) ∧
    yTb.actions.lookup 2 = some (.reduce 2 :: List.replicate 10 (.flag false)) ∧
    yG.body 0 = [8] ∧ yG.head 0 = 9 ∧ yG.body 2 = [9] ∧ yG.head 2 = 9 ∧ yG.decls[0]? = some ("S", ["a"]) ∧ yG.symbolId.lookup "a" = some 8 := by
  decide +kernel

/-- One more reduction of `S` to `S`. -/
private theorem y_loop : ∀ (k : Nat) (tr : Tree) (kids : Nat), kids ≤ 5000 →
    yG.parseLoop yTb (fun _ => true) k ⟨[some 2, some 0], [tr], some (xTok 0), kids⟩ [] = .error .diverge
  | 0, _, _, _ => rfl
  | k + 1, tr, kids, hk => by
    obtain ⟨_, _, r0, r1, r2, b0, h0, b2, h2, _⟩ := yG_facts
    have hred : yG.reduce yTb (fun _ => true) ⟨[some 2, some 0], [tr], none, kids⟩ (xTok 0) 2 =
        .ok ⟨[some 2, some 0], [.node 2 [tr]], some (xTok 0), if 5000 < kids + 1 then 0 else kids + 1⟩ := by
      have := reduce_eq (g := yG) (tb := yTb) (resets := fun _ => true) (s := ⟨[some 2, some 0], [tr], none, kids⟩) (tok := xTok 0) (p := 2) (q := 0) (j := 2)
        (qs := []) (acts := _) (cs := [tr]) (ms := []) (by rw [b2]; rfl) rfl (by rw [b2]; rfl) (by simp; omega) r0 (by rw [h2]; rfl)
      simpa using this
    have hadv : yG.parseAdvance yTb (fun _ => true) ⟨[some 2, some 0], [tr], none, kids⟩ (xTok 0) [0] =
        .ok (.moved ⟨[some 2, some 0], [.node 2 [tr]], some (xTok 0), if 5000 < kids + 1 then 0 else kids + 1⟩) := by
      simp only [parseAdvance, parseSymbol, r2, List.getElem?_cons_zero, hred]
    have := step_moved (g := yG) (tb := yTb) (resets := fun _ => true) (s := ⟨[some 2, some 0], [tr], some (xTok 0), kids⟩) (inp := []) (tok := xTok 0) (R := [])
      (tys := [0]) rfl rfl hadv k
    rw [this]
    exact y_loop k _ _ (by split <;> omega)

/-- A grammar that does not end cleanly: generation reports no conflict, but the reduction of `S` to `S` replaces the accepting entry,
and on the sentence `a` the parser never ends. -/
theorem C45_unclean_refuted : ∃ tb, yG.generate yOrd 100 = .ok tb ∧
    (∃ tree, Derivation yG.decls (yG.IsTok (reserved.map (·.1) ++ ["a"])) ["S"] [tree] [xTok 8]) ∧
    ∀ k, yG.parse tb (fun _ => true) k 0 [xTok 8, xTok 0] = .error .diverge := by
  obtain ⟨f1, f2, r0, r1, r2, b0, h0, b2, h2, d0, s0⟩ := yG_facts
  have hgen : yG.generate yOrd 100 = .ok yTb := by
    unfold yTb
    cases h : yG.generate yOrd 100 with
    | ok tb => rfl
    | error e => rw [h] at f1; cases f1
  refine ⟨_, hgen, ⟨.node 0 [.leaf (xTok 8)], .prod (w := [xTok 8]) (w' := []) d0 (.tok ⟨by decide, 8, [8], s0, rfl, by simp⟩ .nil) .nil⟩, fun k => ?_⟩
  have hadv1 : yG.parseAdvance yTb (fun _ => true) ⟨[some 0], [], none, 0⟩ (xTok 8) [8] = .ok (.moved ⟨[some 1, some 0], [.leaf (xTok 8)], none, 0⟩) := by
    simp only [parseAdvance, parseSymbol, r0]
    rfl
  have hred : yG.reduce yTb (fun _ => true) ⟨[some 1, some 0], [.leaf (xTok 8)], none, 0⟩ (xTok 0) 0 =
      .ok ⟨[some 2, some 0], [.node 0 [.leaf (xTok 8)]], some (xTok 0), 1⟩ := by
    have := reduce_eq (g := yG) (tb := yTb) (resets := fun _ => true) (s := ⟨[some 1, some 0], [.leaf (xTok 8)], none, 0⟩) (tok := xTok 0) (p := 0) (q := 0) (j := 2)
      (qs := []) (acts := _) (cs := [.leaf (xTok 8)]) (ms := []) (by rw [b0]; rfl) rfl (by rw [b0]; rfl) (by simp) r0 (by rw [h0]; rfl)
    simpa using this
  have hadv2 : yG.parseAdvance yTb (fun _ => true) ⟨[some 1, some 0], [.leaf (xTok 8)], none, 0⟩ (xTok 0) [0] =
      .ok (.moved ⟨[some 2, some 0], [.node 0 [.leaf (xTok 8)]], some (xTok 0), 1⟩) := by
    simp only [parseAdvance, parseSymbol, r1, List.getElem?_cons_zero, hred]
  unfold parse
  rw [f2]
  match k with
  | 0 => rfl
  | k + 1 =>
    rw [step_moved (s := ⟨[some 0], [], none, 0⟩) (inp := [xTok 8, xTok 0]) (tok := xTok 8) (R := [xTok 0]) (tys := [8]) rfl rfl hadv1 k]
    match k with
    | 0 => rfl
    | k + 1 =>
      rw [step_moved (s := ⟨[some 1, some 0], [.leaf (xTok 8)], none, 0⟩) (inp := [xTok 0]) (tok := xTok 0) (R := []) (tys := [0]) rfl rfl hadv2 k]
      exact y_loop k _ _ (by omega)

end Example
end LogSurgeon
