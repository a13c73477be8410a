import Verif.Proofs.LalrTotal
import Verif.Proofs.LalrCheck
import Verif.Proofs.SchemaTree
/-
The grammar of schema files: the parser ends, without undefined behaviour.
-/
namespace LogSurgeon
open Grammar

/-- Behind `x` in the list there are only elements of `L`. -/
def pairsIn (L : List String) (x : String) : List String → Bool
  | a :: b :: rest => (!(a == x) || L.contains b) && pairsIn L x (b :: rest)
  | _ => true

theorem pairsIn_spec {L : List String} {x y : String} {rest : List String} : ∀ {pre : List String}, pairsIn L x (pre ++ x :: y :: rest) = true → y ∈ L := by
  intro pre
  induction pre with
  | nil =>
    intro h
    simp only [List.nil_append, pairsIn, Bool.and_eq_true] at h
    simpa using h.1
  | cons a pre ih =>
    intro h
    cases pre with
    | nil =>
      simp only [List.cons_append, List.nil_append, pairsIn, Bool.and_eq_true] at h
      simpa using h.2.1
    | cons b pre =>
      simp only [List.cons_append, pairsIn, Bool.and_eq_true] at h
      exact ih h.2

/-- `L` contains what can begin behind `x`. -/
def besideIn (L : List String) (ps : List (String × List String)) (x : String) : Bool :=
  ps.all fun d => pairsIn L x d.2 && (!L.contains d.1 || match d.2 with
      | y :: _ => L.contains y
      | [] => true)

theorem besideIn_spec {L : List String} {ps : List (String × List String)} {x : String} (h : besideIn L ps x = true) {y : String}
    (hy : Beside ps x y) : y ∈ L := by
  simp only [besideIn, List.all_eq_true, Bool.and_eq_true] at h
  induction hy with
  | here hd => exact pairsIn_spec (h _ hd).1
  | left _ hd ih =>
    have := (h _ hd).2
    simp only [Bool.or_eq_true, Bool.not_eq_eq_eq_not, Bool.not_true, List.contains_iff_mem] at this
    rcases this with h | h
    · simp [ih] at h
    · exact h

/-- A weight for each symbol: the body of a production weighs more than its head. -/
def symWeights : List (String × Int) :=
  [("Wildcard", 4), ("LiteralRange", 12), ("Text", 4), ("Identifier", 4), ("WhitespaceStar", -1), ("Digit", 9), ("Literal", 4),
    ("DelimiterString", 3), ("Concat", 1), ("MatchExact", 16), ("Comment", 13), ("WhiteSpace", 9), ("MatchRange", 25), ("IncompleteGroup", 8),
    ("SchemaVar", 7), ("Schema", 6), ("Regex", 0), ("Or", 2), ("MatchStar", 7), ("PortableNewLine", 4), ("MatchPlus", 7), ("Integer", 4),
    ("CompleteGroup", 3)]

def symWeight (s : String) : Int := (symWeights.lookup s).getD 5

theorem lookup_pair {α : Type} {s : String} {v : α} : ∀ {l : List (String × α)}, l.lookup s = some v → (s, v) ∈ l := by
  intro l
  induction l with
  | nil => intro h; cases h
  | cons x l ih =>
    obtain ⟨a, b⟩ := x
    intro h
    rw [List.lookup_cons] at h
    split at h
    · rename_i he
      cases h
      rw [beq_iff_eq] at he
      rw [he]; simp
    · exact List.mem_cons_of_mem _ (ih h)

theorem symWeight_low (s : String) : -(1 : Nat) ≤ symWeight s ∧ (symWeight s < 0 → s = "WhitespaceStar") := by
  unfold symWeight
  cases h : symWeights.lookup s with
  | none => simp
  | some v =>
    have h1 : ∀ x ∈ symWeights, -(1 : Nat) ≤ x.2 ∧ (x.2 < 0 → x.1 = "WhitespaceStar") := by decide
    exact h1 _ (lookup_pair h)

set_option maxRecDepth 100000 in
theorem symWeight_checks : (∀ d ∈ schemaProductions schemaSpecials, symWeight d.1 + 1 ≤ (d.2.map symWeight).sum) ∧
    (∀ d ∈ schemaProductions schemaSpecials, slack d.1 + d.2.length ≤ (d.2.map slack).sum) ∧
    (∀ s ∈ reserved.map (·.1) ++ schemaTerminals schemaSpecials, symWeight s ≤ (5 : Nat)) ∧
    (∀ s ∈ reserved.map (·.1) ++ schemaTerminals schemaSpecials, slack s ≤ 5) ∧
    besideIn ["AlphaNumeric", "Space", "Identifier"] (schemaProductions schemaSpecials) "WhitespaceStar" = true ∧
    (∀ s ∈ ["AlphaNumeric", "Space", "Identifier"], 0 ≤ symWeight "WhitespaceStar" + symWeight s) := by decide +kernel

/-- The parser of schema files ends without undefined behaviour. -/
theorem schema_parse_total {sp : List String} (hsp : sp.Perm schemaSpecials) {o : Orders} (ho : o.Ok (schemaGrammar sp)) {fuel : Nat} {tb : Table}
    (hgen : (schemaGrammar sp).generate o fuel = .ok tb) {resets : Nat → Bool} {input : List Token} (hty : ∀ x ∈ input, Typed (schemaGrammar sp) x)
    {kids : Nat} :
    (kids + 5 * (input.filter fun x => x.types ≠ some [tokenEnd]).length ≤ 10000 → ∀ k, (schemaGrammar sp).parse tb resets k kids input ≠ .error .ub) ∧
    ∀ k, 1 + 6 * (input.filter fun x => x.types ≠ some [tokenEnd]).length < k → (schemaGrammar sp).parse tb resets k kids input ≠ .error .diverge := by
  obtain ⟨c1, c2, c3, c4, c5, c6, c7⟩ := schema_conditions hsp
  obtain ⟨w1, w2, w3, w4, w5, w6⟩ := symWeight_checks
  have hm : ∀ d, d ∈ schemaProductions sp ↔ d ∈ schemaProductions schemaSpecials := mem_schemaProductions hsp
  have hT : ∀ s, s ∈ reserved.map (·.1) ++ schemaTerminals sp → s ∈ reserved.map (·.1) ++ schemaTerminals schemaSpecials := by
    intro s hs
    rw [List.mem_append, mem_schemaTerminals hsp] at hs
    exact List.mem_append.mpr hs
  obtain ⟨sid, t, S⟩ := sound_names (terms := schemaTerminals sp) (start := "Schema") (bd := ["Comment"]) (ds := (schemaProductions sp).tail) rfl
    c1 c3 c2 c5 c7 ho hgen
  refine ⟨fun hk k => S.no_ub (sl := slack) (K := 5) c4 (by decide) (fun d hd => w2 d ((hm d).mp hd)) (fun s hs => w4 s (hT s hs)) hty hk k,
    fun k hk => S.terminates (w := symWeight) (K := 5) (B := 1) c1 c4 (by decide) (fun d hd => w1 d ((hm d).mp hd)) (fun s hs => w3 s (hT s hs))
      (fun s => (symWeight_low s).1) ?_ hty kids hk⟩
  intro x y hx hb
  have hx' := (symWeight_low x).2 hx
  subst hx'
  refine w6 y (besideIn_spec (ps := schemaProductions sp) ?_ hb)
  rw [besideIn, List.all_eq_true] at w5 ⊢
  exact fun d hd => w5 d ((hm d).mp hd)

end LogSurgeon
