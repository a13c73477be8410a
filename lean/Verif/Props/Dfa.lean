import Verif.Proofs.DfaIds
import Verif.Proofs.Intersect
import Verif.Props.Regex
/-
C10, C11, C12: the DFA built by `generate()`.

`addr` gives the heap address of each NFA state (distinct states have distinct addresses); the C++ sets of
state pointers iterate in address order.
-/
namespace LogSurgeon

/-- C10: `generate` always terminates and succeeds on an NFA that could be built, and on every byte string the DFA
reports exactly the ids for which the NFA accepts the string. -/
theorem C10_dfa_equiv_nfa {rules : List Rule} {n : Nfa} (hbuild : buildNfa rules = some n)
    {addr : Nat → Nat} (hinj : ∀ a b, addr a = addr b → a = b) :
    ∃ d, generateDfa rules addr = some d ∧
      ∀ s, AllBytes s → ∀ v, v ∈ d.idsOn s ↔ n.Accepts v s := by
  classical
  obtain ⟨d, hd, _, _, hperm, _⟩ := dfa_ids_spec hbuild hinj
  refine ⟨d, by simp [generateDfa, hbuild, hd], fun s hs v => ?_⟩
  rw [(hperm s hs).mem_iff, accepts_iff hbuild]
  simp only [List.mem_map, List.mem_filter, decide_eq_true_eq]
  constructor
  · rintro ⟨r, ⟨hr, ha⟩, hv⟩
    exact ⟨r, hr, hv, (acceptsAlone_iff hbuild hr s).mp ha⟩
  · rintro ⟨r, hr, hv, ha⟩
    exact ⟨r, ⟨hr, (acceptsAlone_iff hbuild hr s).mpr ha⟩, hv⟩

open Classical in
/-- C10, with multiplicities: the reported list is a permutation of the ids of the rules that accept the
string on their own: rules neither disturb each other nor get lost. -/
theorem C10_ids_complete {rules : List Rule} {addr : Nat → Nat} (hinj : ∀ a b, addr a = addr b → a = b)
    {d : Dfa} (hd : generateDfa rules addr = some d) {s : List Nat} (hs : AllBytes s) :
    (d.idsOn s).Perm ((rules.filter (fun r => r.AcceptsAlone s)).map Rule.id) := by
  simp only [generateDfa, Option.bind_eq_some_iff] at hd
  obtain ⟨n, hn, hd⟩ := hd
  obtain ⟨d', hd', _, _, hperm, _⟩ := dfa_ids_spec hn hinj
  rw [hd] at hd'; cases hd'
  exact hperm s hs

/-- C10: the DFA dies on a string exactly if no NFA state can be reached by it (so it never gives up
early, and `next` returns a null pointer only for hopeless prefixes). -/
theorem C10_dead_iff {rules : List Rule} {n : Nfa} (hbuild : buildNfa rules = some n)
    {addr : Nat → Nat} (hinj : ∀ a b, addr a = addr b → a = b) {d : Dfa}
    (hd : generateDfa rules addr = some d) {s : List Nat} (hs : AllBytes s) :
    d.run 0 s = none ↔ ∀ w q, n.Path n.root w q → bytesOf w ≠ s := by
  obtain ⟨d', hd', _, hdead, _⟩ := dfa_ids_spec hbuild hinj
  simp only [generateDfa, hbuild, Option.bind_some] at hd
  rw [hd] at hd'; cases hd'
  rw [hdead s hs]
  constructor
  · intro h w q hp hb; exact h q ⟨w, hp, hb⟩
  · rintro h y ⟨w, hp, hb⟩; exact h w y hp hb

/-- From schema regex to DFA: for a rule given by a sensible, loop-safe pattern, the DFA reports its id on
exactly the byte strings the pattern matches (zero-repetition cases left out). -/
theorem C08_pattern_to_dfa_partial {rules : List Rule} {addr : Nat → Nat}
    (hinj : ∀ a b, addr a = addr b → a = b) {d : Dfa} (hd : generateDfa rules addr = some d)
    {v : Nat} {p : Pat} {re : Regex} (hp : p.elab = some re) (hr : ⟨v, re⟩ ∈ rules)
    (huniq : ∀ r ∈ rules, r.id = v → r.regex = re) (hsens : p.Sensible) (hls : re.LoopSafe)
    {s : List Nat} (hs : AllBytes s) : v ∈ d.idsOn s ↔ p.atLeastOne.Matches s := by
  have hd0 := hd
  simp only [generateDfa, Option.bind_eq_some_iff] at hd0
  obtain ⟨n, hn, _⟩ := hd0
  obtain ⟨d', hd', h⟩ := C10_dfa_equiv_nfa hn hinj
  rw [hd] at hd'; cases hd'
  rw [h s hs, C08_pattern_partial hn hp hr huniq hsens hls]
  exact ⟨fun h => h.2, fun h => ⟨hs, h⟩⟩

open Classical in
/-- C11, under the allocation pattern where later-created NFA states have higher addresses: the reported
ids are in schema order.  (Without that assumption the claim is false: `C11_priority_refuted`.) -/
theorem C11_priority_partial {rules : List Rule} {addr : Nat → Nat}
    (hmono : ∀ a b, a < b → addr a < addr b) {d : Dfa} (hd : generateDfa rules addr = some d)
    {s : List Nat} (hs : AllBytes s) :
    d.idsOn s = (rules.filter (fun r => r.AcceptsAlone s)).map Rule.id := by
  simp only [generateDfa, Option.bind_eq_some_iff] at hd
  obtain ⟨n, hn, hd⟩ := hd
  have hinj : ∀ a b, addr a = addr b → a = b := by
    intro a b h
    rcases Nat.lt_trichotomy a b with h1 | h1 | h1
    · have := hmono a b h1; omega
    · exact h1
    · have := hmono b a h1; omega
  obtain ⟨d', hd', _, _, _, hm⟩ := dfa_ids_spec hn hinj
  rw [hd] at hd'; cases hd'
  exact hm hmono s hs

open Classical in
/-- C11: consequently the first id is that of the earliest rule that matches. -/
theorem C11_first_partial {rules pre post : List Rule} {r : Rule} {addr : Nat → Nat}
    (hmono : ∀ a b, a < b → addr a < addr b) {d : Dfa} (hd : generateDfa rules addr = some d)
    (hrules : rules = pre ++ r :: post) {s : List Nat} (hs : AllBytes s)
    (hpre : ∀ q ∈ pre, ¬ q.AcceptsAlone s) (hr : r.AcceptsAlone s) : (d.idsOn s).head? = some r.id := by
  rw [C11_priority_partial hmono hd hs, hrules, List.filter_append]
  rw [List.filter_eq_nil_iff.mpr (by intro q hq; simpa using hpre q hq)]
  simp [hr]

/-- Two rules, both matching `a`. -/
def twoRules : List Rule := [⟨8, .literal [] 97⟩, ⟨9, .group [] false false [(97, 122)]⟩]

/-- C11 is false in general: if the allocator hands out a lower address for the second rule's accepting state
(state 2) than for the first rule's (state 1), the order of the ids is reversed. -/
theorem C11_priority_refuted : ∃ (rules : List Rule) (addr : Nat → Nat) (d : Dfa),
    (∀ a b, addr a = addr b → a = b) ∧ generateDfa rules addr = some d ∧
    rules.map Rule.id = [8, 9] ∧ d.idsOn [97] = [9, 8] := by
  let addr : Nat → Nat := fun q => if q = 1 then 2 else if q = 2 then 1 else q
  obtain ⟨d, hd⟩ : ∃ d, generateDfa twoRules addr = some d := by
    obtain ⟨n, hn⟩ : ∃ n, buildNfa twoRules = some n := buildNfa_total _ (by simp [twoRules, Regex.NoInteger])
    obtain ⟨d, hd, _⟩ := C10_dfa_equiv_nfa hn (addr := addr)
      (by intro a b h; simp only [addr] at h; split at h <;> split at h <;> (try split at h) <;> (try split at h) <;> omega)
    exact ⟨d, hd⟩
  refine ⟨twoRules, addr, d, ?_, hd, rfl, ?_⟩
  · intro a b h
    simp only [addr] at h
    split at h <;> split at h <;> (try split at h) <;> (try split at h) <;> omega
  · have : (generateDfa twoRules addr).map (fun d => d.idsOn [97]) = some [9, 8] := by decide +kernel
    rw [hd] at this
    simpa using this

example : (generateDfa twoRules id).map (fun d => d.idsOn [97]) = some [8, 9] := by decide +kernel

/-- C12: for DFAs produced by `generate()`, `get_intersect` terminates and returns exactly (each once) the ids `v`
such that some byte string has type `v` in this DFA and some type in the other, whatever the order
in which pairs are taken from the set. -/
theorem C12_intersect_exact {rules1 rules2 : List Rule} {addr1 addr2 : Nat → Nat}
    (hinj1 : ∀ a b, addr1 a = addr1 b → a = b) (hinj2 : ∀ a b, addr2 a = addr2 b → a = b) {d1 d2 : Dfa}
    (h1 : generateDfa rules1 addr1 = some d1) (h2 : generateDfa rules2 addr2 = some d2)
    (pick : List (Nat × Nat) → Nat) :
    ∃ types, getIntersect d1 d2 pick = some types ∧ types.Nodup ∧
      ∀ v, v ∈ types ↔ ∃ s, AllBytes s ∧ v ∈ d1.idsOn s ∧ d2.idsOn s ≠ [] := by
  simp only [generateDfa, Option.bind_eq_some_iff] at h1 h2
  obtain ⟨n1, hn1, h1⟩ := h1
  obtain ⟨n2, hn2, h2⟩ := h2
  obtain ⟨e1, he1, hr1, _⟩ := dfa_ids_spec hn1 hinj1
  obtain ⟨e2, he2, hr2, _⟩ := dfa_ids_spec hn2 hinj2
  rw [h1] at he1; cases he1
  rw [h2] at he2; cases he2
  exact getIntersect_spec pick hr1 hr2

/-- A concrete intersection query: only rule 9 (`[a-z]`) meets `[x-z]`. -/
example : ((generateDfa twoRules id).bind fun d1 =>
    (generateDfa [⟨1, .group [] false false [(120, 122)]⟩] id).bind fun d2 =>
      getIntersect d1 d2 (fun _ => 0)) = some [9] := by decide +kernel

end LogSurgeon
