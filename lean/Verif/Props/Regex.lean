import Verif.Proofs.Pattern
/-
C07, C08, C09, C14, C36: from the regexes of a schema to the language of the NFA.

The reader needs: `Spec/Pattern.lean` (meaning of schema regex syntax), `Spec/Regex.lean` (meaning of regex
ASTs), `Spec/Automata.lean` (`Nfa.Accepts`), and from the model `Pat.elab` (schema syntax to AST) and
`buildNfa` (ASTs to NFA).
-/
namespace LogSurgeon

/-! ### C07 completeness -/

/-- C07: whenever the NFA can be built, every byte string matched by the regex of a rule (no empty
alternative inside) is accepted for that rule's variable id, whatever the other rules are. -/
theorem C07_regex_complete {rules : List Rule} {n : Nfa} (hbuild : buildNfa rules = some n)
    {r : Rule} (hr : r ∈ rules) (hne : r.regex.NoEmpty) (hcls : r.regex.ClassesOk)
    {s : List Nat} (hs : AllBytes s) (hm : Matches r.regex s) : n.Accepts r.id s :=
  (accepts_iff hbuild r.id s).mpr
    ⟨r, hr, rfl, lang_complete r.regex hcls s hs (matchesWith_noEmpty r.regex hne s hm)⟩

/-- C07, in terms of schema syntax: every byte string matched by a schema regex without
zero-repetition constructs is accepted for its variable. -/
theorem C07_pattern_complete {rules : List Rule} {n : Nfa} (hbuild : buildNfa rules = some n)
    {v : Nat} {p : Pat} {re : Regex} (hp : p.elab = some re) (hr : ⟨v, re⟩ ∈ rules)
    (hsens : p.Sensible) (hz : p.NoZero) {s : List Nat} (hs : AllBytes s) (hm : p.Matches s) :
    n.Accepts v s := by
  obtain ⟨_, h2, _, h4, h5, _⟩ := elab_spec p hp hsens
  exact C07_regex_complete hbuild hr (h4 hz) h2 hs ((h5 s).mpr hm)

/-- C07: the construction itself succeeds for every schema whose regexes contain no bare integer node
(the parser never leaves one in a regex, `elab_spec`). -/
theorem C07_build_total {rules : List Rule}
    (h : ∀ r ∈ rules, ∃ p : Pat, p.elab = some r.regex ∧ p.Sensible) : ∃ n, buildNfa rules = some n :=
  buildNfa_total rules fun r hr => by
    obtain ⟨p, h1, h2⟩ := h r hr
    exact (elab_spec p h1 h2).2.2.1

/-- Test data: `a+|b` and `(ab){2}\d`. -/
def pat1 : Pat := .or (.plus (.lit 97)) (.lit 98)
def pat2 : Pat := .cat (.exact (.cat (.lit 97) (.lit 98)) [2]) .digit

example : pat2.Sensible ∧ pat2.NoZero ∧ (∃ re, pat2.elab = some re) ∧
    pat2.Matches [97, 98, 97, 98, 55] ∧ AllBytes [97, 98, 97, 98, 55] := by
  refine ⟨?_, ?_, ⟨_, rfl⟩, ?_, by simp [AllBytes, cSizeOfByte]⟩
  · simp [pat2, Pat.Sensible, NumeralOk, decimal]
  · simp [pat2, Pat.NoZero]
  · refine ⟨[97, 98, 97, 98], [55], rfl, ?_, 55, rfl, by omega, by omega⟩
    exact .succ (s := [97, 98]) (t := [97, 98]) ⟨[97], [98], rfl, rfl, rfl⟩
      (.succ (s := [97, 98]) (t := []) ⟨[97], [98], rfl, rfl, rfl⟩ .zero)

/-! ### C08 soundness -/

/-- C08, exact account of what is accepted (the full property "accepted ⟹ matched" is false, see
`C08_sound_refuted`).  If the rules for `v` are loop-safe with consistent bounds and non-empty negated
classes, the strings accepted for `v` are exactly the byte strings matched by one of the rules for `v`
with empty alternatives ignored. -/
theorem C08_sound_partial {rules : List Rule} {n : Nfa} (hbuild : buildNfa rules = some n) {v : Nat}
    (hok : ∀ r ∈ rules, r.id = v → r.regex.LoopSafe ∧ r.regex.BoundsOk ∧ r.regex.ClassesOk)
    (s : List Nat) :
    n.Accepts v s ↔ AllBytes s ∧ ∃ r ∈ rules, r.id = v ∧ MatchesIgnoringEmpty r.regex s := by
  rw [accepts_iff hbuild]
  constructor
  · rintro ⟨r, hr, hv, w, hw, rfl⟩
    obtain ⟨h1, h2, h3⟩ := hok r hr hv
    exact ⟨ruleLang_bytes _ w hw, r, hr, hv, lang_sound r.regex h1 h2 h3 w hw⟩
  · rintro ⟨hb, r, hr, hv, hm⟩
    exact ⟨r, hr, hv, lang_complete r.regex (hok r hr hv).2.2 s hb hm⟩

/-- C08, the soundness direction under the same restriction. -/
theorem C08_matches_partial {rules : List Rule} {n : Nfa} (hbuild : buildNfa rules = some n) {v : Nat}
    (hok : ∀ r ∈ rules, r.id = v → r.regex.LoopSafe ∧ r.regex.BoundsOk ∧ r.regex.ClassesOk)
    {s : List Nat} (h : n.Accepts v s) : ∃ r ∈ rules, r.id = v ∧ Matches r.regex s := by
  obtain ⟨_, r, hr, hv, hm⟩ := (C08_sound_partial hbuild hok s).mp h
  exact ⟨r, hr, hv, matchesWith_mono False.elim r.regex s hm⟩

/-- C08 for schema syntax: for a single loop-safe rule given by a sensible schema regex, exactly the byte strings
matched by the regex with `r*` read as `r+` and `r{0,m}` as `r{1,m}` are accepted. -/
theorem C08_pattern_partial {rules : List Rule} {n : Nfa} (hbuild : buildNfa rules = some n)
    {v : Nat} {p : Pat} {re : Regex} (hp : p.elab = some re) (hr : ⟨v, re⟩ ∈ rules)
    (huniq : ∀ r ∈ rules, r.id = v → r.regex = re) (hsens : p.Sensible) (hls : re.LoopSafe)
    (s : List Nat) : n.Accepts v s ↔ AllBytes s ∧ p.atLeastOne.Matches s := by
  obtain ⟨h1, h2, _, _, _, h6⟩ := elab_spec p hp hsens
  rw [C08_sound_partial hbuild (fun r hr hv => by rw [huniq r hr hv]; exact ⟨hls, h1, h2⟩)]
  constructor
  · rintro ⟨hb, r, hr', hv, hm⟩
    exact ⟨hb, (h6 s).mp (by rw [← huniq r hr' hv]; exact hm)⟩
  · rintro ⟨hb, hm⟩
    exact ⟨hb, _, hr, rfl, (h6 s).mpr hm⟩

/-- `[a-c]x{2,4}(?<t>\d+)`: a loop-safe, sensible pattern. -/
def pat3 : Pat := .cat (.cat (.cls false [.range 97 99]) (.range (.lit 120) [2] [4])) (.capture (.plus .digit) 1)

example : pat3.Sensible ∧ ∃ re, pat3.elab = some re ∧ re.LoopSafe ∧ ∃ n, buildNfa [⟨8, re⟩] = some n := by
  refine ⟨by simp [pat3, Pat.Sensible, NumeralOk, decimal], _, rfl, ?_, buildNfa_total _ ?_⟩
  · simp [Regex.LoopSafe, Regex.mkCat, Regex.mkMult, Regex.mkCapture, rangeRule, plusRule, Regex.TailLoop]
  · simp [Regex.NoInteger, Regex.mkCat, Regex.mkMult, Regex.mkCapture, rangeRule, plusRule]

/-- C08 is false without loop-safety: the regex `a+|b` accepts `ba`, because the loop of `a+` sits on
the accepting state itself. -/
theorem C08_sound_refuted : ∃ (p : Pat) (re : Regex) (n : Nfa) (s : List Nat), p.elab = some re ∧
    p.Sensible ∧ p.NoZero ∧ buildNfa [⟨8, re⟩] = some n ∧ n.Accepts 8 s ∧ ¬ p.Matches s := by
  refine ⟨pat1, _, { states := [{ bytes := [(97, 1), (98, 1)] },
      { accepting := true, varId := 8, bytes := [(97, 1)] }], root := 0 },
    [98, 97], rfl, ?_, ?_, by decide +kernel, ?_, ?_⟩
  · simp [pat1, Pat.Sensible]
  · simp [pat1, Pat.NoZero]
  · exact ⟨[.byte 98, .byte 97], 1,
      .cons (q := 1) ⟨_, rfl, by decide⟩ (.cons ⟨_, rfl, by decide⟩ (.nil _)), rfl, _, rfl, rfl, rfl⟩
  · rintro (⟨k, h1, h⟩ | h)
    · revert h
      generalize hs : [98, 97] = s
      intro h
      cases h with
      | zero => cases hs
      | @succ k s t hA hB =>
        have h3 : s = [97] := hA
        subst h3; simp at hs
    · cases h

/-! ### C09 star -/

/-- C09 is false: a rule `p*` never accepts the empty string unless `p` itself does (when read with
at least one repetition everywhere). -/
theorem C09_star_refuted {p : Pat} {re : Regex} {n : Nfa} {v : Nat} (hp : (Pat.star p).elab = some re)
    (hsens : p.Sensible) (hls : re.LoopSafe) (hbuild : buildNfa [⟨v, re⟩] = some n)
    (hne : ¬ p.atLeastOne.Matches []) : (Pat.star p).Matches [] ∧ ¬ n.Accepts v [] := by
  refine ⟨⟨0, .zero⟩, fun h => ?_⟩
  obtain ⟨_, k, h1, h2⟩ := (C08_pattern_partial hbuild hp (by simp) (by simp) hsens hls []).mp h
  revert h2
  generalize hs : ([] : List Nat) = s
  intro h2
  cases h2 with
  | zero => omega
  | succ h1 _ =>
    obtain ⟨rfl, -⟩ := List.append_eq_nil_iff.mp hs.symm
    exact hne h1

/-- The hypotheses of `C09_star_refuted` hold for `\d*`. -/
example : ∃ re n, (Pat.star .digit).elab = some re ∧ re.LoopSafe ∧ buildNfa [⟨8, re⟩] = some n ∧
    Pat.digit.Sensible ∧ ¬ Pat.digit.atLeastOne.Matches [] := by
  refine ⟨_, _, rfl, ?_, rfl, trivial, ?_⟩
  · simp [Regex.LoopSafe, starRule, Regex.mkOr, Regex.mkEmpty, Regex.mkMult, Regex.TailLoop, Regex.setNegTags,
      Regex.positiveTags]
  · rintro ⟨c, h, _⟩; cases h

/-- C09, the part that holds: `p*` accepts every concatenation of one or more matches of `p` (and, under
`LoopSafe`, nothing else: `C08_pattern_partial`).  Missing: the empty string. -/
theorem C09_star_partial {rules : List Rule} {n : Nfa} (hbuild : buildNfa rules = some n)
    {v : Nat} {p : Pat} {re : Regex} (hp : (Pat.star p).elab = some re) (hr : ⟨v, re⟩ ∈ rules)
    (hsens : p.Sensible) {s : List Nat} (hs : AllBytes s) {k : Nat} (hk : 1 ≤ k)
    (hm : Repeat p.atLeastOne.Matches k s) : n.Accepts v s := by
  obtain ⟨_, h2, _, _, _, h6⟩ := elab_spec (.star p) hp hsens
  exact (accepts_iff hbuild v s).mpr ⟨_, hr, rfl, lang_complete re h2 s hs ((h6 s).mpr ⟨k, hk, hm⟩)⟩

/-- C09 for `{0,m}`, the part that holds: one to `m` repetitions are accepted. -/
theorem C09_range_partial {rules : List Rule} {n : Nfa} (hbuild : buildNfa rules = some n)
    {v : Nat} {p : Pat} {m : List Nat} {re : Regex} (hp : (Pat.range p [0] m).elab = some re)
    (hr : ⟨v, re⟩ ∈ rules) (hsens : p.Sensible) (hm : NumeralOk m) (hm1 : 1 ≤ decimal m) {s : List Nat}
    (hs : AllBytes s) {k : Nat} (hk : 1 ≤ k) (hk' : k ≤ decimal m)
    (hrep : Repeat p.atLeastOne.Matches k s) : n.Accepts v s := by
  obtain ⟨_, h2, _, _, _, h6⟩ := elab_spec (.range p [0] m) hp
    ⟨by simp [NumeralOk, decimal], hm, by simp [decimal], hm1, hsens⟩
  exact (accepts_iff hbuild v s).mpr
    ⟨_, hr, rfl, lang_complete re h2 s hs ((h6 s).mpr (by simpa [Pat.atLeastOne, decimal] using ⟨k, hk, hk', hrep⟩))⟩

/-- The consequence inside a larger regex: `ab*c` does not accept `ac`. -/
theorem C09_inner_refuted : ∃ (p : Pat) (re : Regex) (n : Nfa) (s : List Nat), p.elab = some re ∧
    buildNfa [⟨8, re⟩] = some n ∧ p.Matches s ∧ ¬ n.Accepts 8 s := by
  let p : Pat := .cat (.cat (.lit 97) (.star (.lit 98))) (.lit 99)
  have hls : ∀ re, p.elab = some re → re.LoopSafe := by
    intro re h; cases h
    simp [Regex.LoopSafe, starRule, Regex.mkCat, Regex.mkOr, Regex.mkEmpty, Regex.mkMult, Regex.TailLoop,
      Regex.setNegTags, Regex.positiveTags]
  obtain ⟨re, hp⟩ : ∃ re, p.elab = some re := ⟨_, rfl⟩
  obtain ⟨n, hn⟩ := C07_build_total (rules := [⟨8, re⟩])
    (by simp only [List.mem_singleton]; rintro r rfl; exact ⟨p, hp, by simp [p, Pat.Sensible]⟩)
  refine ⟨p, re, n, [97, 99], hp, hn, ?_, ?_⟩
  · exact ⟨[97], [99], rfl, ⟨[97], [], rfl, rfl, 0, .zero⟩, rfl⟩
  · intro h
    rw [C08_pattern_partial hn hp (by simp) (by simp) (by simp [p, Pat.Sensible]) (hls _ hp)] at h
    obtain ⟨_, s1, s2, h1, ⟨s3, s4, rfl, h3, k, hk, h4⟩, h2⟩ := h
    simp only [Pat.Matches, Pat.atLeastOne] at h2 h3
    subst h2; subst h3
    cases h4 with
    | zero => omega
    | @succ k s t hs _ =>
      simp only [Pat.atLeastOne, Pat.Matches] at hs
      subst hs
      simp at h1

/-! ### C14 character classes -/

/-- C14: sorting and merging the ranges of a class keeps exactly the listed code points, for every list of
ranges. -/
theorem C14_merge_exact (ranges : List Range) (c : Nat) :
    InRanges (merge (sortRanges ranges)) c ↔ InRanges ranges c := inRanges_merge_sort ranges c

/-- C14: the merged ranges are in increasing order, disjoint and not adjacent (if no listed range is
reversed). -/
theorem C14_merge_disjoint (ranges : List Range) (h : ∀ r ∈ ranges, r.1 ≤ r.2) :
    (merge (sortRanges ranges)).Pairwise (fun a b => a.2 + 1 < b.1) ∧
      ∀ r ∈ merge (sortRanges ranges), r.1 ≤ r.2 := separated_merge_sort ranges h

example : merge (sortRanges [(50, 60), (10, 20), (15, 30), (31, 31)]) = [(10, 31), (50, 60)] := by decide

/-- C14: a class accepts a byte exactly if it is listed (negated: not listed); negated classes must list
something (see `C14_empty_negation_refuted`) and only increasing ranges. -/
theorem C14_class_exact_partial (negate : Bool) (ranges : List Range)
    (hv : negate = true → ranges ≠ [] ∧ ∀ r ∈ ranges, r.1 ≤ r.2) (c : Nat) (hc : c ≤ cUnicodeMax) :
    InRanges (groupRanges negate ranges) c ↔ ClassMatches negate ranges c :=
  inRanges_groupRanges negate ranges c hc hv

/-- C14 end to end: the NFA of a bracket expression accepts exactly the one-byte strings described by the
expression. -/
theorem C14_bracket_partial {negate : Bool} {items : List ClassItem} {re : Regex} {n : Nfa} {v : Nat}
    (hp : (Pat.cls negate items).elab = some re) (hbuild : buildNfa [⟨v, re⟩] = some n)
    (hne : negate = true → items ≠ []) (s : List Nat) :
    n.Accepts v s ↔ ∃ c, s = [c] ∧ c < 256 ∧
      if negate then ∀ i ∈ items, ¬ i.Has c else ∃ i ∈ items, i.Has c := by
  have hls : re.LoopSafe := by
    simp only [Pat.elab, Option.map_eq_some_iff] at hp
    obtain ⟨_, _, rfl⟩ := hp
    trivial
  rw [C08_pattern_partial hbuild hp (by simp) (by simp) hne hls]
  constructor
  · rintro ⟨hb, c, rfl, h⟩
    refine ⟨c, rfl, hb c (by simp), ?_⟩
    cases negate
    · exact h
    · exact h.2
  · rintro ⟨c, rfl, hc, h⟩
    refine ⟨fun x hx => by simp at hx; subst hx; exact hc, c, rfl, ?_⟩
    cases negate
    · exact h
    · exact ⟨by simp only [cUnicodeMax]; omega, h⟩

example : ∃ re n, (Pat.cls true [.range 97 122, .lit 32, .digit]).elab = some re ∧
    buildNfa [⟨8, re⟩] = some n := ⟨_, _, rfl, rfl⟩

/-- C14 is false for the empty negated class: `[^]` should match everything, but matches nothing. -/
theorem C14_empty_negation_refuted : ∃ re n, (Pat.cls true []).elab = some re ∧
    buildNfa [⟨8, re⟩] = some n ∧ (∀ c, c ≤ cUnicodeMax → (Pat.cls true []).Matches [c]) ∧
    ∀ s, ¬ n.Accepts 8 s := by
  obtain ⟨n, hn⟩ := buildNfa_total [⟨8, .group [] false true []⟩] (by simp [Regex.NoInteger])
  refine ⟨.group [] false true [], n, rfl, hn, fun c hc => ⟨c, rfl, hc, by simp⟩, fun s h => ?_⟩
  obtain ⟨r, hr, _, w, ⟨x, y, rfl, hx, _⟩, _⟩ := (accepts_iff hn 8 s).mp h
  simp only [List.mem_singleton] at hr
  subst hr
  obtain ⟨c, _, _, r, hr, _⟩ := hx
  simp [groupRanges, sortRanges, merge, complement, complementLoop] at hr

/-! ### C36 repetition counts -/

/-- C36: a numeral written in a repetition is read as its decimal value (up to 10 digits, below `2^32`). -/
theorem C36_count_value {n : List Nat} (h : NumeralOk n) : repetitionCount n = some (decimal n) :=
  repetitionCount_ok h

example : repetitionCount [1, 2, 0, 7] = some 1207 ∧ decimal [1, 2, 0, 7] = 1207 := by decide

/-- C36 for `{n}`, `n ≥ 1`: exactly `n` repetitions are accepted (operand loop-safe, without
zero-repetition constructs). -/
theorem C36_exact_partial {p : Pat} {ds : List Nat} {re : Regex} {n : Nfa} {v : Nat}
    (hp : (Pat.exact p ds).elab = some re) (hbuild : buildNfa [⟨v, re⟩] = some n) (hds : NumeralOk ds)
    (h1 : 1 ≤ decimal ds) (hsens : p.Sensible) (hls : re.LoopSafe) (s : List Nat) :
    n.Accepts v s ↔ AllBytes s ∧ Repeat p.atLeastOne.Matches (decimal ds) s := by
  rw [C08_pattern_partial hbuild hp (by simp) (by simp) ⟨hds, h1, hsens⟩ hls]
  rfl

/-- C36 for `{n,m}`, `1 ≤ n ≤ m`: exactly `n` to `m` repetitions are accepted. -/
theorem C36_range_partial {p : Pat} {ds es : List Nat} {re : Regex} {n : Nfa} {v : Nat}
    (hp : (Pat.range p ds es).elab = some re) (hbuild : buildNfa [⟨v, re⟩] = some n) (hds : NumeralOk ds)
    (hes : NumeralOk es) (h1 : 1 ≤ decimal ds) (hle : decimal ds ≤ decimal es) (hsens : p.Sensible)
    (hls : re.LoopSafe) (s : List Nat) :
    n.Accepts v s ↔ AllBytes s ∧ ∃ k, decimal ds ≤ k ∧ k ≤ decimal es ∧ Repeat p.atLeastOne.Matches k s := by
  rw [C08_pattern_partial hbuild hp (by simp) (by simp) ⟨hds, hes, hle, by omega, hsens⟩ hls]
  simp only [Pat.atLeastOne, if_neg (show ¬ decimal ds = 0 by omega)]
  rfl

example : ∃ re n, (Pat.range .digit [2] [1, 0]).elab = some re ∧ buildNfa [⟨8, re⟩] = some n ∧
    re.LoopSafe ∧ NumeralOk [2] ∧ NumeralOk [1, 0] := by
  obtain ⟨n, hn⟩ := buildNfa_total [⟨8, rangeRule (.group [] false false [(48, 57)]) 2 10⟩] (by
    simp [rangeRule, Regex.mkMult, Regex.NoInteger])
  refine ⟨_, n, rfl, hn, ?_, by simp [NumeralOk, decimal], by simp [NumeralOk, decimal]⟩
  simp [rangeRule, Regex.mkMult, Regex.LoopSafe]

/-- A path through one looping state. -/
theorem path_loop {n : Nfa} {q : Nat} {c : Nat} (h : n.Edge q (.byte c) q) :
    ∀ k, n.Path q (List.replicate k (.byte c)) q := by
  intro k
  induction k with
  | zero => exact .nil _
  | succ k ih => exact .cons h ih

theorem bytesOf_replicate (k c : Nat) : bytesOf (List.replicate k (.byte c)) = List.replicate k c := by
  induction k with
  | zero => rfl
  | succ k ih => simp [List.replicate_succ, bytesOf, ih]

/-- C36 is false for `{0}`: `a{0}` accepts every number of repetitions of `a`. -/
theorem C36_zero_refuted : ∃ re n, (Pat.exact (.lit 97) [0]).elab = some re ∧
    buildNfa [⟨8, re⟩] = some n ∧ ∀ k, n.Accepts 8 (List.replicate k 97) := by
  refine ⟨_, { states := [{ eps := [1] }, { accepting := true, varId := 8, bytes := [(97, 1)] }], root := 0 },
    rfl, by decide +kernel, fun k => ?_⟩
  refine ⟨.eps :: List.replicate k (.byte 97), 1, .cons (q := 1) ⟨_, rfl, by decide⟩ (path_loop ⟨_, rfl, by decide⟩ k),
    by simp [bytesOf, bytesOf_replicate], _, rfl, rfl, rfl⟩

/-- C36 is false for `{0,0}`: `a{0,0}` accepts any positive number of `a`. -/
theorem C36_zero_range_refuted : ∃ re n, (Pat.range (.lit 97) [0] [0]).elab = some re ∧
    buildNfa [⟨8, re⟩] = some n ∧ ∀ k, n.Accepts 8 (List.replicate (k + 1) 97) := by
  refine ⟨_, { states := [{ bytes := [(97, 1)] }, { accepting := true, varId := 8, bytes := [(97, 1)] }], root := 0 },
    rfl, by decide +kernel, fun k => ?_⟩
  refine ⟨.byte 97 :: List.replicate k (.byte 97), 1,
    .cons (q := 1) ⟨_, rfl, by decide⟩ (path_loop ⟨_, rfl, by decide⟩ k),
    by simp [bytesOf, bytesOf_replicate, List.replicate_succ], _, rfl, rfl, rfl⟩

/-- C36 is false for reversed bounds: `a{3,2}`, which should match nothing (or be rejected), accepts
`aaa`. -/
theorem C36_reversed_refuted : ∃ re n, (Pat.range (.lit 97) [3] [2]).elab = some re ∧
    buildNfa [⟨8, re⟩] = some n ∧ n.Accepts 8 [97, 97, 97] := by
  refine ⟨_, { states := [{ bytes := [(97, 2)] }, { accepting := true, varId := 8 }, { bytes := [(97, 3)] },
    { bytes := [(97, 1)] }], root := 0 },
    rfl, by decide +kernel, ?_⟩
  exact ⟨[.byte 97, .byte 97, .byte 97], 1, .cons (q := 2) ⟨_, rfl, by decide⟩
    (.cons (q := 3) ⟨_, rfl, by decide⟩ (.cons (q := 1) ⟨_, rfl, by decide⟩ (.nil _))), rfl, _, rfl, rfl, rfl⟩

end LogSurgeon
