import Verif.Proofs.Tags
/-
C32: capture tags along the accepting paths of the NFA.

The reader needs: `Spec/Tags.lean` (`TagRuns`, `Silent`), `Spec/Automata.lean` (`Nfa.Path`,
`Rule.AcceptsAlone`), and from the model `Pat.elab` and `buildNfa`.
-/
namespace LogSurgeon

/-- C32, the part that holds for every regex, repetitions included: along every path from the root to an accepting state, the
transitions concerning a capture of the matched rule are runs that open and then close it, with a text in
between that the captured expression accepts on its own, or negate it; at least one such run is there
(unless the capture stands under a zero-minimum repetition node); a capture that is not part of the rule is not
mentioned at all. -/
theorem C32_runs_partial {rules : List Rule} {n : Nfa} (hbuild : buildNfa rules = some n)
    (hok : ∀ r ∈ rules, r.regex.Built ∧ (r.regex.captures.map (·.1)).Nodup) {w q v}
    (hp : n.Path n.root w q) (ha : n.AcceptingFor q v) :
    ∃ r ∈ rules, r.id = v ∧
      (∀ t ∈ r.regex.captures.map (·.1), ∃ k,
        TagRuns t (fun s => ∃ inner, (t, inner) ∈ r.regex.captures ∧ Rule.AcceptsAlone ⟨v, inner⟩ s) k w ∧
        (r.regex.NoZeroAroundCapture → 1 ≤ k)) ∧
      (∀ t, t ∉ r.regex.captures.map (·.1) → Silent t w) := by
  obtain ⟨r, hr, hv, hw⟩ := path_rule hbuild hp ha
  obtain ⟨h1, h2⟩ := hok r hr
  refine ⟨r, hr, hv, fun t ht => ?_, fun t ht => ?_⟩
  · rw [← positiveTags_eq] at ht h2
    obtain ⟨k, a, b, _⟩ := ruleLang_runs h1 t h2 ht hw
    exact ⟨k, a.mono fun s hs => capText_alone hs v, b⟩
  · rw [← positiveTags_eq] at ht
    exact ruleLang_silent h1 t ht hw

/-- C32 for regexes without captures inside repetitions: exactly one run.  Missing: captures inside
repetitions, see `C32_refuted`. -/
theorem C32_once_partial {rules : List Rule} {n : Nfa} (hbuild : buildNfa rules = some n)
    (hok : ∀ r ∈ rules, r.regex.Built ∧ (r.regex.captures.map (·.1)).Nodup ∧
      r.regex.NoCaptureInRepetition) {w q v}
    (hp : n.Path n.root w q) (ha : n.AcceptingFor q v) :
    ∃ r ∈ rules, r.id = v ∧
      (∀ t ∈ r.regex.captures.map (·.1),
        TagRuns t (fun s => ∃ inner, (t, inner) ∈ r.regex.captures ∧ Rule.AcceptsAlone ⟨v, inner⟩ s) 1 w) ∧
      (∀ t, t ∉ r.regex.captures.map (·.1) → Silent t w) := by
  obtain ⟨r, hr, hv, hw⟩ := path_rule hbuild hp ha
  obtain ⟨h1, h2, h3⟩ := hok r hr
  refine ⟨r, hr, hv, fun t ht => ?_, fun t ht => ?_⟩
  · rw [← positiveTags_eq] at ht h2
    obtain ⟨k, a, _, b⟩ := ruleLang_runs h1 t h2 ht hw
    cases b h3
    exact a.mono fun s hs => capText_alone hs v
  · rw [← positiveTags_eq] at ht
    exact ruleLang_silent h1 t ht hw

/-- C32 in terms of schema syntax: along every accepting path for a rule written as a sensible schema regex without
captures inside repetitions, each of its captures is opened and closed exactly once, around a text that the
captured expression accepts, or negated exactly once. -/
theorem C32_pattern_partial {v : Nat} {p : Pat} {re : Regex} {n : Nfa} (hp : p.elab = some re)
    (hnd : (p.captures.map (·.1)).Nodup) (hnr : p.NoCaptureInRepetition)
    (hbuild : buildNfa [⟨v, re⟩] = some n) {w q} (hpath : n.Path n.root w q) (ha : n.AcceptingFor q v) :
    (∀ t ∈ p.captures.map (·.1),
      TagRuns t (fun s => ∃ inner re', (t, inner) ∈ p.captures ∧ inner.elab = some re' ∧
        Rule.AcceptsAlone ⟨v, re'⟩ s) 1 w) ∧
    (∀ t, t ∉ p.captures.map (·.1) → Silent t w) := by
  obtain ⟨b1, _, b3, b4⟩ := elab_built p hp
  have e := capRel_tags b4
  obtain ⟨r, hr, _, h1, h2⟩ := C32_once_partial hbuild
    (by simp only [List.mem_singleton]; rintro r rfl; exact ⟨b1, by simpa [← e] using hnd, b3 hnr⟩) hpath ha
  simp only [List.mem_singleton] at hr
  subst hr
  rw [e]
  refine ⟨fun t ht => (h1 t ht).mono ?_, h2⟩
  rintro s ⟨inner, hm, hs⟩
  obtain ⟨ip, hi, hi'⟩ := capRel_mem b4 hm
  exact ⟨ip, inner, hi, hi', hs⟩

/-- C32 for arbitrary sensible schema regexes (repetitions included): at least one run of every capture. -/
theorem C32_pattern_runs_partial {v : Nat} {p : Pat} {re : Regex} {n : Nfa} (hp : p.elab = some re)
    (hs : p.Sensible) (hnd : (p.captures.map (·.1)).Nodup)
    (hbuild : buildNfa [⟨v, re⟩] = some n) {w q} (hpath : n.Path n.root w q) (ha : n.AcceptingFor q v) :
    ∀ t ∈ p.captures.map (·.1), ∃ k, 1 ≤ k ∧
      TagRuns t (fun s => ∃ inner re', (t, inner) ∈ p.captures ∧ inner.elab = some re' ∧
        Rule.AcceptsAlone ⟨v, re'⟩ s) k w := by
  obtain ⟨b1, b2, _, b4⟩ := elab_built p hp
  have e := capRel_tags b4
  obtain ⟨r, hr, _, h1, _⟩ := C32_runs_partial hbuild
    (by simp only [List.mem_singleton]; rintro r rfl; exact ⟨b1, by simpa [← e] using hnd⟩) hpath ha
  simp only [List.mem_singleton] at hr
  subst hr
  rw [e]
  intro t ht
  obtain ⟨k, a, b⟩ := h1 t ht
  refine ⟨k, b (b2 hs), a.mono ?_⟩
  rintro s ⟨inner, hm, hs⟩
  obtain ⟨ip, hi, hi'⟩ := capRel_mem b4 hm
  exact ⟨ip, inner, hi, hi', hs⟩

/-- `(?<0>ab)|c(?<1>\d)`: captures in both branches, none repeated. -/
def tagPat : Pat :=
  .or (.capture (.cat (.lit 97) (.lit 98)) 0) (.cat (.lit 99) (.capture .digit 1))

set_option maxRecDepth 100000 in
/-- The hypotheses of `C32_pattern_partial` are met by a path in which one capture is set and the other negated. -/
example : tagPat.NoCaptureInRepetition ∧ tagPat.Sensible ∧ (tagPat.captures.map (·.1)).Nodup ∧
    ∃ re n w q, tagPat.elab = some re ∧ buildNfa [⟨8, re⟩] = some n ∧ n.Path n.root w q ∧
      n.AcceptingFor q 8 ∧ bytesOf w = [99, 55] := by
  refine ⟨by simp [tagPat, Pat.NoCaptureInRepetition], by simp [tagPat, Pat.Sensible],
    by decide, ?_⟩
  obtain ⟨re, hre⟩ : ∃ re, tagPat.elab = some re := ⟨_, rfl⟩
  obtain ⟨b1, _⟩ := elab_built tagPat hre
  obtain ⟨n, hn⟩ := buildNfa_total [⟨8, re⟩] (by simpa using b1.noInteger)
  obtain ⟨_, h2, _, h4, h5, _⟩ := elab_spec tagPat hre (by simp [tagPat, Pat.Sensible])
  have : n.Accepts 8 [99, 55] := (accepts_iff hn 8 _).mpr ⟨⟨8, re⟩, by simp, rfl,
    lang_complete re h2 [99, 55] (by simp [AllBytes, cSizeOfByte])
      (matchesWith_noEmpty re (h4 (by simp [tagPat, Pat.NoZero])) _ ((h5 _).mpr (.inr ⟨[99], [55], rfl, rfl, 55, rfl, by omega, by omega⟩)))⟩
  obtain ⟨w, q, h1, h2, h3⟩ := this
  exact ⟨re, n, w, q, hre, hn, h1, h3, h2⟩

/-- C32 fails when a capture stands in a repetition at the end of an alternative: for `(?<0>a)+|b` (a sensible
regex, distinct captures) there is an accepting path on which the capture is first negated and then set. -/
theorem C32_refuted : ∃ (p : Pat) (re : Regex) (n : Nfa) (w : List Label) (q : Nat), p.elab = some re ∧
    p.Sensible ∧ (p.captures.map (·.1)).Nodup ∧ buildNfa [⟨8, re⟩] = some n ∧ n.Path n.root w q ∧
    n.AcceptingFor q 8 ∧ w = [.byte 98, .negTags [0], .openTag 0, .byte 97, .closeTag 0] ∧
    ∀ P, ¬ TagRuns 0 P 1 w := by
  refine ⟨.or (.plus (.capture (.lit 97) 0)) (.lit 98), _,
    { states := [{ posStart := [(0, 2)], bytes := [(98, 6)] },
        { accepting := true, varId := 8, posStart := [(0, 4)] }, { bytes := [(97, 3)] },
        { posEnd := some (0, 1) }, { bytes := [(97, 5)] }, { posEnd := some (0, 1) },
        { neg := some ([0], 1) }], root := 0 }, _, 1, rfl, by simp [Pat.Sensible], by simp [Pat.captures],
    by decide +kernel, ?_, ⟨_, rfl, rfl, rfl⟩, rfl, ?_⟩
  · exact .cons (q := 6) ⟨_, rfl, by decide⟩ (.cons (q := 1) ⟨_, rfl, by decide⟩
      (.cons (q := 4) ⟨_, rfl, by decide⟩ (.cons (q := 5) ⟨_, rfl, by decide⟩
        (.cons (q := 1) ⟨_, rfl, by decide⟩ (.nil _)))))
  · intro P h
    cases h with
    | other _ h =>
      cases h with
      | other h _ => exact h (by simp [Label.Mentions])
      | negated _ h =>
        cases h with
        | other h _ => exact h rfl

end LogSurgeon
