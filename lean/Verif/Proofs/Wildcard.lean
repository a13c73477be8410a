import Verif.Spec.Schema
import Verif.Proofs.Pattern
/-
`remove_delimiters_from_wildcard`: the resulting ranges are exactly the non-delimiters, and the regex then
matches what the pattern with `.` read as "any non-delimiter" matches.
-/
namespace LogSurgeon

theorem mem_sortNat_ins {x y : Nat} (l : List Nat) : y ∈ sortNat.ins x l ↔ y = x ∨ y ∈ l := by
  induction l with
  | nil => simp [sortNat.ins]
  | cons z l ih =>
    simp only [sortNat.ins]
    split
    · simp
    · simp only [List.mem_cons, ih]; exact or_left_comm

theorem mem_sortNat {y : Nat} (l : List Nat) : y ∈ sortNat l ↔ y ∈ l := by
  induction l with
  | nil => simp [sortNat]
  | cons z l ih => simp only [sortNat, mem_sortNat_ins, ih, List.mem_cons]

theorem sorted_ins {x : Nat} : ∀ {l : List Nat}, l.Pairwise (· ≤ ·) → (sortNat.ins x l).Pairwise (· ≤ ·) := by
  intro l
  induction l with
  | nil => intro _; simp [sortNat.ins]
  | cons z l ih =>
    intro h
    simp only [sortNat.ins]
    split
    · rename_i hxz
      refine .cons ?_ h
      intro y hy
      rcases List.mem_cons.mp hy with rfl | hy
      · exact hxz
      · exact Nat.le_trans hxz (List.rel_of_pairwise_cons h hy)
    · rename_i hxz
      refine .cons ?_ (ih (List.Pairwise.of_cons h))
      intro y hy
      rcases (mem_sortNat_ins _).mp hy with rfl | hy
      · omega
      · exact List.rel_of_pairwise_cons h hy

theorem sorted_sortNat (l : List Nat) : (sortNat l).Pairwise (· ≤ ·) := by
  induction l with
  | nil => exact .nil
  | cons z l ih => exact sorted_ins ih

theorem wildcardGaps_spec (l : List Nat) : ∀ {prev c : Nat}, (prev :: l).Pairwise (· ≤ ·) → (∀ d ∈ l, d ≤ cUnicodeMax) →
    prev ≤ cUnicodeMax → (InRanges (wildcardGaps prev l) c ↔ prev < c ∧ c ≤ cUnicodeMax ∧ c ∉ l) := by
  induction l with
  | nil =>
    intro prev c _ _ hp
    simp only [wildcardGaps]
    split
    · simp only [inRanges_cons, inRanges_nil, or_false, List.not_mem_nil, not_false_eq_true, and_true]
      omega
    · rename_i h
      simp only [inRanges_nil, false_iff]
      simp only [ne_eq, Classical.not_not] at h
      omega
  | cons d l ih =>
    intro prev c hs hm hp
    have hpd : prev ≤ d := List.rel_of_pairwise_cons hs (.head _)
    have hs' := List.Pairwise.of_cons hs
    have hd := hm d (.head _)
    have ih' := ih (prev := d) (c := c) hs' (fun x hx => hm x (.tail _ hx)) hd
    have hle : c ∈ l → d ≤ c := fun h => List.rel_of_pairwise_cons hs' h
    simp only [wildcardGaps]
    split
    · rename_i hg
      rw [inRanges_cons, ih']
      simp only [List.mem_cons, not_or]
      constructor
      · rintro (h | ⟨h1, h2, h3⟩)
        · exact ⟨by omega, by omega, by omega, fun hc => by have := hle hc; omega⟩
        · exact ⟨by omega, h2, by omega, h3⟩
      · rintro ⟨h1, h2, h3, h4⟩
        by_cases hcd : c < d
        · left; show prev + 1 ≤ c ∧ c ≤ d - 1; omega
        · right; exact ⟨by omega, h2, h4⟩
    · rename_i hg
      rw [ih']
      simp only [List.mem_cons, not_or]
      constructor
      · rintro ⟨h1, h2, h3⟩; exact ⟨by omega, h2, by omega, h3⟩
      · rintro ⟨h1, h2, h3, h4⟩; exact ⟨by omega, h2, h4⟩

/-- The ranges computed for `.` are exactly the code points that are no delimiters. -/
theorem wildcardRanges_spec {l : List Nat} (hne : l ≠ []) (hm : ∀ d ∈ l, d ≤ cUnicodeMax) (c : Nat) :
    InRanges (wildcardRanges (sortNat l)) c ↔ c ≤ cUnicodeMax ∧ c ∉ l := by
  have hs := sorted_sortNat l
  have hmem := fun y => mem_sortNat (y := y) l
  revert hs hmem
  generalize sortNat l = k
  intro hs hmem
  cases k with
  | nil =>
    obtain ⟨x, hx⟩ := List.exists_mem_of_ne_nil l hne
    have := (hmem x).mpr hx
    cases this
  | cons d ds =>
    have hd := hm d ((hmem d).mp (.head _))
    have h := wildcardGaps_spec ds (prev := d) (c := c) hs (fun x hx => hm x ((hmem x).mp (.tail _ hx))) hd
    have hle : c ∈ ds → d ≤ c := fun h => List.rel_of_pairwise_cons hs h
    rw [← hmem c]
    simp only [wildcardRanges]
    split
    · rw [inRanges_cons, h]
      simp only [List.mem_cons, not_or]
      constructor
      · rintro (h | ⟨h1, h2, h3⟩)
        · exact ⟨by omega, by omega, fun hc => by have := hle hc; omega⟩
        · exact ⟨h2, by omega, h3⟩
      · rintro ⟨h1, h2, h3⟩
        by_cases hcd : c < d
        · left; show 0 ≤ c ∧ c ≤ d - 1; omega
        · right; exact ⟨by omega, h1, h3⟩
    · rw [h]
      simp only [List.mem_cons, not_or]
      constructor
      · rintro ⟨h1, h2, h3⟩; exact ⟨h2, by omega, h3⟩
      · rintro ⟨h1, h2, h3⟩; exact ⟨by omega, h1, h3⟩

theorem removeDelims_setNegTags (r : Regex) (t : List Tag) (ds : List Nat) :
    (r.setNegTags t).removeDelims ds = (r.removeDelims ds).setNegTags t := by
  cases r <;> simp only [Regex.setNegTags, Regex.removeDelims]
  rename_i n w ng rs
  cases w <;> simp
  split <;> rfl

theorem addItems_lits (l : List Nat) : ∀ rs : List Range,
    addItems rs (l.map .lit) = some (rs ++ l.map fun d => (d, d)) := by
  induction l with
  | nil => intro rs; simp [addItems]
  | cons d l ih => intro rs; simp [addItems, addItem, ih]

theorem inRanges_singletons {l : List Nat} {c : Nat} : InRanges (l.map fun d => (d, d)) c ↔ c ∈ l := by
  simp only [InRanges, List.mem_map]
  constructor
  · rintro ⟨_, ⟨a, h, rfl⟩, h1, h2⟩
    have h1 : a ≤ c := h1
    have h2 : c ≤ a := h2
    rwa [show c = a by omega]
  · intro h; exact ⟨(c, c), ⟨c, h, rfl⟩, Nat.le_refl _, Nat.le_refl _⟩

/-- Removing the delimiters from the wildcards of the regex of a pattern gives the meaning of the pattern in
which `.` is `[^delimiters]`. -/
theorem removeDelims_spec {ds : List Nat} (hne : ds ≠ []) (hm : ∀ d ∈ ds, d ≤ cUnicodeMax) (p : Pat) :
    ∀ {r : Regex}, p.elab = some r → p.Sensible → (p.dotAs ds).Sensible ∧ ∃ r2, (p.dotAs ds).elab = some r2 ∧
      ∀ e s, MatchesWith e (r.removeDelims ds) s ↔ MatchesWith e r2 s := by
  induction p with
  | lit c => intro r h hs; cases h; exact ⟨trivial, _, rfl, fun _ _ => Iff.rfl⟩
  | cls ng items =>
    intro r h hs
    refine ⟨hs, r, h, fun e s => ?_⟩
    simp only [Pat.elab, Option.map_eq_some_iff] at h
    obtain ⟨rs, _, rfl⟩ := h
    exact Iff.rfl
  | digit => intro r h hs; cases h; exact ⟨trivial, _, rfl, fun _ _ => Iff.rfl⟩
  | wild =>
    intro r h hs
    cases h
    refine ⟨fun _ => by simpa using hne, .group [] false true (ds.map fun d => (d, d)), ?_, fun e s => ?_⟩
    · simp [Pat.dotAs, Pat.elab, addItems_lits]
    · have : ds.isEmpty = false := by simpa using hne
      simp only [Regex.removeDelims, Bool.not_true, Bool.false_eq_true, if_false, this, MatchesWith, ClassMatches,
        if_true, wildcardRanges_spec hne hm, inRanges_singletons]
  | space => intro r h hs; cases h; exact ⟨trivial, _, rfl, fun _ _ => Iff.rfl⟩
  | cat l r ihl ihr =>
    intro x h hs
    simp only [Pat.elab, Option.bind_eq_some_iff, Option.map_eq_some_iff] at h
    obtain ⟨a, ha, b, hb, rfl⟩ := h
    obtain ⟨a1, a2, a3, a4⟩ := ihl ha hs.1
    obtain ⟨b1, b2, b3, b4⟩ := ihr hb hs.2
    exact ⟨⟨a1, b1⟩, .mkCat a2 b2, by simp [Pat.dotAs, Pat.elab, a3, b3], fun e s => by
      simp only [Regex.mkCat, Regex.removeDelims, MatchesWith, a4, b4]⟩
  | or l r ihl ihr =>
    intro x h hs
    simp only [Pat.elab, Option.bind_eq_some_iff, Option.map_eq_some_iff] at h
    obtain ⟨a, ha, b, hb, rfl⟩ := h
    obtain ⟨a1, a2, a3, a4⟩ := ihl ha hs.1
    obtain ⟨b1, b2, b3, b4⟩ := ihr hb hs.2
    exact ⟨⟨a1, b1⟩, .mkOr a2 b2, by simp [Pat.dotAs, Pat.elab, a3, b3], fun e s => by
      simp only [Regex.mkOr, Regex.removeDelims, removeDelims_setNegTags, MatchesWith, matches_setNegTags, a4, b4]⟩
  | star p ih =>
    intro x h hs
    simp only [Pat.elab, Option.map_eq_some_iff] at h
    obtain ⟨a, ha, rfl⟩ := h
    obtain ⟨a1, a2, a3, a4⟩ := ih ha hs
    exact ⟨a1, starRule a2, by simp [Pat.dotAs, Pat.elab, a3], fun e s => by
      simp only [starRule, Regex.mkOr, Regex.mkMult, Regex.mkEmpty, Regex.removeDelims, removeDelims_setNegTags,
        MatchesWith, matches_setNegTags, repeat_congr (a4 e)]⟩
  | plus p ih =>
    intro x h hs
    simp only [Pat.elab, Option.map_eq_some_iff] at h
    obtain ⟨a, ha, rfl⟩ := h
    obtain ⟨a1, a2, a3, a4⟩ := ih ha hs
    exact ⟨a1, plusRule a2, by simp [Pat.dotAs, Pat.elab, a3], fun e s => by
      simp only [plusRule, Regex.mkMult, Regex.removeDelims, MatchesWith, repeat_congr (a4 e)]⟩
  | exact p n ih =>
    intro x h hs
    obtain ⟨hn, h1, hp⟩ := hs
    simp only [Pat.elab, Option.bind_eq_some_iff, Option.map_eq_some_iff] at h
    obtain ⟨a, ha, k, hk, rfl⟩ := h
    obtain ⟨a1, a2, a3, a4⟩ := ih ha hp
    exact ⟨⟨hn, h1, a1⟩, exactRule a2 k, by simp [Pat.dotAs, Pat.elab, a3, hk], fun e s => by
      simp only [exactRule, Regex.mkMult, Regex.removeDelims, MatchesWith, repeat_congr (a4 e)]⟩
  | range p n m ih =>
    intro x h hs
    obtain ⟨hn, hmm, hle, h1, hp⟩ := hs
    simp only [Pat.elab, Option.bind_eq_some_iff, Option.map_eq_some_iff] at h
    obtain ⟨a, ha, k, hk, j, hj, rfl⟩ := h
    obtain ⟨a1, a2, a3, a4⟩ := ih ha hp
    refine ⟨⟨hn, hmm, hle, h1, a1⟩, rangeRule a2 k j, by simp [Pat.dotAs, Pat.elab, a3, hk, hj], fun e s => ?_⟩
    unfold rangeRule
    split
    · simp only [Regex.mkOr, Regex.mkMult, Regex.mkEmpty, Regex.removeDelims, removeDelims_setNegTags,
        MatchesWith, matches_setNegTags, repeat_congr (a4 e)]
    · simp only [Regex.mkMult, Regex.removeDelims, MatchesWith, repeat_congr (a4 e)]
  | capture p t ih =>
    intro x h hs
    simp only [Pat.elab, Option.map_eq_some_iff] at h
    obtain ⟨a, ha, rfl⟩ := h
    obtain ⟨a1, a2, a3, a4⟩ := ih ha hs
    exact ⟨a1, .mkCapture a2 t, by simp [Pat.dotAs, Pat.elab, a3], fun e s => a4 e s⟩

/-! ### Structural facts kept by `remove_delimiters_from_wildcard` -/

/-- A wildcard is never negated. -/
def Regex.WildPos : Regex → Prop
  | .group _ w ng _ => w = true → ng = false
  | .or _ l r | .cat _ l r => l.WildPos ∧ r.WildPos
  | .mult _ o _ _ => o.WildPos
  | .capture _ i _ => i.WildPos
  | _ => True

theorem wildPos_setNegTags (r : Regex) (t : List Tag) : (r.setNegTags t).WildPos ↔ r.WildPos := by
  cases r <;> exact Iff.rfl

theorem noZeroMin_setNegTags (r : Regex) (t : List Tag) : (r.setNegTags t).NoZeroMin ↔ r.NoZeroMin := by
  cases r <;> exact Iff.rfl

theorem elab_shape (p : Pat) : ∀ {r : Regex}, p.elab = some r → p.Sensible → r.WildPos ∧ r.NoZeroMin := by
  induction p with
  | lit c => intro r h _; cases h; exact ⟨trivial, trivial⟩
  | cls ng items =>
    intro r h hs
    simp only [Pat.elab, Option.map_eq_some_iff] at h
    obtain ⟨rs, _, rfl⟩ := h
    exact ⟨(fun h => by cases h), trivial⟩
  | digit => intro r h _; cases h; exact ⟨fun _ => rfl, trivial⟩
  | wild => intro r h _; cases h; exact ⟨fun _ => rfl, trivial⟩
  | space => intro r h _; cases h; exact ⟨fun _ => rfl, trivial⟩
  | cat l r ihl ihr =>
    intro x h hs
    simp only [Pat.elab, Option.bind_eq_some_iff, Option.map_eq_some_iff] at h
    obtain ⟨a, ha, b, hb, rfl⟩ := h
    exact ⟨⟨(ihl ha hs.1).1, (ihr hb hs.2).1⟩, ⟨(ihl ha hs.1).2, (ihr hb hs.2).2⟩⟩
  | or l r ihl ihr =>
    intro x h hs
    simp only [Pat.elab, Option.bind_eq_some_iff, Option.map_eq_some_iff] at h
    obtain ⟨a, ha, b, hb, rfl⟩ := h
    simp only [Regex.mkOr, Regex.WildPos, Regex.NoZeroMin, wildPos_setNegTags, noZeroMin_setNegTags]
    exact ⟨⟨(ihl ha hs.1).1, (ihr hb hs.2).1⟩, ⟨(ihl ha hs.1).2, (ihr hb hs.2).2⟩⟩
  | star p ih =>
    intro x h hs
    simp only [Pat.elab, Option.map_eq_some_iff] at h
    obtain ⟨a, ha, rfl⟩ := h
    exact ⟨⟨trivial, (ih ha hs).1⟩, trivial, by decide, (ih ha hs).2⟩
  | plus p ih =>
    intro x h hs
    simp only [Pat.elab, Option.map_eq_some_iff] at h
    obtain ⟨a, ha, rfl⟩ := h
    exact ⟨(ih ha hs).1, (by decide), (ih ha hs).2⟩
  | exact p n ih =>
    intro x h hs
    obtain ⟨hn, h1, hp⟩ := hs
    simp only [Pat.elab, Option.bind_eq_some_iff, Option.map_eq_some_iff, repetitionCount_ok hn] at h
    obtain ⟨a, ha, k, hk, rfl⟩ := h
    cases hk
    exact ⟨(ih ha hp).1, (by omega), (ih ha hp).2⟩
  | range p n m ih =>
    intro x h hs
    obtain ⟨hn, hmm, hle, h1, hp⟩ := hs
    simp only [Pat.elab, Option.bind_eq_some_iff, Option.map_eq_some_iff, repetitionCount_ok hn, repetitionCount_ok hmm] at h
    obtain ⟨a, ha, k, hk, j, hj, rfl⟩ := h
    cases hk; cases hj
    unfold rangeRule
    split
    · exact ⟨⟨trivial, (ih ha hp).1⟩, trivial, by decide, (ih ha hp).2⟩
    · rename_i h0
      exact ⟨(ih ha hp).1, h0, (ih ha hp).2⟩
  | capture p t ih =>
    intro x h hs
    simp only [Pat.elab, Option.map_eq_some_iff] at h
    obtain ⟨a, ha, rfl⟩ := h
    exact ⟨(ih ha hs).1, (ih ha hs).2⟩

theorem removeDelims_classesOk (ds : List Nat) (r : Regex) (hw : r.WildPos) (h : r.ClassesOk) :
    (r.removeDelims ds).ClassesOk := by
  induction r with
  | group n w ng rs =>
    simp only [Regex.removeDelims]
    split
    · exact h
    · split
      · exact h
      · rename_i h1 _
        intro hng
        rw [hw (by simpa using h1)] at hng; cases hng
  | or n l r ihl ihr => exact ⟨ihl hw.1 h.1, ihr hw.2 h.2⟩
  | cat n l r ihl ihr => exact ⟨ihl hw.1 h.1, ihr hw.2 h.2⟩
  | mult n o a b ih => exact ih hw h
  | capture n i t ih => exact ih hw h
  | _ => trivial

theorem removeDelims_noInteger (ds : List Nat) (r : Regex) (h : r.NoInteger) : (r.removeDelims ds).NoInteger := by
  induction r with
  | group n w ng rs =>
    simp only [Regex.removeDelims]
    split
    · trivial
    · split <;> trivial
  | or n l r ihl ihr => exact ⟨ihl h.1, ihr h.2⟩
  | cat n l r ihl ihr => exact ⟨ihl h.1, ihr h.2⟩
  | mult n o a b ih => exact ih h
  | capture n i t ih => exact ih h
  | integer => exact h
  | _ => trivial

theorem removeDelims_noZeroMin (ds : List Nat) (r : Regex) (h : r.NoZeroMin) : (r.removeDelims ds).NoZeroMin := by
  induction r with
  | group n w ng rs =>
    simp only [Regex.removeDelims]
    split
    · trivial
    · split <;> trivial
  | or n l r ihl ihr => exact ⟨ihl h.1, ihr h.2⟩
  | cat n l r ihl ihr => exact ⟨ihl h.1, ihr h.2⟩
  | mult n o a b ih => exact ⟨h.1, ih h.2⟩
  | capture n i t ih => exact ih h
  | _ => trivial

theorem removeDelims_boundsOk (ds : List Nat) (r : Regex) (h : r.BoundsOk) : (r.removeDelims ds).BoundsOk := by
  induction r with
  | group n w ng rs =>
    simp only [Regex.removeDelims]
    split
    · trivial
    · split <;> trivial
  | or n l r ihl ihr => exact ⟨ihl h.1, ihr h.2⟩
  | cat n l r ihl ihr => exact ⟨ihl h.1, ihr h.2⟩
  | mult n o a b ih => exact ⟨h.1, ih h.2⟩
  | capture n i t ih => exact ih h
  | _ => trivial

theorem removeDelims_tailLoop (ds : List Nat) (r : Regex) : (r.removeDelims ds).TailLoop ↔ r.TailLoop := by
  induction r with
  | group n w ng rs =>
    simp only [Regex.removeDelims]
    split
    · rfl
    · split <;> simp [Regex.TailLoop]
  | or n l r ihl ihr => simp only [Regex.removeDelims, Regex.TailLoop, ihl, ihr]
  | cat n l r ihl ihr => simp only [Regex.removeDelims, Regex.TailLoop, ihr]
  | mult n o a b ih => simp only [Regex.removeDelims, Regex.TailLoop, ih]
  | _ => rfl

theorem removeDelims_loopSafe (ds : List Nat) (r : Regex) (h : r.LoopSafe) : (r.removeDelims ds).LoopSafe := by
  induction r with
  | group n w ng rs =>
    simp only [Regex.removeDelims]
    split
    · trivial
    · split <;> trivial
  | or n l r ihl ihr =>
    refine ⟨?_, ihl h.2.1, ihr h.2.2⟩
    rcases h.1 with h | ⟨m, rfl⟩ | ⟨m, rfl⟩
    · left; rw [removeDelims_tailLoop, removeDelims_tailLoop]; exact h
    · exact .inr (.inl ⟨m, rfl⟩)
    · exact .inr (.inr ⟨m, rfl⟩)
  | cat n l r ihl ihr => exact ⟨ihl h.1, ihr h.2⟩
  | mult n o a b ih =>
    refine ⟨?_, ih h.2⟩
    rw [removeDelims_tailLoop]; exact h.1
  | capture n i t ih => exact ih h
  | _ => trivial

/-! ### Words have at least one byte -/

theorem ruleLang_nonempty (r : Regex) (h : r.NoZeroMin) : ∀ w, ruleLang r w → bytesOf w ≠ [] := by
  have seqL : ∀ {a b : Lang}, (∀ w, a w → bytesOf w ≠ []) → ∀ w, Lang.seq a b w → bytesOf w ≠ [] := by
    rintro a b ha w ⟨x, y, rfl, hx, _⟩ h
    rw [bytesOf_append, List.append_eq_nil_iff] at h
    exact ha x hx h.1
  have seqR : ∀ {a b : Lang}, (∀ w, b w → bytesOf w ≠ []) → ∀ w, Lang.seq a b w → bytesOf w ≠ [] := by
    rintro a b hb w ⟨x, y, rfl, _, hy⟩ h
    rw [bytesOf_append, List.append_eq_nil_iff] at h
    exact hb y hy h.2
  have wrap : ∀ r : Regex, (∀ w, r.lang.1 w → bytesOf w ≠ []) →
      ∀ w, (wrapLang r.negTags r.lang).1 w → bytesOf w ≠ [] := by
    intro r h
    unfold wrapLang
    by_cases hn : r.negTags.isEmpty
    · simp only [hn, if_true]; exact h
    · simp only [hn]
      exact seqL (a := r.lang.1.full r.lang.2) (seqL h)
  have key : ∀ r : Regex, r.NoZeroMin → ∀ w, (wrapLang r.negTags r.lang).1 w → bytesOf w ≠ [] := by
    intro r
    induction r with
    | empty n => intro _; exact wrap (.empty n) (fun w h => h.elim)
    | literal n c => intro _; exact wrap (.literal n c) (by rintro w ⟨c, rfl, _⟩; simp [bytesOf])
    | integer n d => intro _; exact wrap (.integer n d) (fun w h => h.elim)
    | group n wc ng rs => intro _; exact wrap (.group n wc ng rs) (by rintro w ⟨c, rfl, _⟩; simp [bytesOf])
    | or n l r ihl ihr => intro h; exact wrap (.or n l r) (fun w hw => hw.elim (ihl h.1 w) (ihr h.2 w))
    | cat n l r ihl ihr => intro h; exact wrap (.cat n l r) (seqR (ihr h.2))
    | mult n o mn mx ih =>
      intro h
      refine wrap (.mult n o mn mx) ?_
      rintro w (⟨h0, _⟩ | ⟨j, _, _, hw⟩)
      · exact absurd h0 h.1
      · exact seqR (ih h.2) w hw
    | capture n i t ih =>
      intro h
      exact wrap (.capture n i t) (seqR (seqL (a := (wrapLang i.negTags i.lang).1.full (wrapLang i.negTags i.lang).2)
        (seqL (ih h))))
  exact seqL (key r h)

end LogSurgeon
