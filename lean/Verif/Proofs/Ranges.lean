import Verif.Spec.Regex
/- Exactness of character class operations. -/
namespace LogSurgeon

theorem mem_insertRange {x y : Range} {l : List Range} : y ∈ insertRange x l ↔ y = x ∨ y ∈ l := by
  induction l with
  | nil => simp [insertRange]
  | cons z zs ih =>
    unfold insertRange
    split
    · simp
    · simp only [List.mem_cons, ih]
      constructor
      · rintro (h | h | h) <;> simp [h]
      · rintro (h | h | h) <;> simp [h]

theorem mem_sortRanges {x : Range} {l : List Range} : x ∈ sortRanges l ↔ x ∈ l := by
  induction l with
  | nil => simp [sortRanges]
  | cons y ys ih => simp [sortRanges, mem_insertRange, ih]

theorem rangeLe_iff {a b : Range} : rangeLe a b = true ↔ a.1 < b.1 ∨ (a.1 = b.1 ∧ a.2 ≤ b.2) := by
  simp [rangeLe]

theorem rangeLe_trans {a b c : Range} (h : rangeLe a b = true) (h' : rangeLe b c = true) :
    rangeLe a c = true := by rw [rangeLe_iff] at *; omega

theorem sorted_insertRange {x : Range} {l : List Range}
    (h : l.Pairwise (fun a b => rangeLe a b = true)) :
    (insertRange x l).Pairwise (fun a b => rangeLe a b = true) := by
  induction l with
  | nil => simp [insertRange]
  | cons y ys ih =>
    unfold insertRange
    split
    · rename_i hxy
      refine List.pairwise_cons.mpr ⟨?_, h⟩
      intro z hz
      rcases List.mem_cons.mp hz with rfl | hz
      · exact hxy
      · exact rangeLe_trans hxy ((List.pairwise_cons.mp h).1 z hz)
    · rename_i hxy
      have h' := List.pairwise_cons.mp h
      refine List.pairwise_cons.mpr ⟨?_, ih h'.2⟩
      intro z hz
      rcases mem_insertRange.mp hz with rfl | hz
      · have : ¬ (rangeLe z y = true) := hxy
        rw [rangeLe_iff] at this ⊢; omega
      · exact h'.1 z hz

theorem sorted_sortRanges (l : List Range) :
    (sortRanges l).Pairwise (fun a b => rangeLe a b = true) := by
  induction l with
  | nil => simp [sortRanges]
  | cons y ys ih => exact sorted_insertRange ih

theorem inRanges_sort {l : List Range} {c : Nat} : InRanges (sortRanges l) c ↔ InRanges l c := by
  simp only [InRanges, mem_sortRanges]

theorem inRanges_cons {r : Range} {l : List Range} {c : Nat} :
    InRanges (r :: l) c ↔ (r.1 ≤ c ∧ c ≤ r.2) ∨ InRanges l c := by
  simp [InRanges]

theorem inRanges_nil {c : Nat} : InRanges [] c ↔ False := by simp [InRanges]

theorem inRanges_mergeLoop (l : List Range) : ∀ (cur : Range),
    (∀ r ∈ l, cur.1 ≤ r.1) → l.Pairwise (fun a b => rangeLe a b = true) → ∀ c,
    InRanges (mergeLoop cur l) c ↔ (cur.1 ≤ c ∧ c ≤ cur.2) ∨ InRanges l c := by
  induction l with
  | nil => intro cur _ _ c; simp [mergeLoop, inRanges_cons, inRanges_nil]
  | cons r rs ih =>
    intro cur hcur hs c
    have hs' := List.pairwise_cons.mp hs
    have h0 := hcur r (.head _)
    have hrs : ∀ x ∈ rs, r.1 ≤ x.1 := by
      intro x hx
      have := rangeLe_iff.mp (hs'.1 x hx); omega
    unfold mergeLoop
    split
    · rename_i h
      rw [ih (cur.1, Nat.max r.2 cur.2) (fun x hx => Nat.le_trans h0 (hrs x hx)) hs'.2 c, inRanges_cons,
        ← or_assoc]
      apply or_congr _ Iff.rfl
      show cur.1 ≤ c ∧ c ≤ max r.2 cur.2 ↔ _
      omega
    · rw [inRanges_cons, ih r hrs hs'.2 c, inRanges_cons]

theorem inRanges_merge_sort (l : List Range) (c : Nat) :
    InRanges (merge (sortRanges l)) c ↔ InRanges l c := by
  rw [← inRanges_sort (l := l)]
  have hs := sorted_sortRanges l
  cases h : sortRanges l with
  | nil => simp [merge]
  | cons r rs =>
    rw [h] at hs
    have hs' := List.pairwise_cons.mp hs
    simp only [merge]
    rw [inRanges_mergeLoop rs r ?_ hs'.2, inRanges_cons]
    intro x hx
    have := rangeLe_iff.mp (hs'.1 x hx); omega

/-- Ranges in increasing order, with a gap between neighbours. -/
def Separated (l : List Range) : Prop := l.Pairwise (fun a b => a.2 + 1 < b.1)

theorem separated_mergeLoop (l : List Range) : ∀ (cur : Range),
    cur.1 ≤ cur.2 → (∀ r ∈ l, cur.1 ≤ r.1 ∧ r.1 ≤ r.2) →
    l.Pairwise (fun a b => rangeLe a b = true) →
    Separated (mergeLoop cur l) ∧ (∀ r ∈ mergeLoop cur l, cur.1 ≤ r.1 ∧ r.1 ≤ r.2) := by
  induction l with
  | nil => intro cur hc _ _; simp [mergeLoop, Separated, hc]
  | cons r rs ih =>
    intro cur hc hcur hs
    have hs' := List.pairwise_cons.mp hs
    have h0 := hcur r (.head _)
    have hrs : ∀ x ∈ rs, r.1 ≤ x.1 ∧ x.1 ≤ x.2 := by
      intro x hx
      have := rangeLe_iff.mp (hs'.1 x hx)
      have := hcur x (.tail _ hx)
      omega
    unfold mergeLoop
    split
    · refine ih (cur.1, Nat.max r.2 cur.2) ?_ (fun x hx => ⟨?_, (hrs x hx).2⟩) hs'.2
      · show cur.1 ≤ max r.2 cur.2; omega
      · have := (hrs x hx).1; show cur.1 ≤ x.1; omega
    · rename_i h
      obtain ⟨h1, h2⟩ := ih r h0.2 hrs hs'.2
      constructor
      · refine List.pairwise_cons.mpr ⟨fun x hx => ?_, h1⟩
        have := h2 x hx; omega
      · intro x hx
        rcases List.mem_cons.mp hx with rfl | hx
        · exact ⟨Nat.le_refl _, hc⟩
        · have := h2 x hx; omega

theorem separated_merge_sort (l : List Range) (hl : ∀ r ∈ l, r.1 ≤ r.2) :
    Separated (merge (sortRanges l)) ∧ ∀ r ∈ merge (sortRanges l), r.1 ≤ r.2 := by
  have hs := sorted_sortRanges l
  have hm : ∀ r ∈ sortRanges l, r.1 ≤ r.2 := fun r hr => hl r (mem_sortRanges.mp hr)
  cases h : sortRanges l with
  | nil => simp [merge, Separated]
  | cons r rs =>
    rw [h] at hs hm
    have hs' := List.pairwise_cons.mp hs
    have := separated_mergeLoop rs r (hm r (.head _)) (fun x hx => ?_) hs'.2
    · exact ⟨this.1, fun x hx => (this.2 x hx).2⟩
    · have := rangeLe_iff.mp (hs'.1 x hx)
      have := hm x (.tail _ hx)
      omega

theorem inRanges_complementLoop (l : List Range) : ∀ (low c : Nat), Separated l →
    (∀ r ∈ l, low ≤ r.1 ∧ r.1 ≤ r.2) → (low > 0 ∨ l ≠ []) → c ≤ cUnicodeMax →
    (InRanges (complementLoop low l) c ↔ low ≤ c ∧ ¬ InRanges l c) := by
  induction l with
  | nil =>
    intro low c _ _ hlow hc
    have : low > 0 := by simpa using hlow
    simp only [complementLoop, this, if_true, inRanges_cons, inRanges_nil]
    simp [hc]
  | cons r rs ih =>
    intro low c hw hl hlow hc
    obtain ⟨b, e⟩ := r
    have hw' := List.pairwise_cons.mp hw
    have hrs0 : ∀ x ∈ rs, e + 1 ≤ x.1 ∧ x.1 ≤ x.2 := fun x hx => by
      have := hw'.1 x hx; have := hl x (.tail _ hx); simp at *; omega
    have ih' := ih (e + 1) c hw'.2 hrs0 (.inl (by omega)) hc
    have hb : low ≤ b ∧ b ≤ e := hl (b, e) (.head _)
    have hnot : InRanges rs c → e + 1 < c := by
      rintro ⟨x, hx, h1, h2⟩
      have := hw'.1 x hx; simp at this
      omega
    simp only [complementLoop]
    split
    · rename_i hbp
      simp only [inRanges_cons]
      rw [ih']
      by_cases hin : InRanges rs c
      · have := hnot hin
        simp only [hin, not_true_eq_false, and_false, or_true, or_false, iff_false]
        omega
      · simp only [hin, not_false_eq_true, and_true, or_false]
        omega
    · rename_i hbp
      simp only [inRanges_cons]
      rw [ih']
      by_cases hin : InRanges rs c
      · simp [hin]
      · simp only [hin, not_false_eq_true, and_true, or_false]
        omega

theorem merge_sort_ne_nil {l : List Range} (h : l ≠ []) : merge (sortRanges l) ≠ [] := by
  have : sortRanges l ≠ [] := by
    obtain ⟨x, hx⟩ := List.exists_mem_of_ne_nil l h
    intro h'
    have := mem_sortRanges.mpr hx
    rw [h'] at this; cases this
  cases h' : sortRanges l with
  | nil => exact absurd h' this
  | cons r rs =>
    simp only [merge]
    clear h h' this
    induction rs generalizing r with
    | nil => simp [mergeLoop]
    | cons x xs ih =>
      unfold mergeLoop
      split
      · exact ih _
      · simp

/-- The class's code points (within Unicode), for well-formed ranges. -/
theorem inRanges_groupRanges (negate : Bool) (l : List Range) (c : Nat)
    (hc : c ≤ cUnicodeMax) (hv : negate = true → l ≠ [] ∧ ∀ r ∈ l, r.1 ≤ r.2) :
    InRanges (groupRanges negate l) c ↔ ClassMatches negate l c := by
  unfold groupRanges ClassMatches
  cases negate with
  | false => simp [inRanges_merge_sort]
  | true =>
    obtain ⟨h1, h2⟩ := hv rfl
    have hs := separated_merge_sort l h2
    simp only [if_true]
    unfold complement
    rw [inRanges_complementLoop _ 0 c hs.1 (fun r hr => ⟨by omega, hs.2 r hr⟩) (.inr (merge_sort_ne_nil h1)) hc,
      inRanges_merge_sort]
    simp [hc]

end LogSurgeon
