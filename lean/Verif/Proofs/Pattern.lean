import Verif.Spec.Pattern
import Verif.Proofs.RegexLang
/- Elaborated schema patterns have the meaning of the pattern. -/
namespace LogSurgeon

theorem foldl_decimal (l : List Nat) : ∀ v, l.foldl (fun v d => 10 * v + d) v = v * 10 ^ l.length + decimal l := by
  unfold decimal
  induction l with
  | nil => intro v; simp
  | cons d l ih =>
    intro v
    simp only [List.foldl_cons, List.length_cons]
    rw [ih (10 * v + d), ih (10 * 0 + d)]
    simp only [Nat.mul_zero, Nat.zero_add, Nat.add_mul, Nat.pow_succ]
    have : 10 * v * 10 ^ l.length = v * (10 ^ l.length * 10) := by
      rw [Nat.mul_comm 10 v, Nat.mul_assoc, Nat.mul_comm 10]
    omega

theorem decimal_cons (d : Nat) (l : List Nat) : decimal (d :: l) = d * 10 ^ l.length + decimal l := by
  have := foldl_decimal l (10 * 0 + d)
  simpa [decimal] using this

theorem sum_digits (l : List Nat) :
    ((List.range l.length).map (fun i => l.getD i 0 * 10 ^ (l.length - i - 1))).sum = decimal l := by
  induction l with
  | nil => rfl
  | cons d l ih =>
    rw [decimal_cons, List.length_cons, List.range_succ_eq_map, List.map_cons, List.sum_cons, List.map_map,
      ← ih]
    have h0 : (d :: l).getD 0 0 * 10 ^ (l.length + 1 - 0 - 1) = d * 10 ^ l.length := by simp
    rw [h0]
    congr 1
    · congr 1
      apply List.map_congr_left
      intro i hi
      simp only [Function.comp_apply, List.getD_cons_succ]
      congr 2
      omega

theorem repetitionCount_ok {n : List Nat} (h : NumeralOk n) : repetitionCount n = some (decimal n) := by
  unfold repetitionCount
  rw [if_neg (by have := h.2.1; omega), sum_digits, Nat.mod_eq_of_lt h.2.2]

theorem matches_setNegTags {e : Prop} (r : Regex) (t : List Tag) (s : List Nat) :
    MatchesWith e (r.setNegTags t) s ↔ MatchesWith e r s := by
  cases r <;> exact Iff.rfl

theorem boundsOk_setNegTags (r : Regex) (t : List Tag) : (r.setNegTags t).BoundsOk ↔ r.BoundsOk := by
  cases r <;> exact Iff.rfl

theorem classesOk_setNegTags (r : Regex) (t : List Tag) : (r.setNegTags t).ClassesOk ↔ r.ClassesOk := by
  cases r <;> exact Iff.rfl

theorem noInteger_setNegTags (r : Regex) (t : List Tag) : (r.setNegTags t).NoInteger ↔ r.NoInteger := by
  cases r <;> exact Iff.rfl

theorem noEmpty_setNegTags (r : Regex) (t : List Tag) : (r.setNegTags t).NoEmpty ↔ r.NoEmpty := by
  cases r <;> exact Iff.rfl

theorem repeat_congr {P Q : List Nat → Prop} (h : ∀ s, P s ↔ Q s) (k : Nat) (s : List Nat) :
    Repeat P k s ↔ Repeat Q k s :=
  ⟨repeat_mono fun s => (h s).mp, repeat_mono fun s => (h s).mpr⟩

theorem addItem_spec {i : ClassItem} {rs rs' : List Range} (h : addItem rs i = some rs') :
    ∃ r : Range, rs' = rs ++ [r] ∧ r.1 ≤ r.2 ∧ ∀ c, (r.1 ≤ c ∧ c ≤ r.2) ↔ i.Has c := by
  cases i with
  | lit a =>
    cases h; refine ⟨(a, a), rfl, Nat.le_refl _, fun c => ?_⟩
    simp only [ClassItem.Has]; omega
  | range lo hi =>
    simp only [addItem] at h
    split at h
    · cases h; exact ⟨(lo, hi), rfl, by simp only; omega, fun c => Iff.rfl⟩
    · cases h
  | digit => cases h; exact ⟨(48, 57), rfl, by simp, fun c => Iff.rfl⟩
  | space => cases h

theorem addItems_spec (items : List ClassItem) : ∀ {rs rs' : List Range}, addItems rs items = some rs' →
    (∀ r ∈ rs, r.1 ≤ r.2) → (∀ r ∈ rs', r.1 ≤ r.2) ∧ rs'.length = rs.length + items.length ∧
    ∀ c, InRanges rs' c ↔ (InRanges rs c ∨ ∃ i ∈ items, i.Has c) := by
  induction items with
  | nil => intro rs rs' h h0; cases h; exact ⟨h0, rfl, fun c => by simp⟩
  | cons i is ih =>
    intro rs rs' h h0
    simp only [addItems, Option.bind_eq_some_iff] at h
    obtain ⟨r1, h1, h2⟩ := h
    obtain ⟨r, rfl, hr, hc⟩ := addItem_spec h1
    obtain ⟨ha, hb, hd⟩ := ih h2 (by
      intro x hx
      rcases List.mem_append.mp hx with hx | hx
      · exact h0 x hx
      · simp at hx; subst hx; exact hr)
    refine ⟨ha, by simp at hb ⊢; omega, fun c => ?_⟩
    rw [hd]
    constructor
    · rintro (⟨x, hx, hxc⟩ | ⟨j, hj, hjc⟩)
      · rcases List.mem_append.mp hx with hx | hx
        · exact .inl ⟨x, hx, hxc⟩
        · simp at hx; subst hx
          exact .inr ⟨i, .head _, (hc c).mp hxc⟩
      · exact .inr ⟨j, .tail _ hj, hjc⟩
    · rintro (⟨x, hx, hxc⟩ | ⟨j, hj, hjc⟩)
      · exact .inl ⟨x, List.mem_append_left _ hx, hxc⟩
      · cases hj with
        | head => exact .inl ⟨r, by simp, (hc c).mpr hjc⟩
        | tail _ hj => exact .inr ⟨j, hj, hjc⟩

/-- What elaboration guarantees, for either reading `e` of the empty alternative; `q` is the
pattern with (e) / without (¬e) zero repetitions. -/
theorem elab_spec (p : Pat) : ∀ {r : Regex}, p.elab = some r → p.Sensible →
    r.BoundsOk ∧ r.ClassesOk ∧ r.NoInteger ∧ (p.NoZero → r.NoEmpty) ∧
    (∀ s, MatchesWith True r s ↔ p.Matches s) ∧ (∀ s, MatchesWith False r s ↔ p.atLeastOne.Matches s) := by
  induction p with
  | lit c =>
    intro r h _; cases h
    exact ⟨trivial, trivial, trivial, fun _ => trivial, fun s => Iff.rfl, fun s => Iff.rfl⟩
  | cls negate items =>
    intro r h hs
    simp only [Pat.elab, Option.map_eq_some_iff] at h
    obtain ⟨rs, h1, rfl⟩ := h
    obtain ⟨ha, hb, hc⟩ := addItems_spec items h1 (by simp)
    have hm : ∀ e s, MatchesWith e (.group [] false negate rs) s ↔ (Pat.cls negate items).Matches s := by
      intro e s
      simp only [MatchesWith, Pat.Matches, ClassMatches]
      constructor
      · rintro ⟨c, rfl, h⟩
        refine ⟨c, rfl, ?_⟩
        cases negate with
        | false =>
          simp only [Bool.false_eq_true, if_false] at h ⊢
          rcases (hc c).mp h with ⟨x, hx, _⟩ | h
          · simp at hx
          · exact h
        | true =>
          simp only [if_true] at h ⊢
          exact ⟨h.1, fun i hi hic => h.2 ((hc c).mpr (.inr ⟨i, hi, hic⟩))⟩
      · rintro ⟨c, rfl, h⟩
        refine ⟨c, rfl, ?_⟩
        cases negate with
        | false =>
          simp only [Bool.false_eq_true, if_false] at h ⊢
          exact (hc c).mpr (.inr h)
        | true =>
          simp only [if_true] at h ⊢
          refine ⟨h.1, fun hin => ?_⟩
          rcases (hc c).mp hin with ⟨x, hx, _⟩ | ⟨i, hi, hic⟩
          · simp at hx
          · exact h.2 i hi hic
    refine ⟨trivial, ?_, trivial, fun _ => trivial, fun s => hm True s, fun s => hm False s⟩
    intro hneg
    refine ⟨?_, ha⟩
    rintro rfl
    have hi := hs hneg
    simp only [List.length_nil, Nat.zero_add] at hb
    exact hi (List.length_eq_zero_iff.mp hb.symm)
  | digit =>
    intro r h _; cases h
    refine ⟨trivial, (fun h => by cases h), trivial, fun _ => trivial, ?_, ?_⟩ <;>
      simp [MatchesWith, Pat.atLeastOne, Pat.Matches, ClassMatches, InRanges]
  | wild =>
    intro r h _; cases h
    refine ⟨trivial, (fun h => by cases h), trivial, fun _ => trivial, ?_, ?_⟩ <;>
      simp [MatchesWith, Pat.atLeastOne, Pat.Matches, ClassMatches, InRanges]
  | space =>
    intro r h _; cases h
    have key : ∀ c : Nat, InRanges [(32, 32), (9, 9), (13, 13), (10, 10), (11, 11), (12, 12)] c ↔
        (c = 32 ∨ c = 9 ∨ c = 13 ∨ c = 10 ∨ c = 11 ∨ c = 12) := by
      intro c
      simp only [InRanges, List.mem_cons, List.not_mem_nil, or_false, exists_eq_or_imp, exists_eq_left]
      omega
    refine ⟨trivial, (fun h => by cases h), trivial, fun _ => trivial, ?_, ?_⟩ <;>
    · intro s
      simp only [MatchesWith, Pat.atLeastOne, Pat.Matches, ClassMatches, key]
      simp
  | cat l r ihl ihr =>
    intro x h hs
    simp only [Pat.elab, Option.bind_eq_some_iff, Option.map_eq_some_iff] at h
    obtain ⟨a, ha, b, hb, rfl⟩ := h
    obtain ⟨a1, a2, a3, a4, a5, a6⟩ := ihl ha hs.1
    obtain ⟨b1, b2, b3, b4, b5, b6⟩ := ihr hb hs.2
    refine ⟨⟨a1, b1⟩, ⟨a2, b2⟩, ⟨a3, b3⟩, fun h => ⟨a4 h.1, b4 h.2⟩, fun s => ?_, fun s => ?_⟩
    · simp only [Regex.mkCat, MatchesWith, Pat.Matches, a5, b5]
    · simp only [Regex.mkCat, MatchesWith, Pat.Matches, Pat.atLeastOne, a6, b6]
  | or l r ihl ihr =>
    intro x h hs
    simp only [Pat.elab, Option.bind_eq_some_iff, Option.map_eq_some_iff] at h
    obtain ⟨a, ha, b, hb, rfl⟩ := h
    obtain ⟨a1, a2, a3, a4, a5, a6⟩ := ihl ha hs.1
    obtain ⟨b1, b2, b3, b4, b5, b6⟩ := ihr hb hs.2
    simp only [Regex.mkOr, Regex.BoundsOk, Regex.ClassesOk, Regex.NoInteger, Regex.NoEmpty, MatchesWith,
      boundsOk_setNegTags, classesOk_setNegTags, noInteger_setNegTags, noEmpty_setNegTags,
      matches_setNegTags, Pat.Matches, Pat.atLeastOne, a5, b5, a6, b6, Pat.NoZero]
    exact ⟨⟨a1, b1⟩, ⟨a2, b2⟩, ⟨a3, b3⟩, fun h => ⟨a4 h.1, b4 h.2⟩, fun _ => trivial, fun _ => trivial⟩
  | star p ih =>
    intro x h hs
    simp only [Pat.elab, Option.map_eq_some_iff] at h
    obtain ⟨a, ha, rfl⟩ := h
    obtain ⟨a1, a2, a3, a4, a5, a6⟩ := ih ha hs
    refine ⟨⟨trivial, .inl rfl, a1⟩, ⟨trivial, a2⟩, ⟨trivial, a3⟩, fun h => h.elim, fun s => ?_, fun s => ?_⟩
    · simp only [starRule, Regex.mkOr, MatchesWith, matches_setNegTags, Regex.mkEmpty, Regex.mkMult,
        Pat.Matches, true_and, repeat_congr a5, true_or]
      constructor
      · rintro (rfl | ⟨k, _, h⟩)
        · exact ⟨0, .zero⟩
        · exact ⟨k, h⟩
      · rintro ⟨k, h⟩
        cases h with
        | zero => exact .inl rfl
        | @succ k s t h1 h2 => exact .inr ⟨k + 1, by omega, .succ h1 h2⟩
    · simp only [starRule, Regex.mkOr, MatchesWith, matches_setNegTags, Regex.mkEmpty, Regex.mkMult,
        Pat.Matches, Pat.atLeastOne, true_and, repeat_congr a6, true_or, false_and, false_or]
  | plus p ih =>
    intro x h hs
    simp only [Pat.elab, Option.map_eq_some_iff] at h
    obtain ⟨a, ha, rfl⟩ := h
    obtain ⟨a1, a2, a3, a4, a5, a6⟩ := ih ha hs
    refine ⟨⟨.inl rfl, a1⟩, a2, a3, a4, fun s => ?_, fun s => ?_⟩
    · simp only [plusRule, MatchesWith, Regex.mkMult, Pat.Matches, true_and, repeat_congr a5, true_or]
    · simp only [plusRule, MatchesWith, Regex.mkMult,
        Pat.Matches, Pat.atLeastOne, true_and, repeat_congr a6, true_or]
  | exact p n ih =>
    intro x h hs
    obtain ⟨hn, h1, hp⟩ := hs
    simp only [Pat.elab, Option.bind_eq_some_iff, Option.map_eq_some_iff, repetitionCount_ok hn] at h
    obtain ⟨a, ha, k, hk, rfl⟩ := h
    cases hk
    obtain ⟨a1, a2, a3, a4, a5, a6⟩ := ih ha hp
    refine ⟨⟨.inr (Nat.le_refl _), a1⟩, a2, a3, a4, fun s => ?_, fun s => ?_⟩
    · simp only [exactRule, MatchesWith, Regex.mkMult, Pat.Matches, repeat_congr a5]
      constructor
      · rintro ⟨k, h1, h2 | h2, h3⟩
        · omega
        · rwa [show k = decimal n by omega] at h3
      · intro h; exact ⟨_, Nat.le_refl _, .inr (Nat.le_refl _), h⟩
    · simp only [exactRule, MatchesWith, Regex.mkMult, Pat.Matches, Pat.atLeastOne, repeat_congr a6]
      constructor
      · rintro ⟨k, h1, h2 | h2, h3⟩
        · omega
        · rwa [show k = decimal n by omega] at h3
      · intro h; exact ⟨_, Nat.le_refl _, .inr (Nat.le_refl _), h⟩
  | range p n m ih =>
    intro x h hs
    obtain ⟨hn, hm, hle, h1, hp⟩ := hs
    simp only [Pat.elab, Option.bind_eq_some_iff, Option.map_eq_some_iff, repetitionCount_ok hn,
      repetitionCount_ok hm] at h
    obtain ⟨a, ha, k, hk, j, hj, rfl⟩ := h
    cases hk; cases hj
    obtain ⟨a1, a2, a3, a4, a5, a6⟩ := ih ha hp
    unfold rangeRule
    by_cases h0 : decimal n = 0
    · rw [if_pos h0]
      refine ⟨⟨trivial, .inr h1, a1⟩, ⟨trivial, a2⟩, ⟨trivial, a3⟩, fun h => ?_, fun s => ?_, fun s => ?_⟩
      · have := h.1; omega
      · simp only [Regex.mkOr, MatchesWith, matches_setNegTags, Regex.mkEmpty, Regex.mkMult,
          Pat.Matches, true_and, repeat_congr a5]
        constructor
        · rintro (rfl | ⟨k, hk, hk', h⟩)
          · exact ⟨0, by omega, by omega, .zero⟩
          · exact ⟨k, by omega, by omega, h⟩
        · rintro ⟨k, hk, hk', h⟩
          cases h with
          | zero => exact .inl rfl
          | @succ k s t h1 h2 => exact .inr ⟨k + 1, by omega, .inr hk', .succ h1 h2⟩
      · simp only [Regex.mkOr, MatchesWith, matches_setNegTags, Regex.mkEmpty, Regex.mkMult,
          Pat.Matches, Pat.atLeastOne, repeat_congr a6, false_and, false_or, h0, if_true]
        constructor
        · rintro ⟨k, hk, hk', h⟩
          exact ⟨k, hk, by omega, h⟩
        · rintro ⟨k, hk, hk', h⟩
          exact ⟨k, hk, .inr hk', h⟩
    · rw [if_neg h0]
      refine ⟨⟨.inr hle, a1⟩, a2, a3, fun h => a4 h.2, fun s => ?_, fun s => ?_⟩
      · simp only [MatchesWith, Regex.mkMult, Pat.Matches, repeat_congr a5]
        constructor
        · rintro ⟨k, hk, hk', h⟩; exact ⟨k, hk, by omega, h⟩
        · rintro ⟨k, hk, hk', h⟩; exact ⟨k, hk, .inr hk', h⟩
      · simp only [MatchesWith, Regex.mkMult, Pat.atLeastOne, if_neg h0, Pat.Matches, repeat_congr a6]
        constructor
        · rintro ⟨k, hk, hk', h⟩; exact ⟨k, hk, by omega, h⟩
        · rintro ⟨k, hk, hk', h⟩; exact ⟨k, hk, .inr hk', h⟩
  | capture p t ih =>
    intro x h hs
    simp only [Pat.elab, Option.map_eq_some_iff] at h
    obtain ⟨a, ha, rfl⟩ := h
    obtain ⟨a1, a2, a3, a4, a5, a6⟩ := ih ha hs
    exact ⟨a1, a2, a3, a4, fun s => a5 s, fun s => a6 s⟩

end LogSurgeon
