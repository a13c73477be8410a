import Verif.Spec.Tags
import Verif.Proofs.RegexLang
import Verif.Proofs.Pattern
import Mathlib.Data.List.Forall2
/-
Capture tags along accepting paths.
-/
namespace LogSurgeon

theorem silent_nil (t) : Silent t [] := by simp [Silent]
theorem silent_append {t x y} : Silent t (x ++ y) ↔ Silent t x ∧ Silent t y := by
  simp [Silent, or_imp, forall_and]

theorem TagRuns.append {t P j k x y} (h : TagRuns t P j x) (h' : TagRuns t P k y) :
    TagRuns t P (j + k) (x ++ y) := by
  induction h with
  | nil => simpa using h'
  | other hl _ ih => exact .other hl ih
  | captured hm hp _ ih =>
    rw [Nat.add_right_comm, List.cons_append, List.append_assoc, List.cons_append]
    exact .captured hm hp ih
  | negated hm _ ih => rw [Nat.add_right_comm]; exact .negated hm ih

theorem Silent.runs {t P w} (h : Silent t w) : TagRuns t P 0 w := by
  induction w with
  | nil => exact .nil
  | cons l w ih => exact .other (h l (by simp)) (ih fun l' hl' => h l' (by simp [hl']))

theorem TagRuns.mono {t P Q k w} (h : TagRuns t P k w) (hPQ : ∀ s, P s → Q s) : TagRuns t Q k w := by
  induction h with
  | nil => exact .nil
  | other hl _ ih => exact .other hl ih
  | captured hm hp _ ih => exact .captured hm (hPQ _ hp) ih
  | negated hm _ ih => exact .negated hm ih

theorem lang_setNegTags (r : Regex) (x : List Tag) : (r.setNegTags x).lang = r.lang := by
  cases r <;> simp [Regex.setNegTags, Regex.lang]
theorem negTags_setNegTags (r : Regex) (x : List Tag) : (r.setNegTags x).negTags = x := by
  cases r <;> simp [Regex.setNegTags, Regex.negTags]
theorem captures_setNegTags (r : Regex) (x : List Tag) : (r.setNegTags x).captures = r.captures := by
  cases r <;> simp [Regex.setNegTags, Regex.captures]
theorem positiveTags_setNegTags (r : Regex) (x : List Tag) :
    (r.setNegTags x).positiveTags = r.positiveTags := by
  cases r <;> simp [Regex.setNegTags, Regex.positiveTags]
theorem ncir_setNegTags (r : Regex) (x : List Tag) :
    (r.setNegTags x).NoCaptureInRepetition ↔ r.NoCaptureInRepetition := by
  cases r <;> simp [Regex.setNegTags, Regex.NoCaptureInRepetition]
theorem nzac_setNegTags (r : Regex) (x : List Tag) :
    (r.setNegTags x).NoZeroAroundCapture ↔ r.NoZeroAroundCapture := by
  cases r <;> simp [Regex.setNegTags, Regex.NoZeroAroundCapture]

theorem positiveTags_eq (r : Regex) : r.positiveTags = r.captures.map (·.1) := by
  induction r <;> simp_all [Regex.positiveTags, Regex.captures]

theorem Regex.Built.negTags {r : Regex} (h : r.Built) : r.negTags = [] := by cases h <;> rfl

theorem Regex.Built.ruleLang {r : Regex} (h : r.Built) {w} : ruleLang r w ↔ (r.lang.1.full r.lang.2) w := by
  unfold LogSurgeon.ruleLang wrapLang; rw [h.negTags]; simp

theorem Regex.NoInteger.setNegTags {r : Regex} (h : r.NoInteger) (x) : (r.setNegTags x).NoInteger := by
  cases r <;> simp_all [Regex.setNegTags, Regex.NoInteger]

theorem Regex.Built.noInteger {r : Regex} (h : r.Built) : r.NoInteger := by
  induction h with
  | empty => trivial
  | literal c => trivial
  | group w n rs => trivial
  | or _ _ i j => exact ⟨i.setNegTags _, j.setNegTags _⟩
  | cat _ _ i j => exact ⟨i, j⟩
  | mult _ _ _ i => exact i
  | capture _ _ i => exact i

/-! Closure of predicates under the language operations. -/

theorem star_of {a : Lang} {Q : List Label → Prop} (h0 : Q []) (ha : ∀ x, a x → Q x)
    (hm : ∀ x y, Q x → Q y → Q (x ++ y)) {w} (h : Lang.Star a w) : Q w := by
  induction h with
  | nil => exact h0
  | cons h1 _ ih => exact hm _ _ (ha _ h1) ih

theorem full_of' {a b : Lang} {Q : List Label → Prop} (h0 : Q []) (ha : ∀ x, a x → Q x)
    (hb : ∀ x, b x → Q x) (hm : ∀ x y, Q x → Q y → Q (x ++ y)) {w} (h : (a.full b) w) : Q w := by
  obtain ⟨x, y, rfl, hx, hy⟩ := h
  exact hm _ _ (ha _ hx) (star_of h0 hb hm hy)

theorem pow_of {a : Lang} {Q : List Label → Prop} (h0 : Q []) (ha : ∀ x, a x → Q x)
    (hm : ∀ x y, Q x → Q y → Q (x ++ y)) : ∀ {k w}, Lang.pow a k w → Q w := by
  intro k
  induction k with
  | zero => intro w h; cases h; exact h0
  | succ k ih => intro w h; obtain ⟨x, y, rfl, hx, hy⟩ := h; exact hm _ _ (ha _ hx) (ih hy)

theorem multEnter_of {a b : Lang} {mn mx : Nat} {Q : List Label → Prop} (h0 : Q []) (he : mn = 0 → Q [.eps])
    (ha : ∀ x, a x → Q x) (hb : ∀ x, b x → Q x) (hm : ∀ x y, Q x → Q y → Q (x ++ y)) {w}
    (h : Lang.multEnter a b mn mx w) : Q w := by
  rcases h with ⟨h1, rfl⟩ | ⟨j, _, _, x, y, rfl, hx, hy⟩
  · exact he h1
  · exact hm _ _ (pow_of h0 (fun x hx => full_of' h0 ha hb hm hx) hm hx) (ha _ hy)

/-! Captures that do not occur are never mentioned. -/

theorem lang_silent {r : Regex} (h : r.Built) (t : Tag) (ht : t ∉ r.positiveTags) :
    (∀ w, r.lang.1 w → Silent t w) ∧ (∀ w, r.lang.2 w → Silent t w) := by
  have app : ∀ x y, Silent t x → Silent t y → Silent t (x ++ y) := fun x y hx hy =>
    silent_append.mpr ⟨hx, hy⟩
  have hb : ∀ {rs w}, Lang.bytesIn rs w → Silent t w := by
    rintro rs w ⟨c, rfl, _⟩ l hl; simp at hl; subst hl; exact id
  induction h with
  | empty => exact ⟨fun w h => h.elim, fun w h => h.elim⟩
  | literal c => exact ⟨fun w h => hb h, fun w h => h.elim⟩
  | group a b c => exact ⟨fun w h => hb h, fun w h => h.elim⟩
  | @or l r h1 h2 i j =>
    simp only [Regex.mkOr, Regex.positiveTags, positiveTags_setNegTags, List.mem_append, not_or] at ht
    have i := i ht.1
    have j := j ht.2
    have wrap : ∀ (q : Regex) (neg : List Tag), t ∉ neg →
        ((∀ w, q.lang.1 w → Silent t w) ∧ (∀ w, q.lang.2 w → Silent t w)) →
        (∀ w, (wrapLang neg q.lang).1 w → Silent t w) ∧ (∀ w, (wrapLang neg q.lang).2 w → Silent t w) := by
      intro q neg hneg hq
      unfold wrapLang
      by_cases hn : neg.isEmpty
      · simpa [hn] using hq
      · simp only [hn, Bool.false_eq_true, if_false]
        refine ⟨?_, fun w h => h.elim⟩
        rintro w ⟨x, y, rfl, hx, rfl⟩
        refine app _ _ (full_of' (silent_nil t) hq.1 hq.2 app hx) ?_
        intro l hl; simp at hl; subst hl; exact hneg
    simp only [Regex.mkOr, Regex.lang, negTags_setNegTags, lang_setNegTags]
    have a := wrap l _ ht.2 i
    have b := wrap r _ ht.1 j
    exact ⟨fun w h => h.elim (a.1 w) (b.1 w), fun w h => h.elim (a.2 w) (b.2 w)⟩
  | @cat l r h1 h2 i j =>
    simp only [Regex.mkCat, Regex.positiveTags, List.mem_append, not_or] at ht
    have i := i ht.1
    have j := j ht.2
    simp only [Regex.mkCat, Regex.lang, wrapLang, h1.negTags, h2.negTags, List.isEmpty_nil, if_true]
    refine ⟨?_, j.2⟩
    rintro w ⟨x, y, rfl, hx, hy⟩
    exact app _ _ (full_of' (silent_nil t) i.1 i.2 app hx) (j.1 _ hy)
  | @mult r mn mx h1 i =>
    have i := i ht
    simp only [Regex.mkMult, Regex.lang, wrapLang, h1.negTags, List.isEmpty_nil, if_true]
    refine ⟨fun w h => multEnter_of (silent_nil t) ?_ i.1 i.2 app h, ?_⟩
    · intro _ l hl; simp at hl; subst hl; exact id
    · rintro w (h | ⟨_, h⟩)
      · exact i.2 w h
      · exact i.1 w h
  | @capture r u h1 i =>
    simp only [Regex.mkCapture, Regex.positiveTags, List.mem_append, List.mem_singleton, not_or] at ht
    have i := i ht.1
    simp only [Regex.mkCapture, Regex.lang, wrapLang, h1.negTags, List.isEmpty_nil, if_true]
    refine ⟨?_, fun w h => h.elim⟩
    rintro w ⟨x, y, rfl, rfl, u', v', rfl, hu, rfl⟩
    refine app _ _ ?_ (app _ _ (full_of' (silent_nil t) i.1 i.2 app hu) ?_)
    · intro l hl; simp at hl; subst hl; exact fun h => ht.2 h.symm
    · intro l hl; simp at hl; subst hl; exact fun h => ht.2 h.symm

/-- The texts that the captures `t` of `r` may capture. -/
def CapText (r : Regex) (t : Tag) (s : List Nat) : Prop :=
  ∃ inner w, (t, inner) ∈ r.captures ∧ inner.Built ∧ ruleLang inner w ∧ bytesOf w = s

theorem lang_runs {r : Regex} (h : r.Built) (t : Tag) (hn : r.positiveTags.Nodup) (ht : t ∈ r.positiveTags)
    {P : List Nat → Prop} (hP : ∀ s, CapText r t s → P s) :
    (∀ w, r.lang.1 w → ∃ k, TagRuns t P k w ∧ (r.NoZeroAroundCapture → 1 ≤ k) ∧
      (r.NoCaptureInRepetition → k = 1)) ∧
    (∀ w, r.lang.2 w → ∃ k, TagRuns t P k w ∧ (r.NoCaptureInRepetition → k = 0)) := by
  have runs_full : ∀ {a b : Lang} {Z N : Prop},
      (∀ w, a w → ∃ k, TagRuns t P k w ∧ (Z → 1 ≤ k) ∧ (N → k = 1)) →
      (∀ w, b w → ∃ k, TagRuns t P k w ∧ (N → k = 0)) →
      ∀ w, (a.full b) w → ∃ k, TagRuns t P k w ∧ (Z → 1 ≤ k) ∧ (N → k = 1) := by
    rintro a b Z N ha hb w ⟨x, y, rfl, hx, hy⟩
    obtain ⟨k, h1, h2, h3⟩ := ha x hx
    have : ∃ k, TagRuns t P k y ∧ (N → k = 0) := by
      refine star_of (Q := fun y => ∃ k, TagRuns t P k y ∧ (N → k = 0)) ⟨0, .nil, fun _ => rfl⟩ hb ?_ hy
      rintro x y ⟨j, a1, a2⟩ ⟨k, b1, b2⟩
      exact ⟨j + k, a1.append b1, fun hN => by rw [a2 hN, b2 hN]⟩
    obtain ⟨j, g1, g2⟩ := this
    exact ⟨k + j, h1.append g1, fun hZ => by have := h2 hZ; omega, fun hN => by rw [h3 hN, g2 hN]⟩
  have wrapped : ∀ (q : Regex) (neg : List Tag) (Z N : Prop), t ∉ neg →
      ((∀ w, q.lang.1 w → ∃ k, TagRuns t P k w ∧ (Z → 1 ≤ k) ∧ (N → k = 1)) ∧
        (∀ w, q.lang.2 w → ∃ k, TagRuns t P k w ∧ (N → k = 0))) →
      (∀ w, (wrapLang neg q.lang).1 w → ∃ k, TagRuns t P k w ∧ (Z → 1 ≤ k) ∧ (N → k = 1)) ∧
        (∀ w, (wrapLang neg q.lang).2 w → ∃ k, TagRuns t P k w ∧ (N → k = 0)) := by
    intro q neg Z N hneg hq
    unfold wrapLang
    by_cases hn : neg.isEmpty
    · simpa [hn] using hq
    · simp only [hn, Bool.false_eq_true, if_false]
      refine ⟨?_, fun w h => h.elim⟩
      rintro w ⟨x, y, rfl, hx, rfl⟩
      obtain ⟨k, h1, h2, h3⟩ := runs_full hq.1 hq.2 x hx
      refine ⟨k + 0, h1.append (Silent.runs ?_), h2, h3⟩
      intro l hl; simp at hl; subst hl; exact hneg
  have negated : ∀ (q : Regex) (neg : List Tag) (Z N : Prop), t ∈ neg → q.Built → t ∉ q.positiveTags →
      (∀ w, (wrapLang neg q.lang).1 w → ∃ k, TagRuns t P k w ∧ (Z → 1 ≤ k) ∧ (N → k = 1)) ∧
        (∀ w, (wrapLang neg q.lang).2 w → ∃ k, TagRuns t P k w ∧ (N → k = 0)) := by
    intro q neg Z N hneg hq htq
    have hs := lang_silent hq t htq
    have hn : ¬ neg.isEmpty := by intro h; rw [List.isEmpty_iff] at h; simp [h] at hneg
    unfold wrapLang
    simp only [hn, Bool.false_eq_true, if_false]
    refine ⟨?_, fun w h => h.elim⟩
    rintro w ⟨x, y, rfl, hx, rfl⟩
    have := full_of' (silent_nil t) hs.1 hs.2 (fun _ _ a b => silent_append.mpr ⟨a, b⟩) hx
    exact ⟨0 + 1, this.runs.append (.negated hneg .nil), fun _ => Nat.le_refl _, fun _ => rfl⟩
  induction h with
  | empty => simp [Regex.mkEmpty, Regex.positiveTags] at ht
  | literal c => simp [Regex.mkLiteral, Regex.positiveTags] at ht
  | group a b c => simp [Regex.positiveTags] at ht
  | @or l r h1 h2 i j =>
    simp only [Regex.mkOr, Regex.positiveTags, positiveTags_setNegTags, List.mem_append] at ht hn
    obtain ⟨n1, n2, n3⟩ := List.nodup_append.mp hn
    simp only [Regex.mkOr, Regex.lang, negTags_setNegTags, lang_setNegTags, Regex.NoZeroAroundCapture,
      Regex.NoCaptureInRepetition, nzac_setNegTags, ncir_setNegTags]
    have weaken : ∀ {p : Lang × Lang} {Z N Z' N' : Prop}, (Z' → Z) → (N' → N) →
        ((∀ w, p.1 w → ∃ k, TagRuns t P k w ∧ (Z → 1 ≤ k) ∧ (N → k = 1)) ∧
          (∀ w, p.2 w → ∃ k, TagRuns t P k w ∧ (N → k = 0))) →
        ((∀ w, p.1 w → ∃ k, TagRuns t P k w ∧ (Z' → 1 ≤ k) ∧ (N' → k = 1)) ∧
          (∀ w, p.2 w → ∃ k, TagRuns t P k w ∧ (N' → k = 0))) := by
      intro p Z N Z' N' hz hN h
      refine ⟨fun w hw => ?_, fun w hw => ?_⟩
      · obtain ⟨k, a, b, c⟩ := h.1 w hw; exact ⟨k, a, fun z => b (hz z), fun z => c (hN z)⟩
      · obtain ⟨k, a, b⟩ := h.2 w hw; exact ⟨k, a, fun z => b (hN z)⟩
    rcases ht with ht | ht
    · have htr : t ∉ r.positiveTags := fun h => n3 t ht t h rfl
      have A := weaken (Z' := l.NoZeroAroundCapture ∧ r.NoZeroAroundCapture)
        (N' := l.NoCaptureInRepetition ∧ r.NoCaptureInRepetition) (·.1) (·.1)
        (wrapped l r.positiveTags _ _ htr (i n1 ht (fun s ⟨inner, w, hm, hw⟩ => hP s
          ⟨inner, w, by simp [Regex.mkOr, Regex.captures, captures_setNegTags, hm], hw⟩)))
      have B := negated r l.positiveTags (l.NoZeroAroundCapture ∧ r.NoZeroAroundCapture)
        (l.NoCaptureInRepetition ∧ r.NoCaptureInRepetition) ht h2 htr
      exact ⟨fun w h => h.elim (A.1 w) (B.1 w), fun w h => h.elim (A.2 w) (B.2 w)⟩
    · have htl : t ∉ l.positiveTags := fun h => n3 t h t ht rfl
      have A := weaken (Z' := l.NoZeroAroundCapture ∧ r.NoZeroAroundCapture)
        (N' := l.NoCaptureInRepetition ∧ r.NoCaptureInRepetition) (·.2) (·.2)
        (wrapped r l.positiveTags _ _ htl (j n2 ht (fun s ⟨inner, w, hm, hw⟩ => hP s
          ⟨inner, w, by simp [Regex.mkOr, Regex.captures, captures_setNegTags, hm], hw⟩)))
      have B := negated l r.positiveTags (l.NoZeroAroundCapture ∧ r.NoZeroAroundCapture)
        (l.NoCaptureInRepetition ∧ r.NoCaptureInRepetition) ht h1 htl
      exact ⟨fun w h => h.elim (B.1 w) (A.1 w), fun w h => h.elim (B.2 w) (A.2 w)⟩
  | @cat l r h1 h2 i j =>
    simp only [Regex.mkCat, Regex.positiveTags, List.mem_append] at ht hn
    obtain ⟨n1, n2, n3⟩ := List.nodup_append.mp hn
    simp only [Regex.mkCat, Regex.lang, wrapLang, h1.negTags, h2.negTags, List.isEmpty_nil, if_true,
      Regex.NoZeroAroundCapture, Regex.NoCaptureInRepetition]
    rcases ht with ht | ht
    · have hs := lang_silent h2 t (fun h => n3 t ht t h rfl)
      have A := i n1 ht (fun s ⟨inner, w, hm, hw⟩ => hP s
          ⟨inner, w, by simp [Regex.mkCat, Regex.captures, hm], hw⟩)
      refine ⟨?_, fun w h => ⟨0, (hs.2 w h).runs, fun _ => rfl⟩⟩
      rintro w ⟨x, y, rfl, hx, hy⟩
      obtain ⟨k, a, b, c⟩ := runs_full A.1 A.2 x hx
      exact ⟨k + 0, a.append (hs.1 y hy).runs, fun z => b z.1, fun z => c z.1⟩
    · have hs := lang_silent h1 t (fun h => n3 t h t ht rfl)
      have A := j n2 ht (fun s ⟨inner, w, hm, hw⟩ => hP s
          ⟨inner, w, by simp [Regex.mkCat, Regex.captures, hm], hw⟩)
      refine ⟨?_, fun w h => ?_⟩
      · rintro w ⟨x, y, rfl, hx, hy⟩
        have hs' := full_of' (silent_nil t) hs.1 hs.2 (fun _ _ a b => silent_append.mpr ⟨a, b⟩) hx
        obtain ⟨k, a, b, c⟩ := A.1 y hy
        refine ⟨k, ?_, fun z => b z.2, fun z => c z.2⟩
        have := hs'.runs.append a
        rwa [Nat.zero_add] at this
      · obtain ⟨k, a, b⟩ := A.2 w h
        exact ⟨k, a, fun z => b z.2⟩
  | @mult r mn mx h1 i =>
    have A := i hn ht hP
    simp only [Regex.mkMult, Regex.lang, wrapLang, h1.negTags, List.isEmpty_nil, if_true,
      Regex.NoZeroAroundCapture, Regex.NoCaptureInRepetition]
    have hc : r.captures ≠ [] := by
      intro h
      simp [Regex.mkMult, Regex.captures, positiveTags_eq, h] at ht
    refine ⟨?_, ?_⟩
    · rintro w (⟨h1, rfl⟩ | ⟨j, _, _, x, y, rfl, hx, hy⟩)
      · exact ⟨0, .other id .nil, fun z => (hc (z.1 h1)).elim, fun z => (hc z).elim⟩
      · have : ∃ k, TagRuns t P k x := by
          refine pow_of (Q := fun x => ∃ k, TagRuns t P k x) ⟨0, .nil⟩
            (fun x hx => (runs_full A.1 A.2 x hx).imp fun _ h => h.1) ?_ hx
          rintro x y ⟨j, a⟩ ⟨k, b⟩
          exact ⟨_, a.append b⟩
        obtain ⟨j, a⟩ := this
        obtain ⟨k, b1, b2, _⟩ := A.1 y hy
        exact ⟨j + k, a.append b1, fun z => by have := b2 z.2; omega, fun z => (hc z).elim⟩
    · rintro w (h | ⟨_, h⟩)
      · obtain ⟨k, a, _⟩ := A.2 w h
        exact ⟨k, a, fun z => (hc z).elim⟩
      · obtain ⟨k, a, _⟩ := A.1 w h
        exact ⟨k, a, fun z => (hc z).elim⟩
  | @capture r u h1 i =>
    simp only [Regex.mkCapture, Regex.positiveTags, List.mem_append, List.mem_singleton] at ht hn
    obtain ⟨n1, _, n3⟩ := List.nodup_append.mp hn
    simp only [Regex.mkCapture, Regex.lang, wrapLang, h1.negTags, List.isEmpty_nil, if_true,
      Regex.NoZeroAroundCapture, Regex.NoCaptureInRepetition]
    refine ⟨?_, fun w h => h.elim⟩
    rintro w ⟨x, y, rfl, rfl, m, v', rfl, hm, rfl⟩
    by_cases hu : u = t
    · subst hu
      have hs := lang_silent h1 u (fun h => n3 u h u (by simp) rfl)
      have hs' := full_of' (silent_nil u) hs.1 hs.2 (fun _ _ a b => silent_append.mpr ⟨a, b⟩) hm
      refine ⟨0 + 1, ?_, fun _ => Nat.le_refl _, fun _ => rfl⟩
      refine TagRuns.captured (w := []) hs' (hP _ ⟨r, m, ?_, h1, h1.ruleLang.mpr hm, rfl⟩) .nil
      simp [Regex.mkCapture, Regex.captures]
    · have ht : t ∈ r.positiveTags := by
        rcases ht with h | h
        · exact h
        · exact absurd h.symm hu
      have A := i n1 ht (fun s ⟨inner, w, hm, hw⟩ => hP s
          ⟨inner, w, by simp [Regex.mkCapture, Regex.captures, hm], hw⟩)
      obtain ⟨k, a, b, c⟩ := runs_full A.1 A.2 m hm
      refine ⟨k + 0, ?_, b, c⟩
      refine .other (fun h => hu h) (a.append (Silent.runs ?_))
      intro l hl; simp at hl; subst hl; exact fun h => hu h

theorem ruleLang_silent {r : Regex} (h : r.Built) (t : Tag) (ht : t ∉ r.positiveTags) {w}
    (hw : ruleLang r w) : Silent t w := by
  have hs := lang_silent h t ht
  exact full_of' (silent_nil t) hs.1 hs.2 (fun _ _ a b => silent_append.mpr ⟨a, b⟩) (h.ruleLang.mp hw)

theorem ruleLang_runs {r : Regex} (h : r.Built) (t : Tag) (hn : r.positiveTags.Nodup)
    (ht : t ∈ r.positiveTags) {w} (hw : ruleLang r w) :
    ∃ k, TagRuns t (CapText r t) k w ∧ (r.NoZeroAroundCapture → 1 ≤ k) ∧
      (r.NoCaptureInRepetition → k = 1) := by
  obtain ⟨x, y, rfl, hx, hy⟩ := h.ruleLang.mp hw
  have A := lang_runs h t hn ht (fun s hs => hs)
  obtain ⟨k, h1, h2, h3⟩ := A.1 x hx
  have : ∃ k, TagRuns t (CapText r t) k y ∧ (r.NoCaptureInRepetition → k = 0) := by
    refine star_of (Q := fun y => ∃ k, TagRuns t (CapText r t) k y ∧ (r.NoCaptureInRepetition → k = 0))
      ⟨0, .nil, fun _ => rfl⟩ A.2 ?_ hy
    rintro x y ⟨j, a1, a2⟩ ⟨k, b1, b2⟩
    exact ⟨j + k, a1.append b1, fun hN => by rw [a2 hN, b2 hN]⟩
  obtain ⟨j, g1, g2⟩ := this
  exact ⟨k + j, h1.append g1, fun hZ => by have := h2 hZ; omega, fun hN => by rw [h3 hN, g2 hN]⟩

theorem capText_alone {r : Regex} {t : Tag} {s : List Nat} (h : CapText r t s) (v : Nat) :
    ∃ inner, (t, inner) ∈ r.captures ∧ Rule.AcceptsAlone ⟨v, inner⟩ s := by
  obtain ⟨inner, w, h1, h2, h3, h4⟩ := h
  obtain ⟨n, hn⟩ := buildNfa_total [⟨v, inner⟩] (by simpa using h2.noInteger)
  exact ⟨inner, h1, n, hn, (accepts_iff hn v s).mpr ⟨⟨v, inner⟩, by simp, rfl, w, h3, h4⟩⟩

/-! From schema syntax. -/

/-- Corresponding captures of a pattern and of its regex. -/
def CapRel (a : Tag × Pat) (b : Tag × Regex) : Prop := a.1 = b.1 ∧ a.2.elab = some b.2

theorem elab_built (p : Pat) : ∀ {re : Regex}, p.elab = some re → re.Built ∧
    (p.Sensible → re.NoZeroAroundCapture) ∧ (p.NoCaptureInRepetition → re.NoCaptureInRepetition) ∧
    List.Forall₂ CapRel p.captures re.captures := by
  have two : ∀ {a b : List (Tag × Pat)} {c d : List (Tag × Regex)}, List.Forall₂ CapRel a c →
      List.Forall₂ CapRel b d → List.Forall₂ CapRel (a ++ b) (c ++ d) := by
    intro a b c d h1 h2
    induction h1 with
    | nil => exact h2
    | cons h _ ih => exact .cons h ih
  have nil_iff : ∀ {a : List (Tag × Pat)} {c : List (Tag × Regex)}, List.Forall₂ CapRel a c → a = [] →
      c = [] := by
    intro a c h e; cases h with
    | nil => rfl
    | cons _ _ => cases e
  have rep : ∀ {q : Pat} {r : Regex}, q.elab = some r → (r.Built ∧
      (q.Sensible → r.NoZeroAroundCapture) ∧ (q.NoCaptureInRepetition → r.NoCaptureInRepetition) ∧
      List.Forall₂ CapRel q.captures r.captures) → ∀ mn mx,
      (Regex.mkMult r mn mx).Built ∧ (1 ≤ mn → q.Sensible → (Regex.mkMult r mn mx).NoZeroAroundCapture) ∧
      (q.captures = [] → (Regex.mkMult r mn mx).NoCaptureInRepetition) ∧
      List.Forall₂ CapRel q.captures (Regex.mkMult r mn mx).captures := by
    rintro q r _ ⟨a1, a2, _, a4⟩ mn mx
    exact ⟨.mult _ _ a1, fun h h' => ⟨fun h0 => by omega, a2 h'⟩, fun h => nil_iff a4 h, a4⟩
  have opt : ∀ {q : Pat} {r : Regex}, q.elab = some r → (r.Built ∧
      (q.Sensible → r.NoZeroAroundCapture) ∧ (q.NoCaptureInRepetition → r.NoCaptureInRepetition) ∧
      List.Forall₂ CapRel q.captures r.captures) → ∀ mx,
      (Regex.mkOr .mkEmpty (.mkMult r 1 mx)).Built ∧
      (q.Sensible → (Regex.mkOr .mkEmpty (.mkMult r 1 mx)).NoZeroAroundCapture) ∧
      (q.captures = [] → (Regex.mkOr .mkEmpty (.mkMult r 1 mx)).NoCaptureInRepetition) ∧
      List.Forall₂ CapRel q.captures (Regex.mkOr .mkEmpty (.mkMult r 1 mx)).captures := by
    intro q r hq h mx
    obtain ⟨b1, b2, b3, b4⟩ := rep hq h 1 mx
    refine ⟨.or .empty b1, fun h => ⟨?_, ?_⟩, fun h => ⟨?_, ?_⟩, ?_⟩
    · trivial
    · exact (nzac_setNegTags _ _).mpr (b2 (Nat.le_refl _) h)
    · trivial
    · exact (ncir_setNegTags _ _).mpr (b3 h)
    · exact b4
  induction p with
  | lit c => intro re h; cases h; exact ⟨.literal c, fun _ => trivial, fun _ => trivial, .nil⟩
  | cls n is =>
    intro re h
    simp only [Pat.elab, Option.map_eq_some_iff] at h
    obtain ⟨rs, _, rfl⟩ := h
    exact ⟨.group _ _ _, fun _ => trivial, fun _ => trivial, .nil⟩
  | digit => intro re h; cases h; exact ⟨.group _ _ _, fun _ => trivial, fun _ => trivial, .nil⟩
  | wild => intro re h; cases h; exact ⟨.group _ _ _, fun _ => trivial, fun _ => trivial, .nil⟩
  | space => intro re h; cases h; exact ⟨.group _ _ _, fun _ => trivial, fun _ => trivial, .nil⟩
  | cat l r ihl ihr =>
    intro re h
    simp only [Pat.elab, Option.bind_eq_some_iff, Option.map_eq_some_iff] at h
    obtain ⟨a, ha, b, hb, rfl⟩ := h
    obtain ⟨a1, a2, a3, a4⟩ := ihl ha
    obtain ⟨b1, b2, b3, b4⟩ := ihr hb
    exact ⟨.cat a1 b1, fun h => ⟨a2 h.1, b2 h.2⟩, fun h => ⟨a3 h.1, b3 h.2⟩, two a4 b4⟩
  | or l r ihl ihr =>
    intro re h
    simp only [Pat.elab, Option.bind_eq_some_iff, Option.map_eq_some_iff] at h
    obtain ⟨a, ha, b, hb, rfl⟩ := h
    obtain ⟨a1, a2, a3, a4⟩ := ihl ha
    obtain ⟨b1, b2, b3, b4⟩ := ihr hb
    refine ⟨.or a1 b1, fun h => ⟨(nzac_setNegTags _ _).mpr (a2 h.1), (nzac_setNegTags _ _).mpr (b2 h.2)⟩,
      fun h => ⟨(ncir_setNegTags _ _).mpr (a3 h.1), (ncir_setNegTags _ _).mpr (b3 h.2)⟩, ?_⟩
    simp only [Regex.mkOr, Regex.captures, captures_setNegTags]
    exact two a4 b4
  | star p ih =>
    intro re h
    simp only [Pat.elab, Option.map_eq_some_iff] at h
    obtain ⟨a, ha, rfl⟩ := h
    exact opt ha (ih ha) 0
  | plus p ih =>
    intro re h
    simp only [Pat.elab, Option.map_eq_some_iff] at h
    obtain ⟨a, ha, rfl⟩ := h
    obtain ⟨b1, b2, b3, b4⟩ := rep ha (ih ha) 1 0
    exact ⟨b1, b2 (Nat.le_refl _), b3, b4⟩
  | exact p n ih =>
    intro re h
    simp only [Pat.elab, Option.bind_eq_some_iff, Option.map_eq_some_iff] at h
    obtain ⟨a, ha, k, hk, rfl⟩ := h
    obtain ⟨b1, b2, b3, b4⟩ := rep ha (ih ha) k k
    refine ⟨b1, fun hs => b2 ?_ hs.2.2, b3, b4⟩
    rw [repetitionCount_ok hs.1] at hk
    cases hk; exact hs.2.1
  | range p n m ih =>
    intro re h
    simp only [Pat.elab, Option.bind_eq_some_iff, Option.map_eq_some_iff] at h
    obtain ⟨a, ha, k, hk, j, hj, rfl⟩ := h
    unfold rangeRule
    by_cases h0 : k = 0
    · rw [if_pos h0]
      obtain ⟨b1, b2, b3, b4⟩ := opt ha (ih ha) j
      exact ⟨b1, fun hs => b2 hs.2.2.2.2, b3, b4⟩
    · rw [if_neg h0]
      obtain ⟨b1, b2, b3, b4⟩ := rep ha (ih ha) k j
      exact ⟨b1, fun hs => b2 (by omega) hs.2.2.2.2, b3, b4⟩
  | capture p t ih =>
    intro re h
    simp only [Pat.elab, Option.map_eq_some_iff] at h
    obtain ⟨a, ha, rfl⟩ := h
    obtain ⟨b1, b2, b3, b4⟩ := ih ha
    exact ⟨.capture t b1, b2, b3, two b4 (.cons ⟨rfl, ha⟩ .nil)⟩

theorem capRel_tags {a : List (Tag × Pat)} {c : List (Tag × Regex)} (h : List.Forall₂ CapRel a c) :
    a.map (·.1) = c.map (·.1) := by
  induction h with
  | nil => rfl
  | cons h _ ih => simp [h.1, ih]

theorem capRel_mem {a : List (Tag × Pat)} {c : List (Tag × Regex)} (h : List.Forall₂ CapRel a c)
    {t : Tag} {r : Regex} (hm : (t, r) ∈ c) : ∃ p, (t, p) ∈ a ∧ p.elab = some r := by
  induction h with
  | nil => cases hm
  | @cons x y _ _ h _ ih =>
    rcases List.mem_cons.mp hm with rfl | hm
    · obtain ⟨x1, x2⟩ := x
      obtain ⟨h1, h2⟩ := h
      cases (h1 : x1 = t)
      exact ⟨x2, by simp, h2⟩
    · obtain ⟨p, h1, h2⟩ := ih hm
      exact ⟨p, by simp [h1], h2⟩

/-- Which rule an accepting path belongs to. -/
theorem path_rule {rules : List Rule} {n : Nfa} (hb : buildNfa rules = some n) {w q v}
    (hp : n.Path n.root w q) (ha : n.AcceptingFor q v) :
    ∃ r ∈ rules, r.id = v ∧ ruleLang r.regex w := by
  obtain ⟨ends, hI⟩ := buildNfa_inv hb
  obtain ⟨t, ht, ha, hv⟩ := ha
  obtain ⟨i, hi, rfl⟩ := List.mem_iff_getElem.mp (hI.accOnly q t ht ha)
  rw [hI.len] at hi
  refine ⟨rules[i], List.getElem_mem hi, ?_, (hI.path_iff i hi w).mp hp⟩
  obtain ⟨t', h1, _, h3⟩ := hI.acc i hi
  rw [ht] at h1; cases h1
  rw [← h3, hv]

end LogSurgeon
