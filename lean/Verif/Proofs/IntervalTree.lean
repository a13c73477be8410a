import Verif.Spec.IntervalMap
/-
`UnicodeIntervalTree`: order, bounds, contents.
-/
namespace LogSurgeon

theorem bind_ok {α β : Type} {x : Except Fail α} {f : α → Except Fail β} {b : β} (h : (x >>= f) = .ok b) : ∃ a, x = .ok a ∧ f a = .ok b := by
  cases x with
  | error e => cases h
  | ok a => exact ⟨a, rfl, h⟩

theorem before_iff {a b : Range} : ITree.ivLt a b = true ↔ Before a b := by
  unfold ITree.ivLt Before
  simp

theorem Before.trans {a b c : Range} (h : Before a b) (h' : Before b c) : Before a c := by
  unfold Before at *; omega

theorem Before.irrefl {a : Range} (h : Before a a) : False := by
  unfold Before at h; omega

theorem Before.fst {a b : Range} (h : Before a b) : a.1 ≤ b.1 := by
  unfold Before at h; omega

theorem before_total {a b : Range} (h : ¬ Before a b) (h' : ¬ Before b a) : a = b := by
  unfold Before at *
  obtain ⟨a1, a2⟩ := a
  obtain ⟨b1, b2⟩ := b
  simp only [Prod.mk.injEq] at *
  omega

theorem meets_iff {a i : Range} (ha : a.1 ≤ a.2) (hi : i.1 ≤ i.2) : ITree.meets a.1 a.2 i = true ↔ Touches a i := by
  unfold ITree.meets Touches
  simp only [Bool.or_eq_true, Bool.and_eq_true, decide_eq_true_eq]
  constructor
  · rintro ((h | h) | h)
    · exact ⟨i.1, ⟨h.1, h.2⟩, Nat.le_refl _, hi⟩
    · exact ⟨i.2, ⟨h.1, h.2⟩, hi, Nat.le_refl _⟩
    · exact ⟨a.1, ⟨Nat.le_refl _, ha⟩, h.1, h.2⟩
  · rintro ⟨c, ⟨h1, h2⟩, h3, h4⟩
    omega

/-- An interval in the hull. -/
theorem meets_hull {a i : Range} {lo up : Nat} (ha : a.1 ≤ a.2) (h1 : lo ≤ a.1) (h2 : a.2 ≤ up) (h : ITree.meets a.1 a.2 i = true) :
    ITree.meets lo up i = true := by
  unfold ITree.meets at *
  simp only [Bool.or_eq_true, Bool.and_eq_true, decide_eq_true_eq] at *
  omega

namespace ITree
variable {α : Type}

/-- In order. -/
def Sorted (m : List (Range × α)) : Prop := m.Pairwise fun p q => Before p.1 q.1

/-- The intervals are not reversed. -/
def ProperAll (m : List (Range × α)) : Prop := ∀ p ∈ m, p.1.1 ≤ p.1.2

/-- The bounds of each node enclose the intervals below it. -/
def Bounded : ITree α → Prop
  | nil => True
  | node _ l iv v lo up _ r => l.Bounded ∧ r.Bounded ∧ ∀ p ∈ l.all ++ (iv, v) :: r.all, lo ≤ p.1.1 ∧ p.1.2 ≤ up

@[simp] theorem update_all (a : Nat) (l : ITree α) (iv : Range) (v : α) (r : ITree α) : (update a l iv v r).all = l.all ++ (iv, v) :: r.all := by
  unfold update
  split <;> rfl

theorem Bounded.bounds {t : ITree α} (h : t.Bounded) : ∀ p ∈ t.all, t.lower ≤ p.1.1 ∧ p.1.2 ≤ t.upper := by
  cases t with
  | nil => intro p hp; cases hp
  | node => exact h.2.2

theorem update_bounded {a : Nat} {l : ITree α} {iv : Range} {v : α} {r : ITree α} (hl : l.Bounded) (hr : r.Bounded)
    (hs : Sorted (l.all ++ (iv, v) :: r.all)) : (update a l iv v r).Bounded := by
  have hl' := hl.bounds
  have hr' := hr.bounds
  obtain ⟨s1, s2, s3⟩ := List.pairwise_append.mp hs
  obtain ⟨s4, s5⟩ := List.pairwise_cons.mp s2
  have g1 : ∀ p ∈ l.all, p.1.1 ≤ iv.1 := fun p hp => (s3 p hp (iv, v) (by simp)).fst
  have g2 : ∀ p ∈ r.all, iv.1 ≤ p.1.1 := fun p hp => (s4 p hp).fst
  have g3 : l ≠ nil → l.lower ≤ iv.1 := by
    intro hne
    cases l with
    | nil => exact absurd rfl hne
    | node b x jv y lo up h z =>
      have := g1 (jv, y) (by simp [all])
      have := (hl' (jv, y) (by simp [all])).1
      simp only at *
      omega
  unfold update
  split <;> refine ⟨hl, hr, fun p hp => ?_⟩
  · simp only [all, List.nil_append, List.mem_singleton] at hp
    subst hp
    exact ⟨Nat.le_refl _, Nat.le_refl _⟩
  · simp only [all, List.nil_append, List.mem_cons] at hp
    rcases hp with rfl | hp
    · exact ⟨Nat.le_refl _, Nat.le_max_left _ _⟩
    · have h1 := g2 p (by simpa [all] using hp)
      have h2 := (hr' p (by simpa [all] using hp)).2
      exact ⟨h1, Nat.le_trans h2 (Nat.le_max_right _ _)⟩
  · have g3 := g3 (by simp)
    rcases List.mem_append.mp hp with hp | hp
    · have h2 := hl' p hp
      exact ⟨h2.1, Nat.le_trans h2.2 (Nat.le_max_right _ _)⟩
    · simp only [all, List.mem_singleton] at hp
      subst hp
      exact ⟨g3, Nat.le_max_left _ _⟩
  · have g3 := g3 (by simp)
    rcases List.mem_append.mp hp with hp | hp
    · have h2 := hl' p hp
      exact ⟨h2.1, by have := h2.2; omega⟩
    · rcases List.mem_cons.mp hp with rfl | hp
      · exact ⟨g3, Nat.le_max_left _ _⟩
      · have h1 := g2 p hp
        have h2 := hr' p hp
        exact ⟨by omega, by have := h2.2; omega⟩

/-- The same entries in the same order, and the bounds are right. -/
def Same (t t' : ITree α) : Prop := t'.all = t.all ∧ t'.Bounded

theorem rotateCw_same {t t' : ITree α} (h : t.rotateCw = .ok t') (hb : t.Bounded) (hs : Sorted t.all) : Same t t' := by
  unfold rotateCw at h
  split at h
  · rename_i a a' l' iv' v' _ _ _ r' iv v _ _ _ r
    cases h
    obtain ⟨⟨b1, b2, b3⟩, b4, b5⟩ := hb
    have hs : Sorted (l'.all ++ (iv', v') :: (r'.all ++ (iv, v) :: r.all)) := by simpa [all] using hs
    refine ⟨by simp [all], update_bounded b1 (update_bounded b2 b4 ?_) ?_⟩
    · exact (List.pairwise_cons.mp (List.pairwise_append.mp hs).2.1).2
    · rw [update_all]; exact hs
  · cases h

theorem rotateCcw_same {t t' : ITree α} (h : t.rotateCcw = .ok t') (hb : t.Bounded) (hs : Sorted t.all) : Same t t' := by
  unfold rotateCcw at h
  split at h
  · rename_i a l iv v _ _ _ a' l' iv' v' _ _ _ r'
    cases h
    obtain ⟨b1, ⟨b2, b3, b4⟩, b5⟩ := hb
    have hs : Sorted ((l.all ++ (iv, v) :: l'.all) ++ (iv', v') :: r'.all) := by simpa [all] using hs
    refine ⟨by simp [all], update_bounded (update_bounded b1 b2 ?_) b3 ?_⟩
    · exact (List.pairwise_append.mp hs).1
    · rw [update_all]; exact hs
  · cases h

theorem rotate_same {t t' : ITree α} {f : Int} (h : t.rotate f = .ok t') (hb : t.Bounded) (hs : Sorted t.all) : Same t t' := by
  unfold rotate at h
  split at h
  · exact rotateCw_same h hb hs
  · split at h
    · exact rotateCcw_same h hb hs
    · cases h; exact ⟨rfl, hb⟩

variable {diff : Nat → Nat → Int}

theorem balance_same {t t' : ITree α} (h : t.balance diff = .ok t') (hb : t.Bounded) (hs : Sorted t.all) : Same t t' := by
  cases t with
  | nil => cases h
  | node a l iv v lo up ht r =>
    obtain ⟨b1, b2, b3⟩ := hb
    obtain ⟨s1, s2, s3⟩ := List.pairwise_append.mp hs
    unfold balance at h
    obtain ⟨f, -, h⟩ := bind_ok h
    obtain ⟨sq, -, h⟩ := bind_ok h
    split at h
    · cases h; exact ⟨rfl, b1, b2, b3⟩
    · obtain ⟨sub, -, h⟩ := bind_ok h
      obtain ⟨pr, -, h⟩ := bind_ok h
      split at h
      · exact rotate_same h ⟨b1, b2, b3⟩ hs
      · split at h
        · obtain ⟨r', hr, h⟩ := bind_ok h
          obtain ⟨e1, e2⟩ := rotate_same hr b2 (List.pairwise_cons.mp s2).2
          have hall : (node a l iv v lo up ht r' : ITree α).all = (node a l iv v lo up ht r).all := by simp [all, e1]
          obtain ⟨g1, g2⟩ := rotate_same h ⟨b1, e2, by rw [e1]; exact b3⟩ (by rw [hall]; exact hs)
          exact ⟨g1.trans hall, g2⟩
        · obtain ⟨l', hl, h⟩ := bind_ok h
          obtain ⟨e1, e2⟩ := rotate_same hl b1 s1
          have hall : (node a l' iv v lo up ht r : ITree α).all = (node a l iv v lo up ht r).all := by simp [all, e1]
          obtain ⟨g1, g2⟩ := rotate_same h ⟨e2, b2, by rw [e1]; exact b3⟩ (by rw [hall]; exact hs)
          exact ⟨g1.trans hall, g2⟩

/-- `update` and `balance`. -/
theorem rebuild_same {a : Nat} {l : ITree α} {iv : Range} {v : α} {r t' : ITree α} (h : (update a l iv v r).balance diff = .ok t') (hl : l.Bounded)
    (hr : r.Bounded) (hs : Sorted (l.all ++ (iv, v) :: r.all)) : t'.all = l.all ++ (iv, v) :: r.all ∧ t'.Bounded := by
  obtain ⟨h1, h2⟩ := balance_same h (update_bounded hl hr hs) (by rw [update_all]; exact hs)
  exact ⟨by rw [h1, update_all], h2⟩

theorem insert_spec {a : Nat} {iv : Range} {x : α} : ∀ {t t' : ITree α}, t.insert diff a iv x = .ok t' → t.Bounded → Sorted t.all →
    t'.Bounded ∧ Sorted t'.all ∧ ∀ p, p ∈ t'.all ↔ p = (iv, x) ∨ (p ∈ t.all ∧ p.1 ≠ iv)
  | nil, t', h, _, _ => by
    cases h
    refine ⟨update_bounded trivial trivial ?_, ?_, fun p => ?_⟩ <;> simp [all, Sorted]
  | node a' l iv' x' lo up ht r, t', h, hb, hs => by
    obtain ⟨b1, b2, b3⟩ := hb
    have hs' : Sorted (l.all ++ (iv', x') :: r.all) := hs
    obtain ⟨s1, s2, s3⟩ := List.pairwise_append.mp hs'
    obtain ⟨s4, s5⟩ := List.pairwise_cons.mp s2
    have hlt : ∀ p ∈ l.all, Before p.1 iv' := fun p hp => s3 p hp (iv', x') (by simp)
    unfold insert at h
    split at h
    · rename_i hlt'
      have hlt' := before_iff.mp hlt'
      obtain ⟨l', hl, h⟩ := bind_ok h
      obtain ⟨i1, i2, i3⟩ := insert_spec hl b1 s1
      have hnew : Sorted (l'.all ++ (iv', x') :: r.all) := by
        refine List.pairwise_append.mpr ⟨i2, s2, fun p hp q hq => ?_⟩
        have hp' : Before p.1 iv' := by
          rcases (i3 p).mp hp with rfl | ⟨h, _⟩
          · exact hlt'
          · exact hlt p h
        rcases List.mem_cons.mp hq with rfl | hq
        · exact hp'
        · exact hp'.trans (s4 q hq)
      obtain ⟨e1, e2⟩ := rebuild_same h i1 b2 hnew
      refine ⟨e2, by rw [e1]; exact hnew, fun p => ?_⟩
      have n1 : iv' ≠ iv := fun e => (e ▸ hlt').irrefl
      have n2 : ∀ q ∈ r.all, q.1 ≠ iv := fun q hq e => (e ▸ (hlt'.trans (s4 q hq)) : Before iv iv).irrefl
      rw [e1]
      simp only [all, List.mem_append, List.mem_cons, i3]
      constructor
      · rintro ((h | h) | h | h)
        · exact .inl h
        · exact .inr ⟨.inl h.1, h.2⟩
        · subst h; exact .inr ⟨.inr (.inl rfl), n1⟩
        · exact .inr ⟨.inr (.inr h), n2 p h⟩
      · rintro (h | ⟨h | h | h, h'⟩)
        · exact .inl (.inl h)
        · exact .inl (.inr ⟨h, h'⟩)
        · exact .inr (.inl h)
        · exact .inr (.inr h)
    · rename_i hge
      split at h
      · rename_i hgt
        have hgt := before_iff.mp hgt
        obtain ⟨r', hr, h⟩ := bind_ok h
        obtain ⟨i1, i2, i3⟩ := insert_spec hr b2 s5
        have hnew : Sorted (l.all ++ (iv', x') :: r'.all) := by
          have hr' : ∀ q ∈ r'.all, Before iv' q.1 := by
            intro q hq
            rcases (i3 q).mp hq with rfl | ⟨h, _⟩
            · exact hgt
            · exact s4 q h
          refine List.pairwise_append.mpr ⟨s1, List.pairwise_cons.mpr ⟨hr', i2⟩, fun p hp q hq => ?_⟩
          rcases List.mem_cons.mp hq with rfl | hq
          · exact hlt p hp
          · exact (hlt p hp).trans (hr' q hq)
        obtain ⟨e1, e2⟩ := rebuild_same h b1 i1 hnew
        refine ⟨e2, by rw [e1]; exact hnew, fun p => ?_⟩
        have n1 : iv' ≠ iv := fun e => (e ▸ hgt : Before iv iv).irrefl
        have n2 : ∀ q ∈ l.all, q.1 ≠ iv := fun q hq e => by
          have := (hlt q hq).trans hgt
          rw [e] at this
          exact this.irrefl
        rw [e1]
        simp only [all, List.mem_append, List.mem_cons, i3]
        constructor
        · rintro (h | h | h | h)
          · exact .inr ⟨.inl h, n2 p h⟩
          · subst h; exact .inr ⟨.inr (.inl rfl), n1⟩
          · exact .inl h
          · exact .inr ⟨.inr (.inr h.1), h.2⟩
        · rintro (h | ⟨h | h | h, h'⟩)
          · exact .inr (.inr (.inl h))
          · exact .inl h
          · exact .inr (.inl h)
          · exact .inr (.inr (.inr ⟨h, h'⟩))
      · rename_i hle
        have he : iv = iv' := before_total (fun h => hge (before_iff.mpr h)) (fun h => hle (before_iff.mpr h))
        subst he
        have hnew : Sorted (l.all ++ (iv, x) :: r.all) := by
          refine List.pairwise_append.mpr ⟨s1, List.pairwise_cons.mpr ⟨s4, s5⟩, fun p hp q hq => ?_⟩
          rcases List.mem_cons.mp hq with rfl | hq
          · exact hlt p hp
          · exact s3 p hp q (by simp [hq])
        obtain ⟨e1, e2⟩ := rebuild_same h b1 b2 hnew
        refine ⟨e2, by rw [e1]; exact hnew, fun p => ?_⟩
        have n1 : ∀ q ∈ l.all, q.1 ≠ iv := fun q hq e => (e ▸ hlt q hq : Before iv iv).irrefl
        have n2 : ∀ q ∈ r.all, q.1 ≠ iv := fun q hq e => (e ▸ s4 q hq : Before iv iv).irrefl
        rw [e1]
        simp only [all, List.mem_append, List.mem_cons]
        constructor
        · rintro (h | h | h)
          · exact .inr ⟨.inl h, n1 p h⟩
          · exact .inl h
          · exact .inr ⟨.inr (.inr h), n2 p h⟩
        · rintro (h | ⟨h | h | h, h'⟩)
          · exact .inr (.inl h)
          · exact .inl h
          · subst h; exact absurd rfl h'
          · exact .inr (.inr h)

theorem find_spec {i : Range} : ∀ {t : ITree α}, t.Bounded → ProperAll t.all → t.findIn i = t.all.filter fun p => meets p.1.1 p.1.2 i
  | nil, _, _ => rfl
  | node a l iv v lo up ht r, hb, hp => by
    obtain ⟨b1, b2, b3⟩ := hb
    have hp' : ProperAll (l.all ++ (iv, v) :: r.all) := hp
    unfold findIn
    split
    · rw [find_spec b1 (fun p h => hp' p (by simp [h])), find_spec b2 (fun p h => hp' p (by simp [h]))]
      simp only [all, List.filter_append, List.filter_cons]
      split <;> simp
    · rename_i hm
      symm
      rw [List.filter_eq_nil_iff]
      intro p h hmeet
      exact hm (meets_hull (hp' p h) (b3 p h).1 (b3 p h).2 hmeet)

theorem popMin_spec : ∀ {t t' : ITree α} {a : Nat} {iv : Range} {v : α}, t.popMin diff = .ok (t', (a, iv, v)) → t.Bounded → Sorted t.all →
    t'.Bounded ∧ t.all = (iv, v) :: t'.all
  | nil, _, _, _, _, h, _, _ => by cases h
  | node a l iv v lo up ht r, t', a', iv', v', h, hb, hs => by
    obtain ⟨b1, b2, b3⟩ := hb
    unfold popMin at h
    split at h
    · split at h
      · cases h
      · cases h
        exact ⟨b2, by simp [all]⟩
    · obtain ⟨⟨l', m⟩, hl, h⟩ := bind_ok h
      obtain ⟨t'', ht, h⟩ := bind_ok h
      cases h
      obtain ⟨s1, s2, s3⟩ := List.pairwise_append.mp hs
      obtain ⟨i1, i2⟩ := popMin_spec hl b1 s1
      have hall : (l.all ++ (iv, v) :: r.all) = (iv', v') :: (l'.all ++ (iv, v) :: r.all) := by rw [i2]; rfl
      have hs' : Sorted (l'.all ++ (iv, v) :: r.all) := by
        have hs : Sorted (l.all ++ (iv, v) :: r.all) := hs
        rw [hall] at hs
        exact (List.pairwise_cons.mp hs).2
      obtain ⟨e1, e2⟩ := rebuild_same ht i1 b2 hs'
      exact ⟨e2, by rw [e1]; exact hall⟩

theorem popNode_spec {i : Range} : ∀ {t t' : ITree α} {x : Option (Range × α)}, t.popNode diff i = .ok (t', x) → t.Bounded → Sorted t.all → ProperAll t.all →
    match x with
    | none => t' = t ∧ ∀ p ∈ t.all, meets p.1.1 p.1.2 i = false
    | some x => t'.Bounded ∧ ∃ pre post, t.all = pre ++ x :: post ∧ t'.all = pre ++ post ∧ meets x.1.1 x.1.2 i = true ∧
        ∀ p ∈ pre, meets p.1.1 p.1.2 i = false
  | nil, t', x, h, _, _, _ => by
    cases h
    exact ⟨rfl, by simp [all]⟩
  | node a l iv v lo up ht r, t', x, h, hb, hs, hp => by
    obtain ⟨b1, b2, b3⟩ := hb
    have hp' : ProperAll (l.all ++ (iv, v) :: r.all) := hp
    have hs' : Sorted (l.all ++ (iv, v) :: r.all) := hs
    obtain ⟨s1, s2, s3⟩ := List.pairwise_append.mp hs'
    unfold popNode at h
    split at h
    · rename_i hm
      cases h
      refine ⟨rfl, fun p h => ?_⟩
      cases hmeet : meets p.1.1 p.1.2 i with
      | false => rfl
      | true =>
        have := meets_hull (hp' p h) (b3 p h).1 (b3 p h).2 hmeet
        simp [this] at hm
    · obtain ⟨⟨l', y⟩, hl, h2⟩ := bind_ok h
      clear h
      rename_i hm0
      have h := h2
      clear h2
      have ih := popNode_spec hl b1 s1 (fun p h => hp' p (by simp [h]))
      cases y with
      | some y =>
        obtain ⟨t'', hbal, h⟩ := bind_ok h
        cases h
        obtain ⟨i1, pre, post, i2, i3, i4, i5⟩ := ih
        have hsub : Sorted (l'.all ++ (iv, v) :: r.all) := by
          refine hs'.sublist ?_
          refine List.Sublist.append_right ?_ _
          rw [i2, i3]
          exact List.Sublist.append_left (List.sublist_cons_self _ _) _
        obtain ⟨e1, e2⟩ := rebuild_same hbal i1 b2 hsub
        exact ⟨e2, pre, post ++ (iv, v) :: r.all, by simp [all, i2], by rw [e1, i3]; simp, i4, i5⟩
      | none =>
        obtain ⟨rfl, hno⟩ := ih
        simp only at h
        split at h
        · cases h
        · rename_i hm
          have hm : meets iv.1 iv.2 i = true := by simpa using hm
          split at h
          · cases h
            exact ⟨trivial, [], [], by simp [all], rfl, hm, by simp⟩
          · cases h
            exact ⟨b2, [], r.all, by simp [all], by simp, hm, by simp⟩
          · cases h
            exact ⟨b1, t'.all, [], by simp [all], by simp, hm, hno⟩
          · obtain ⟨⟨s, a', iv', v'⟩, hmin, h⟩ := bind_ok h
            obtain ⟨t'', hbal, h⟩ := bind_ok h
            cases h
            obtain ⟨j1, j2⟩ := popMin_spec hmin b2 (List.pairwise_cons.mp s2).2
            have hsub : Sorted (l'.all ++ (iv', v') :: s.all) := by
              rw [← j2]
              exact hs'.sublist (List.Sublist.append_left (List.sublist_cons_self _ _) _)
            obtain ⟨e1, e2⟩ := rebuild_same hbal b1 j1 hsub
            exact ⟨e2, l'.all, _, rfl, by rw [e1, j2], hm, hno⟩

theorem bind_diverge {β γ : Type} {x : Except Fail β} {f : β → Except Fail γ} (hx : x ≠ .error .diverge) (hf : ∀ a, f a ≠ .error .diverge) :
    (x >>= f) ≠ .error .diverge := by
  cases x with
  | error e => exact fun h => hx (by cases h; rfl)
  | ok a => exact hf a

theorem balance_diverge : ∀ {t : ITree α}, t.balance diff ≠ .error .diverge := by
  have mul : ∀ a b, intMul a b ≠ .error .diverge := by intro a b; unfold intMul; split <;> simp
  have cw : ∀ t : ITree α, t.rotateCw ≠ .error .diverge := by intro t; unfold rotateCw; split <;> simp
  have ccw : ∀ t : ITree α, t.rotateCcw ≠ .error .diverge := by intro t; unfold rotateCcw; split <;> simp
  have rot : ∀ (t : ITree α) f, t.rotate f ≠ .error .diverge := by
    intro t f; unfold rotate; split
    · exact cw t
    · split
      · exact ccw t
      · simp
  have bf : ∀ t : ITree α, t.balanceFactor diff ≠ .error .diverge := by intro t; unfold balanceFactor; split <;> simp
  have bal : ∀ t : ITree α, t.balance diff ≠ .error .diverge := by
    intro t
    cases t with
    | nil => simp [balance]
    | node a l iv v lo up h r =>
      unfold balance
      refine bind_diverge (bf _) fun f => bind_diverge (mul _ _) fun sq => ?_
      split
      · simp
      · refine bind_diverge (bf _) fun sub => bind_diverge (mul _ _) fun pr => ?_
        split
        · exact rot _ _
        · split <;> exact bind_diverge (rot _ _) fun _ => rot _ _
  exact fun {t} => bal t

theorem popNode_diverge {i : Range} : ∀ {t : ITree α}, t.popNode diff i ≠ .error .diverge := by
  have bal : ∀ t : ITree α, t.balance diff ≠ .error .diverge := fun t => balance_diverge
  have pm : ∀ t : ITree α, t.popMin diff ≠ .error .diverge := by
    intro t
    induction t with
    | nil => simp [popMin]
    | node a l iv v lo up h r ihl ihr =>
      unfold popMin
      split
      · split <;> simp
      · exact bind_diverge ihl fun _ => bind_diverge (bal _) fun _ => by simp
  intro t
  induction t with
  | nil => simp [popNode]
  | node a l iv v lo up h r ihl ihr =>
    unfold popNode
    split
    · simp
    · refine bind_diverge ihl fun ⟨l', x⟩ => ?_
      cases x with
      | some x => exact bind_diverge (bal _) fun _ => by simp
      | none =>
        simp only
        split
        · simp
        · split
          · simp
          · simp
          · simp
          · exact bind_diverge (pm _) fun _ => bind_diverge (bal _) fun _ => by simp

theorem pop_diverge {i : Range} : ∀ {k : Nat} {t : ITree α}, t.Bounded → Sorted t.all → ProperAll t.all → t.all.length < k →
    t.pop diff i k ≠ .error .diverge
  | 0, _, _, _, _, h => absurd h (Nat.not_lt_zero _)
  | k + 1, t, hb, hs, hp, hk => by
    unfold pop
    cases h1 : t.popNode diff i with
    | error e =>
      intro h
      have h : (Except.error e : Except Fail (ITree α × List (Range × α))) = .error .diverge := h
      rw [Except.error.injEq] at h
      exact popNode_diverge (h ▸ h1)
    | ok z =>
      obtain ⟨t1, x⟩ := z
      have hn := popNode_spec h1 hb hs hp
      cases x with
      | none => exact fun h => by cases h
      | some x =>
        obtain ⟨b1, pre, post, e1, e2, e3, e4⟩ := hn
        have hsub : List.Sublist t1.all t.all := by
          rw [e1, e2]
          exact List.Sublist.append_left (List.sublist_cons_self _ _) _
        have hlen : t1.all.length < k := by
          have : t.all.length = t1.all.length + 1 := by rw [e1, e2]; simp; omega
          omega
        have ih := pop_diverge (i := i) (k := k) b1 (List.Pairwise.sublist hsub hs) (fun p h => hp p (hsub.subset h)) hlen
        intro h
        cases h2 : t1.pop diff i k with
        | error e =>
          have h : (t1.pop diff i k >>= fun z => .ok (z.1, x :: z.2)) = .error .diverge := h
          rw [h2] at h
          have h : (Except.error e : Except Fail (ITree α × List (Range × α))) = .error .diverge := h
          rw [Except.error.injEq] at h
          exact ih (h ▸ h2)
        | ok z =>
          have h : (t1.pop diff i k >>= fun z => .ok (z.1, x :: z.2)) = .error .diverge := h
          rw [h2] at h
          cases h

theorem pop_spec {i : Range} : ∀ {k : Nat} {t t' : ITree α} {xs : List (Range × α)}, t.pop diff i k = .ok (t', xs) → t.Bounded → Sorted t.all → ProperAll t.all →
    t'.Bounded ∧ t'.all = (t.all.filter fun p => !meets p.1.1 p.1.2 i) ∧ xs = t.all.filter fun p => meets p.1.1 p.1.2 i
  | 0, _, _, _, h, _, _, _ => by cases h
  | k + 1, t, t', xs, h, hb, hs, hp => by
    unfold pop at h
    obtain ⟨⟨t1, x⟩, h1, h⟩ := bind_ok h
    have hn := popNode_spec h1 hb hs hp
    cases x with
    | none =>
      cases h
      obtain ⟨rfl, hno⟩ := hn
      refine ⟨hb, ?_, ?_⟩
      · symm; rw [List.filter_eq_self]; intro p hp; simp [hno p hp]
      · symm; rw [List.filter_eq_nil_iff]; intro p hp; simp [hno p hp]
    | some x =>
      obtain ⟨⟨t2, ys⟩, h2, h⟩ := bind_ok h
      cases h
      obtain ⟨b1, pre, post, e1, e2, e3, e4⟩ := hn
      have hsub : List.Sublist t1.all t.all := by
        rw [e1, e2]
        exact List.Sublist.append_left (List.sublist_cons_self _ _) _
      obtain ⟨g1, g2, g3⟩ := pop_spec h2 b1 (List.Pairwise.sublist hsub hs) (fun p h => hp p (hsub.subset h))
      have hpre : pre.filter (fun p => meets p.1.1 p.1.2 i) = [] := by
        rw [List.filter_eq_nil_iff]; intro p hp; simp [e4 p hp]
      refine ⟨g1, ?_, ?_⟩
      · rw [g2, e1, e2]; simp [List.filter_append, List.filter_cons, e3]
      · rw [g3, e1, e2]; simp [List.filter_append, List.filter_cons, e3, hpre]

end ITree
end LogSurgeon
