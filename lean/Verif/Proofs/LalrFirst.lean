import Verif.Proofs.LalrSound
/-
Completeness of the LALR(1) tables, part 1: FIRST sets and lookaheads are closed.
-/
namespace LogSurgeon

theorem length_sInsert {α} {lt : α → α → Bool} {x : α} {l : List α} :
    l.length ≤ (sInsert lt x l).length ∧ ((sInsert lt x l).length = l.length → sInsert lt x l = l) := by
  induction l with
  | nil => simp [sInsert]
  | cons y ys ih =>
    simp only [sInsert]
    split
    · simp
    · split
      · simp only [List.length_cons]
        refine ⟨by omega, fun h => ?_⟩
        rw [ih.2 (by omega)]
      · simp

theorem length_sUnion {a b : List Nat} :
    a.length ≤ (Grammar.sUnion a b).length ∧ ((Grammar.sUnion a b).length = a.length → Grammar.sUnion a b = a) := by
  unfold Grammar.sUnion
  induction b generalizing a with
  | nil => simp
  | cons y ys ih =>
    simp only [List.foldl_cons]
    have h1 := length_sInsert (lt := natLt) (x := y) (l := a)
    have h2 := ih (a := sInsert natLt y a)
    refine ⟨by omega, fun h => ?_⟩
    rw [h2.2 (by omega), h1.2 (by omega)]

namespace Grammar
namespace Firsts

/-- The sets are closed under the production. -/
structure Closed (f : Firsts) (p : Production) : Prop where
  first : ∀ pre s post, p.body = pre ++ s :: post → (∀ x ∈ pre, x ∈ f.nullable) → ∀ a ∈ mget f.firsts s, a ∈ mget f.firsts p.head
  null : (∀ x ∈ p.body, x ∈ f.nullable) → p.head ∈ f.nullable

/-- More is known. -/
structure Le (f f' : Firsts) : Prop where
  first : ∀ s, ∀ a ∈ mget f.firsts s, a ∈ mget f'.firsts s
  null : ∀ s ∈ f.nullable, s ∈ f'.nullable

/-- The same is known. -/
structure Same (f f' : Firsts) : Prop where
  first : ∀ s, mget f.firsts s = mget f'.firsts s
  null : f.nullable = f'.nullable

theorem Le.refl (f : Firsts) : Le f f := ⟨fun _ _ h => h, fun _ h => h⟩
theorem Le.trans {f g h : Firsts} (a : Le f g) (b : Le g h) : Le f h :=
  ⟨fun s x hx => b.first s x (a.first s x hx), fun s hs => b.null s (a.null s hs)⟩
theorem Same.refl (f : Firsts) : Same f f := ⟨fun _ => rfl, rfl⟩
theorem Same.trans {f g h : Firsts} (a : Same f g) (b : Same g h) : Same f h :=
  ⟨fun s => (a.first s).trans (b.first s), a.null.trans b.null⟩

theorem Closed.same {f f' : Firsts} {p : Production} (h : Closed f p) (e : Same f f') : Closed f' p := by
  refine ⟨?_, ?_⟩
  · intro pre s post hb hn a ha
    rw [← e.first] at ha ⊢
    exact h.first pre s post hb (fun x hx => by rw [e.null]; exact hn x hx) a ha
  · intro hn
    rw [← e.null] at hn ⊢
    exact h.null hn

theorem ofBody_spec {h : Nat} : ∀ {ss : List Nat} {f : Firsts},
    (f.ofBody h ss).1.nullable = f.nullable ∧ (f.ofBody h ss).1.changed = f.changed ∧ Le f (f.ofBody h ss).1 ∧
    (∀ s, s ≠ h → mget (f.ofBody h ss).1.firsts s = mget f.firsts s) ∧
    (mget f.firsts h).length ≤ (mget (f.ofBody h ss).1.firsts h).length ∧
    ((mget (f.ofBody h ss).1.firsts h).length = (mget f.firsts h).length → Same f (f.ofBody h ss).1) ∧
    ((f.ofBody h ss).2 = true ↔ ∀ x ∈ ss, x ∈ f.nullable) ∧
    (∀ pre s post, ss = pre ++ s :: post → (∀ x ∈ pre, x ∈ f.nullable) → ∀ a ∈ mget f.firsts s, a ∈ mget (f.ofBody h ss).1.firsts h) := by
  intro ss
  induction ss with
  | nil =>
    intro f
    have e : f.ofBody h [] = (f, true) := rfl
    rw [e]
    exact ⟨rfl, rfl, Le.refl f, fun _ _ => rfl, Nat.le_refl _, fun _ => Same.refl f, by simp, by simp⟩
  | cons x ss ih =>
    intro f
    obtain ⟨f1, hf1⟩ : ∃ f1 : Firsts, f1 = { f with firsts := mput f.firsts h (sUnion (mget f.firsts h) (mget f.firsts x)) } := ⟨_, rfl⟩
    have e : f.ofBody h (x :: ss) = if x ∈ f1.nullable then f1.ofBody h ss else (f1, false) := by rw [hf1]; rfl
    rw [e]
    have hn1 : f1.nullable = f.nullable := by rw [hf1]
    have hc1 : f1.changed = f.changed := by rw [hf1]
    have hh1 : mget f1.firsts h = sUnion (mget f.firsts h) (mget f.firsts x) := by rw [hf1]; simp [mget_mput]
    have ho1 : ∀ s, s ≠ h → mget f1.firsts s = mget f.firsts s := by
      intro s hs; rw [hf1]; simp [mget_mput, hs]
    have hle1 : Le f f1 := by
      refine ⟨fun s a ha => ?_, fun s hs => by rw [hn1]; exact hs⟩
      by_cases hs : s = h
      · subst hs; rw [hh1]; exact mem_sUnion.mpr (.inl ha)
      · rw [ho1 s hs]; exact ha
    have hlen := length_sUnion (a := mget f.firsts h) (b := mget f.firsts x)
    rw [← hh1] at hlen
    have hsame1 : (mget f1.firsts h).length = (mget f.firsts h).length → Same f f1 := by
      intro he
      refine ⟨fun s => ?_, hn1.symm⟩
      by_cases hs : s = h
      · subst hs; exact (hlen.2 he).symm
      · exact (ho1 s hs).symm
    have hx1 : ∀ a ∈ mget f.firsts x, a ∈ mget f1.firsts h := by
      intro a ha; rw [hh1]; exact mem_sUnion.mpr (.inr ha)
    split
    · rename_i hx
      rw [hn1] at hx
      obtain ⟨i1, i2, i3, i4, i5, i6, i7, i8⟩ := ih (f := f1)
      refine ⟨i1.trans hn1, i2.trans hc1, hle1.trans i3, fun s hs => (i4 s hs).trans (ho1 s hs), by omega, fun he => ?_, ?_, ?_⟩
      · exact (hsame1 (by omega)).trans (i6 (by omega))
      · rw [i7, hn1]; simp [hx]
      · intro pre s post hb hp a ha
        cases pre with
        | nil => simp only [List.nil_append, List.cons.injEq] at hb; rw [← hb.1] at ha; exact i3.first h a (hx1 a ha)
        | cons y pre =>
          simp only [List.cons_append, List.cons.injEq] at hb
          exact i8 pre s post hb.2 (fun z hz => by rw [hn1]; exact hp z (by simp [hz])) a (hle1.first s a ha)
    · rename_i hx
      rw [hn1] at hx
      refine ⟨hn1, hc1, hle1, ho1, hlen.1, hsame1, ?_, ?_⟩
      · simp [hx]
      · intro pre s post hb hp a ha
        cases pre with
        | nil => simp only [List.nil_append, List.cons.injEq] at hb; rw [← hb.1] at ha; exact hx1 a ha
        | cons y pre =>
          simp only [List.cons_append, List.cons.injEq] at hb
          exact absurd (hb.1 ▸ hp y (by simp)) hx

theorem addNullable_spec {f : Firsts} {s : Nat} : Le f (f.addNullable s) ∧ (f.addNullable s).firsts = f.firsts ∧
    (f.changed = true → (f.addNullable s).changed = true) ∧
    ((f.addNullable s).changed = false → f.addNullable s = f ∧ s ∈ f.nullable) := by
  unfold addNullable
  split
  · rename_i h
    refine ⟨Le.refl f, rfl, fun h => h, fun h' => ?_⟩
    rw [h] at h'; cases h'
  · split
    · rename_i h
      exact ⟨Le.refl f, rfl, fun h => h, fun _ => ⟨rfl, h⟩⟩
    · exact ⟨⟨fun _ _ h => h, fun x hx => mem_insertNat.mpr (.inr hx)⟩, rfl, fun _ => rfl, (fun h => by cases h)⟩

theorem step_spec {f : Firsts} {p : Production} : Le f (f.step p) ∧ (f.changed = true → (f.step p).changed = true) ∧
    ((f.step p).changed = false → Same f (f.step p) ∧ Closed (f.step p) p) := by
  unfold step
  split
  · rename_i hb
    obtain ⟨a1, a2, a3, a4⟩ := addNullable_spec (f := f) (s := p.head)
    refine ⟨a1, a3, fun h => ?_⟩
    obtain ⟨b1, b2⟩ := a4 h
    rw [b1]
    have hb : p.body = [] := by simpa using hb
    refine ⟨Same.refl f, ?_, fun _ => b2⟩
    intro pre s post he
    rw [hb] at he; simp at he
  · obtain ⟨i1, i2, i3, i4, i5, i6, i7, i8⟩ := ofBody_spec (h := p.head) (ss := p.body) (f := f)
    simp only
    obtain ⟨fb, hfb⟩ : ∃ fb, fb = f.ofBody p.head p.body := ⟨_, rfl⟩
    rw [← hfb] at i1 i2 i3 i4 i5 i6 i7 i8 ⊢
    obtain ⟨f1, all⟩ := fb
    simp only at i1 i2 i3 i4 i5 i6 i7 i8 ⊢
    obtain ⟨f2, hf2⟩ : ∃ f2, f2 = if all = true then f1.addNullable p.head else f1 := ⟨_, rfl⟩
    rw [← hf2]
    have hle : Le f1 f2 := by
      rw [hf2]; split
      · exact addNullable_spec.1
      · exact Le.refl _
    have hfirst : f2.firsts = f1.firsts := by
      rw [hf2]; split
      · exact addNullable_spec.2.1
      · rfl
    have hch : f1.changed = true → f2.changed = true := by
      rw [hf2]; split
      · exact addNullable_spec.2.2.1
      · exact fun h => h
    have hno : f2.changed = false → f2 = f1 ∧ (all = true → p.head ∈ f1.nullable) := by
      rw [hf2]; split
      · intro h
        obtain ⟨b1, b2⟩ := addNullable_spec.2.2.2 h
        exact ⟨b1, fun _ => b2⟩
      · rename_i h; exact fun _ => ⟨rfl, fun h' => absurd h' h⟩
    refine ⟨⟨fun s a ha => ?_, fun s hs => ?_⟩, fun h => ?_, fun h => ?_⟩
    · exact (i3.trans hle).first s a ha
    · exact (i3.trans hle).null s hs
    · simp only [Bool.or_eq_true]
      exact .inl (hch (i2.trans h))
    · simp only [Bool.or_eq_false_iff, bne_eq_false_iff_eq] at h
      obtain ⟨e1, e2⟩ := hno h.1
      have hs : Same f f1 := i6 (by rw [← hfirst]; exact h.2)
      refine ⟨⟨fun s => ?_, ?_⟩, ?_, ?_⟩
      · simp only [e1]; exact hs.first s
      · simp only [e1]; exact hs.null
      · intro pre s post hb hn a ha
        simp only [e1] at hn ha ⊢
        rw [i1] at hn
        rw [← hs.first] at ha
        exact i8 pre s post hb hn a ha
      · intro hn
        simp only [e1] at hn ⊢
        rw [i1] at hn
        exact e2 (i7.mpr hn)

theorem steps_spec : ∀ {ps : List Production} {f : Firsts}, Le f (ps.foldl step f) ∧
    (f.changed = true → (ps.foldl step f).changed = true) ∧
    ((ps.foldl step f).changed = false → Same f (ps.foldl step f) ∧ ∀ p ∈ ps, Closed (ps.foldl step f) p) := by
  intro ps
  induction ps with
  | nil => intro f; exact ⟨Le.refl f, fun h => h, fun _ => ⟨Same.refl f, by simp⟩⟩
  | cons p ps ih =>
    intro f
    simp only [List.foldl_cons]
    obtain ⟨a1, a2, a3⟩ := step_spec (f := f) (p := p)
    obtain ⟨b1, b2, b3⟩ := ih (f := f.step p)
    refine ⟨a1.trans b1, fun h => b2 (a2 h), fun h => ?_⟩
    obtain ⟨c1, c2⟩ := b3 h
    have hf : (f.step p).changed = false := by
      cases hc : (f.step p).changed with
      | false => rfl
      | true => rw [b2 hc] at h; cases h
    obtain ⟨d1, d2⟩ := a3 hf
    refine ⟨d1.trans c1, fun q hq => ?_⟩
    rcases List.mem_cons.mp hq with rfl | hq
    · exact d2.same c1
    · exact c2 q hq

theorem loop_spec {ps : List Production} : ∀ {k : Nat} {f f' : Firsts}, loop ps k f = .ok f' →
    Le f f' ∧ ∀ p ∈ ps, Closed f' p := by
  intro k
  induction k with
  | zero => intro f f' h; simp [loop] at h
  | succ k ih =>
    intro f f' h
    simp only [loop] at h
    obtain ⟨a1, _, a3⟩ := steps_spec (ps := ps) (f := { f with changed := false })
    have hle : Le f (ps.foldl step { f with changed := false }) := ⟨a1.first, a1.null⟩
    split at h
    · obtain ⟨b1, b2⟩ := ih h
      exact ⟨hle.trans b1, b2⟩
    · rename_i hc
      cases h
      exact ⟨hle, (a3 (by simpa using hc)).2⟩

end Firsts

variable {g : Grammar}

theorem lookup_map_self {l : List Nat} {a : Nat} (h : a ∈ l) : (l.map fun t => (t, [t])).lookup a = some [a] := by
  induction l with
  | nil => cases h
  | cons b l ih =>
    simp only [List.map_cons, List.lookup]
    split
    · rename_i e; rw [eq_of_beq e]
    · rename_i e
      rcases List.mem_cons.mp h with rfl | h
      · simp at e
      · exact ih h

theorem firstSets_spec {fuel : Nat} {f : Firsts} (h : g.firstSets fuel = .ok f) :
    (∀ a ∈ g.terminals, a ∈ mget f.firsts a) ∧ ∀ p ∈ g.prods, f.Closed p := by
  obtain ⟨a, b⟩ := Firsts.loop_spec h
  refine ⟨fun t ht => a.first t t ?_, b⟩
  simp [mget, lookup_map_self ht]

/-- Only terminals are in FIRST sets. -/
theorem Firsts.ofBody_sub {h : Nat} {P : Nat → Prop} : ∀ {ss : List Nat} {f : Firsts}, (∀ s, ∀ a ∈ mget f.firsts s, P a) →
    ∀ s, ∀ a ∈ mget (f.ofBody h ss).1.firsts s, P a := by
  intro ss
  induction ss with
  | nil => intro f hf; exact hf
  | cons x ss ih =>
    intro f hf
    have h1 : ∀ s, ∀ a ∈ mget (mput f.firsts h (sUnion (mget f.firsts h) (mget f.firsts x))) s, P a := by
      intro s a ha
      rw [mget_mput] at ha
      split at ha
      · rcases mem_sUnion.mp ha with ha | ha
        · exact hf _ a ha
        · exact hf _ a ha
      · exact hf _ a ha
    simp only [ofBody]
    split
    · exact ih h1
    · exact h1

theorem Firsts.step_sub {P : Nat → Prop} {p : Production} {f : Firsts} (hf : ∀ s, ∀ a ∈ mget f.firsts s, P a) :
    ∀ s, ∀ a ∈ mget (f.step p).firsts s, P a := by
  have had : ∀ (f : Firsts) (s : Nat), (f.addNullable s).firsts = f.firsts := fun f s => addNullable_spec.2.1
  unfold step
  split
  · rw [had]; exact hf
  · simp only
    split
    · simp only [had]; exact ofBody_sub hf
    · exact ofBody_sub hf

theorem Firsts.loop_sub {P : Nat → Prop} {ps : List Production} : ∀ {k : Nat} {f f' : Firsts}, loop ps k f = .ok f' →
    (∀ s, ∀ a ∈ mget f.firsts s, P a) → ∀ s, ∀ a ∈ mget f'.firsts s, P a := by
  have fold : ∀ (ps : List Production) (f : Firsts), (∀ s, ∀ a ∈ mget f.firsts s, P a) →
      ∀ s, ∀ a ∈ mget (ps.foldl step f).firsts s, P a := by
    intro ps
    induction ps with
    | nil => intro f h; exact h
    | cons p ps ih => intro f h; exact ih _ (step_sub h)
  intro k
  induction k with
  | zero => intro f f' h; simp [loop] at h
  | succ k ih =>
    intro f f' h hf
    simp only [loop] at h
    have h1 := fold ps { f with changed := false } hf
    split at h
    · exact ih h h1
    · cases h; exact h1

theorem firstSets_sub {fuel : Nat} {f : Firsts} (h : g.firstSets fuel = .ok f) : ∀ s, ∀ a ∈ mget f.firsts s, a ∈ g.terminals := by
  refine Firsts.loop_sub h ?_
  intro s a ha
  unfold mget at ha
  cases hl : (g.terminals.map fun t => (t, [t])).lookup s with
  | none => simp only [hl] at ha; cases ha
  | some l =>
    simp only [hl, Option.getD_some] at ha
    have := lookup_mem hl
    obtain ⟨t, ht, e⟩ := List.mem_map.mp this
    cases e
    rw [List.mem_singleton.mp ha]; exact ht

/-- The lookaheads after a list of symbols do not depend on `la` apart from `la` itself. -/
theorem mem_lookaheadsAfter {f : Firsts} {la x : Nat} : ∀ {ss : List Nat}, x ∈ lookaheadsAfter f la ss ↔
    (∃ pre s post, ss = pre ++ s :: post ∧ (∀ y ∈ pre, y ∈ f.nullable) ∧ x ∈ mget f.firsts s) ∨
    ((∀ y ∈ ss, y ∈ f.nullable) ∧ x = la) := by
  intro ss
  induction ss with
  | nil => simp [lookaheadsAfter]
  | cons s ss ih =>
    simp only [lookaheadsAfter, List.mem_append]
    constructor
    · rintro (h | h)
      · exact .inl ⟨[], s, ss, rfl, by simp, h⟩
      · split at h
        · rename_i hn
          rcases ih.mp h with ⟨pre, s', post, e, h1, h2⟩ | ⟨h1, h2⟩
          · refine .inl ⟨s :: pre, s', post, by rw [e]; rfl, ?_, h2⟩
            intro y hy
            rcases List.mem_cons.mp hy with rfl | hy
            · exact hn
            · exact h1 y hy
          · refine .inr ⟨?_, h2⟩
            intro y hy
            rcases List.mem_cons.mp hy with rfl | hy
            · exact hn
            · exact h1 y hy
        · cases h
    · rintro (⟨pre, s', post, e, h1, h2⟩ | ⟨h1, h2⟩)
      · cases pre with
        | nil => simp only [List.nil_append, List.cons.injEq] at e; rw [← e.1] at h2; exact .inl h2
        | cons y pre =>
          simp only [List.cons_append, List.cons.injEq] at e
          right
          rw [if_pos (by rw [e.1]; exact h1 y (by simp))]
          exact ih.mpr (.inl ⟨pre, s', post, e.2, fun z hz => h1 z (by simp [hz]), h2⟩)
      · right
        rw [if_pos (h1 s (by simp))]
        exact ih.mpr (.inr ⟨fun y hy => h1 y (by simp [hy]), h2⟩)

/-! ### Lookaheads -/

theorem mget_note {from' : Item} {m : LaMaps} {it : Item} :
    (∀ p, ∀ a ∈ mget m.spont p, a ∈ mget (LaMaps.note g from' m it).spont p) ∧
    (∀ i, ∀ x ∈ mget m.prop i, x ∈ mget (LaMaps.note g from' m it).prop i) ∧
    (it.la ≠ cNullSymbol → it.la ∈ mget (LaMaps.note g from' m it).spont it.prod) ∧
    (it.la = cNullSymbol → it.dot < (g.body it.prod).length →
      ⟨it.prod, it.dot + 1, cNullSymbol⟩ ∈ mget (LaMaps.note g from' m it).prop from') := by
  unfold LaMaps.note
  split
  · rename_i h
    refine ⟨fun p a ha => ?_, fun _ _ h => h, fun _ => ?_, fun h' => absurd h' h⟩
    · simp only [mget_mput]
      split
      · rename_i e; subst e; exact mem_insertNat.mpr (.inr ha)
      · exact ha
    · simp only [mget_mput, if_pos]
      exact mem_insertNat.mpr (.inl rfl)
  · rename_i h
    split
    · refine ⟨fun _ _ h => h, fun i x hx => ?_, fun h' => absurd h' h, fun _ _ => ?_⟩
      · simp only [mget_mput]
        split
        · rename_i e; subst e; exact mem_insertItem.mpr (.inr hx)
        · exact hx
      · simp only [mget_mput, if_pos]
        exact mem_insertItem.mpr (.inl rfl)
    · rename_i h2
      exact ⟨fun _ _ h => h, fun _ _ h => h, fun h' => absurd h' h, fun _ h' => absurd h' h2⟩

/-- What the maps say about the closure of a kernel item. -/
def Noted (g : Grammar) (m : LaMaps) (from' y : Item) : Prop :=
  (y.la ≠ cNullSymbol → y.la ∈ mget m.spont y.prod) ∧
  (y.la = cNullSymbol → y.dot < (g.body y.prod).length → ⟨y.prod, y.dot + 1, cNullSymbol⟩ ∈ mget m.prop from')

theorem notes_spec {from' : Item} : ∀ {clo : List Item} {m : LaMaps},
    (∀ p, ∀ a ∈ mget m.spont p, a ∈ mget (clo.foldl (LaMaps.note g from') m).spont p) ∧
    (∀ i, ∀ x ∈ mget m.prop i, x ∈ mget (clo.foldl (LaMaps.note g from') m).prop i) ∧
    (∀ y ∈ clo, Noted g (clo.foldl (LaMaps.note g from') m) from' y) := by
  intro clo
  induction clo with
  | nil => intro m; exact ⟨fun _ _ h => h, fun _ _ h => h, by simp⟩
  | cons y clo ih =>
    intro m
    simp only [List.foldl_cons]
    obtain ⟨a1, a2, a3, a4⟩ := mget_note (g := g) (from' := from') (m := m) (it := y)
    obtain ⟨b1, b2, b3⟩ := ih (m := LaMaps.note g from' m y)
    refine ⟨fun p a ha => b1 p a (a1 p a ha), fun i x hx => b2 i x (a2 i x hx), fun z hz => ?_⟩
    rcases List.mem_cons.mp hz with rfl | hz
    · exact ⟨fun h => b1 _ _ (a3 h), fun h h' => b2 _ _ (a4 h h')⟩
    · exact b3 z hz

theorem laMaps_spec {f : Firsts} {fuel : Nat} : ∀ {its : List Item} {m m' : LaMaps}, g.laMaps f fuel its m = .ok m' →
    (∀ p, ∀ a ∈ mget m.spont p, a ∈ mget m'.spont p) ∧ (∀ i, ∀ x ∈ mget m.prop i, x ∈ mget m'.prop i) ∧
    (∀ it ∈ its, ∃ clo, g.lr1Closure f fuel [it] = .ok clo ∧ ∀ y ∈ clo, Noted g m' it y) := by
  intro its
  induction its with
  | nil => intro m m' h; simp only [laMaps, Except.ok.injEq] at h; subst h; exact ⟨fun _ _ h => h, fun _ _ h => h, by simp⟩
  | cons it its ih =>
    intro m m' h
    simp only [laMaps] at h
    split at h
    · cases h
    · rename_i clo hclo
      obtain ⟨a1, a2, a3⟩ := notes_spec (g := g) (from' := it) (clo := clo) (m := m)
      obtain ⟨b1, b2, b3⟩ := ih h
      refine ⟨fun p a ha => b1 p a (a1 p a ha), fun i x hx => b2 i x (a2 i x hx), fun z hz => ?_⟩
      rcases List.mem_cons.mp hz with rfl | hz
      · exact ⟨clo, hclo, fun y hy => ⟨fun h => b1 _ _ ((a3 y hy).1 h), fun h h' => b2 _ _ ((a3 y hy).2 h h')⟩⟩
      · exact b3 z hz

theorem initLas_spec {m : LaMaps} : ∀ {its : List Item} {l : List (Item × List Nat)},
    (∀ i, ∀ a ∈ mget l i, a ∈ mget (its.foldl (initLas g m) l) i) ∧
    (∀ it ∈ its, (∀ a ∈ mget m.spont it.prod, a ∈ mget (its.foldl (initLas g m) l) it) ∧
      (it.prod = g.root → tokenEnd ∈ mget (its.foldl (initLas g m) l) it)) := by
  intro its
  induction its with
  | nil => intro l; exact ⟨fun _ _ h => h, by simp⟩
  | cons it its ih =>
    intro l
    simp only [List.foldl_cons]
    obtain ⟨b1, b2⟩ := ih (l := initLas g m l it)
    have hself : ∀ a, a ∈ mget l it ∨ a ∈ mget m.spont it.prod → a ∈ mget (initLas g m l it) it := by
      intro a ha
      have := mem_sUnion.mpr ha
      unfold initLas
      simp only [mget_mput, if_pos]
      split
      · exact mem_insertNat.mpr (.inr this)
      · exact this
    have hmono : ∀ i, ∀ a ∈ mget l i, a ∈ mget (initLas g m l it) i := by
      intro i a ha
      by_cases e : i = it
      · subst e; exact hself a (.inl ha)
      · unfold initLas
        simp only [mget_mput, if_neg e]; exact ha
    refine ⟨fun i a ha => b1 i a (hmono i a ha), fun z hz => ?_⟩
    rcases List.mem_cons.mp hz with rfl | hz
    · refine ⟨fun a ha => b1 _ a (hself a (.inr ha)), fun hr => b1 _ _ ?_⟩
      unfold initLas
      simp only [mget_mput, if_pos, hr]
      exact mem_insertNat.mpr (.inl rfl)
    · exact b2 z hz

/-- Lookaheads only grow; without a change they stay. -/
theorem propagate_spec {from' to : Item} {l : Las} :
    (∀ i, ∀ a ∈ mget l.las i, a ∈ mget (Las.propagate from' l to).las i) ∧
    (l.changed = true → (Las.propagate from' l to).changed = true) ∧
    ((Las.propagate from' l to).changed = false → (∀ i, mget (Las.propagate from' l to).las i = mget l.las i) ∧
      ∀ a ∈ mget l.las from', a ∈ mget l.las to) := by
  unfold Las.propagate
  have hlen := length_sUnion (a := mget l.las to) (b := mget l.las from')
  simp only [mget_mput]
  refine ⟨fun i a ha => ?_, fun h => by simp [h], fun h => ?_⟩
  · split
    · rename_i e; subst e; exact mem_sUnion.mpr (.inl ha)
    · exact ha
  · simp only [Bool.or_eq_false_iff, decide_eq_false_iff_not] at h
    have he := hlen.2 (by omega)
    refine ⟨fun i => ?_, fun a ha => ?_⟩
    · split
      · rename_i e; subst e; exact he
      · rfl
    · rw [← he]; exact mem_sUnion.mpr (.inr ha)

theorem propagates_spec {from' : Item} : ∀ {tos : List Item} {l : Las},
    (∀ i, ∀ a ∈ mget l.las i, a ∈ mget (tos.foldl (Las.propagate from') l).las i) ∧
    (l.changed = true → (tos.foldl (Las.propagate from') l).changed = true) ∧
    ((tos.foldl (Las.propagate from') l).changed = false → (∀ i, mget (tos.foldl (Las.propagate from') l).las i = mget l.las i) ∧
      ∀ to ∈ tos, ∀ a ∈ mget l.las from', a ∈ mget l.las to) := by
  intro tos
  induction tos with
  | nil => intro l; exact ⟨fun _ _ h => h, fun h => h, fun _ => ⟨fun _ => rfl, by simp⟩⟩
  | cons to tos ih =>
    intro l
    simp only [List.foldl_cons]
    obtain ⟨a1, a2, a3⟩ := propagate_spec (from' := from') (to := to) (l := l)
    obtain ⟨b1, b2, b3⟩ := ih (l := Las.propagate from' l to)
    refine ⟨fun i a ha => b1 i a (a1 i a ha), fun h => b2 (a2 h), fun h => ?_⟩
    obtain ⟨c1, c2⟩ := b3 h
    have hf : (Las.propagate from' l to).changed = false := by
      cases hc : (Las.propagate from' l to).changed with
      | false => rfl
      | true => rw [b2 hc] at h; cases h
    obtain ⟨d1, d2⟩ := a3 hf
    refine ⟨fun i => (c1 i).trans (d1 i), fun z hz => ?_⟩
    rcases List.mem_cons.mp hz with rfl | hz
    · exact d2
    · have := c2 z hz
      rw [d1, d1] at this; exact this

theorem rounds_spec {m : LaMaps} : ∀ {froms : List Item} {l : Las},
    let r := froms.foldl (fun l from' => (mget m.prop from').foldl (Las.propagate from') l) l
    (∀ i, ∀ a ∈ mget l.las i, a ∈ mget r.las i) ∧ (l.changed = true → r.changed = true) ∧
    (r.changed = false → (∀ i, mget r.las i = mget l.las i) ∧
      ∀ from' ∈ froms, ∀ to ∈ mget m.prop from', ∀ a ∈ mget l.las from', a ∈ mget l.las to) := by
  intro froms
  induction froms with
  | nil => intro l; exact ⟨fun _ _ h => h, fun h => h, fun _ => ⟨fun _ => rfl, by simp⟩⟩
  | cons from' froms ih =>
    intro l
    simp only [List.foldl_cons]
    obtain ⟨a1, a2, a3⟩ := propagates_spec (from' := from') (tos := mget m.prop from') (l := l)
    obtain ⟨b1, b2, b3⟩ := ih (l := (mget m.prop from').foldl (Las.propagate from') l)
    refine ⟨fun i a ha => b1 i a (a1 i a ha), fun h => b2 (a2 h), fun h => ?_⟩
    obtain ⟨c1, c2⟩ := b3 h
    have hf : ((mget m.prop from').foldl (Las.propagate from') l).changed = false := by
      cases hc : ((mget m.prop from').foldl (Las.propagate from') l).changed with
      | false => rfl
      | true => rw [b2 hc] at h; cases h
    obtain ⟨d1, d2⟩ := a3 hf
    refine ⟨fun i => (c1 i).trans (d1 i), fun z hz => ?_⟩
    rcases List.mem_cons.mp hz with rfl | hz
    · exact d2
    · intro to hto
      have := c2 z hz to hto
      rw [d1, d1] at this; exact this

theorem las_loop_spec {m : LaMaps} : ∀ {k : Nat} {l l' : Las}, Las.loop m k l = .ok l' →
    (∀ i, ∀ a ∈ mget l.las i, a ∈ mget l'.las i) ∧
    (∀ from' to, to ∈ mget m.prop from' → ∀ a ∈ mget l'.las from', a ∈ mget l'.las to) := by
  intro k
  induction k with
  | zero => intro l l' h; simp [Las.loop] at h
  | succ k ih =>
    intro l l' h
    simp only [Las.loop] at h
    obtain ⟨a1, _, a3⟩ := rounds_spec (m := m) (froms := m.prop.map (·.1)) (l := { l with changed := false })
    have hr : ∀ x, (m.prop.map (·.1)).foldl (fun l from' => (mget m.prop from').foldl (Las.propagate from') l) x = Las.round m x :=
      fun _ => rfl
    simp only [hr] at a1 a3
    split at h
    · obtain ⟨b1, b2⟩ := ih h
      exact ⟨fun i a ha => b1 i a (a1 i a ha), b2⟩
    · rename_i hc
      cases h
      obtain ⟨c1, c2⟩ := a3 (by simpa using hc)
      refine ⟨a1, fun from' to hto a ha => ?_⟩
      rw [c1] at ha ⊢
      refine c2 from' ?_ to hto a ha
      unfold mget at hto
      cases hl : m.prop.lookup from' with
      | none => rw [hl] at hto; cases hto
      | some v =>
        exact List.mem_map.mpr ⟨_, lookup_mem hl, rfl⟩

end Grammar
end LogSurgeon
