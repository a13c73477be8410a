import Verif.Spec.Grammar
import Mathlib.Tactic.Tauto
/-
Soundness of the LALR(1) parser.
-/
namespace LogSurgeon

/-! ### Sorted sets -/

theorem mem_sInsert {α} {lt : α → α → Bool} (tri : ∀ a b, lt a b = false → lt b a = false → a = b) {x y : α} {l : List α} :
    y ∈ sInsert lt x l ↔ y = x ∨ y ∈ l := by
  induction l with
  | nil => simp [sInsert]
  | cons z zs ih =>
    simp only [sInsert]
    split
    · simp
    · rename_i h1
      split
      · simp only [List.mem_cons, ih]; tauto
      · rename_i h2
        have := tri x z (by simpa using h1) (by simpa using h2)
        subst this
        simp

theorem natLt_tri (a b : Nat) (h1 : natLt a b = false) (h2 : natLt b a = false) : a = b := by
  simp [natLt] at h1 h2; omega

theorem Item.lt_tri (a b : Item) (h1 : a.lt b = false) (h2 : b.lt a = false) : a = b := by
  obtain ⟨p, d, l⟩ := a
  obtain ⟨p', d', l'⟩ := b
  simp only [Item.lt, Bool.or_eq_false_iff, Bool.and_eq_false_iff, decide_eq_false_iff_not, beq_eq_false_iff_ne] at h1 h2
  have hp : p = p' := by omega
  subst hp
  have hd : d = d' := by
    rcases h1.2 with h | h
    · exact absurd rfl h
    · rcases h2.2 with h' | h'
      · exact absurd rfl h'
      · omega
  subst hd
  have hl : l = l' := by
    rcases h1.2 with h | h
    · exact absurd rfl h
    · rcases h2.2 with h' | h'
      · exact absurd rfl h'
      · rcases h.2 with g | g
        · exact absurd rfl g
        · rcases h'.2 with g' | g'
          · exact absurd rfl g'
          · omega
  subst hl
  rfl

theorem mem_insertItem {x y : Item} {l : List Item} : y ∈ sInsert Item.lt x l ↔ y = x ∨ y ∈ l := mem_sInsert Item.lt_tri
theorem mem_insertNat {x y : Nat} {l : List Nat} : y ∈ sInsert natLt x l ↔ y = x ∨ y ∈ l := mem_sInsert natLt_tri

theorem mem_sUnion {a b : List Nat} {x : Nat} : x ∈ Grammar.sUnion a b ↔ x ∈ a ∨ x ∈ b := by
  unfold Grammar.sUnion
  induction b generalizing a with
  | nil => simp
  | cons y ys ih => simp only [List.foldl_cons, ih, mem_insertNat, List.mem_cons]; tauto

theorem Item.lt_iff (a b : Item) : a.lt b = true ↔
    a.prod < b.prod ∨ a.prod = b.prod ∧ (a.dot < b.dot ∨ a.dot = b.dot ∧ a.la < b.la) := by
  simp [Item.lt]

theorem Item.lt_trans {a b c : Item} (h1 : a.lt b = true) (h2 : b.lt c = true) : a.lt c = true := by
  rw [Item.lt_iff] at *; omega

theorem Item.lt_irrefl (a : Item) : a.lt a = false := by
  cases h : a.lt a with
  | false => rfl
  | true => rw [Item.lt_iff] at h; omega

/-- Sorted without repetitions. -/
def Sorted (l : List Item) : Prop := l.Pairwise (fun a b => a.lt b = true)

theorem Sorted.insert {x : Item} : ∀ {l : List Item}, Sorted l → Sorted (sInsert Item.lt x l) := by
  intro l
  induction l with
  | nil => intro _; simp [Sorted, sInsert]
  | cons y ys ih =>
    intro h
    obtain ⟨h1, h2⟩ := List.pairwise_cons.mp h
    simp only [sInsert]
    split
    · rename_i hlt
      refine List.pairwise_cons.mpr ⟨?_, h⟩
      intro z hz
      rcases List.mem_cons.mp hz with rfl | hz
      · exact hlt
      · exact Item.lt_trans hlt (h1 z hz)
    · split
      · rename_i hlt
        refine List.pairwise_cons.mpr ⟨?_, ih h2⟩
        intro z hz
        rcases mem_insertItem.mp hz with rfl | hz
        · exact hlt
        · exact h1 z hz
      · exact h

theorem Sorted.ext : ∀ {l m : List Item}, Sorted l → Sorted m → (∀ x, x ∈ l ↔ x ∈ m) → l = m := by
  intro l
  induction l with
  | nil =>
    intro m _ _ h
    cases m with
    | nil => rfl
    | cons y ys => exact absurd ((h y).mpr (by simp)) (by simp)
  | cons x xs ih =>
    intro m hl hm h
    cases m with
    | nil => exact absurd ((h x).mp (by simp)) (by simp)
    | cons y ys =>
      obtain ⟨a1, a2⟩ := List.pairwise_cons.mp hl
      obtain ⟨b1, b2⟩ := List.pairwise_cons.mp hm
      have hxy : x = y := by
        rcases List.mem_cons.mp ((h x).mp (by simp)) with e | hx
        · exact e
        · rcases List.mem_cons.mp ((h y).mpr (by simp)) with e | hy
          · exact e.symm
          · have := Item.lt_trans (b1 x hx) (a1 y hy)
            rw [Item.lt_irrefl] at this; cases this
      subst hxy
      congr 1
      refine ih a2 b2 fun z => ?_
      constructor
      · intro hz
        rcases List.mem_cons.mp ((h z).mp (by simp [hz])) with e | h'
        · subst e
          have := a1 z hz
          rw [Item.lt_irrefl] at this; cases this
        · exact h'
      · intro hz
        rcases List.mem_cons.mp ((h z).mpr (by simp [hz])) with e | h'
        · subst e
          have := b1 z hz
          rw [Item.lt_irrefl] at this; cases this
        · exact h'

theorem mget_mput {α β} [DecidableEq α] (m : List (α × List β)) (k k' : α) (v : List β) :
    mget (mput m k v) k' = if k' = k then v else mget m k' := by
  induction m with
  | nil =>
    by_cases h : k' = k
    · subst h; simp [mput, mget, List.lookup]
    · rw [if_neg h]
      simp only [mput, mget, List.lookup, show (k' == k) = false by simp [h]]
  | cons p m ih =>
    obtain ⟨a, b⟩ := p
    simp only [mput]
    split
    · rename_i h
      have h := eq_of_beq h
      subst h
      by_cases h : k' = a
      · subst h; simp [mget, List.lookup]
      · rw [if_neg h]
        simp only [mget, List.lookup, show (k' == a) = false by simp [h]]
    · rename_i h
      simp only [mget, List.lookup] at ih ⊢
      by_cases h' : k' = a
      · subst h'
        have : k' ≠ k := fun e => h (by simp [e])
        simp [this]
      · simp only [show (k' == a) = false by simp [h']]
        exact ih

namespace Grammar
variable {g : Grammar}

/-! ### Closures -/

theorem mem_advance {clo : List Item} {s : Nat} {x : Item} :
    x ∈ g.advance clo s ↔ ∃ it ∈ clo, (g.body it.prod)[it.dot]? = some s ∧ x = ⟨it.prod, it.dot + 1, it.la⟩ := by
  have key : ∀ (l ker : List Item), x ∈ l.foldl (fun ker it =>
      if (g.body it.prod)[it.dot]? = some s then sInsert Item.lt ⟨it.prod, it.dot + 1, it.la⟩ ker else ker) ker ↔
      x ∈ ker ∨ ∃ it ∈ l, (g.body it.prod)[it.dot]? = some s ∧ x = ⟨it.prod, it.dot + 1, it.la⟩ := by
    intro l
    induction l with
    | nil => simp
    | cons it l ih =>
      intro ker
      simp only [List.foldl_cons, ih]
      split
      · rename_i h
        simp only [mem_insertItem, List.mem_cons, exists_eq_or_imp, h, true_and]; tauto
      · rename_i h
        simp only [List.mem_cons, exists_eq_or_imp, h, false_and, false_or]
  rw [advance, key]; simp

theorem sorted_advance {clo : List Item} {s : Nat} : Sorted (g.advance clo s) := by
  have key : ∀ (l ker : List Item), Sorted ker → Sorted (l.foldl (fun ker it =>
      if (g.body it.prod)[it.dot]? = some s then sInsert Item.lt ⟨it.prod, it.dot + 1, it.la⟩ ker else ker) ker) := by
    intro l
    induction l with
    | nil => intro ker h; exact h
    | cons it l ih =>
      intro ker h
      simp only [List.foldl_cons]
      split
      · exact ih _ h.insert
      · exact ih _ h
  exact key clo [] List.Pairwise.nil

/-- The item set contains what `next` asks for. -/
def ClosedAt (g : Grammar) (next : Item → List Item) (R : Item → Prop) (it : Item) : Prop :=
  ∀ s, (g.body it.prod)[it.dot]? = some s → g.isToken s = false → g.prodsOf s ≠ [] ∧ ∀ x ∈ next it, R x

theorem closureLoop_spec {next : Item → List Item} : ∀ {k q clo R}, g.closureLoop next k q clo = .ok R →
    (∀ it ∈ clo, it ∈ R) ∧ (∀ it ∈ q, it ∈ R) ∧
    (∀ P : Item → Prop, (∀ it ∈ clo, P it) → (∀ it ∈ q, P it) → (∀ it, P it → ∀ x ∈ next it, P x) → ∀ it ∈ R, P it) ∧
    ((∀ it ∈ clo, g.ClosedAt next (fun x => x ∈ clo ∨ x ∈ q) it) → ∀ it ∈ R, g.ClosedAt next (· ∈ R) it) := by
  intro k
  induction k with
  | zero =>
    intro q clo R h
    cases q with
    | nil =>
      simp only [closureLoop, Except.ok.injEq] at h
      subst h
      refine ⟨fun _ h => h, by simp, fun P h _ _ => h, fun h it hit s hs ht => ?_⟩
      obtain ⟨h1, h2⟩ := h it hit s hs ht
      exact ⟨h1, fun x hx => (h2 x hx).resolve_right (by simp)⟩
    | cons it q => simp [closureLoop] at h
  | succ k ih =>
    intro q clo R h
    cases q with
    | nil =>
      simp only [closureLoop, Except.ok.injEq] at h
      subst h
      refine ⟨fun _ h => h, by simp, fun P h _ _ => h, fun h it hit s hs ht => ?_⟩
      obtain ⟨h1, h2⟩ := h it hit s hs ht
      exact ⟨h1, fun x hx => (h2 x hx).resolve_right (by simp)⟩
    | cons it q =>
      simp only [closureLoop] at h
      split at h
      · rename_i hmem
        obtain ⟨h1, h2, h3, h4⟩ := ih h
        refine ⟨h1, ?_, fun P a b c => h3 P a (fun x hx => b x (by simp [hx])) c, fun hc => h4 ?_⟩
        · intro x hx
          rcases List.mem_cons.mp hx with rfl | hx
          · exact h1 _ hmem
          · exact h2 _ hx
        · intro x hx s hs ht
          obtain ⟨a, b⟩ := hc x hx s hs ht
          refine ⟨a, fun y hy => ?_⟩
          rcases b y hy with b | b
          · exact .inl b
          · rcases List.mem_cons.mp b with rfl | b
            · exact .inl hmem
            · exact .inr b
      · -- a new item without (or with) successors
        have step : ∀ (q' : List Item), g.closureLoop next k (q' ++ q) (sInsert Item.lt it clo) = .ok R →
            (∀ x ∈ q', x ∈ next it) → g.ClosedAt next (· ∈ q') it →
            (∀ it ∈ clo, it ∈ R) ∧ (∀ x ∈ it :: q, x ∈ R) ∧
            (∀ P : Item → Prop, (∀ it ∈ clo, P it) → (∀ x ∈ it :: q, P x) →
              (∀ it, P it → ∀ x ∈ next it, P x) → ∀ it ∈ R, P it) ∧
            ((∀ x ∈ clo, g.ClosedAt next (fun y => y ∈ clo ∨ y ∈ it :: q) x) → ∀ it ∈ R, g.ClosedAt next (· ∈ R) it) := by
          intro q' h hsub hcl
          obtain ⟨h1, h2, h3, h4⟩ := ih h
          refine ⟨fun x hx => h1 x (mem_insertItem.mpr (.inr hx)), ?_, fun P a b c => h3 P ?_ ?_ c, fun hc => h4 ?_⟩
          · intro x hx
            rcases List.mem_cons.mp hx with rfl | hx
            · exact h1 _ (mem_insertItem.mpr (.inl rfl))
            · exact h2 x (by simp [hx])
          · intro x hx
            rcases mem_insertItem.mp hx with rfl | hx
            · exact b _ (by simp)
            · exact a x hx
          · intro x hx
            rcases List.mem_append.mp hx with hx | hx
            · exact c it (b it (by simp)) x (hsub x hx)
            · exact b x (by simp [hx])
          · intro x hx s hs ht
            rcases mem_insertItem.mp hx with rfl | hx
            · obtain ⟨a, b⟩ := hcl s hs ht
              exact ⟨a, fun y hy => .inr (List.mem_append_left _ (b y hy))⟩
            · obtain ⟨a, b⟩ := hc x hx s hs ht
              refine ⟨a, fun y hy => ?_⟩
              rcases b y hy with b | b
              · exact .inl (mem_insertItem.mpr (.inr b))
              · rcases List.mem_cons.mp b with rfl | b
                · exact .inl (mem_insertItem.mpr (.inl rfl))
                · exact .inr (by simp [b])
        split at h
        · rename_i hb
          exact step [] h (by simp) (fun s hs => by rw [hb] at hs; cases hs)
        · rename_i s0 hb
          split at h
          · rename_i ht
            exact step [] h (by simp) (fun s hs ht' => by rw [hb] at hs; cases hs; rw [ht] at ht'; cases ht')
          · split at h
            · cases h
            · rename_i hne
              refine step (next it).reverse h (by simp) (fun s hs _ => ?_)
              rw [hb] at hs; cases hs
              exact ⟨by simpa using hne, fun x hx => by simpa using hx⟩

theorem mem_prodsOf {s i : Nat} : i ∈ g.prodsOf s ↔ ∃ p, g.prods[i]? = some p ∧ p.head = s := by
  simp only [prodsOf, List.mem_filter, List.mem_range, beq_iff_eq, Option.map_eq_some_iff]
  constructor
  · rintro ⟨_, p, hp, rfl⟩; exact ⟨p, hp, rfl⟩
  · rintro ⟨p, hp, rfl⟩
    refine ⟨?_, p, hp, rfl⟩
    rcases Nat.lt_or_ge i g.prods.length with h | h
    · exact h
    · rw [List.getElem?_eq_none h] at hp; cases hp

theorem mem_freshItems {it x : Item} {las : List Nat} : x ∈ g.freshItems it las ↔
    ∃ s, (g.body it.prod)[it.dot]? = some s ∧ x.prod ∈ g.prodsOf s ∧ x.dot = 0 ∧ x.la ∈ las := by
  unfold freshItems
  split
  · rename_i h; simp [h]
  · rename_i s h
    simp only [List.mem_flatMap, List.mem_map, h, Option.some.injEq, exists_eq_left']
    constructor
    · rintro ⟨p, hp, l, hl, rfl⟩; exact ⟨hp, rfl, hl⟩
    · rintro ⟨hp, h0, hl⟩
      refine ⟨x.prod, hp, x.la, hl, ?_⟩
      cases x; simp at h0; subst h0; rfl

/-- Items of a closure: the kernel's, and items with the dot at the start of a production of some symbol after a dot. -/
theorem lr0Closure_spec {fuel : Nat} {ker clo : List Item} (h : g.lr0Closure fuel ker = .ok clo) :
    (∀ it ∈ ker, it ∈ clo) ∧
    (∀ it ∈ clo, it ∈ ker ∨ it.dot = 0 ∧ ∃ q i, i ∈ g.body q ∧ it.prod ∈ g.prodsOf i) ∧
    (∀ it ∈ clo, g.ClosedAt (fun it => g.freshItems it [cNullSymbol]) (· ∈ clo) it) := by
  obtain ⟨_, h2, h3, h4⟩ := closureLoop_spec h
  refine ⟨fun it hit => h2 it (by simpa using hit), ?_, h4 (by simp)⟩
  refine h3 (fun it => it ∈ ker ∨ it.dot = 0 ∧ ∃ q i, i ∈ g.body q ∧ it.prod ∈ g.prodsOf i) (by simp)
    (fun it hit => .inl (by simpa using hit)) ?_
  intro it _ x hx
  obtain ⟨s, hs, hp, h0, _⟩ := mem_freshItems.mp hx
  exact .inr ⟨h0, it.prod, s, List.mem_of_getElem? hs, hp⟩

theorem lr1Closure_spec {f : Firsts} {fuel : Nat} {ker clo : List Item} (h : g.lr1Closure f fuel ker = .ok clo) :
    (∀ it ∈ ker, it ∈ clo) ∧
    (∀ it ∈ clo, it ∈ ker ∨ it.dot = 0 ∧ ∃ q i, i ∈ g.body q ∧ it.prod ∈ g.prodsOf i) ∧
    (∀ it ∈ clo, g.ClosedAt (fun it => g.freshItems it (lookaheadsAfter f it.la ((g.body it.prod).drop (it.dot + 1))))
      (· ∈ clo) it) := by
  obtain ⟨_, h2, h3, h4⟩ := closureLoop_spec h
  refine ⟨fun it hit => h2 it (by simpa using hit), ?_, h4 (by simp)⟩
  refine h3 (fun it => it ∈ ker ∨ it.dot = 0 ∧ ∃ q i, i ∈ g.body q ∧ it.prod ∈ g.prodsOf i) (by simp)
    (fun it hit => .inl (by simpa using hit)) ?_
  intro it _ x hx
  obtain ⟨s, hs, hp, h0, _⟩ := mem_freshItems.mp hx
  exact .inr ⟨h0, it.prod, s, List.mem_of_getElem? hs, hp⟩

/-! ### The LR(0) item sets -/

/-- What holds for the item sets made so far; `q` are those whose closure is not yet computed. -/
structure LR0Inv (g : Grammar) (cfuel : Nat) (q : List Nat) (t : LR0) : Prop where
  zero : ∃ c, t.sets[0]? = some ([⟨g.root, 0, cNullSymbol⟩], c)
  nodup : q.Nodup
  qlt : ∀ i ∈ q, i < t.sets.length
  clo : ∀ (i : Nat) ker c, t.sets[i]? = some (ker, c) → i ∉ q → g.lr0Closure cfuel ker = .ok c
  goes : ∀ (i s j : Nat), ((i, s), j) ∈ t.goTo → i ∉ q ∧ ∃ ker c c', t.sets[i]? = some (ker, c) ∧
    t.sets[j]? = some (g.advance c s, c')
  pos : ∀ (j : Nat) ker c, t.sets[j]? = some (ker, c) → j = 0 ∨ ∀ it ∈ ker, 1 ≤ it.dot
  valid : ∀ (j : Nat) ker c, t.sets[j]? = some (ker, c) → ∀ it ∈ ker, it.dot ≤ (g.body it.prod).length ∧ it.la = cNullSymbol
  sorted : ∀ (j : Nat) ker c, t.sets[j]? = some (ker, c) → Sorted ker
  inj : ∀ (i j : Nat) ker c c', t.sets[i]? = some (ker, c) → t.sets[j]? = some (ker, c') → i = j
  reach : ∀ (j : Nat), 0 < j → j < t.sets.length → ∃ i s, i < j ∧ ((i, s), j) ∈ t.goTo

/-- All transitions of the item sets outside of `q` are there. -/
def Total (g : Grammar) (syms : List Nat) (q : List Nat) (t : LR0) : Prop :=
  ∀ (i : Nat) ker c, t.sets[i]? = some (ker, c) → i ∉ q → ∀ s ∈ syms, g.advance c s ≠ [] → ∃ j, ((i, s), j) ∈ t.goTo

theorem lr0Closure_valid {fuel : Nat} {ker clo : List Item} (h : g.lr0Closure fuel ker = .ok clo)
    (hk : ∀ it ∈ ker, it.dot ≤ (g.body it.prod).length ∧ it.la = cNullSymbol) :
    ∀ it ∈ clo, it.dot ≤ (g.body it.prod).length ∧ it.la = cNullSymbol := by
  obtain ⟨_, _, h3, _⟩ := closureLoop_spec h
  refine h3 (fun it => it.dot ≤ (g.body it.prod).length ∧ it.la = cNullSymbol) (by simp)
    (fun it hit => hk it (by simpa using hit)) ?_
  intro it _ x hx
  obtain ⟨s, hs, hp, h0, hl⟩ := mem_freshItems.mp hx
  exact ⟨by omega, by simpa using hl⟩

theorem goTo_spec {cfuel : Nat} {q : List Nat} {t : LR0} (h : LR0Inv g cfuel q t) {i s : Nat} (hi : i ∉ q) {ker clo}
    (hk : t.sets[i]? = some (ker, clo)) :
    LR0Inv g cfuel ((g.goTo t i clo s).2 ++ q) (g.goTo t i clo s).1 ∧
    (∀ (j : Nat) x, t.sets[j]? = some x → (g.goTo t i clo s).1.sets[j]? = some x) ∧
    (∀ x ∈ t.goTo, x ∈ (g.goTo t i clo s).1.goTo) ∧
    (∀ j ∈ (g.goTo t i clo s).2, t.sets.length ≤ j) ∧
    (∀ (j : Nat) x, (g.goTo t i clo s).1.sets[j]? = some x → j ∉ (g.goTo t i clo s).2 → t.sets[j]? = some x) ∧
    (g.advance clo s ≠ [] → ∃ j, ((i, s), j) ∈ (g.goTo t i clo s).1.goTo) := by
  have hclo := h.clo i ker clo hk hi
  have hval := lr0Closure_valid hclo (h.valid i ker clo hk)
  have hadv : ∀ it ∈ g.advance clo s, 1 ≤ it.dot ∧ it.dot ≤ (g.body it.prod).length ∧ it.la = cNullSymbol := by
    intro it hit
    obtain ⟨x, hx, hb, rfl⟩ := mem_advance.mp hit
    have := (List.getElem?_eq_some_iff.mp hb).1
    exact ⟨by simp, by simp; omega, (hval x hx).2⟩
  unfold goTo
  simp only
  split
  · rename_i he
    refine ⟨by simpa using h, fun j x hx => hx, fun x hx => hx, by simp, fun j x hx _ => hx, fun hne => ?_⟩
    exact absurd (by simpa using he) hne
  · split
    · rename_i j hj
      obtain ⟨hj1, hj2, _⟩ := List.findIdx?_eq_some_iff_getElem.mp hj
      have hker : t.sets[j]? = some (g.advance clo s, t.sets[j].2) := by
        rw [List.getElem?_eq_getElem hj1]
        have := eq_of_beq hj2
        rw [← this]
      refine ⟨⟨h.zero, by simpa using h.nodup, by simpa using h.qlt, by simpa using h.clo, ?_, h.pos, h.valid, h.sorted, h.inj, ?_⟩,
        fun j x hx => hx, fun x hx => by simp [hx], by simp, fun j x hx _ => hx, fun _ => ⟨j, by simp⟩⟩
      intro a b c hm
      rcases List.mem_cons.mp hm with hm | hm
      · cases hm
        exact ⟨by simpa using hi, ker, clo, _, hk, hker⟩
      · simpa using h.goes a b c hm
      · intro a h0 ha
        obtain ⟨i', s', h1, h2⟩ := h.reach a h0 ha
        exact ⟨i', s', h1, by simp [h2]⟩
    · rename_i hnone
      have hlt : ∀ (j : Nat) x, t.sets[j]? = some x → (t.sets ++ [(g.advance clo s, [])])[j]? = some x := by
        intro j x hx
        rw [List.getElem?_append_left (List.getElem?_eq_some_iff.mp hx).1]; exact hx
      have hlast : ∀ (j : Nat) x, (t.sets ++ [(g.advance clo s, ([] : List Item))])[j]? = some x →
          t.sets[j]? = some x ∨ j = t.sets.length ∧ x = (g.advance clo s, []) := by
        intro j x hx
        rcases Nat.lt_or_ge j t.sets.length with hj | hj
        · rw [List.getElem?_append_left hj] at hx; exact .inl hx
        · rw [List.getElem?_append_right hj] at hx
          have : j - t.sets.length = 0 := by
            have := (List.getElem?_eq_some_iff.mp hx).1
            simpa using this
          rw [this] at hx
          simp only [List.getElem?_cons_zero, Option.some.injEq] at hx
          exact .inr ⟨by omega, hx.symm⟩
      have hil : i < t.sets.length := (List.getElem?_eq_some_iff.mp hk).1
      refine ⟨⟨?_, ?_, ?_, ?_, ?_, ?_, ?_, ?_, ?_, ?_⟩, hlt, fun x hx => by simp [hx], by simp, ?_, fun _ => ⟨t.sets.length, by simp⟩⟩
      · obtain ⟨c, hc⟩ := h.zero
        exact ⟨c, hlt 0 _ hc⟩
      · simp only [List.cons_append, List.nil_append, List.nodup_cons]
        exact ⟨fun hm => Nat.lt_irrefl _ (h.qlt _ hm), h.nodup⟩
      · intro j hj
        simp only [List.cons_append, List.nil_append, List.mem_cons] at hj
        simp only [List.length_append, List.length_singleton]
        rcases hj with rfl | hj
        · omega
        · have := h.qlt j hj; omega
      · intro j kr c hj hq
        simp only [List.cons_append, List.nil_append, List.mem_cons, not_or] at hq
        rcases hlast j _ hj with hj | ⟨hj, _⟩
        · exact h.clo j kr c hj hq.2
        · exact absurd hj hq.1
      · intro a b c hm
        rcases List.mem_cons.mp hm with hm | hm
        · cases hm
          refine ⟨?_, ker, clo, [], hlt _ _ hk, by simp⟩
          simp only [List.cons_append, List.nil_append, List.mem_cons, not_or]
          exact ⟨by omega, hi⟩
        · obtain ⟨h1, kr, c1, c2, h2, h3⟩ := h.goes a b c hm
          refine ⟨?_, kr, c1, c2, hlt _ _ h2, hlt _ _ h3⟩
          simp only [List.cons_append, List.nil_append, List.mem_cons, not_or]
          have := (List.getElem?_eq_some_iff.mp h2).1
          exact ⟨by omega, h1⟩
      · intro j kr c hj
        rcases hlast j _ hj with hj | ⟨_, hj⟩
        · exact h.pos j kr c hj
        · cases hj; exact .inr fun it hit => (hadv it hit).1
      · intro j kr c hj
        rcases hlast j _ hj with hj | ⟨_, hj⟩
        · exact h.valid j kr c hj
        · cases hj; exact fun it hit => (hadv it hit).2
      · intro j kr c hj
        rcases hlast j _ hj with hj | ⟨_, hj⟩
        · exact h.sorted j kr c hj
        · cases hj; exact sorted_advance
      · have hno : ∀ (a : Nat) c, t.sets[a]? ≠ some (g.advance clo s, c) := by
          intro a c ha
          have := List.findIdx?_eq_none_iff.mp hnone _ (List.mem_of_getElem? ha)
          simp at this
        intro a b kr c c' ha hb
        rcases hlast a _ ha with ha | ⟨ea, ha⟩
        · rcases hlast b _ hb with hb | ⟨eb, hb⟩
          · exact h.inj a b kr c c' ha hb
          · cases hb; exact absurd ha (hno a c)
        · rcases hlast b _ hb with hb | ⟨eb, hb⟩
          · cases ha; exact absurd hb (hno b c')
          · rw [ea, eb]
      · intro a h0 ha
        simp only [List.length_append, List.length_singleton] at ha
        rcases Nat.lt_or_ge a t.sets.length with hlt' | hge
        · obtain ⟨i', s', h1, h2⟩ := h.reach a h0 hlt'
          exact ⟨i', s', h1, by simp [h2]⟩
        · have : a = t.sets.length := by omega
          subst this
          exact ⟨i, s, hil, by simp⟩
      · intro j x hx hj
        rcases hlast j _ hx with hx | ⟨hx, _⟩
        · exact hx
        · simp at hj; exact absurd hx hj

theorem goToAll_spec {cfuel : Nat} {i : Nat} {ker clo : List Item} : ∀ {ss : List Nat} {q : List Nat} {t : LR0}, LR0Inv g cfuel q t →
    i ∉ q → t.sets[i]? = some (ker, clo) →
    LR0Inv g cfuel (g.goToAll i clo ss t q).2 (g.goToAll i clo ss t q).1 ∧
    i ∉ (g.goToAll i clo ss t q).2 ∧
    (∀ (j : Nat) x, t.sets[j]? = some x → (g.goToAll i clo ss t q).1.sets[j]? = some x) ∧
    (∀ x ∈ t.goTo, x ∈ (g.goToAll i clo ss t q).1.goTo) ∧
    (∀ (j : Nat) x, (g.goToAll i clo ss t q).1.sets[j]? = some x → j ∉ (g.goToAll i clo ss t q).2 → t.sets[j]? = some x ∧ j ∉ q) ∧
    (∀ s ∈ ss, g.advance clo s ≠ [] → ∃ j, ((i, s), j) ∈ (g.goToAll i clo ss t q).1.goTo) := by
  intro ss
  induction ss with
  | nil => intro q t h hi hk; exact ⟨h, hi, fun _ _ h => h, fun _ h => h, fun _ _ h hq => ⟨h, hq⟩, by simp⟩
  | cons s ss ih =>
    intro q t h hi hk
    obtain ⟨a1, a2, a3, a4, a5, a6⟩ := goTo_spec (s := s) h hi hk
    have hil : i < t.sets.length := (List.getElem?_eq_some_iff.mp hk).1
    have hi' : i ∉ (g.goTo t i clo s).2 ++ q := by
      intro hm
      rcases List.mem_append.mp hm with hm | hm
      · have := a4 i hm; omega
      · exact hi hm
    obtain ⟨b1, b2, b3, b4, b5, b6⟩ := ih a1 hi' (a2 i _ hk)
    simp only [goToAll]
    refine ⟨b1, b2, fun j x hx => b3 j x (a2 j x hx), fun x hx => b4 x (a3 x hx), fun j x hx hj => ?_, ?_⟩
    · obtain ⟨c1, c2⟩ := b5 j x hx hj
      simp only [List.mem_append, not_or] at c2
      exact ⟨a5 j x c1 c2.1, c2.2⟩
    · intro s' hs' hne
      rcases List.mem_cons.mp hs' with rfl | hs'
      · obtain ⟨j, hj⟩ := a6 hne
        exact ⟨j, b4 _ hj⟩
      · exact b6 s' hs' hne

theorem lr0Loop_spec {syms : List Nat} {cfuel : Nat} : ∀ {k : Nat} {q : List Nat} {t t' : LR0}, LR0Inv g cfuel q t → Total g syms q t →
    g.lr0Loop syms cfuel k q t = .ok t' → LR0Inv g cfuel [] t' ∧ Total g syms [] t' := by
  intro k
  induction k with
  | zero =>
    intro q t t' h hT he
    cases q with
    | nil => simp only [lr0Loop, Except.ok.injEq] at he; subst he; exact ⟨h, hT⟩
    | cons i q => simp [lr0Loop] at he
  | succ k ih =>
    intro q t t' h hT he
    cases q with
    | nil => simp only [lr0Loop, Except.ok.injEq] at he; subst he; exact ⟨h, hT⟩
    | cons i q =>
      simp only [lr0Loop] at he
      split at he
      · cases he
      · rename_i clo hclo
        have hil : i < t.sets.length := h.qlt i (by simp)
        obtain ⟨hnd1, hnd2⟩ := List.nodup_cons.mp h.nodup
        obtain ⟨⟨ker, c0⟩, hk⟩ : ∃ x, t.sets[i]? = some x := ⟨_, List.getElem?_eq_getElem hil⟩
        simp only [hk, Option.map_some, Option.getD_some] at hclo he
        have hset : ∀ (j : Nat) x, (t.sets.set i (ker, clo))[j]? = some x → j = i ∧ x = (ker, clo) ∨ j ≠ i ∧ t.sets[j]? = some x := by
          intro j x hx
          by_cases hj : j = i
          · subst hj
            rw [List.getElem?_set_self hil] at hx
            exact .inl ⟨rfl, by simpa using hx.symm⟩
          · rw [List.getElem?_set_ne (Ne.symm hj)] at hx; exact .inr ⟨hj, hx⟩
        have hsetne : ∀ (j : Nat) kr c, t.sets[j]? = some (kr, c) → ∃ c', (t.sets.set i (ker, clo))[j]? = some (kr, c') := by
          intro j kr c hx
          by_cases hj : j = i
          · subst hj
            rw [hk] at hx; cases hx
            exact ⟨clo, List.getElem?_set_self hil⟩
          · exact ⟨c, by rw [List.getElem?_set_ne (Ne.symm hj)]; exact hx⟩
        have h' : LR0Inv g cfuel q { t with sets := t.sets.set i (ker, clo) } := by
          refine ⟨?_, hnd2, ?_, ?_, ?_, ?_, ?_, ?_, ?_, ?_⟩
          · obtain ⟨c, hc⟩ := h.zero
            exact hsetne 0 _ c hc
          · intro j hj
            simpa using h.qlt j (by simp [hj])
          · intro j kr c hj hq
            rcases hset j _ hj with ⟨_, hx⟩ | ⟨hne, hx⟩
            · cases hx; exact hclo
            · exact h.clo j kr c hx (by simp [hne, hq])
          · intro a b c hm
            obtain ⟨h1, kr, c1, c2, h2, h3⟩ := h.goes a b c hm
            simp only [List.mem_cons, not_or] at h1
            obtain ⟨c3, hc3⟩ := hsetne c _ c2 h3
            refine ⟨h1.2, kr, c1, c3, ?_, hc3⟩
            show (t.sets.set i (ker, clo))[a]? = _
            rw [List.getElem?_set_ne (fun e => h1.1 e.symm)]; exact h2
          · intro j kr c hj
            rcases hset j _ hj with ⟨rfl, hx⟩ | ⟨_, hx⟩
            · cases hx; exact h.pos _ _ _ hk
            · exact h.pos j kr c hx
          · intro j kr c hj
            rcases hset j _ hj with ⟨rfl, hx⟩ | ⟨_, hx⟩
            · cases hx; exact h.valid _ _ _ hk
            · exact h.valid j kr c hx
          · intro j kr c hj
            rcases hset j _ hj with ⟨rfl, hx⟩ | ⟨_, hx⟩
            · cases hx; exact h.sorted _ _ _ hk
            · exact h.sorted j kr c hx
          · intro a b kr c c' ha hb
            have back : ∀ (j : Nat) c, (t.sets.set i (ker, clo))[j]? = some (kr, c) → ∃ c', t.sets[j]? = some (kr, c') := by
              intro j c hj
              rcases hset j _ hj with ⟨rfl, hx⟩ | ⟨_, hx⟩
              · cases hx; exact ⟨_, hk⟩
              · exact ⟨c, hx⟩
            obtain ⟨d, hd⟩ := back a c ha
            obtain ⟨d', hd'⟩ := back b c' hb
            exact h.inj a b kr d d' hd hd'
          · intro j h0 hj
            simp only [List.length_set] at hj
            exact h.reach j h0 hj
        obtain ⟨b1, b2, b3, b4, b5, b6⟩ := goToAll_spec (ss := syms) h' hnd1 (List.getElem?_set_self hil)
        refine ih b1 ?_ he
        intro j kr c hj hq s hs hne
        obtain ⟨d1, d2⟩ := b5 j _ hj hq
        rcases hset j _ d1 with ⟨rfl, hx⟩ | ⟨hne', hx⟩
        · cases hx; exact b6 s hs hne
        · obtain ⟨m, hm⟩ := hT j kr c hx (by simp [hne', d2]) s hs hne
          exact ⟨m, b4 _ hm⟩

theorem lr0Sets_spec {o : Orders} {fuel : Nat} {t : LR0} (h : g.lr0Sets o fuel = .ok t) :
    LR0Inv g fuel [] t ∧ Total g (g.terminals ++ o.nts) [] t := by
  refine lr0Loop_spec (q := [0]) ⟨⟨[], rfl⟩, by simp, by simp, ?_, by simp, ?_, ?_, ?_, ?_, ?_⟩ ?_ h
  · intro i ker c hi hq
    have := (List.getElem?_eq_some_iff.mp hi).1
    simp at this hq; omega
  · intro j ker c hj
    have := (List.getElem?_eq_some_iff.mp hj).1
    exact .inl (by simpa using this)
  · intro j ker c hj
    have := (List.getElem?_eq_some_iff.mp hj).1
    have h0 : j = 0 := by simpa using this
    subst h0
    simp only [List.getElem?_cons_zero, Option.some.injEq, Prod.mk.injEq] at hj
    rw [← hj.1]
    simp
  · intro j ker c hj
    have := (List.getElem?_eq_some_iff.mp hj).1
    have h0 : j = 0 := by simpa using this
    subst h0
    simp only [List.getElem?_cons_zero, Option.some.injEq, Prod.mk.injEq] at hj
    rw [← hj.1]
    simp [Sorted]
  · intro i j ker c c' hi hj
    have h1 := (List.getElem?_eq_some_iff.mp hi).1
    have h2 := (List.getElem?_eq_some_iff.mp hj).1
    simp at h1 h2; omega
  · intro j h0 hj
    simp at hj; omega
  · intro i ker c hi hq
    have := (List.getElem?_eq_some_iff.mp hi).1
    simp at this hq; omega

end Grammar
end LogSurgeon
