import Verif.Proofs.LalrMoves
/-
Where derivations are deterministic, the reductions are at most linearly many in the terminals: no derivation repeats a symbol without
reading a terminal, and no symbol begins with itself behind something empty.
-/
namespace LogSurgeon
namespace Grammar
variable {g : Grammar} {start : Nat}

/-- The number of terminals shifted. -/
def shifts : List Move → Nat
  | [] => 0
  | .shift _ :: h => shifts h + 1
  | .red _ :: h => shifts h

theorem shifts_append : ∀ (x y : List Move), shifts (x ++ y) = shifts x + shifts y
  | [], y => by simp [shifts]
  | .shift s :: x, y => by simp only [List.cons_append, shifts, shifts_append x y]; omega
  | .red _ :: x, y => shifts_append x y

theorem shifts_le : ∀ (x : List Move), shifts x ≤ x.length
  | [] => by simp [shifts]
  | .shift s :: x => by simpa [shifts] using shifts_le x
  | .red _ :: x => by have := shifts_le x; simp only [shifts, List.length_cons]; omega

/-- The terminals shifted. -/
def terms : List Move → List Nat
  | [] => []
  | .shift s :: h => s :: terms h
  | .red _ :: h => terms h

theorem terms_append : ∀ (x y : List Move), terms (x ++ y) = terms x ++ terms y
  | [], y => by simp [terms]
  | .shift s :: x, y => by simp only [List.cons_append, terms, terms_append x y]
  | .red _ :: x, y => terms_append x y

theorem terms_length : ∀ (x : List Move), (terms x).length = shifts x
  | [] => rfl
  | .shift s :: x => by simp [terms, shifts, terms_length x]
  | .red _ :: x => terms_length x

theorem quiet_terms {x : List Move} (h : shifts x = 0) : terms x = [] := List.length_eq_zero_iff.mp (by rw [terms_length, h])

theorem ahead_terms {a : Nat} : ∀ (x : List Move), ahead x a = (terms x).headD a
  | [] => rfl
  | .shift s :: x => rfl
  | .red _ :: x => ahead_terms x

/-- Up to the first terminal two derivations with a common beginning agree. -/
theorem Fixed.agree (F : Fixed g start) {z1 z2 : List Move} {s : Nat} : ∀ {r1 r2 x : List Move}, shifts r1 = 0 → shifts r2 = 0 →
    Der g [start] (x ++ (r1 ++ .shift s :: z1)) → Der g [start] (x ++ (r2 ++ .shift s :: z2)) → r1 = r2 := by
  intro r1
  induction r1 with
  | nil =>
    intro r2 x _ h2 d1 d2
    have := F.next d1 d2 (by rw [ahead_append, ahead_append, ahead_terms r2, quiet_terms h2]; rfl)
    cases r2 with
    | nil => rfl
    | cons m r2 =>
      simp only [List.nil_append, List.head?_cons, List.cons_append, Option.some.injEq] at this
      subst this
      simp [shifts] at h2
  | cons m r1 ih =>
    intro r2 x h1 h2 d1 d2
    have := F.next d1 d2 (by rw [ahead_append, ahead_append, ahead_terms r2, quiet_terms h2, ahead_terms (m :: r1), quiet_terms h1]; rfl)
    cases r2 with
    | nil =>
      simp only [List.nil_append, List.head?_cons, List.cons_append, Option.some.injEq] at this
      subst this
      simp [shifts] at h1
    | cons m' r2 =>
      simp only [List.head?_cons, List.cons_append, Option.some.injEq] at this
      subst this
      cases m with
      | shift s => simp [shifts] at h1
      | red p =>
        congr 1
        exact ih (x := x ++ [.red p]) h1 h2 (by simpa using d1) (by simpa using d2)

/-- A derivation is determined by its terminals. -/
theorem Fixed.unique (F : Fixed g start) : ∀ {y1 y2 x : List Move}, terms y1 = terms y2 → Der g [start] (x ++ y1) → Der g [start] (x ++ y2) → y1 = y2 := by
  intro y1
  induction y1 with
  | nil =>
    intro y2 x e d1 d2
    have := F.next d1 d2 (by rw [ahead_terms, ahead_terms, e])
    cases y2 with
    | nil => rfl
    | cons m y2 => simp at this
  | cons m y1 ih =>
    intro y2 x e d1 d2
    have := F.next d1 d2 (by rw [ahead_terms, ahead_terms, e])
    cases y2 with
    | nil => simp at this
    | cons m' y2 =>
      simp only [List.head?_cons, Option.some.injEq] at this
      subst this
      congr 1
      refine ih (x := x ++ [m]) ?_ (by simpa using d1) (by simpa using d2)
      cases m with
      | shift s => simpa [terms] using e
      | red p => exact e

/-! ### Contexts -/

/-- `Under g X l r Y`: a derivation of `X` around one of `Y`. -/
def Under (g : Grammar) (X : Nat) (l r : List Move) (Y : Nat) : Prop := ∀ y, Der g [Y] y → Der g [X] (l ++ y ++ r)

theorem Under.trans {X Y Z : Nat} {l r l' r' : List Move} (h : Under g X l r Y) (h' : Under g Y l' r' Z) : Under g X (l ++ l') (r' ++ r) Z := by
  intro z hz
  have := h _ (h' z hz)
  simpa using this

/-- The symbol occurs in derivations of the start symbol, and derives something. -/
def Placed (g : Grammar) (start X : Nat) : Prop := (∃ l r, Under g start l r X) ∧ ∃ x, Der g [X] x

theorem under_child {i : Nat} {p : Production} (hi : g.prods[i]? = some p) {α β : List Nat} {Y : Nat} (hb : p.body = α ++ Y :: β) {a b : List Move}
    (ha : Der g α a) (hbt : Der g β b) : Under g p.head a (b ++ [.red i]) Y := by
  intro y hy
  have h1 : Der g p.body (a ++ (y ++ b)) := by
    rw [hb]
    exact ha.append (hy.append hbt)
  have := Der.reduce hi h1
  simpa using this

theorem Placed.child {X Y : Nat} (h : Placed g start X) {l r : List Move} (hu : Under g X l r Y) (hy : ∃ y, Der g [Y] y) : Placed g start Y := by
  obtain ⟨⟨l', r', h⟩, _⟩ := h
  exact ⟨⟨_, _, h.trans hu⟩, hy⟩

/-- No symbol contains itself without any terminal. -/
theorem Fixed.acyclic (F : Fixed g start) {X : Nat} (h : Placed g start X) {l r : List Move} (hu : Under g X l r X) (hl : shifts l = 0) (hr : shifts r = 0) :
    l = [] ∧ r = [] := by
  obtain ⟨⟨L, R, h⟩, x, hx⟩ := h
  have h1 := h x hx
  have h2 := h _ (hu x hx)
  have := F.unique (x := []) (y1 := L ++ x ++ R) (y2 := L ++ (l ++ x ++ r) ++ R) (by simp only [terms_append, quiet_terms hl, quiet_terms hr, List.nil_append, List.append_nil]) h1 h2
  have := congrArg List.length this
  simp only [List.length_append] at this
  exact ⟨List.length_eq_zero_iff.mp (by omega), List.length_eq_zero_iff.mp (by omega)⟩

theorem first_shift : ∀ (x : List Move), 0 < shifts x → ∃ r s z, x = r ++ .shift s :: z ∧ shifts r = 0
  | [], h => by simp [shifts] at h
  | .shift s :: x, _ => ⟨[], s, x, rfl, rfl⟩
  | .red p :: x, h => by
    obtain ⟨r, s, z, rfl, hr⟩ := first_shift x h
    exact ⟨.red p :: r, s, z, rfl, hr⟩

/-- No symbol contains itself behind something empty. -/
theorem Fixed.no_hidden (F : Fixed g start) {X : Nat} (h : Placed g start X) {l r : List Move} (hu : Under g X l r X) (hl : shifts l = 0) : l = [] := by
  have key : ∀ x, Der g [X] x → 0 < shifts x → l = [] := by
    intro x hx hs
    obtain ⟨⟨L, R, h⟩, _⟩ := h
    obtain ⟨r1, s, z, rfl, hr1⟩ := first_shift x hs
    have h1 := h _ hx
    have h2 := h _ (hu _ hx)
    have := F.agree (x := L) (s := s) (r1 := r1) (r2 := l ++ r1) (z1 := z ++ R) (z2 := z ++ r ++ R) hr1 (by rw [shifts_append]; omega)
      (by simpa using h1) (by simpa using h2)
    have := congrArg List.length this
    simp only [List.length_append] at this
    exact List.length_eq_zero_iff.mp (by omega)
  obtain ⟨x, hx⟩ := h.2
  by_cases h1 : 0 < shifts x
  · exact key x hx h1
  by_cases h2 : 0 < shifts r
  · exact key _ (hu x hx) (by simp only [shifts_append]; omega)
  · exact (F.acyclic h hu hl (by omega)).1

/-! ### Ranks -/

open Classical in
/-- The number of heads of productions with the property. -/
noncomputable def rank (g : Grammar) (P : Nat → Prop) : Nat := g.prods.countP fun p => decide (P p.head)

theorem rank_le (P : Nat → Prop) : g.rank P ≤ g.prods.length := List.countP_le_length

theorem rank_mono {P Q : Nat → Prop} (h : ∀ x, P x → Q x) : g.rank P ≤ g.rank Q := by
  classical
  refine List.countP_mono_left fun p _ hp => ?_
  simp only [decide_eq_true_eq] at hp ⊢
  exact h _ hp

theorem countP_lt {α} {p q : α → Bool} : ∀ {l : List α}, (∀ x ∈ l, p x = true → q x = true) → (∃ x ∈ l, q x = true ∧ p x = false) →
    l.countP p < l.countP q
  | [], _, ⟨_, h, _⟩ => by cases h
  | a :: l, h, ⟨x, hx, h1, h2⟩ => by
    rw [List.countP_cons, List.countP_cons]
    have hle : l.countP p ≤ l.countP q := List.countP_mono_left fun x hx => h x (by simp [hx])
    have ha := h a (by simp)
    rcases List.mem_cons.mp hx with rfl | hx
    · simp only [h1, h2, if_true, Bool.false_eq_true, if_false]; omega
    · have := countP_lt (l := l) (fun x hx => h x (by simp [hx])) ⟨x, hx, h1, h2⟩
      cases hp : p a with
      | true => simp only [ha hp, if_true]; omega
      | false => simp only [Bool.false_eq_true, if_false]; omega

theorem rank_lt {P Q : Nat → Prop} (h : ∀ x, P x → Q x) {p : Production} (hp : p ∈ g.prods) (h1 : Q p.head) (h2 : ¬ P p.head) : g.rank P < g.rank Q := by
  classical
  refine countP_lt (fun x _ hx => ?_) ⟨p, hp, by simpa using h1, by simpa using h2⟩
  simp only [decide_eq_true_eq] at hx ⊢
  exact h _ hx

/-- The symbols inside without any other terminal. -/
def Inside (g : Grammar) (X Y : Nat) : Prop := ∃ l r, shifts l = 0 ∧ shifts r = 0 ∧ r ≠ [] ∧ Under g X l r Y
/-- The symbols inside behind something empty. -/
def Hidden (g : Grammar) (X Y : Nat) : Prop := ∃ l r, shifts l = 0 ∧ l ≠ [] ∧ Under g X l r Y

noncomputable def depth (g : Grammar) (X : Nat) : Nat := g.rank (Inside g X)
noncomputable def veil (g : Grammar) (X : Nat) : Nat := g.rank (Hidden g X)

theorem Fixed.depth_lt (F : Fixed g start) {X : Nat} {p : Production} (hp : p ∈ g.prods) (hY : Placed g start p.head) (h : Inside g X p.head) :
    g.depth p.head < g.depth X := by
  refine rank_lt ?_ hp h ?_
  · rintro Z ⟨l', r', a1, a2, a3, a4⟩
    obtain ⟨l, r, b1, b2, b3, b4⟩ := h
    exact ⟨_, _, by rw [shifts_append, a1, b1], by rw [shifts_append, a2, b2], by simp [b3], b4.trans a4⟩
  · rintro ⟨l, r, a1, a2, a3, a4⟩
    exact a3 (F.acyclic hY a4 a1 a2).2

theorem veil_le {X Y : Nat} {l r : List Move} (hl : shifts l = 0) (h : Under g X l r Y) : g.veil Y ≤ g.veil X := by
  refine rank_mono ?_
  rintro Z ⟨l', r', a1, a2, a3⟩
  exact ⟨_, _, by rw [shifts_append, hl, a1], by simp [a2], h.trans a3⟩

theorem Fixed.veil_lt (F : Fixed g start) {X : Nat} {p : Production} (hp : p ∈ g.prods) (hY : Placed g start p.head) (h : Hidden g X p.head) :
    g.veil p.head < g.veil X := by
  refine rank_lt ?_ hp h ?_
  · rintro Z ⟨l', r', a1, a2, a3⟩
    obtain ⟨l, r, b1, b2, b3⟩ := h
    exact ⟨_, _, by rw [shifts_append, b1, a1], by simp [a2], b3.trans a3⟩
  · rintro ⟨l, r, a1, a2, a3⟩
    exact a2 (F.no_hidden hY a3 a1)

/-! ### Sizes -/

/-- One of the symbols and its part of the moves. -/
structure Part (g : Grammar) (ss : List Nat) (c : List Move) (α : List Nat) (Y : Nat) (β : List Nat) (a y b : List Move) : Prop where
  syms : ss = α ++ Y :: β
  moves : c = a ++ (y ++ b)
  left : Der g α a
  here : Der g [Y] y
  right : Der g β b

/-- Either nothing is shifted, or only by one of the symbols, or by at least two. -/
theorem Der.parts {K B m : Nat} : ∀ {ss : List Nat} {c : List Move}, Der g ss c →
    (∀ α Y β a y b, Part g ss c α Y β a y b → (shifts y = 0 → y.length ≤ K) ∧ (0 < shifts y → y.length + m ≤ B * shifts y)) →
    (shifts c = 0 ∧ c.length ≤ ss.length * K) ∨
    (∃ α Y β a y b, Part g ss c α Y β a y b ∧ shifts a = 0 ∧ shifts b = 0 ∧ 0 < shifts y ∧ c.length ≤ y.length + ss.length * K) ∨
    (0 < shifts c ∧ c.length + 2 * m ≤ B * shifts c + ss.length * K)
  | [], _, .nil, _ => .inl ⟨rfl, by simp⟩
  | s :: ss, c, hd, H => by
    obtain ⟨y0, c', rfl, h1, h2⟩ := Der.split (ss := [s]) (ss' := ss) hd
    have hH : ∀ α Y β a y b, Part g ss c' α Y β a y b → (shifts y = 0 → y.length ≤ K) ∧ (0 < shifts y → y.length + m ≤ B * shifts y) := by
      rintro α Y β a y b ⟨p1, p2, p3, p4, p5⟩
      exact H (s :: α) Y β (y0 ++ a) y b ⟨by rw [p1]; rfl, by rw [p2]; simp, h1.append p3, p4, p5⟩
    have h0 := H [] s ss [] y0 c' ⟨rfl, rfl, .nil, h1, h2⟩
    have ih := Der.parts h2 hH
    rw [shifts_append, List.length_append, List.length_cons, Nat.succ_mul]
    by_cases hq : shifts y0 = 0
    · have := h0.1 hq
      rcases ih with ⟨i1, i2⟩ | ⟨α, Y, β, a, y, b, ⟨p1, p2, p3, p4, p5⟩, q1, q2, q3, q4⟩ | ⟨i1, i2⟩
      · exact .inl ⟨by omega, by omega⟩
      · refine .inr (.inl ⟨s :: α, Y, β, y0 ++ a, y, b, ⟨by rw [p1]; rfl, by rw [p2]; simp, h1.append p3, p4, p5⟩, ?_, q2, q3, ?_⟩)
        · rw [shifts_append]; omega
        · omega
      · rw [hq, Nat.zero_add]
        exact .inr (.inr ⟨i1, by omega⟩)
    · have hy := h0.2 (by omega)
      rcases ih with ⟨i1, i2⟩ | ⟨α, Y, β, a, y, b, P, q1, q2, q3, q4⟩ | ⟨i1, i2⟩
      · exact .inr (.inl ⟨[], s, ss, [], y0, c', ⟨rfl, rfl, .nil, h1, h2⟩, rfl, i1, by omega, by omega⟩)
      · have hy' := (hH _ _ _ _ _ _ P).2 q3
        have e : shifts c' = shifts y := by rw [P.moves, shifts_append, shifts_append]; omega
        rw [e, Nat.mul_add]
        exact .inr (.inr ⟨by omega, by omega⟩)
      · rw [Nat.mul_add]
        exact .inr (.inr ⟨by omega, by omega⟩)

/-- The bounds. -/
def nullBound (W : Nat) : Nat → Nat
  | 0 => 1
  | k + 1 => 1 + W * nullBound W k

theorem nullBound_mono {W : Nat} : ∀ {a b : Nat}, a ≤ b → nullBound W a ≤ nullBound W b
  | 0, 0, _ => Nat.le_refl _
  | 0, b + 1, _ => by simp [nullBound]
  | a + 1, b + 1, h => by
    have := nullBound_mono (W := W) (a := a) (b := b) (by omega)
    simp only [nullBound]
    exact Nat.add_le_add_left (Nat.mul_le_mul_left W this) 1
  | a + 1, 0, h => by omega

/-- What a part of the body of a production is to its head. -/
theorem Fixed.part (F : Fixed g start) {i : Nat} {p : Production} (hi : g.prods[i]? = some p) (hX : Placed g start p.head) {c : List Move} {α : List Nat}
    {Y : Nat} {β : List Nat} {a y b : List Move} (P : Part g p.body c α Y β a y b) :
    Under g p.head a (b ++ [.red i]) Y ∧ Placed g start Y ∧ y.length ≤ c.length := by
  have hu := under_child hi P.syms P.left P.right
  refine ⟨hu, hX.child hu ⟨_, P.here⟩, ?_⟩
  rw [P.moves, List.length_append, List.length_append]
  omega

theorem Fixed.null_size (F : Fixed g start) {W : Nat} (hW : ∀ p ∈ g.prods, p.body.length ≤ W) : ∀ (n : Nat) {X : Nat} {u : List Move}, u.length ≤ n →
    Der g [X] u → Placed g start X → shifts u = 0 → u.length ≤ nullBound W (g.depth X)
  | 0, X, u, hn, _, _, _ => by omega
  | n + 1, X, u, hn, hd, hX, hq => by
    rcases hd.one with ⟨_, rfl⟩ | ⟨i, p, c, hi, rfl, hc, rfl⟩
    · simp [shifts] at hq
    · have hm := List.mem_of_getElem? hi
      rw [shifts_append] at hq
      have hqc : shifts c = 0 := by omega
      rw [List.length_append, List.length_singleton] at hn ⊢
      have key : ∀ α Y β a y b, Part g p.body c α Y β a y b → (shifts y = 0 → y.length ≤ nullBound W (g.depth p.head - 1) ∧ 0 < g.depth p.head) := by
        intro α Y β a y b P hy
        obtain ⟨h1, h2, h3⟩ := F.part hi hX P
        have hs : shifts a = 0 ∧ shifts b = 0 := by
          have := hqc
          rw [P.moves, shifts_append, shifts_append] at this
          omega
        rcases P.here.one with ⟨_, rfl⟩ | ⟨i', p', c', hi', rfl, hc', e⟩
        · simp [shifts] at hy
        have hlt := F.depth_lt (List.mem_of_getElem? hi') h2 (X := p.head) ⟨a, b ++ [.red i], hs.1, by rw [shifts_append, hs.2]; rfl, by simp, h1⟩
        have hb := F.null_size hW n (u := y) (by omega) P.here h2 hy
        exact ⟨Nat.le_trans hb (nullBound_mono (by omega)), by omega⟩
      rcases hc.parts (K := nullBound W (g.depth p.head - 1)) (B := 0) (m := 0) (by
        intro α Y β a y b P
        refine ⟨fun h => (key _ _ _ _ _ _ P h).1, fun h => ?_⟩
        have := hqc
        rw [P.moves, shifts_append, shifts_append] at this
        omega) with ⟨h1, h2⟩ | ⟨_, _, _, _, y, _, P, _, _, h, _⟩ | ⟨h, _⟩
      · cases hb : p.body with
        | nil =>
          rw [hb] at hc
          cases hc
          have := nullBound_mono (W := W) (Nat.zero_le (g.depth p.head))
          simpa [nullBound] using this
        | cons s ss =>
          have hpos : 0 < g.depth p.head := by
            obtain ⟨y0, c', e, a1, a2⟩ := Der.split (ss := [s]) (ss' := ss) (by rw [← List.singleton_append] at hb; rw [← hb]; exact hc)
            refine (key [] s ss [] y0 c' ⟨hb, e, .nil, a1, a2⟩ ?_).2
            rw [e, shifts_append] at hqc
            omega
          obtain ⟨k, hk⟩ : ∃ k, g.depth p.head = k + 1 := ⟨g.depth p.head - 1, by omega⟩
          rw [hk] at h2 ⊢
          simp only [Nat.add_sub_cancel] at h2
          have := Nat.mul_le_mul_right (nullBound W k) (hW p hm)
          simp only [nullBound]
          omega
      · rw [P.moves, shifts_append, shifts_append] at hqc
        omega
      · omega

theorem Fixed.size (F : Fixed g start) {W K L M : Nat} (hW : ∀ p ∈ g.prods, p.body.length ≤ W) (hL : L = g.prods.length) (hK : K = nullBound W L)
    (hM : M = 1 + W * K) : ∀ (n : Nat) {X : Nat} {u : List Move}, u.length ≤ n → Der g [X] u → Placed g start X → 0 < shifts u →
    u.length + M * (2 * L + 1 - g.depth X) ≤ (M * (2 * L + 2) + 1) * shifts u
  | 0, X, u, hn, _, _, h => by
    have := shifts_le u
    omega
  | n + 1, X, u, hn, hd, hX, hq => by
    have hdep : g.depth X ≤ L := by rw [hL]; exact rank_le _
    have hcX : M * (2 * L + 1 - g.depth X) ≤ M * (2 * L + 1) := Nat.mul_le_mul_left M (by omega)
    have e2 : M * (2 * L + 2) = M * (2 * L + 1) + M := by rw [show 2 * L + 2 = 2 * L + 1 + 1 by omega, Nat.mul_succ]
    rcases hd.one with ⟨_, rfl⟩ | ⟨i, p, c, hi, rfl, hc, rfl⟩
    · simp only [shifts, List.length_singleton]
      omega
    · have hm := List.mem_of_getElem? hi
      have hred : shifts [.red i] = 0 := rfl
      rw [shifts_append, hred] at hq ⊢
      simp only [Nat.add_zero] at hq ⊢
      rw [List.length_append, List.length_singleton] at hn ⊢
      have hlen := Nat.mul_le_mul_right K (hW p hm)
      rcases hc.parts (K := K) (B := M * (2 * L + 2) + 1) (m := M * (L + 1)) (by
        intro α Y β a y b P
        obtain ⟨h1, h2, h3⟩ := F.part hi hX P
        refine ⟨fun h => ?_, fun h => ?_⟩
        · rw [hK]
          exact Nat.le_trans (F.null_size hW _ (Nat.le_refl _) P.here h2 h) (nullBound_mono (by rw [hL]; exact rank_le _))
        · have := F.size hW hL hK hM n (u := y) (by omega) P.here h2 h
          have hdY : g.depth Y ≤ L := by rw [hL]; exact rank_le _
          have : M * (L + 1) ≤ M * (2 * L + 1 - g.depth Y) := Nat.mul_le_mul_left M (by omega)
          omega) with ⟨h1, h2⟩ | ⟨α, Y, β, a, y, b, P, q1, q2, q3, q4⟩ | ⟨_, h⟩
      · omega
      · obtain ⟨h1, h2, h3⟩ := F.part hi hX P
        have es : shifts c = shifts y := by rw [P.moves, shifts_append, shifts_append]; omega
        rw [es]
        rcases P.here.one with ⟨_, rfl⟩ | ⟨i', p', c', hi', rfl, hc', e⟩
        · simp only [shifts, List.length_singleton] at q4 ⊢
          omega
        · have hlt := F.depth_lt (List.mem_of_getElem? hi') h2 (X := p.head) ⟨a, b ++ [.red i], q1, by rw [shifts_append, q2]; rfl, by simp, h1⟩
          have := F.size hW hL hK hM n (u := y) (by omega) P.here h2 q3
          have hstep : M * (2 * L + 1 - g.depth p.head) + M ≤ M * (2 * L + 1 - g.depth p'.head) := by
            rw [← Nat.mul_succ]
            exact Nat.mul_le_mul_left M (by omega)
          omega
      · have e3 : 2 * (M * (L + 1)) = M * (2 * L + 2) := by
          rw [show 2 * L + 2 = 2 * (L + 1) by omega, Nat.mul_left_comm]
        omega

/-- A beginning of the moves for a sequence of symbols ends within one of them. -/
theorem Der.begin : ∀ {ss : List Nat} {c : List Move}, Der g ss c → ∀ {h r : List Move}, c = h ++ r → h ≠ [] →
    ∃ α Y β a y b h' r', Part g ss c α Y β a y b ∧ y = h' ++ r' ∧ h = a ++ h'
  | [], _, .nil, h, r, e, hne => by
    exfalso
    have := congrArg List.length e
    simp only [List.length_nil, List.length_append] at this
    exact hne (List.length_eq_zero_iff.mp (by omega))
  | s :: ss, c, hd, h, r, e, hne => by
    obtain ⟨y0, c', rfl, h1, h2⟩ := Der.split (ss := [s]) (ss' := ss) hd
    rcases List.append_eq_append_iff.mp e with ⟨z, hz1, hz2⟩ | ⟨z, hz1, hz2⟩
    · cases z with
      | nil =>
        simp only [List.append_nil] at hz1
        exact ⟨[], s, ss, [], y0, c', h, [], ⟨rfl, rfl, .nil, h1, h2⟩, by simp [hz1], by simp⟩
      | cons m z =>
        obtain ⟨α, Y, β, a, y, b, h', r', ⟨p1, p2, p3, p4, p5⟩, q1, q2⟩ := h2.begin hz2 (by simp)
        exact ⟨s :: α, Y, β, y0 ++ a, y, b, h', r', ⟨by rw [p1]; rfl, by rw [p2]; simp, h1.append p3, p4, p5⟩, q1, by rw [hz1, q2]; simp⟩
    · exact ⟨[], s, ss, [], y0, c', h, z, ⟨rfl, rfl, .nil, h1, h2⟩, hz1, by simp⟩

/-- The beginnings of a derivation: linearly many moves in the number of terminals. -/
theorem Fixed.prefix_size (F : Fixed g start) {W K L M B : Nat} (hW : ∀ p ∈ g.prods, p.body.length ≤ W) (hL : L = g.prods.length) (hK : K = nullBound W L)
    (hM : M = 1 + W * K) (hB : B = M * (2 * L + 2) + 1) : ∀ (n : Nat) {X : Nat} {u h r : List Move}, u.length ≤ n → Der g [X] u → Placed g start X →
    u = h ++ r → h.length ≤ (B + W * K * (L + 1)) * shifts h + W * K * (g.veil X + 1) + K
  | n, X, u, h, r, hn, hd, hX, e => by
    have hpiece : ∀ {Y : Nat} {y : List Move}, Der g [Y] y → Placed g start Y → (shifts y = 0 → y.length ≤ K) ∧ (0 < shifts y → y.length + 0 ≤ B * shifts y) := by
      intro Y y hy hY
      refine ⟨fun h => ?_, fun h => ?_⟩
      · rw [hK]
        exact Nat.le_trans (F.null_size hW _ (Nat.le_refl _) hy hY h) (nullBound_mono (by rw [hL]; exact rank_le _))
      · have := F.size hW hL hK hM _ (Nat.le_refl _) hy hY h
        rw [← hB] at this
        omega
    rw [Nat.add_mul]
    rcases hd.one with ⟨_, rfl⟩ | ⟨i, p, c, hi, rfl, hc, rfl⟩
    · have h1 : 1 ≤ B := by omega
      cases h with
      | nil => simp
      | cons m h =>
        simp only [List.cons_append, List.cons.injEq] at e
        obtain ⟨rfl, e⟩ := e
        have := congrArg List.length e
        simp only [List.length_nil, List.length_append] at this
        have : h = [] := List.length_eq_zero_iff.mp (by omega)
        subst this
        simp only [shifts, List.length_singleton, Nat.zero_add, Nat.mul_one]
        omega
    · have hm := List.mem_of_getElem? hi
      have hlen := Nat.mul_le_mul_right K (hW p hm)
      have hwhole := hpiece hd hX
      -- the whole or a beginning of the children
      rcases List.eq_nil_or_concat r with rfl | ⟨r', m, rfl⟩
      · rw [List.append_nil] at e
        rw [← e]
        by_cases hq : shifts (c ++ [.red i]) = 0
        · have := hwhole.1 hq; omega
        · have := hwhole.2 (by omega); omega
      · have ec : c = h ++ r' := by
          rw [List.concat_eq_append, ← List.append_assoc] at e
          exact (List.append_inj' e rfl).1
        by_cases hne : h = []
        · subst hne; simp
        obtain ⟨α, Y, β, a, y, b, h', r'', P, q1, q2⟩ := hc.begin ec hne
        obtain ⟨h1, h2, h3⟩ := F.part hi hX P
        have hy : y.length < (c ++ [Move.red i]).length := by rw [List.length_append, List.length_singleton]; omega
        have hlt : y.length < n := by omega
        -- what lies to the left
        have hleft : (shifts a = 0 ∧ a.length ≤ W * K) ∨ (0 < shifts a ∧ a.length ≤ B * shifts a + W * K) := by
          have hla : α.length * K ≤ W * K := by
            refine Nat.mul_le_mul_right K (Nat.le_trans ?_ (hW p hm))
            rw [P.syms, List.length_append]
            omega
          have hparts : ∀ α' Y' β' a' y' b', Part g α a α' Y' β' a' y' b' → (shifts y' = 0 → y'.length ≤ K) ∧ (0 < shifts y' → y'.length + 0 ≤ B * shifts y') := by
            rintro α' Y' β' a' y' b' ⟨p1, p2, p3, p4, p5⟩
            have P' : Part g p.body c α' Y' (β' ++ Y :: β) a' y' (b' ++ (y ++ b)) :=
              ⟨by rw [P.syms, p1]; simp, by rw [P.moves, p2]; simp, p3, p4, p5.append (P.here.append P.right)⟩
            exact hpiece p4 (F.part hi hX P').2.1
          rcases P.left.parts hparts with ⟨a1, a2⟩ | ⟨α', Y', β', a', y', b', P', a1, a2, a3, a4⟩ | ⟨a1, a2⟩
          · exact .inl ⟨a1, by omega⟩
          · have := (hparts _ _ _ _ _ _ P').2 a3
            have es : shifts a = shifts y' := by rw [P'.moves, shifts_append, shifts_append]; omega
            rw [es]
            exact .inr ⟨a3, by omega⟩
          · exact .inr ⟨a1, by omega⟩
        have ih := F.prefix_size hW hL hK hM hB y.length (Nat.le_refl _) P.here h2 q1
        rw [Nat.add_mul] at ih
        rw [q2, shifts_append, List.length_append, Nat.mul_add, Nat.mul_add]
        have hvL : W * K * (g.veil Y + 1) ≤ W * K * (L + 1) := Nat.mul_le_mul_left _ (by have : g.veil Y ≤ L := (by rw [hL]; exact rank_le _); omega)
        have hvX : W * K ≤ W * K * (g.veil p.head + 1) := Nat.le_mul_of_pos_right _ (by omega)
        rcases hleft with ⟨a1, a2⟩ | ⟨a1, a2⟩
        · by_cases ha : a = []
          · subst ha
            have hv : W * K * (g.veil Y + 1) ≤ W * K * (g.veil p.head + 1) := Nat.mul_le_mul_left _ (by have := veil_le a1 h1; omega)
            simp only [List.length_nil, shifts, Nat.mul_zero]
            omega
          · rcases P.here.one with ⟨_, rfl⟩ | ⟨i', p', c', hi', rfl, hc', e'⟩
            · -- a terminal
              have hs' : h'.length ≤ shifts h' := by
                cases h' with
                | nil => simp
                | cons m h' =>
                  simp only [List.cons_append, List.cons.injEq] at q1
                  obtain ⟨rfl, q1⟩ := q1
                  have := congrArg List.length q1
                  simp only [List.length_nil, List.length_append] at this
                  simp only [shifts, List.length_cons]
                  omega
              have hB1 : shifts h' ≤ B * shifts h' := Nat.le_mul_of_pos_left _ (by omega)
              omega
            · have hv := F.veil_lt (List.mem_of_getElem? hi') h2 (X := p.head) ⟨a, _, a1, ha, h1⟩
              have hv : W * K * (g.veil p'.head + 1) + W * K ≤ W * K * (g.veil p.head + 1) := by
                rw [← Nat.mul_succ]
                exact Nat.mul_le_mul_left _ (by omega)
              omega
        · have : W * K * (L + 1) ≤ W * K * (L + 1) * shifts a := Nat.le_mul_of_pos_right _ a1
          omega
termination_by n => n

/-- The beginnings of derivations of the start symbol have linearly many moves in the number of terminals. -/
theorem Fixed.linear (F : Fixed g start) : ∃ C, ∀ h r, Der g [start] (h ++ r) → h.length ≤ C * (shifts h + 1) := by
  obtain ⟨W, hW⟩ : ∃ W, ∀ p ∈ g.prods, p.body.length ≤ W := by
    generalize g.prods = ps
    induction ps with
    | nil => exact ⟨0, by simp⟩
    | cons p ps ih =>
      obtain ⟨W, hW⟩ := ih
      refine ⟨W + p.body.length, fun q hq => ?_⟩
      rcases List.mem_cons.mp hq with rfl | hq
      · omega
      · have := hW q hq; omega
  obtain ⟨L, hL⟩ : ∃ L, L = g.prods.length := ⟨_, rfl⟩
  obtain ⟨K, hK⟩ : ∃ K, K = nullBound W L := ⟨_, rfl⟩
  obtain ⟨M, hM⟩ : ∃ M, M = 1 + W * K := ⟨_, rfl⟩
  obtain ⟨B, hB⟩ : ∃ B, B = M * (2 * L + 2) + 1 := ⟨_, rfl⟩
  refine ⟨(B + W * K * (L + 1)) + W * K * (L + 1) + K, fun h r hd => ?_⟩
  have h1 := F.prefix_size hW hL hK hM hB _ (Nat.le_refl _) hd ⟨⟨[], [], fun y hy => by simpa using hy⟩, _, hd⟩ rfl
  have hv : W * K * (g.veil start + 1) ≤ W * K * (L + 1) := Nat.mul_le_mul_left _ (by have : g.veil start ≤ L := (by rw [hL]; exact rank_le _); omega)
  rw [Nat.mul_add, Nat.mul_one, Nat.add_assoc (B + W * K * (L + 1)), Nat.add_mul (B + W * K * (L + 1))]
  omega

end Grammar
end LogSurgeon
