import Verif.Proofs.RegexText
import Verif.Proofs.Bfs
/-
The text of an NFA can be read back.
-/
namespace LogSurgeon

/-- The texts of two items of a list, each followed by a separator or the end of the list, agree only if the items do. -/
def Cuts {α β : Type} (f : α → List Nat) (k : α → β) (e : Nat) : Prop :=
  ∀ a b x y r r', (x = 44 ∨ x = e) → (y = 44 ∨ y = e) → f a ++ x :: r = f b ++ y :: r' → k a = k b ∧ x = y ∧ r = r'

theorem joinWith_cons (a : List Nat) (as : List (List Nat)) (sep : List Nat) :
    joinWith sep (a :: as) = a ++ as.flatMap (sep ++ ·) := by
  induction as generalizing a with
  | nil => simp [joinWith]
  | cons b bs ih => rw [joinWith, ih]; simp; simp

theorem tail_inj {α β : Type} {f : α → List Nat} {k : α → β} {e : Nat} {st : List Nat} (hf : Cuts f k e) (he : e ≠ 44) : ∀ {l l' : List α} {r r' : List Nat},
    (l.map f).flatMap (([44] : List Nat) ++ ·) ++ (e :: st ++ r) = (l'.map f).flatMap (([44] : List Nat) ++ ·) ++ (e :: st ++ r') → l.map k = l'.map k ∧ r = r' := by
  intro l
  induction l with
  | nil =>
    intro l' r r' h
    cases l' with
    | nil => simpa using h
    | cons b l' => simp at h; exact absurd h.1 he
  | cons a l ih =>
    intro l' r r' h
    cases l' with
    | nil => simp at h; exact absurd h.1.symm he
    | cons b l' =>
      simp only [List.map_cons, List.flatMap_cons, List.singleton_append, List.cons_append, List.append_assoc, List.cons.injEq, true_and] at h
      have key : ∀ (m : List α) (r : List Nat), ∃ x t, (x = 44 ∨ x = e) ∧ (m.map f).flatMap (([44] : List Nat) ++ ·) ++ (e :: st ++ r) = x :: t := by
        intro m r
        cases m with
        | nil => exact ⟨e, st ++ r, .inr rfl, by simp⟩
        | cons c m => exact ⟨44, f c ++ ((m.map f).flatMap (([44] : List Nat) ++ ·) ++ (e :: st ++ r)), .inl rfl, by simp⟩
      obtain ⟨x, t, hx, e1⟩ := key l r
      obtain ⟨y, t', hy, e2⟩ := key l' r'
      simp only [List.singleton_append, List.cons_append] at e1 e2
      rw [e1, e2] at h
      obtain ⟨h1, h2, h3⟩ := hf a b x y t t' hx hy h
      obtain ⟨h4, h5⟩ := ih (l' := l') (r := r) (r' := r') (by
        simp only [List.singleton_append, List.cons_append]
        rw [e1, e2, h2, h3])
      exact ⟨by simp [h1, h4], h5⟩

theorem join_inj {α β : Type} {f : α → List Nat} {k : α → β} {e : Nat} {st : List Nat} (hf : Cuts f k e) (he : e ≠ 44)
    (h0 : ∀ a r r', f a ++ r ≠ e :: st ++ r') {l l' : List α} {r r' : List Nat}
    (h : joinWith [44] (l.map f) ++ (e :: st ++ r) = joinWith [44] (l'.map f) ++ (e :: st ++ r')) : l.map k = l'.map k ∧ r = r' := by
  cases l with
  | nil =>
    cases l' with
    | nil => simpa [joinWith] using h
    | cons b l' =>
      rw [List.map_cons, joinWith_cons, List.append_assoc] at h
      simp only [List.map_nil, joinWith, List.nil_append] at h
      exact absurd h.symm (h0 b _ r)
  | cons a l =>
    cases l' with
    | nil =>
      rw [List.map_cons, joinWith_cons, List.append_assoc] at h
      simp only [List.map_nil, joinWith, List.nil_append] at h
      exact absurd h (h0 a _ r')
    | cons b l' =>
      refine tail_inj hf he (l := a :: l) (l' := b :: l') (st := st) ?_
      rw [List.map_cons, List.map_cons, joinWith_cons, joinWith_cons] at h
      simp only [List.map_cons, List.flatMap_cons, List.append_assoc] at h ⊢
      exact congrArg ([44] ++ ·) h

theorem cut_class {p : Nat → Prop} : ∀ {a a' r r' : List Nat} {x y : Nat}, (∀ c ∈ a, p c) → (∀ c ∈ a', p c) → ¬ p x → ¬ p y →
    a ++ x :: r = a' ++ y :: r' → a = a' ∧ x = y ∧ r = r' := by
  intro a
  induction a with
  | nil =>
    intro a' r r' x y _ h' hx hy h
    cases a' with
    | nil => simpa using h
    | cons z a' => simp only [List.nil_append, List.cons_append, List.cons.injEq] at h; exact absurd (h.1 ▸ h' z (by simp)) hx
  | cons z a ih =>
    intro a' r r' x y h0 h' hx hy h
    cases a' with
    | nil => simp only [List.nil_append, List.cons_append, List.cons.injEq] at h; exact absurd (h.1 ▸ h0 z (by simp)) hy
    | cons z' a' =>
      simp only [List.cons_append, List.cons.injEq] at h
      obtain ⟨h1, h2⟩ := ih (fun c hc => h0 c (by simp [hc])) (fun c hc => h' c (by simp [hc])) hx hy h.2
      exact ⟨by rw [h.1, h1], h2⟩

theorem number_cut {a b x y : Nat} {r r' : List Nat} (hx : x < 48 ∨ 57 < x) (hy : y < 48 ∨ 57 < y) (h : decimalText a ++ x :: r = decimalText b ++ y :: r') :
    a = b ∧ x = y ∧ r = r' := by
  obtain ⟨h1, h2⟩ := cut_class (p := fun c => 48 ≤ c ∧ c ≤ 57) (fun c hc => decimalText_digit hc) (fun c hc => decimalText_digit hc) (by omega) (by omega) h
  exact ⟨decimalText_inj h1, h2⟩

theorem number_head (a : Nat) : ∃ c t, decimalText a = c :: t ∧ 48 ≤ c ∧ c ≤ 57 := by
  cases h : decimalText a with
  | nil =>
    have : Nat.toDigits 10 a = [] := by simpa [decimalText] using h
    exact absurd this (Nat.toDigits_ne_nil)
  | cons c t => exact ⟨c, t, rfl, decimalText_digit (k := a) (by rw [h]; simp)⟩

/-- The names of tags can be read back from lists of them. -/
def NamesPlain (name : Tag → List Nat) : Prop := ∀ t, name t ≠ [] ∧ 44 ∉ name t ∧ 93 ∉ name t

theorem names_cut {name : Tag → List Nat} (hn : NamesPlain name) : Cuts name name 93 := by
  intro a b x y r r' hx hy h
  refine cut_class (p := fun c => c ≠ 44 ∧ c ≠ 93) ?_ ?_ (by omega) (by omega) h
  · intro c hc
    exact ⟨fun e => (hn a).2.1 (e ▸ hc), fun e => (hn a).2.2 (e ▸ hc)⟩
  · intro c hc
    exact ⟨fun e => (hn b).2.1 (e ▸ hc), fun e => (hn b).2.2 (e ▸ hc)⟩

theorem names_start {name : Tag → List Nat} (hn : NamesPlain name) (t : Tag) (r r' : List Nat) : name t ++ r ≠ 93 :: [] ++ r' := by
  intro h
  obtain ⟨h1, _, h2⟩ := hn t
  cases he : name t with
  | nil => exact h1 he
  | cons c s =>
    rw [he] at h h2
    simp only [List.cons_append, List.nil_append, List.cons.injEq] at h
    exact h2 (by rw [h.1]; simp)

theorem tagged_cut {name : Tag → List Nat} (hn : NamesPlain name) {i j : Nat} {ts us : List Tag} {r r' : List Nat}
    (h : taggedText name i ts ++ r = taggedText name j us ++ r') : i = j ∧ ts.map name = us.map name ∧ r = r' := by
  have e1 : ascii "[" = [91] := by decide
  have e2 : ascii "," = [44] := by decide
  have e3 : ascii "]" = [93] := by decide
  simp only [taggedText, e1, e2, e3, List.append_assoc, List.cons_append, List.nil_append] at h
  obtain ⟨h1, _, h2⟩ := number_cut (by omega) (by omega) h
  obtain ⟨h3, h4⟩ := join_inj (names_cut hn) (by decide) (st := []) (names_start hn) (r := r) (r' := r') (by simpa using h2)
  exact ⟨h1, h3, h4⟩

theorem tagged_cuts {name : Tag → List Nat} (hn : NamesPlain name) : Cuts (fun p : Nat × Tag => taggedText name p.1 [p.2]) (fun p => (p.1, name p.2)) 125 := by
  intro a b x y r r' _ _ h
  obtain ⟨h1, h2, h3⟩ := tagged_cut hn h
  simp only [List.map_cons, List.map_nil, List.cons.injEq, and_true] at h2 h3
  exact ⟨Prod.ext h1 h2, h3⟩

theorem tagged_start {name : Tag → List Nat} (i : Nat) (ts : List Tag) (st r r' : List Nat) : taggedText name i ts ++ r ≠ 125 :: st ++ r' := by
  obtain ⟨c, t, e, h1, h2⟩ := number_head i
  simp only [taggedText, e]
  intro h
  simp only [List.cons_append, List.append_assoc, List.cons.injEq] at h
  omega

/-- What can be read back from the line of a state: everything, tags by their names. -/
def SerState.named (name : Tag → List Nat) (s : SerState) :
    Nat × Option Nat × List (Nat × Nat) × List Nat × List (Nat × List Nat) × Option (Nat × List Nat) × Option (Nat × List (List Nat)) :=
  (s.id, s.accepting, s.bytes, s.eps, s.posStart.map fun p => (p.1, name p.2), s.posEnd.map fun p => (p.1, name p.2), s.neg.map fun p => (p.1, p.2.map name))

/-- The accepting mark. -/
def acText : Option Nat → List Nat
  | some v => 97 :: (ascii "ccepting_tag=" ++ (decimalText v ++ [44]))
  | none => []

/-- What stands behind the accepting mark. -/
def restText (name : Tag → List Nat) (s : SerState) (r : List Nat) : List Nat :=
  98 :: (ascii "yte_transitions={" ++ (joinWith [44] (s.bytes.map fun p => p.1 :: 45 :: 45 :: 62 :: decimalText p.2) ++
    125 :: 44 :: (ascii "epsilon_transitions={" ++ (joinWith [44] (s.eps.map decimalText) ++
    125 :: 44 :: (ascii "positive_tagged_start_transitions={" ++ (joinWith [44] (s.posStart.map fun p => taggedText name p.1 [p.2]) ++
    125 :: 44 :: (ascii "positive_tagged_end_transitions={" ++ (joinWith [44] (s.posEnd.toList.map fun p => taggedText name p.1 [p.2]) ++
    125 :: 44 :: (ascii "negative_tagged_transition={" ++ (joinWith [44] (s.neg.toList.map fun p => taggedText name p.1 p.2) ++ 125 :: 10 :: r))))))))))

theorem text_eq (name : Tag → List Nat) (s : SerState) (r : List Nat) :
    s.text name ++ 10 :: r = decimalText s.id ++ 58 :: (acText s.accepting ++ restText name s r) := by
  have e1 : ascii ":" = [58] := by decide
  have e2 : ascii "," = [44] := by decide
  have e3 : ascii "accepting_tag=" = 97 :: ascii "ccepting_tag=" := by decide
  have e4 : ascii "byte_transitions={" = 98 :: ascii "yte_transitions={" := by decide
  have e5 : ascii "},epsilon_transitions={" = 125 :: 44 :: ascii "epsilon_transitions={" := by decide
  have e6 : ascii "},positive_tagged_start_transitions={" = 125 :: 44 :: ascii "positive_tagged_start_transitions={" := by decide
  have e7 : ascii "},positive_tagged_end_transitions={" = 125 :: 44 :: ascii "positive_tagged_end_transitions={" := by decide
  have e8 : ascii "},negative_tagged_transition={" = 125 :: 44 :: ascii "negative_tagged_transition={" := by decide
  have e9 : ascii "}" = [125] := by decide
  have e10 : ascii "-->" = [45, 45, 62] := by decide
  obtain ⟨id, ac, by', ep, ps, pe, ng⟩ := s
  cases ac <;> cases pe <;> cases ng <;>
    simp only [SerState.text, acText, restText, e1, e2, e3, e4, e5, e6, e7, e8, e9, e10, List.append_assoc, List.cons_append, List.nil_append, Option.toList,
      List.map_nil, List.map_cons, joinWith]

theorem line_inj {name : Tag → List Nat} (hn : NamesPlain name) {s s' : SerState} {r r' : List Nat}
    (h : s.text name ++ 10 :: r = s'.text name ++ 10 :: r') : s.named name = s'.named name ∧ r = r' := by
  rw [text_eq, text_eq] at h
  obtain ⟨h1, _, h⟩ := number_cut (by omega) (by omega) h
  obtain ⟨h2, h⟩ : s.accepting = s'.accepting ∧ restText name s r = restText name s' r' := by
    cases hc : s.accepting with
    | none =>
      cases hc' : s'.accepting with
      | none => rw [hc, hc'] at h; exact ⟨rfl, by simpa [acText] using h⟩
      | some v' => rw [hc, hc'] at h; simp [acText, restText] at h
    | some v =>
      cases hc' : s'.accepting with
      | none => rw [hc, hc'] at h; simp [acText, restText] at h
      | some v' =>
        rw [hc, hc'] at h
        simp only [acText, List.append_assoc, List.cons_append, List.cons.injEq, true_and] at h
        obtain ⟨g1, _, g2⟩ := number_cut (by omega) (by omega) (List.append_cancel_left h)
        exact ⟨by rw [g1], by simpa using g2⟩
  unfold restText at h
  simp only [List.cons.injEq, true_and] at h
  have h := List.append_cancel_left h
  obtain ⟨h3, h⟩ := join_inj (f := fun p : Nat × Nat => p.1 :: 45 :: 45 :: 62 :: decimalText p.2) (k := fun p => p) (e := 125) (st := [44]) (by
    intro a b x y r r' hx hy h
    simp only [List.cons_append, List.cons.injEq, true_and] at h
    obtain ⟨g1, g2⟩ := number_cut (by omega) (by omega) h.2
    exact ⟨Prod.ext h.1 g1, g2⟩) (by decide) (by
    intro a r r' h
    simp at h) (by simpa using h)
  have h := List.append_cancel_left h
  obtain ⟨h4, h⟩ := join_inj (f := decimalText) (k := fun p => p) (e := 125) (st := [44]) (by
    intro a b x y r r' hx hy h
    exact number_cut (by omega) (by omega) h) (by decide) (by
    intro a r r' h
    obtain ⟨c, t, e, g1, g2⟩ := number_head a
    rw [e] at h
    simp only [List.cons_append, List.cons.injEq] at h
    omega) (by simpa using h)
  have h := List.append_cancel_left h
  obtain ⟨h5, h⟩ := join_inj (tagged_cuts hn) (st := [44]) (by decide) (fun a => tagged_start _ _ _) (by simpa using h)
  have h := List.append_cancel_left h
  obtain ⟨h6, h⟩ := join_inj (tagged_cuts hn) (st := [44]) (by decide) (fun a => tagged_start _ _ _) (by simpa using h)
  have h := List.append_cancel_left h
  obtain ⟨h7, h⟩ := join_inj (f := fun p : Nat × List Tag => taggedText name p.1 p.2) (k := fun p => (p.1, p.2.map name)) (e := 125) (st := [10]) (by
    intro a b x y r r' _ _ h
    obtain ⟨g1, g2, g3⟩ := tagged_cut hn h
    simp only [List.cons.injEq] at g3
    exact ⟨Prod.ext g1 g2, g3⟩) (by decide) (fun a => tagged_start _ _ _) (by simpa using h)
  simp only [List.map_id'] at h3 h4
  have opt : ∀ {α β : Type} {o o' : Option α} {k : α → β}, o.toList.map k = o'.toList.map k → o.map k = o'.map k := by
    intro α β o o' k h
    cases o <;> cases o' <;> simp at h ⊢
    exact h
  refine ⟨?_, h⟩
  simp only [SerState.named, h1, h2, h3, h4, h5, opt h6, opt h7]

theorem lines_inj {name : Tag → List Nat} (hn : NamesPlain name) : ∀ {l l' : List SerState},
    l.flatMap (fun s => s.text name ++ [10]) = l'.flatMap (fun s => s.text name ++ [10]) → l.map (·.named name) = l'.map (·.named name) := by
  intro l
  induction l with
  | nil =>
    intro l' h
    cases l' with
    | nil => rfl
    | cons s' l' => simp at h
  | cons s l ih =>
    intro l' h
    cases l' with
    | nil => simp at h
    | cons s' l' =>
      simp only [List.flatMap_cons, List.append_assoc, List.singleton_append] at h
      obtain ⟨h1, h2⟩ := line_inj hn h
      simp only [List.map_cons, h1, ih h2]

theorem serialize_lines (name : Tag → List Nat) (l : List SerState) (hne : l ≠ []) :
    joinWith [10] (l.map (SerState.text name)) ++ [10] = l.flatMap (fun s => s.text name ++ [10]) := by
  cases l with
  | nil => exact absurd rfl hne
  | cons s l =>
    rw [List.map_cons, joinWith_cons]
    clear hne
    induction l generalizing s with
    | nil => simp
    | cons b l ih => simpa using ih b

end LogSurgeon
