import Verif.Proofs.Buffer
import Mathlib.Data.List.Chain
/-
Facts about the division of a token sequence into events.
-/
namespace LogSurgeon

theorem nl_rest_text {s : List Nat} {x : PTok} (h : x.a < x.e) : x.nl.text s ++ x.rest.text s = x.text s := by
  exact slice_split (a := x.a) (m := x.a + 1) (e := x.e) (by omega) h

/-- The token sequence ends with its only end token. -/
def EndLast : List PTok → Prop
  | [] => False
  | [x] => x.kind = tokenEnd ∧ x.a = x.e
  | x :: xs => x.kind ≠ tokenEnd ∧ x.a < x.e ∧ EndLast xs

/-- No end token. -/
def NoEnd (xs : List PTok) : Prop := ∀ x ∈ xs, x.kind ≠ tokenEnd ∧ x.a < x.e

/-- Nothing is lost, duplicated or reordered. -/
theorem segment_text {s : List Nat} : ∀ (xs : List PTok) (cur : Option PEvent), EndLast xs →
    (segment s cur xs).flatMap (PEvent.text s) = curText s cur ++ xs.flatMap (PTok.text s) := by
  intro xs
  induction xs with
  | nil => intro cur h; exact h.elim
  | cons x xs ih =>
    intro cur h
    cases xs with
    | nil =>
      obtain ⟨h1, h2⟩ := h
      have hx : x.text s = [] := by unfold PTok.text slice; simp [h2]
      cases cur with
      | none => simp [segment, h1, curText, hx, PEvent.text]
      | some e => simp [segment, h1, curText, hx]
    | cons y ys =>
      obtain ⟨h1, h2, h3⟩ := h
      have hnr := nl_rest_text (s := s) h2
      cases cur with
      | none =>
        rw [segment, if_neg h1]
        split
        · rw [List.flatMap_cons, ih _ h3, List.flatMap_cons (x := x), ← hnr]
          simp [curText, PEvent.start, PEvent.text]
        · rw [ih _ h3, List.flatMap_cons]
          simp [curText, text_start]
      | some e =>
        rw [segment, if_neg h1]
        split
        · rw [List.flatMap_cons, ih _ h3, List.flatMap_cons (x := x), text_add]
          simp [curText]
        · split
          · rw [List.flatMap_cons, ih _ h3, List.flatMap_cons (x := x), text_add, ← hnr]
            simp [curText, text_start]
          · rw [ih _ h3, List.flatMap_cons]
            simp [curText, text_add]

/-- The finished events of a sequence without end token are a prefix. -/
theorem segment_text_prefix {s : List Nat} : ∀ (xs : List PTok) (cur : Option PEvent), NoEnd xs →
    (segment s cur xs).flatMap (PEvent.text s) <+: curText s cur ++ xs.flatMap (PTok.text s) := by
  intro xs
  induction xs with
  | nil => intro cur _; cases cur <;> simp [segment]
  | cons x xs ih =>
    intro cur h
    obtain ⟨h1, h2⟩ := h x (by simp)
    have h3 : NoEnd xs := fun y hy => h y (by simp [hy])
    have hnr := nl_rest_text (s := s) h2
    cases cur with
    | none =>
      rw [segment, if_neg h1]
      split
      · rw [List.flatMap_cons, List.flatMap_cons, ← hnr]
        have := ih (some (.start x.rest)) h3
        have hone : PEvent.text s ⟨false, [x.nl]⟩ = x.nl.text s := by simp [PEvent.text]
        rw [hone]
        simp only [curText, text_start, List.nil_append, List.flatMap_cons, List.flatMap_nil, List.append_nil,
          List.append_assoc] at this ⊢
        exact (List.prefix_append_right_inj _).mpr this
      · rw [List.flatMap_cons]
        have := ih (some (.start x)) h3
        simpa [curText, text_start] using this
    | some e =>
      rw [segment, if_neg h1]
      split
      · rw [List.flatMap_cons, List.flatMap_cons (x := x), text_add]
        have := ih none h3
        simp only [curText, List.nil_append, List.append_assoc] at this ⊢
        exact (List.prefix_append_right_inj _).mpr ((List.prefix_append_right_inj _).mpr this)
      · split
        · rw [List.flatMap_cons, List.flatMap_cons (x := x), text_add, ← hnr]
          have := ih (some (.start x.rest)) h3
          simp only [curText, text_start, List.append_assoc] at this ⊢
          exact (List.prefix_append_right_inj _).mpr ((List.prefix_append_right_inj _).mpr this)
        · rw [List.flatMap_cons]
          have := ih (some (e.add x)) h3
          simpa [curText, text_add] using this

/-- More tokens (of a longer text) only add events. -/
theorem segment_prefix {s t : List Nat} : ∀ (xs ys : List PTok) (cur : Option PEvent), NoEnd xs → xs <+: ys →
    (∀ x ∈ xs, x.a < s.length) → segment s cur xs <+: segment (s ++ t) cur ys := by
  intro xs
  induction xs with
  | nil => intro ys cur _ _ _; cases cur <;> simp [segment]
  | cons x xs ih =>
    intro ys cur h hp hl
    obtain ⟨zs, rfl⟩ : ∃ zs, ys = x :: zs := by
      obtain ⟨r, rfl⟩ := hp; exact ⟨xs ++ r, rfl⟩
    have hp' : xs <+: zs := (List.cons_prefix_cons.mp hp).2
    obtain ⟨h1, h2⟩ := h x (by simp)
    have h3 : NoEnd xs := fun y hy => h y (by simp [hy])
    have h4 : ∀ y ∈ xs, y.a < s.length := fun y hy => hl y (by simp [hy])
    have hsn : x.startsNl (s ++ t) = x.startsNl s := by
      unfold PTok.startsNl; rw [List.getElem?_append_left (hl x (by simp))]
    cases cur with
    | none =>
      rw [segment, segment, if_neg h1, if_neg h1]
      split
      · exact List.cons_prefix_cons.mpr ⟨rfl, ih zs _ h3 hp' h4⟩
      · exact ih zs _ h3 hp' h4
    | some e =>
      rw [segment, segment, if_neg h1, if_neg h1, hsn]
      split
      · exact List.cons_prefix_cons.mpr ⟨rfl, ih zs _ h3 hp' h4⟩
      · split
        · exact List.cons_prefix_cons.mpr ⟨rfl, ih zs _ h3 hp' h4⟩
        · exact ih zs _ h3 hp' h4

/-- At most one event per token. -/
theorem segment_length {s : List Nat} : ∀ (xs : List PTok) (cur : Option PEvent), (segment s cur xs).length ≤ xs.length := by
  intro xs
  induction xs with
  | nil => intro cur; cases cur <;> simp [segment]
  | cons x xs ih =>
    intro cur
    cases cur with
    | none =>
      rw [segment]
      split
      · simp
      · split
        · have := ih (some (.start x.rest)); simp only [List.length_cons]; omega
        · have := ih (some (.start x)); simp only [List.length_cons]; omega
    | some e =>
      rw [segment]
      split
      · simp
      · split
        · have := ih none; simp only [List.length_cons]; omega
        · split
          · have := ih (some (.start x.rest)); simp only [List.length_cons]; omega
          · have := ih (some (e.add x)); simp only [List.length_cons]; omega

/-- What the lexer says about tokens with a newline. -/
def NlToks (s : List Nat) (xs : List PTok) : Prop :=
  ∀ x ∈ xs, (x.kind = tokenNewlineTimestamp → x.startsNl s = true) ∧ (x.kind = tokenNewline → x.text s = [newline])

theorem nl_text {s : List Nat} {x : PTok} (h : x.startsNl s = true) : x.nl.text s = [newline] := by
  unfold PTok.startsNl at h
  unfold PTok.text PTok.nl slice
  simp only [Nat.add_sub_cancel_left]
  rw [beq_iff_eq] at h
  rw [List.take_one, List.head?_drop, h]; rfl

/-- The event in progress. -/
def CurOk (s : List Nat) : Option PEvent → Prop
  | none => True
  | some e => e.toks ≠ [] ∧
    (e.ts = true → (∃ x, e.toks.head? = some x ∧ x.isTs = true) ∧
      ∀ (i : Nat) (y : PTok), 0 < i → e.toks[i]? = some y → y.kind ≠ tokenNewlineTimestamp) ∧
    (e.ts = false → (∀ x, e.toks.head? = some x → x.isTs = false) ∧
      ∀ (i : Nat) (y : PTok), 0 < i → e.toks[i]? = some y → y.kind ≠ tokenNewline ∧ y.startsNl s = false)

theorem curOk_start (s : List Nat) (x : PTok) : CurOk s (some (.start x)) := by
  have : ∀ (i : Nat) (y : PTok), 0 < i → [x][i]? = some y → False := by
    intro i y hi h
    rw [List.getElem?_eq_none (by simp; omega)] at h; cases h
  refine ⟨by simp [PEvent.start], fun h => ⟨⟨x, rfl, h⟩, fun i y hi hy => (this i y hi hy).elim⟩, fun h => ⟨?_, fun i y hi hy => (this i y hi hy).elim⟩⟩
  intro z hz
  simp only [PEvent.start, List.head?_cons, Option.some.injEq] at hz
  subst hz; exact h

theorem head_add {e : PEvent} (h : e.toks ≠ []) (x : PTok) : (e.add x).toks.head? = e.toks.head? := by
  unfold PEvent.add
  cases hl : e.toks with
  | nil => exact absurd hl h
  | cons y ys => rfl

theorem get_add {e : PEvent} {x y : PTok} {i : Nat} (h : (e.add x).toks[i]? = some y) :
    e.toks[i]? = some y ∨ (i + 1 = (e.add x).toks.length ∧ y = x) := by
  simp only [PEvent.add] at h ⊢
  rcases Nat.lt_or_ge i e.toks.length with hl | hl
  · rw [List.getElem?_append_left hl] at h; exact .inl h
  · rw [List.getElem?_append_right hl] at h
    cases hj : i - e.toks.length with
    | zero =>
      rw [hj] at h; simp at h; subst h
      right; refine ⟨?_, rfl⟩
      simp; omega
    | succ j => rw [hj] at h; simp at h

/-- Extending an event that goes on. -/
theorem curOk_add {s : List Nat} {e : PEvent} {x : PTok} (h : CurOk s (some e))
    (h1 : ¬ (e.ts = false ∧ x.kind = tokenNewline))
    (h2 : ¬ ((e.ts = true ∧ x.kind = tokenNewlineTimestamp) ∨ (e.ts = false ∧ x.startsNl s = true))) : CurOk s (some (e.add x)) := by
  obtain ⟨a1, a2, a3⟩ := h
  refine ⟨by simp [PEvent.add], fun hts => ?_, fun hts => ?_⟩
  · obtain ⟨b1, b2⟩ := a2 hts
    refine ⟨by rw [head_add a1]; exact b1, fun i y hi hy => ?_⟩
    rcases get_add hy with hy | ⟨_, rfl⟩
    · exact b2 i y hi hy
    · exact fun hk => h2 (.inl ⟨hts, hk⟩)
  · obtain ⟨b1, b2⟩ := a3 hts
    refine ⟨by rw [head_add a1]; exact b1, fun i y hi hy => ?_⟩
    rcases get_add hy with hy | ⟨_, rfl⟩
    · exact b2 i y hi hy
    · refine ⟨fun hk => h1 ⟨hts, hk⟩, ?_⟩
      cases hs : y.startsNl s with
      | false => rfl
      | true => exact absurd (.inr ⟨hts, hs⟩) h2

theorem shape_cur {s : List Nat} {e : PEvent} (h : CurOk s (some e)) : e.Shape s :=
  ⟨h.2.1, fun hts => ⟨(h.2.2 hts).1, fun i y hi _ hy => (h.2.2 hts).2 i y hi hy⟩⟩

theorem shape_add {s : List Nat} {e : PEvent} {x : PTok} (h : CurOk s (some e)) (hk : e.ts = true → x.kind ≠ tokenNewlineTimestamp) :
    (e.add x).Shape s := by
  obtain ⟨a1, a2, a3⟩ := h
  refine ⟨fun hts => ?_, fun hts => ?_⟩
  · obtain ⟨b1, b2⟩ := a2 hts
    refine ⟨by rw [head_add a1]; exact b1, fun i y hi hy => ?_⟩
    rcases get_add hy with hy | ⟨_, rfl⟩
    · exact b2 i y hi hy
    · exact hk hts
  · obtain ⟨b1, b2⟩ := a3 hts
    refine ⟨by rw [head_add a1]; exact b1, fun i y hi hl hy => ?_⟩
    rcases get_add hy with hy | ⟨h1, rfl⟩
    · exact b2 i y hi hy
    · omega

/-- The first event contains the event in progress. -/
theorem segment_head {s : List Nat} : ∀ (xs : List PTok) (e e' : PEvent), e.toks ≠ [] → (segment s (some e) xs).head? = some e' →
    e'.ts = e.ts ∧ e'.toks.head? = e.toks.head? := by
  intro xs
  induction xs with
  | nil => intro e e' _ h; simp [segment] at h
  | cons x xs ih =>
    intro e e' hne h
    rw [segment] at h
    split at h
    · simp at h; subst h; exact ⟨rfl, rfl⟩
    · split at h
      · simp at h; subst h; exact ⟨rfl, head_add hne x⟩
      · split at h
        · simp at h; subst h; exact ⟨rfl, head_add hne _⟩
        · obtain ⟨h1, h2⟩ := ih (e.add x) e' (by simp [PEvent.add]) h
          exact ⟨h1, h2.trans (head_add hne x)⟩

theorem last_add (e : PEvent) (x : PTok) : (e.add x).toks.getLast? = some x := by simp [PEvent.add]

/-- Every event has the right shape, and successive events fit together. -/
theorem segment_shape {s : List Nat} : ∀ (xs : List PTok) (cur : Option PEvent), NlToks s xs → CurOk s cur →
    (∀ e ∈ segment s cur xs, e.Shape s) ∧ (segment s cur xs).IsChain (PEvent.Next s) := by
  intro xs
  induction xs with
  | nil => intro cur _ _; cases cur <;> exact ⟨(fun e he => by simp [segment] at he), .nil⟩
  | cons x xs ih =>
    intro cur hN hcur
    have hN' : NlToks s xs := fun y hy => hN y (by simp [hy])
    obtain ⟨hx1, hx2⟩ := hN x (by simp)
    have hnlk : x.nl.kind = tokenUncaught := rfl
    cases cur with
    | none =>
      rw [segment]
      split
      · refine ⟨fun e he => ?_, .singleton _⟩
        simp only [List.mem_singleton] at he; subst he
        exact ⟨(fun h => by cases h), fun _ => ⟨(fun x hx => by cases hx), fun i y _ _ hy => by simp at hy⟩⟩
      · split
        · rename_i hk
          obtain ⟨i1, i2⟩ := ih (some (.start x.rest)) hN' (curOk_start s _)
          refine ⟨fun e he => ?_, ?_⟩
          · rcases List.mem_cons.mp he with rfl | he
            · refine ⟨(fun h => by cases h), fun _ => ⟨?_, fun i y hi hl hy => by simp at hl⟩⟩
              intro z hz
              simp only [List.head?_cons, Option.some.injEq] at hz
              subst hz; rfl
            · exact i1 e he
          · rw [List.isChain_cons]
            refine ⟨fun e' he' => ⟨⟨x.nl, rfl, nl_text (hx1 hk)⟩, (fun h => by cases h)⟩, i2⟩
        · exact ih (some (.start x)) hN' (curOk_start s _)
    | some e =>
      rw [segment]
      split
      · refine ⟨fun e' he => ?_, .singleton _⟩
        simp only [List.mem_singleton] at he; subst he
        exact shape_cur hcur
      · split
        · rename_i hk
          obtain ⟨i1, i2⟩ := ih none hN' trivial
          refine ⟨fun e' he => ?_, ?_⟩
          · rcases List.mem_cons.mp he with rfl | he
            · exact shape_add hcur (fun h => by rw [hk.1] at h; cases h)
            · exact i1 e' he
          · rw [List.isChain_cons]
            refine ⟨fun e' he' => ⟨⟨x, last_add _ _, hx2 hk.2⟩, fun h => ?_⟩, i2⟩
            have : e.ts = true := h
            rw [hk.1] at this; cases this
        · split
          · rename_i hk1 hk
            have hst : x.startsNl s = true := by
              rcases hk with ⟨_, hk⟩ | ⟨_, hk⟩
              · exact hx1 hk
              · exact hk
            obtain ⟨i1, i2⟩ := ih (some (.start x.rest)) hN' (curOk_start s _)
            refine ⟨fun e' he => ?_, ?_⟩
            · rcases List.mem_cons.mp he with rfl | he
              · exact shape_add hcur (fun _ => by rw [hnlk]; decide)
              · exact i1 e' he
            · rw [List.isChain_cons]
              refine ⟨fun e' he' => ⟨⟨x.nl, last_add _ _, nl_text hst⟩, fun h => ?_⟩, i2⟩
              have hts : e.ts = true := h
              have hkk : x.kind = tokenNewlineTimestamp := by
                rcases hk with ⟨_, hk⟩ | ⟨h2, _⟩
                · exact hk
                · rw [h2] at hts; cases hts
              obtain ⟨g1, g2⟩ := segment_head xs (.start x.rest) e' (by simp [PEvent.start]) he'
              refine ⟨?_, x.rest, g2, hkk⟩
              rw [g1]
              show x.rest.isTs = true
              have : x.rest.kind = tokenNewlineTimestamp := hkk
              simp [PTok.isTs, this]
          · rename_i hk1 hk2
            exact ih (some (e.add x)) hN' (curOk_add hcur hk1 hk2)

/-- An event with a timestamp has a first token. -/
theorem segment_nonempty {s : List Nat} : ∀ (xs : List PTok) (cur : Option PEvent), (∀ e, cur = some e → e.toks ≠ []) →
    ∀ e ∈ segment s cur xs, e.ts = true → ∃ x, e.toks.head? = some x := by
  have key : ∀ l : List PTok, l ≠ [] → ∃ x, l.head? = some x := by
    intro l h
    cases l with
    | nil => exact absurd rfl h
    | cons a l => exact ⟨a, rfl⟩
  intro xs
  induction xs with
  | nil => intro cur _ e he; cases cur <;> simp [segment] at he
  | cons x xs ih =>
    intro cur hcur e he hts
    cases cur with
    | none =>
      rw [segment] at he
      split at he
      · simp only [List.mem_singleton] at he; subst he; cases hts
      · split at he
        · rcases List.mem_cons.mp he with rfl | he
          · cases hts
          · exact ih _ (fun e' h => by cases h; simp [PEvent.start]) e he hts
        · exact ih _ (fun e' h => by cases h; simp [PEvent.start]) e he hts
    | some e0 =>
      rw [segment] at he
      split at he
      · simp only [List.mem_singleton] at he; subst he; exact key _ (hcur _ rfl)
      · split at he
        · rcases List.mem_cons.mp he with rfl | he
          · exact key _ (by simp [PEvent.add])
          · exact ih _ (fun e' h => by cases h) e he hts
        · split at he
          · rcases List.mem_cons.mp he with rfl | he
            · exact key _ (by simp [PEvent.add])
            · exact ih _ (fun e' h => by cases h; simp [PEvent.start]) e he hts
          · exact ih _ (fun e' h => by cases h; simp [PEvent.add]) e he hts

/-- Where the tokens of an event after its first come from. -/
theorem segment_later {s : List Nat} {P : PTok → Prop} : ∀ (xs : List PTok) (cur : PEvent), (∀ x ∈ xs, P x ∧ P x.nl) →
    (cur.toks ≠ [] ∧ ∀ (i : Nat) (y : PTok), 0 < i → cur.toks[i]? = some y → P y) →
    ∀ e ∈ segment s (some cur) xs, ∀ (i : Nat) (y : PTok), 0 < i → e.toks[i]? = some y → P y := by
  have hstart : ∀ x : PTok, (PEvent.start x).toks ≠ [] ∧ ∀ (i : Nat) (y : PTok), 0 < i → (PEvent.start x).toks[i]? = some y → P y := by
    intro x
    refine ⟨by simp [PEvent.start], fun i y hi hy => ?_⟩
    rw [PEvent.start, List.getElem?_eq_none (by simp; omega)] at hy; cases hy
  have hadd : ∀ {e : PEvent} {x : PTok}, (∀ (i : Nat) (y : PTok), 0 < i → e.toks[i]? = some y → P y) → P x →
      ∀ (i : Nat) (y : PTok), 0 < i → (e.add x).toks[i]? = some y → P y := by
    intro e x he hx i y hi hy
    rcases get_add hy with h | ⟨_, rfl⟩
    · exact he i y hi h
    · exact hx
  intro xs
  induction hn : xs.length using Nat.strongRecOn generalizing xs with
  | ind n ih =>
  intro cur h hc e he
  cases xs with
  | nil => simp [segment] at he
  | cons x xs =>
    have h' : ∀ y ∈ xs, P y ∧ P y.nl := fun y hy => h y (by simp [hy])
    have hx := h x (by simp)
    rw [segment] at he
    split at he
    · simp only [List.mem_singleton] at he; subst he; exact hc.2
    · split at he
      · rcases List.mem_cons.mp he with rfl | he
        · exact hadd hc.2 hx.1
        · cases xs with
          | nil => simp [segment] at he
          | cons z zs =>
            have h2 : ∀ y ∈ zs, P y ∧ P y.nl := fun y hy => h' y (by simp [hy])
            rw [segment] at he
            split at he
            · simp only [List.mem_singleton] at he; subst he; intro i y _ hy; simp at hy
            · split at he
              · rcases List.mem_cons.mp he with rfl | he
                · intro i y hi hy
                  rw [List.getElem?_eq_none (by simp; omega)] at hy; cases hy
                · exact ih zs.length (by rw [← hn]; simp; omega) zs rfl _ h2 (hstart _) e he
              · exact ih zs.length (by rw [← hn]; simp; omega) zs rfl _ h2 (hstart _) e he
      · split at he
        · rcases List.mem_cons.mp he with rfl | he
          · exact hadd hc.2 hx.2
          · exact ih xs.length (by rw [← hn]; simp) xs rfl _ h' (hstart _) e he
        · exact ih xs.length (by rw [← hn]; simp) xs rfl _ h' ⟨by simp [PEvent.add], hadd hc.2 hx.1⟩ e he

theorem segment_later_none {s : List Nat} {P : PTok → Prop} (xs : List PTok) (h : ∀ x ∈ xs.tail, P x ∧ P x.nl) :
    ∀ e ∈ segment s none xs, ∀ (i : Nat) (y : PTok), 0 < i → e.toks[i]? = some y → P y := by
  have hstart : ∀ x : PTok, (PEvent.start x).toks ≠ [] ∧ ∀ (i : Nat) (y : PTok), 0 < i → (PEvent.start x).toks[i]? = some y → P y := by
    intro x
    refine ⟨by simp [PEvent.start], fun i y hi hy => ?_⟩
    rw [PEvent.start, List.getElem?_eq_none (by simp; omega)] at hy; cases hy
  intro e he
  cases xs with
  | nil => simp [segment] at he
  | cons z zs =>
    simp only [List.tail_cons] at h
    rw [segment] at he
    split at he
    · simp only [List.mem_singleton] at he; subst he; intro i y _ hy; simp at hy
    · split at he
      · rcases List.mem_cons.mp he with rfl | he
        · intro i y hi hy
          rw [List.getElem?_eq_none (by simp; omega)] at hy; cases hy
        · exact segment_later zs _ h (hstart _) e he
      · exact segment_later zs _ h (hstart _) e he

/-- A property of all events of a token sequence; only a token that is not the first one can be divided for the reason that it
begins with a newline. -/
theorem segment_ind {s : List Nat} {Q : PEvent → Prop} (h0 : Q ⟨false, []⟩) : ∀ (xs : List PTok),
    (∀ x ∈ xs, x.kind = tokenNewlineTimestamp → Q ⟨false, [x.nl]⟩ ∧ Q (.start x.rest)) →
    (∀ x ∈ xs, x.kind ≠ tokenEnd → x.kind ≠ tokenNewlineTimestamp → Q (.start x)) →
    (∀ x ∈ xs.tail, x.kind ≠ tokenEnd → x.kind ≠ tokenNewline → x.startsNl s = true → Q (.start x.rest)) →
    (∀ e, Q e → ∀ x ∈ xs, x.kind ≠ tokenEnd → Q (e.add x) ∧ Q (e.add x.nl)) →
    (∀ e ∈ segment s none xs, Q e) ∧
    ((∀ x ∈ xs, x.kind ≠ tokenEnd → x.kind ≠ tokenNewline → x.startsNl s = true → Q (.start x.rest)) → ∀ c, Q c → ∀ e ∈ segment s (some c) xs, Q e) := by
  intro xs
  induction xs with
  | nil => intro _ _ _ _; exact ⟨(fun e he => by simp [segment] at he), fun _ c _ e he => by simp [segment] at he⟩
  | cons x xs ih =>
    intro h1 h2 h3 h4
    obtain ⟨i1, i2⟩ := ih (fun y hy => h1 y (by simp [hy])) (fun y hy => h2 y (by simp [hy]))
      (fun y hy => h3 y (List.mem_of_mem_tail hy)) (fun e he y hy => h4 e he y (by simp [hy]))
    have i2 := i2 (fun y hy => h3 y hy)
    constructor
    · intro e he
      rw [segment] at he
      split at he
      · simp only [List.mem_singleton] at he; subst he; exact h0
      · rename_i hend
        split at he
        · rename_i hk
          rcases List.mem_cons.mp he with rfl | he
          · exact (h1 x (by simp) hk).1
          · exact i2 _ (h1 x (by simp) hk).2 e he
        · rename_i hk
          exact i2 _ (h2 x (by simp) hend hk) e he
    · intro h5 c hc e he
      rw [segment] at he
      split at he
      · simp only [List.mem_singleton] at he; subst he; exact hc
      · rename_i hend
        split at he
        · rcases List.mem_cons.mp he with rfl | he
          · exact (h4 c hc x (by simp) hend).1
          · exact i1 e he
        · rename_i hn
          split at he
          · rename_i hk
            rcases List.mem_cons.mp he with rfl | he
            · exact (h4 c hc x (by simp) hend).2
            · refine i2 _ ?_ e he
              rcases hk with ⟨_, hk⟩ | ⟨hts, hk⟩
              · exact (h1 x (by simp) hk).2
              · exact h5 x (by simp) hend (fun h => hn ⟨hts, h⟩) hk
          · exact i2 _ (h4 c hc x (by simp) hend).1 e he

end LogSurgeon
