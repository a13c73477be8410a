import Verif.Proofs.NfaLang
import Verif.Model.Schema
import Verif.Proofs.Ranges
/-
Where `add_to_nfa` puts its transitions: between the root, the end state and the new states only, and with
byte labels among the possible inputs of the expression.
-/
namespace LogSurgeon

def Near (B : Nat → Prop) (n n' : Nfa) (r e : Nat) : Prop :=
  n.states.length ≤ n'.states.length ∧ ∀ p l q, n'.Edge p l q → n.Edge p l q ∨
    ((p = r ∨ p = e ∨ n.states.length ≤ p) ∧ (q = e ∨ n.states.length ≤ q) ∧ ∀ c, l = .byte c → B c)

def NearF (B : Nat → Prop) (f : Adder) : Prop :=
  ∀ n e n', f n e = some n' → n.root < n.states.length → e < n.states.length →
    n'.root = n.root ∧ Near B n n' n.root e

theorem Near.refl (B) (n : Nfa) (r e : Nat) : Near B n n r e := ⟨Nat.le_refl _, fun _ _ _ h => .inl h⟩

theorem Near.trans {B} {n n1 n2 : Nfa} {r e r' e' : Nat} (h : Near B n n1 r e) (h' : Near B n1 n2 r' e')
    (hr : r' = r ∨ r' = e ∨ n.states.length ≤ r') (he : e' = e ∨ n.states.length ≤ e') : Near B n n2 r e := by
  refine ⟨Nat.le_trans h.1 h'.1, fun p l q hp => ?_⟩
  have hl := h.1
  rcases h'.2 p l q hp with hp | ⟨h1, h2, h3⟩
  · exact h.2 p l q hp
  · refine .inr ⟨?_, ?_, h3⟩
    · rcases h1 with rfl | rfl | h1
      · exact hr
      · rcases he with rfl | he <;> simp_all
      · exact .inr (.inr (by omega))
    · rcases h2 with rfl | h2
      · exact he
      · exact .inr (by omega)

theorem Near.mono {B C : Nat → Prop} (hBC : ∀ c, B c → C c) {n n' : Nfa} {r e : Nat} (h : Near B n n' r e) :
    Near C n n' r e :=
  ⟨h.1, fun p l q hp => (h.2 p l q hp).imp id fun ⟨a, b, c⟩ => ⟨a, b, fun x hx => hBC x (c x hx)⟩⟩

theorem NearF.mono {B C : Nat → Prop} (hBC : ∀ c, B c → C c) {f : Adder} (h : NearF B f) : NearF C f :=
  fun n e n' hf hr he => ⟨(h n e n' hf hr he).1, (h n e n' hf hr he).2.mono hBC⟩

theorem near_setRoot {B} {n n' : Nfa} {r e k : Nat} : Near B n (n'.setRoot k) r e ↔ Near B n n' r e := Iff.rfl
theorem near_setRoot' {B} {n n' : Nfa} {r e k : Nat} : Near B (n.setRoot k) n' r e ↔ Near B n n' r e := Iff.rfl

theorem near_push {B} (n : Nfa) (s : NState) {r e : Nat}
    (hs : ∀ l q, (l, q) ∈ s.out → q = e ∧ ∀ c, l ≠ .byte c) : Near B n (n.pushState s).1 r e := by
  refine ⟨by rw [Nfa.length_pushState]; omega, fun p l q hp => ?_⟩
  rcases Nfa.edge_pushState.mp hp with hp | ⟨rfl, h⟩
  · exact .inl hp
  · obtain ⟨rfl, h2⟩ := hs l q h
    exact .inr ⟨.inr (.inr (Nat.le_refl _)), .inl rfl, fun c hc => absurd hc (h2 c)⟩

theorem near_new {B} (n : Nfa) {r e : Nat} : Near B n n.newState.1 r e :=
  near_push n {} (by simp [NState.out_default])

theorem nearF_withNegTags {B} {f : Adder} (hf : NearF B f) (neg : List Tag) : NearF B (withNegTags neg f) := by
  intro n e n' h hr he
  unfold withNegTags at h
  split at h
  · exact hf n e n' h hr he
  · have hlen : (n.pushState { neg := some (neg, e) }).1.states.length = n.states.length + 1 :=
      Nfa.length_pushState
    have hroot : (n.pushState { neg := some (neg, e) }).1.root = n.root := rfl
    have h : f (n.pushState { neg := some (neg, e) }).1 n.states.length = some n' := h
    obtain ⟨h1, h2⟩ := hf _ _ n' h (by rw [hroot, hlen]; omega) (by rw [hlen]; omega)
    refine ⟨h1, (near_push n _ ?_).trans h2 (.inl rfl) (.inr (Nat.le_refl _))⟩
    intro l q hlq
    simp [NState.out] at hlq
    obtain ⟨rfl, rfl⟩ := hlq
    exact ⟨rfl, by simp⟩

theorem near_chain {B} {f : Adder} (hf : NearF B f) (k : Nat) (e : Nat) : ∀ {n n' : Nfa},
    chain f k n = some n' → n.root < n.states.length →
    Near B n n' n.root e ∧ (n'.root = n.root ∨ n.states.length ≤ n'.root) ∧ n'.root < n'.states.length := by
  induction k with
  | zero =>
    intro n n' h hr
    simp only [chain, Option.some.injEq] at h; subst h
    exact ⟨.refl .., .inl rfl, hr⟩
  | succ k ih =>
    intro n n' h hr
    simp only [chain] at h
    split at h
    · cases h
    · rename_i m hm
      have hlen : n.newState.1.states.length = n.states.length + 1 := Nfa.length_pushState
      have hi : n.newState.2 = n.states.length := rfl
      have hroot : n.newState.1.root = n.root := rfl
      obtain ⟨h1, h2⟩ := hf _ _ m hm (by rw [hlen, hroot]; omega) (by rw [hlen, hi]; omega)
      have hl := h2.1
      obtain ⟨h3, h4, h5⟩ := ih h (by show n.newState.2 < m.states.length; rw [hi]; omega)
      have hN : Near B n m n.root e := (near_new n).trans h2 (.inl rfl) (.inr (Nat.le_of_eq hi.symm))
      refine ⟨hN.trans (near_setRoot'.mp h3) (.inr (.inr ?_)) (.inl rfl), .inr ?_, h5⟩
      · show n.states.length ≤ n.newState.2; omega
      · have hsr : (m.setRoot n.newState.2).root = n.newState.2 := rfl
        have hsl : (m.setRoot n.newState.2).states.length = m.states.length := rfl
        rcases h4 with h4 | h4
        · rw [h4, hsr, hi]; exact Nat.le_refl _
        · rw [hsl] at h4; omega

theorem near_chainOpt {B} {f : Adder} (hf : NearF B f) (e k : Nat) : ∀ {n n' : Nfa},
    chainOpt f e k n = some n' → n.root < n.states.length → e < n.states.length →
    Near B n n' n.root e ∧ (n'.root = n.root ∨ n.states.length ≤ n'.root) ∧ n'.root < n'.states.length := by
  induction k with
  | zero =>
    intro n n' h hr he
    simp only [chainOpt, Option.some.injEq] at h; subst h
    exact ⟨.refl .., .inl rfl, hr⟩
  | succ k ih =>
    intro n n' h hr he
    simp only [chainOpt] at h
    split at h
    · cases h
    · rename_i m0 hm0
      obtain ⟨g1, g2⟩ := hf n e m0 hm0 hr he
      have gl := g2.1
      split at h
      · cases h
      · rename_i m hm
        have hlen : m0.newState.1.states.length = m0.states.length + 1 := Nfa.length_pushState
        have hi : m0.newState.2 = m0.states.length := rfl
        have hroot : m0.newState.1.root = m0.root := rfl
        obtain ⟨h1, h2⟩ := hf _ _ m hm (by rw [hlen, hroot]; omega) (by rw [hlen, hi]; omega)
        have hl := h2.1
        obtain ⟨h3, h4, h5⟩ := ih h (by show m0.newState.2 < m.states.length; rw [hi]; omega)
          (by show e < m.states.length; omega)
        have hN : Near B n m n.root e := by
          refine (g2.trans (near_new m0 (r := n.root)) (.inl rfl) (.inl rfl)).trans h2
            (.inl (by rw [hroot, g1])) (.inr (by omega))
        refine ⟨hN.trans (near_setRoot'.mp h3) (.inr (.inr ?_)) (.inl rfl), .inr ?_, h5⟩
        · show n.states.length ≤ m0.newState.2; omega
        · have hsr : (m.setRoot m0.newState.2).root = m0.newState.2 := rfl
          have hsl : (m.setRoot m0.newState.2).states.length = m.states.length := rfl
          rcases h4 with h4 | h4
          · rw [h4, hsr, hi]; omega
          · rw [hsl] at h4; omega

theorem near_epsilon {B} {n : Nfa} {r e : Nat} (hr : r < n.states.length) : Near B n (n.addEpsilon r e) r e := by
  have hlen : (n.addEpsilon r e).states.length = n.states.length := Nfa.length_modifyState
  refine ⟨by omega, fun p l q hp => ?_⟩
  have := (Nfa.edge_modifyState (f := fun s => { s with eps := s.eps ++ [e] }) hr [(Label.eps, e)] (by
    intro s x
    simp only [NState.out, List.map_append, List.mem_append, List.map_cons, List.map_nil]
    constructor
    · rintro ((((h | h | h) | h) | h) | h)
      · exact .inl (.inl (.inl (.inl (.inl h))))
      · exact .inl (.inl (.inl (.inl (.inr h))))
      · exact .inr h
      · exact .inl (.inl (.inl (.inr h)))
      · exact .inl (.inl (.inr h))
      · exact .inl (.inr h)
    · rintro (((((h | h) | h) | h) | h) | h)
      · exact .inl (.inl (.inl (.inl h)))
      · exact .inl (.inl (.inl (.inr (.inl h))))
      · exact .inl (.inl (.inr h))
      · exact .inl (.inr h)
      · exact .inr h
      · exact .inl (.inl (.inl (.inr (.inr h)))))).mp hp
  rcases this with h | ⟨rfl, h⟩
  · exact .inl h
  · simp at h
    obtain ⟨rfl, rfl⟩ := h
    exact .inr ⟨.inl rfl, .inl rfl, by simp⟩

theorem nearF_mult {B} {f : Adder} (hf : NearF B f) (mn mx : Nat) : NearF B (addMult f mn mx) := by
  intro n e n' h hr he
  simp only [addMult, Option.bind_eq_some_iff, Option.map_eq_some_iff] at h
  obtain ⟨n1, h1, n2, h2, rfl⟩ := h
  refine ⟨rfl, near_setRoot.mpr ?_⟩
  have first : Near B n n1 n.root e ∧ (n1.root = n.root ∨ n.states.length ≤ n1.root) ∧
      n1.root < n1.states.length := by
    by_cases hm : mn = 0
    · simp only [hm, if_true, Option.some.injEq] at h1
      subst h1
      refine ⟨near_epsilon hr, .inl rfl, ?_⟩
      show n.root < _
      rw [show (n.addEpsilon n.root e).states.length = n.states.length from Nfa.length_modifyState]; exact hr
    · simp only [hm, if_false, Option.bind_eq_some_iff] at h1
      obtain ⟨m, hm1, hm2⟩ := h1
      obtain ⟨c1, c2, c3⟩ := near_chain hf _ e hm1 hr
      have := c1.1
      obtain ⟨d1, d2⟩ := hf m e n1 hm2 c3 (by omega)
      have := d2.1
      exact ⟨c1.trans d2 (by rcases c2 with c2 | c2 <;> simp [c2]) (.inl rfl), by rw [d1]; exact c2, by omega⟩
  obtain ⟨f1, f2, f3⟩ := first
  have fl := f1.1
  split at h2
  · obtain ⟨_, d2⟩ := hf _ e n2 h2 (by show e < n1.states.length; omega) (by show e < n1.states.length; omega)
    exact f1.trans (near_setRoot'.mp d2) (.inr (.inl rfl)) (.inl rfl)
  · split at h2
    · simp only [Option.bind_eq_some_iff] at h2
      obtain ⟨n3, h3, n4, h4, h5⟩ := h2
      have third : Near B n1 n3 n1.root e ∧ (n3.root = n1.root ∨ n1.states.length ≤ n3.root) ∧
          n3.root < n3.states.length := by
        split at h3
        · exact near_chain hf _ e h3 f3
        · simp only [Option.some.injEq] at h3; subst h3; exact ⟨.refl .., .inl rfl, f3⟩
      obtain ⟨t1, t2, t3⟩ := third
      have tl := t1.1
      have r3 : n3.root = n.root ∨ n.states.length ≤ n3.root := by
        rcases t2 with t2 | t2
        · rw [t2]; exact f2
        · exact .inr (by omega)
      obtain ⟨c1, c2, c3⟩ := near_chainOpt hf e _ h4 t3 (by omega)
      have cl := c1.1
      have r4 : n4.root = n.root ∨ n.states.length ≤ n4.root := by
        rcases c2 with c2 | c2
        · rw [c2]; exact r3
        · exact .inr (by omega)
      obtain ⟨_, d2⟩ := hf n4 e n2 h5 c3 (by omega)
      have s1 := f1.trans t1 (by rcases f2 with h | h <;> simp [h]) (.inl rfl)
      have s2 := s1.trans c1 (by rcases r3 with h | h <;> simp [h]) (.inl rfl)
      exact s2.trans d2 (by rcases r4 with h | h <;> simp [h]) (.inl rfl)
    · simp only [Option.some.injEq] at h2; subst h2; exact f1

theorem nearF_ranges {B : Nat → Prop} (rs : List Range) (hB : ∀ c, c < cSizeOfByte → InRanges rs c → B c) :
    NearF B (fun n e => some (rs.foldl (fun n r => n.addInterval n.root r e) n)) := by
  intro n e n' h hr he
  simp only [Option.some.injEq] at h
  subst h
  obtain ⟨_, b2, b3, b4⟩ := Nfa.addIntervals_edges rs n (e := e) hr
  refine ⟨b3, by omega, fun p l q hp => ?_⟩
  rcases (b4 p l q).mp hp with h | ⟨rfl, rfl, c, rfl, hc, hin⟩
  · exact .inl h
  · exact .inr ⟨.inl rfl, .inl rfl, fun c' h => by cases h; exact hB c hc hin⟩

theorem nearF_capture {B} {f : Adder} (hf : NearF B f) (t : Tag) : NearF B (fun n dest =>
      let (n, start, stop) := n.newCaptureStates t dest
      let saved := n.root
      (f (n.setRoot start) stop).map fun n => n.setRoot saved) := by
  intro n e n' h hr he
  let n1 : Nfa := (n.pushState {}).1
  let g : NState → NState := fun s => { s with posStart := s.posStart ++ [(t, n.states.length)] }
  let n2 : Nfa := n1.modifyState n.root g
  let n3 : Nfa := (n2.pushState { posEnd := some (t, e) }).1
  have l1 : n1.states.length = n.states.length + 1 := Nfa.length_pushState
  have l2 : n2.states.length = n.states.length + 1 := by
    show (n1.modifyState n.root g).states.length = _
    rw [Nfa.length_modifyState, l1]
  have l3 : n3.states.length = n.states.length + 2 := by
    show (n2.pushState _).1.states.length = _
    rw [Nfa.length_pushState, l2]
  have h : (f (n3.setRoot n.states.length) n2.states.length).map (fun m => m.setRoot n.root) = some n' := h
  simp only [Option.map_eq_some_iff] at h
  obtain ⟨m, hm, rfl⟩ := h
  refine ⟨rfl, near_setRoot.mpr ?_⟩
  have N1 : Near B n n1 n.root e := near_new n
  have N2 : Near B n n2 n.root e := by
    refine ⟨by omega, fun p l q hp => ?_⟩
    have hi : n.root < n1.states.length := by omega
    have := (Nfa.edge_modifyState (f := g) hi [(Label.openTag t, n.states.length)] (by
      intro s x
      simp only [g, NState.out, List.map_append, List.mem_append, List.map_cons, List.map_nil]
      constructor
      · rintro ((((h | h) | h | h) | h) | h)
        · exact .inl (.inl (.inl (.inl (.inl h))))
        · exact .inl (.inl (.inl (.inl (.inr h))))
        · exact .inl (.inl (.inl (.inr h)))
        · exact .inr h
        · exact .inl (.inl (.inr h))
        · exact .inl (.inr h)
      · rintro (((((h | h) | h) | h) | h) | h)
        · exact .inl (.inl (.inl (.inl h)))
        · exact .inl (.inl (.inl (.inr h)))
        · exact .inl (.inl (.inr (.inl h)))
        · exact .inl (.inr h)
        · exact .inr h
        · exact .inl (.inl (.inr (.inr h))))).mp hp
    rcases this with h | ⟨rfl, h⟩
    · exact N1.2 p l q h
    · simp at h
      obtain ⟨rfl, rfl⟩ := h
      exact .inr ⟨.inl rfl, .inr (Nat.le_refl _), by simp⟩
  have N3 : Near B n n3 n.root e := by
    refine N2.trans (near_push n2 { posEnd := some (t, e) } (r := n.root) (e := e) ?_) (.inl rfl) (.inl rfl)
    intro l q hlq
    simp [NState.out] at hlq
    obtain ⟨rfl, rfl⟩ := hlq
    exact ⟨rfl, by simp⟩
  obtain ⟨_, d2⟩ := hf _ _ m hm (by show n.states.length < n3.states.length; omega)
    (by show n2.states.length < n3.states.length; omega)
  exact N3.trans (near_setRoot'.mp d2) (.inr (.inr (Nat.le_refl _))) (.inr (by omega))

theorem nearF_cat {B} {f g : Adder} (hf : NearF B f) (hg : NearF B g) :
    NearF B (fun n e => (f n.newState.1 n.newState.2).bind fun m =>
        (g (m.setRoot n.newState.2) e).map fun k => k.setRoot n.root) := by
  intro n e n' h hr he
  simp only [Option.bind_eq_some_iff, Option.map_eq_some_iff] at h
  obtain ⟨m, h1, k, h2, rfl⟩ := h
  have hlen : n.newState.1.states.length = n.states.length + 1 := Nfa.length_pushState
  have hi : n.newState.2 = n.states.length := rfl
  have hroot : n.newState.1.root = n.root := rfl
  obtain ⟨_, a2⟩ := hf _ _ m h1 (by rw [hlen, hroot]; omega) (by rw [hlen, hi]; omega)
  have := a2.1
  obtain ⟨_, b2⟩ := hg _ e k h2 (by show n.newState.2 < m.states.length; omega)
    (by show e < m.states.length; omega)
  refine ⟨rfl, near_setRoot.mpr ?_⟩
  have s1 : Near B n m n.root e := (near_new n).trans a2 (.inl rfl) (.inr (Nat.le_of_eq hi.symm))
  exact s1.trans (near_setRoot'.mp b2) (.inr (.inr (Nat.le_of_eq hi.symm))) (.inl rfl)

theorem nearF_regex (r : Regex) (h : r.ClassesOk) :
    NearF (fun c => r.possible c = true) r.addToNfa := by
  induction r with
  | empty neg =>
    intro n e n' h _ _
    simp only [Regex.addToNfa, Option.some.injEq] at h
    subst h; exact ⟨rfl, .refl ..⟩
  | literal neg c =>
    exact nearF_ranges [(c, c)] (by
      rintro d _ ⟨r, hr, h1, h2⟩
      simp at hr; subst hr
      simp only [Regex.possible, beq_iff_eq]; simp only at h1 h2; omega)
  | integer neg d => intro n e n' h; simp [Regex.addToNfa] at h
  | group neg w ng rs =>
    refine nearF_ranges _ fun c hc hin => ?_
    have hcm := (inRanges_groupRanges ng rs c (by simp [cSizeOfByte, cUnicodeMax] at *; omega) h).mp hin
    simp only [Regex.possible]
    cases ng with
    | false =>
      simp only [ClassMatches, Bool.false_eq_true, if_false] at hcm
      obtain ⟨r, hr, h1, h2⟩ := hcm
      simp only [Bool.false_eq_true, if_false, List.any_eq_true, Bool.and_eq_true, decide_eq_true_eq]
      exact ⟨r, hr, h1, h2⟩
    | true =>
      simp only [ClassMatches, if_true] at hcm
      simp only [if_true, Bool.and_eq_true, decide_eq_true_eq, Bool.not_eq_true', List.any_eq_false]
      exact ⟨hcm.1, fun x hx hh => hcm.2 ⟨x, hx, hh⟩⟩
  | or neg l r ihl ihr =>
    intro n e n' hh hr he
    simp only [Regex.addToNfa, Option.bind_eq_some_iff] at hh
    obtain ⟨n1, h1, h2⟩ := hh
    obtain ⟨a1, a2⟩ := nearF_withNegTags (ihl h.1) l.negTags n e n1 h1 hr he
    have := a2.1
    obtain ⟨b1, b2⟩ := nearF_withNegTags (ihr h.2) r.negTags n1 e n' h2 (by omega) (by omega)
    refine ⟨by rw [b1, a1], (a2.mono ?_).trans (b2.mono ?_) (.inl a1) (.inl rfl)⟩ <;>
      intro c hc <;> simp [Regex.possible, hc]
  | cat neg l r ihl ihr =>
    exact nearF_cat ((nearF_withNegTags (ihl h.1) l.negTags).mono (by intro c hc; simp [Regex.possible, hc]))
      ((nearF_withNegTags (ihr h.2) r.negTags).mono (by intro c hc; simp [Regex.possible, hc]))
  | mult neg op mn mx ih => exact nearF_mult (nearF_withNegTags (ih h) op.negTags) mn mx
  | capture neg i t ih => exact nearF_capture (nearF_withNegTags (ih h) i.negTags) t

end LogSurgeon
