import Verif.Proofs.NfaLang
import Verif.Model.Lexer
/-
Every state of the automaton leads to the accepting state of a rule, if every bracket expression contains a byte.
-/
namespace LogSurgeon

/-- There is a path not reading the virtual start-of-file character. -/
def Nfa.Leads (n : Nfa) (p q : Nat) : Prop := ∃ w, n.Path p w q ∧ Label.byte cCharStartOfFile ∉ w

theorem Nfa.Leads.refl (n : Nfa) (p : Nat) : n.Leads p p := ⟨[], .nil _, by simp⟩

theorem Nfa.Leads.trans {n : Nfa} {p q r : Nat} (h : n.Leads p q) (h' : n.Leads q r) : n.Leads p r := by
  obtain ⟨w, h1, h2⟩ := h; obtain ⟨x, h3, h4⟩ := h'
  exact ⟨w ++ x, h1.append h3, by simp [h2, h4]⟩

theorem Nfa.Leads.ext {n m : Nfa} (h : n.Ext m) {p q : Nat} (hl : n.Leads p q) : m.Leads p q := by
  obtain ⟨w, h1, h2⟩ := hl; exact ⟨w, h.path h1, h2⟩

theorem Nfa.Leads.setRoot {n : Nfa} {k p q : Nat} (hl : n.Leads p q) : (n.setRoot k).Leads p q := by
  obtain ⟨w, h1, h2⟩ := hl; exact ⟨w, Nfa.path_setRoot.mpr h1, h2⟩

/-- Every state added leads to the end state. -/
def Ends (f : Adder) : Prop :=
  ∀ n e n', f n e = some n' → n.WF → n.root < n.states.length → e < n.states.length →
    ∀ i, n.states.length ≤ i → i < n'.states.length → n'.Leads i e

/-- There is a word without the virtual start-of-file character. -/
def Lang.Some (a : Lang) : Prop := ∃ w, a w ∧ Label.byte cCharStartOfFile ∉ w

theorem Lang.Some.full {a b : Lang} (h : a.Some) : (a.full b).Some := by
  obtain ⟨w, h, hn⟩ := h; exact ⟨w, ⟨w, [], by simp, h, .nil⟩, hn⟩

theorem Lang.Some.seq {a b : Lang} (h : a.Some) (h' : b.Some) : (a.seq b).Some := by
  obtain ⟨w, h, hn⟩ := h; obtain ⟨x, h', hn'⟩ := h'; exact ⟨w ++ x, ⟨w, x, rfl, h, h'⟩, by simp [hn, hn']⟩

theorem Lang.Some.pow {a : Lang} (h : a.Some) : ∀ k, (a.pow k).Some
  | 0 => ⟨[], rfl, by simp⟩
  | k + 1 => h.seq (h.pow k)

theorem Lang.Some.wrap {p : Lang × Lang} (h : p.1.Some) (neg : List Tag) : (wrapLang neg p).1.Some := by
  unfold wrapLang
  by_cases hn : neg.isEmpty
  · simp only [hn, if_true]; exact h
  · simp only [hn]; exact h.full.seq ⟨_, rfl, by simp⟩

theorem Nfa.Added.leads {n n' : Nfa} {r e : Nat} {a b : Lang} (h : n.Added n' r e a b) (hs : a.Some) : n'.Leads r e := by
  obtain ⟨w, h1, h2⟩ := hs; exact ⟨w, h.enter w h1, h2⟩

theorem Nfa.Moved.leads {n n' : Nfa} {r : Nat} {P : Lang} (h : n.Moved n' r P) (hs : P.Some) : n'.Leads r n'.root := by
  obtain ⟨w, h1, h2⟩ := hs; exact ⟨w, h.path w h1, h2⟩

theorem Nfa.MovedAdded.leads {n n' : Nfa} {r e : Nat} {P a b : Lang} (h : n.MovedAdded n' r e P a b) (hs : P.Some) : n'.Leads r n'.root := by
  obtain ⟨w, h1, h2⟩ := hs; exact ⟨w, h.path w h1, h2⟩

theorem ends_withNegTags {f : Adder} {a b : Lang} (hf : Adds f a b) (he : Ends f) (neg : List Tag) : Ends (withNegTags neg f) := by
  intro n e n' h hwf hr hlt i h1 h2
  unfold withNegTags at h
  split at h
  · exact he n e n' h hwf hr hlt i h1 h2
  · let s : NState := { neg := some (neg, e) }
    have hout : ∀ l q, (l, q) ∈ s.out ↔ l = .negTags neg ∧ q = e := by
      intro l q; simp [s, NState.out]
    change f (n.pushState s).1 n.states.length = some n' at h
    have hroot1 : (n.pushState s).1.root = n.root := rfl
    have w1 := Nfa.wf_push (s := s) hwf fun l q hl => by have := ((hout l q).mp hl).2; omega
    have w2 : (n.pushState s).1.root < (n.pushState s).1.states.length := by rw [Nfa.length_pushState, hroot1]; omega
    have w3 : n.states.length < (n.pushState s).1.states.length := by rw [Nfa.length_pushState]; omega
    obtain ⟨_, A⟩ := hf _ _ n' h w1 w2 w3
    have hedge : n'.Edge n.states.length (.negTags neg) e :=
      A.ext.edge _ _ _ (Nfa.edge_pushState.mpr (.inr ⟨rfl, (hout _ _).mpr ⟨rfl, rfl⟩⟩))
    by_cases hi : i = n.states.length
    · subst hi; exact ⟨_, .single hedge, by simp⟩
    · exact (he _ _ n' h w1 w2 w3 i (by rw [Nfa.length_pushState]; omega) h2).trans ⟨_, .single hedge, by simp⟩

theorem ends_or {f g : Adder} {a b : Lang} (hf : Adds f a b) (ef : Ends f) {a' b' : Lang} (hg : Adds g a' b') (eg : Ends g) :
    Ends (fun n e => (f n e).bind fun n => g n e) := by
  intro n e n' h hwf hr he i h1 h2
  simp only [Option.bind_eq_some_iff] at h
  obtain ⟨n1, e1, e2⟩ := h
  obtain ⟨r1, A1⟩ := hf n e n1 e1 hwf hr he
  have hl := A1.ext.len
  by_cases hi : i < n1.states.length
  · obtain ⟨_, A2⟩ := hg n1 e n' e2 A1.wf (by rw [r1]; omega) (by omega)
    exact (ef n e n1 e1 hwf hr he i h1 hi).ext A2.ext
  · exact eg n1 e n' e2 A1.wf (by rw [r1]; omega) (by omega) i (by omega) h2

/-- After `moved_step` every new state leads to the new root. -/
theorem step_root {f : Adder} (ef : Ends f) {n n' : Nfa} (hwf : n.WF)
    (hr : n.root < n.states.length) (h : f n.newState.1 n.newState.2 = some n') :
    ∀ i, n.states.length ≤ i → i < n'.states.length → n'.Leads i n.newState.2 := by
  intro i h1 h2
  have hroot : n.newState.1.root = n.root := rfl
  have hlen : n.newState.1.states.length = n.states.length + 1 := Nfa.length_pushState
  have hi : n.newState.2 = n.states.length := rfl
  by_cases hc : i = n.states.length
  · subst hc; exact .refl _ _
  · exact ef _ _ n' h (Nfa.wf_push hwf (by simp [NState.out_default])) (by rw [hlen, hroot]; omega) (by rw [hlen, hi]; omega) i
      (by omega) h2

theorem ends_cat {f g : Adder} {a b a' b' : Lang} (hf : Adds f a b) (ef : Ends f) (hg : Adds g a' b') (eg : Ends g) (hne : a'.Some) :
    Ends (fun n e => (f n.newState.1 n.newState.2).bind fun m =>
        (g (m.setRoot n.newState.2) e).map fun k => k.setRoot n.root) := by
  intro n e n' h hwf hr he i h1 h2
  simp only [Option.bind_eq_some_iff, Option.map_eq_some_iff] at h
  obtain ⟨m, e1, k, e2, rfl⟩ := h
  have M := moved_step hf hwf hr e1
  have hl := M.ext.len
  obtain ⟨_, A⟩ := hg _ e k e2 M.wf M.lt (by omega)
  by_cases hi : i < m.states.length
  · exact (((step_root ef hwf hr e1 i h1 hi).setRoot.ext A.ext).trans (A.leads hne)).setRoot
  · exact (eg _ e k e2 M.wf M.lt (by omega) i (by show m.states.length ≤ i; omega) h2).setRoot

theorem chain_root {f : Adder} {a b : Lang} (hf : Adds f a b) (ef : Ends f) (hne : a.Some) (k : Nat) {n n' : Nfa} (hwf : n.WF)
    (hr : n.root < n.states.length) (h : chain f k n = some n') :
    ∀ i, n.states.length ≤ i → i < n'.states.length → n'.Leads i n'.root := by
  induction k generalizing n with
  | zero => simp only [chain, Option.some.injEq] at h; subst h; intro i h1 h2; omega
  | succ k ih =>
    simp only [chain] at h
    split at h
    · cases h
    · rename_i m hm
      have M := moved_step hf hwf hr hm
      have C := chain_moved hf k M.wf M.lt h
      intro i h1 h2
      by_cases hi : i < m.states.length
      · exact ((step_root ef hwf hr hm i h1 hi).setRoot.ext C.ext).trans (C.leads (hne.full.pow k))
      · exact ih M.wf M.lt h i (by show m.states.length ≤ i; omega) h2

theorem chainOpt_root {f : Adder} {a b : Lang} (hf : Adds f a b) (ef : Ends f) (hne : a.Some) (k : Nat) {n n' : Nfa} {e : Nat} (hwf : n.WF)
    (hr : n.root < n.states.length) (he : e < n.states.length) (h : chainOpt f e k n = some n') :
    ∀ i, n.states.length ≤ i → i < n'.states.length → n'.Leads i e ∨ n'.Leads i n'.root := by
  induction k generalizing n with
  | zero => simp only [chainOpt, Option.some.injEq] at h; subst h; intro i h1 h2; omega
  | succ k ih =>
    simp only [chainOpt] at h
    split at h
    · cases h
    · rename_i n1 hn1
      obtain ⟨r1, A1⟩ := hf n e n1 hn1 hwf hr he
      have hl1 := A1.ext.len
      split at h
      · cases h
      · rename_i m hm
        have M := moved_step hf A1.wf (by omega) hm
        have hl2 := M.ext.len
        have C := chainOpt_movedAdded hf k M.wf M.lt (by omega) h
        intro i h1 h2
        by_cases hi : i < n1.states.length
        · exact .inl ((ef n e n1 hn1 hwf hr he i h1 hi).ext (M.ext.trans C.ext))
        · by_cases hi' : i < m.states.length
          · exact .inr (((step_root ef A1.wf (by omega) hm i (by omega) hi').setRoot.ext C.ext).trans (C.leads (hne.full.pow k)))
          · exact ih M.wf M.lt (by omega) h i (by show m.states.length ≤ i; omega) h2

theorem ends_mult {f : Adder} {a b : Lang} (hf : Adds f a b) (ef : Ends f) (hne : a.Some) (min max : Nat) : Ends (addMult f min max) := by
  intro n e n' h hwf hr he
  simp only [addMult, Option.bind_eq_some_iff, Option.map_eq_some_iff] at h
  obtain ⟨n1, h1, n2, h2, rfl⟩ := h
  -- the first part
  have P1 : n1.WF ∧ n1.root < n1.states.length ∧ n.Ext n1 ∧ ∀ i, n.states.length ≤ i → i < n1.states.length → n1.Leads i e := by
    by_cases hmin : min = 0
    · subst hmin
      simp only [if_true, Option.some.injEq] at h1
      subst h1
      have A1 := Nfa.added_epsilon hwf hr he
      have hlen1 : (n.addEpsilon n.root e).states.length = n.states.length := Nfa.length_modifyState
      exact ⟨A1.wf, by rw [hlen1]; exact hr, A1.ext, fun i g1 g2 => by omega⟩
    · simp only [hmin, if_false, Option.bind_eq_some_iff] at h1
      obtain ⟨m, g1, g2⟩ := h1
      have C := chain_moved hf _ hwf hr g1
      have hl := C.ext.len
      obtain ⟨r, A⟩ := hf m e n1 g2 C.wf C.lt (by omega)
      have hl2 := A.ext.len
      have hlt := C.lt
      refine ⟨A.wf, by omega, C.ext.trans A.ext, fun i g3 g4 => ?_⟩
      by_cases hi : i < m.states.length
      · exact ((chain_root hf ef hne _ hwf hr g1 i g3 hi).ext A.ext).trans (A.leads hne)
      · exact ef m e n1 g2 C.wf C.lt (by omega) i (by omega) g4
  obtain ⟨wf1, lt1, E1, new1⟩ := P1
  have hl1 := E1.len
  have he1 : e < n1.states.length := by omega
  -- the second part
  have P2 : n1.Ext n2 ∧ ∀ i, n1.states.length ≤ i → i < n2.states.length → n2.Leads i e := by
    by_cases hmax : max = 0
    · simp only [hmax, if_true] at h2
      obtain ⟨_, A⟩ := hf (n1.setRoot e) e n2 h2 wf1 he1 he1
      exact ⟨A.ofSetRoot.ext, ef (n1.setRoot e) e n2 h2 wf1 he1 he1⟩
    · simp only [hmax, if_false] at h2
      by_cases hgt : max > min
      · simp only [hgt, if_true, Option.bind_eq_some_iff] at h2
        obtain ⟨m, g1, m', g2, g3⟩ := h2
        have Q : m.WF ∧ m.root < m.states.length ∧ n1.Ext m ∧ ∀ i, n1.states.length ≤ i → i < m.states.length → m.Leads i m.root := by
          split at g1
          · have C := chain_moved hf _ wf1 lt1 g1
            exact ⟨C.wf, C.lt, C.ext, chain_root hf ef hne _ wf1 lt1 g1⟩
          · simp only [Option.some.injEq] at g1
            subst g1
            exact ⟨wf1, lt1, .refl _, fun i a b => by omega⟩
        obtain ⟨wfm, ltm, Em, newm⟩ := Q
        have hlm := Em.len
        have C := chainOpt_movedAdded hf _ wfm ltm (by omega) g2
        have hlc := C.ext.len
        obtain ⟨_, A⟩ := hf m' e n2 g3 C.wf C.lt (by omega)
        have hla := A.ext.len
        refine ⟨(Em.trans C.ext).trans A.ext, fun i a1 a2 => ?_⟩
        have fin : m'.Leads i m'.root → n2.Leads i e := fun hw => (hw.ext A.ext).trans (A.leads hne)
        by_cases hi : i < m.states.length
        · exact fin (((newm i a1 hi).ext C.ext).trans (C.leads (hne.full.pow _)))
        · by_cases hi' : i < m'.states.length
          · rcases chainOpt_root hf ef hne _ wfm ltm (by omega) g2 i (by omega) hi' with hw | hw
            · exact hw.ext A.ext
            · exact fin hw
          · exact ef m' e n2 g3 C.wf C.lt (by omega) i (by omega) a2
      · simp only [hgt, if_false, Option.some.injEq] at h2
        subst h2
        exact ⟨.refl _, fun i a b => by omega⟩
  obtain ⟨E2, new2⟩ := P2
  intro i g1 g2
  by_cases hi : i < n1.states.length
  · exact ((new1 i g1 hi).ext E2).setRoot
  · exact (new2 i (by omega) g2).setRoot

theorem ends_capture {f : Adder} {a b : Lang} (hf : Adds f a b) (ef : Ends f) (hne : a.Some) (t : Tag) :
    Ends (fun n dest =>
      let (n, start, stop) := n.newCaptureStates t dest
      let saved := n.root
      (f (n.setRoot start) stop).map fun n => n.setRoot saved) := by
  intro n e n' h hwf hr he i g1 g2
  let n1 : Nfa := (n.pushState {}).1
  let g : NState → NState := fun s => { s with posStart := s.posStart ++ [(t, n.states.length)] }
  let n2 : Nfa := n1.modifyState n.root g
  let s3 : NState := { posEnd := some (t, e) }
  let n3 : Nfa := (n2.pushState s3).1
  have hl1 : n1.states.length = n.states.length + 1 := Nfa.length_pushState
  have hl2 : n2.states.length = n.states.length + 1 := by rw [← hl1]; exact Nfa.length_modifyState
  have hl3 : n3.states.length = n.states.length + 2 := by
    have : n3.states.length = n2.states.length + 1 := Nfa.length_pushState
    omega
  have h' : (f (n3.setRoot n.states.length) n2.states.length).map (fun k => k.setRoot n.root) = some n' := h
  simp only [Option.map_eq_some_iff] at h'
  obtain ⟨k, hk, rfl⟩ := h'
  have hg : ∀ (s : NState) x, x ∈ (g s).out ↔ x ∈ s.out ∨ x ∈ [(Label.openTag t, n.states.length)] := by
    intro s x
    simp only [g, NState.out, List.map_append, List.mem_append, List.map_cons, List.map_nil]
    constructor
    · rintro ((((h | h) | h | h) | h) | h) <;> simp_all
    · rintro (((((h | h) | h) | h) | h) | h) <;> simp_all
  have hr1 : n.root < n1.states.length := by omega
  have hout3 : ∀ l q, (l, q) ∈ s3.out ↔ l = .closeTag t ∧ q = e := by
    intro l q; simp [s3, NState.out]
  have edge2 : ∀ p l q, n2.Edge p l q ↔ n.Edge p l q ∨ (p = n.root ∧ l = .openTag t ∧ q = n.states.length) := by
    intro p l q
    rw [show n2.Edge p l q ↔ _ from Nfa.edge_modifyState hr1 _ hg]
    rw [show n1.Edge p l q ↔ _ from Nfa.edge_pushState]
    simp [NState.out_default]
  have edge3 : ∀ p l q, n3.Edge p l q ↔ n2.Edge p l q ∨
      (p = n.states.length + 1 ∧ l = .closeTag t ∧ q = e) := by
    intro p l q
    rw [show n3.Edge p l q ↔ _ from Nfa.edge_pushState, hl2, hout3]
  have wf3 : n3.WF := by
    intro p l q hpq
    rw [hl3]
    rcases (edge3 p l q).mp hpq with h | ⟨_, _, rfl⟩
    · rcases (edge2 p l q).mp h with h | ⟨_, _, rfl⟩
      · have := hwf _ _ _ h; omega
      · omega
    · omega
  have c1 : (n3.setRoot n.states.length).root < (n3.setRoot n.states.length).states.length := by simp only [Nfa.setRoot]; omega
  have c2 : n2.states.length < (n3.setRoot n.states.length).states.length := by simp only [Nfa.setRoot]; omega
  obtain ⟨_, A⟩ := hf (n3.setRoot n.states.length) n2.states.length k hk wf3 c1 c2
  have A' := A.ofSetRoot
  have p2 : k.Leads n2.states.length e := by
    rw [hl2]
    exact ⟨_, .single (A'.ext.edge _ _ _ ((edge3 _ _ _).mpr (.inr ⟨rfl, rfl, rfl⟩))), by simp⟩
  have p1 : k.Leads n.states.length n2.states.length := A.leads hne
  by_cases hi : i = n.states.length
  · subst hi; exact (p1.trans p2).setRoot
  · by_cases hi' : i = n2.states.length
    · subst hi'; exact p2.setRoot
    · exact ((ef _ _ k hk wf3 c1 c2 i (by show n3.states.length ≤ i; omega) g2).trans p2).setRoot

/-- Every literal is a byte and every bracket expression contains one (not 0xFD); nothing is empty but the left side of a `|`. -/
def Regex.Fertile : Regex → Prop
  | .empty _ | .integer _ _ => False
  | .literal _ c => c < cSizeOfByte ∧ c ≠ cCharStartOfFile
  | .group _ _ ng rs => ∃ c < cSizeOfByte, c ≠ cCharStartOfFile ∧ ∃ r ∈ groupRanges ng rs, r.1 ≤ c ∧ c ≤ r.2
  | .or _ l r => ((∃ n, l = .empty n) ∨ l.Fertile) ∧ r.Fertile
  | .cat _ l r => l.Fertile ∧ r.Fertile
  | .mult _ o _ _ => o.Fertile
  | .capture _ i _ => i.Fertile

theorem fertile_setNegTags (r : Regex) (t : List Tag) : (r.setNegTags t).Fertile ↔ r.Fertile := by
  cases r <;> simp [Regex.setNegTags, Regex.Fertile]

theorem Regex.Fertile.some {r : Regex} (h : r.Fertile) : r.lang.1.Some := by
  induction r with
  | empty neg => exact h.elim
  | literal neg c => exact ⟨[.byte c], ⟨c, rfl, h.1, (c, c), by simp, Nat.le_refl _, Nat.le_refl _⟩, by simp [Ne.symm h.2]⟩
  | integer neg d => exact h.elim
  | group neg w ng rs =>
    obtain ⟨c, h1, h0, h2⟩ := h
    exact ⟨[.byte c], ⟨c, rfl, h1, h2⟩, by simp [Ne.symm h0]⟩
  | or neg l r ihl ihr =>
    obtain ⟨w, hw, hn⟩ := (ihr h.2).wrap r.negTags
    exact ⟨w, .inr hw, hn⟩
  | cat neg l r ihl ihr => exact ((ihl h.1).wrap l.negTags).full.seq ((ihr h.2).wrap r.negTags)
  | mult neg o mn mx ih =>
    have := (ih h).wrap o.negTags
    obtain ⟨w, hw, hn⟩ := ((this.full (b := (wrapLang o.negTags o.lang).2)).pow (mn - 1)).seq this
    by_cases h0 : mn = 0
    · exact ⟨[.eps], .inl ⟨h0, rfl⟩, by simp⟩
    · exact ⟨w, .inr ⟨mn - 1, by omega, .inl (by omega), hw⟩, hn⟩
  | capture neg i t ih =>
    exact Lang.Some.seq ⟨_, rfl, by simp⟩ (((ih h).wrap i.negTags).full.seq ⟨_, rfl, by simp⟩)

theorem ends_ranges (rs : List Range) :
    Ends (fun n e => some (rs.foldl (fun n r => n.addInterval n.root r e) n)) := by
  intro n e n' h hwf hr he i h1 h2
  simp only [Option.some.injEq] at h
  subst h
  obtain ⟨_, b2, _, _⟩ := Nfa.addIntervals_edges rs n (e := e) hr
  omega

theorem ends_regex (r : Regex) : r.Fertile → Ends r.addToNfa := by
  induction r with
  | empty neg => intro h; exact h.elim
  | literal neg c => intro _; exact ends_ranges [(c, c)]
  | integer neg d => intro h; exact h.elim
  | group neg w ng rs => intro _; exact ends_ranges _
  | or neg l r ihl ihr =>
    intro h
    refine ends_or (adds_wrap (adds_regex l) _) ?_ (adds_wrap (adds_regex r) _) (ends_withNegTags (adds_regex r) (ihr h.2) _)
    refine ends_withNegTags (adds_regex l) ?_ _
    rcases h.1 with ⟨n, rfl⟩ | h
    · intro n e n' h _ _ _ i h1 h2
      simp only [Regex.addToNfa, Option.some.injEq] at h
      subst h; omega
    · exact ihl h
  | cat neg l r ihl ihr =>
    intro h
    exact ends_cat (adds_wrap (adds_regex l) _) (ends_withNegTags (adds_regex l) (ihl h.1) _) (adds_wrap (adds_regex r) _)
      (ends_withNegTags (adds_regex r) (ihr h.2) _) (h.2.some.wrap _)
  | mult neg o mn mx ih =>
    intro h
    exact ends_mult (adds_wrap (adds_regex o) _) (ends_withNegTags (adds_regex o) (ih h) _) ((Regex.Fertile.some (r := o) h).wrap _) mn mx
  | capture neg i t ih =>
    intro h
    exact ends_capture (adds_wrap (adds_regex i) _) (ends_withNegTags (adds_regex i) (ih h) _) ((Regex.Fertile.some (r := i) h).wrap _) t

/-- As the rules are made: something to begin with, and the rest. -/
theorem ends_headed {n : List Tag} {l r : Regex} (hl : (∃ m c, l = .literal m c) ∨ ∃ m w ng rs, l = .group m w ng rs) (h : r.Fertile) :
    Ends (Regex.cat n l r).addToNfa := by
  refine ends_cat (adds_wrap (adds_regex l) _) (ends_withNegTags (adds_regex l) ?_ _) (adds_wrap (adds_regex r) _)
    (ends_withNegTags (adds_regex r) (ends_regex r h) _) (h.some.wrap _)
  rcases hl with ⟨m, c, rfl⟩ | ⟨m, w, ng, rs, rfl⟩
  · exact ends_ranges [(c, c)]
  · exact ends_ranges _

/-- Every state but the root leads to the accepting state of a rule. -/
theorem addRules_coacc (rules : List Rule) : ∀ {n n' : Nfa} {done : List Rule} {ends : List Nat},
    RulesInv n done ends → (∀ i, 0 < i → i < n.states.length → ∃ e ∈ ends, n.Leads i e) →
    (∀ r ∈ rules, Ends r.regex.addToNfa) → addRules rules n = some n' →
    ∃ ends', RulesInv n' (done ++ rules) ends' ∧ ∀ i, 0 < i → i < n'.states.length → ∃ e ∈ ends', n'.Leads i e := by
  induction rules with
  | nil => intro n n' done ends hI hc _ h; simp only [addRules, Option.some.injEq] at h; subst h; exact ⟨ends, by simpa using hI, hc⟩
  | cons r rs ih =>
    intro n n' done ends hI hc hf h
    simp only [addRules, Option.bind_eq_some_iff] at h
    obtain ⟨m, h1, h2⟩ := h
    have hI' := rulesInv_step hI h1
    obtain ⟨ends', g1, g2⟩ := ih (done := done ++ [r]) hI' (by
      let s : NState := { accepting := true, varId := r.id }
      let n1 : Nfa := (n.pushState s).1
      have h : withNegTags r.regex.negTags r.regex.addToNfa n1 n.states.length = some m := h1
      have hl1 : n1.states.length = n.states.length + 1 := Nfa.length_pushState
      have hroot1 : n1.root = 0 := hI.root
      have hpos := hI.pos
      have wf1 : n1.WF := Nfa.wf_push hI.wf (by simp [s, NState.out])
      have lt1 : n1.root < n1.states.length := by rw [hroot1]; omega
      obtain ⟨r1, A⟩ := adds_wrap (adds_regex r.regex) r.regex.negTags n1 n.states.length m h wf1 lt1 (by omega)
      have hl2 := A.ext.len
      have hpath : ∀ {p w q}, n.Path p w q → n1.Path p w q := by
        intro p w q hp
        induction hp with
        | nil => exact .nil _
        | cons e _ ih => exact .cons (Nfa.edge_pushState.mpr (.inl e)) ih
      intro i i1 i2
      by_cases hi : i < n.states.length
      · obtain ⟨e, he, w, hw, hn⟩ := hc i i1 hi
        exact ⟨e, by simp [he], w, A.ext.path (hpath hw), hn⟩
      · by_cases hi' : i = n.states.length
        · exact ⟨i, by simp [hi'], .refl _ _⟩
        · exact ⟨_, by simp, ends_withNegTags (adds_regex r.regex) (hf r (by simp)) r.regex.negTags n1 n.states.length m h
            wf1 lt1 (by omega) i (by omega) i2⟩) (fun x hx => hf x (by simp [hx])) h2
    exact ⟨ends', by simpa using g1, g2⟩

/-- What can be read at all can be continued to a word of a rule. -/
theorem buildNfa_coacc {rules : List Rule} {n : Nfa} (h : buildNfa rules = some n) (hf : ∀ r ∈ rules, Ends r.regex.addToNfa)
    {w : List Label} {y : Nat} (hw : n.Path n.root w y) (hne : w ≠ []) : ∃ x, Label.byte cCharStartOfFile ∉ x ∧ ∃ r ∈ rules, ruleLang r.regex (w ++ x) := by
  obtain ⟨ends, hI, hc⟩ := addRules_coacc rules rulesInv_init (by intro i h1 h2; simp at h2; omega) hf h
  simp only [List.nil_append] at hI
  have hlt : y < n.states.length := by
    cases hw with
    | nil => rw [hI.root]; exact hI.pos
    | cons e hp =>
      have : ∀ {p w q}, n.Path p w q → p < n.states.length → q < n.states.length := by
        intro p w q hp
        induction hp with
        | nil => exact id
        | cons e _ ih => exact fun _ => ih (hI.wf _ _ _ e)
      exact this hp (hI.wf _ _ _ e)
  rw [hI.root] at hw
  obtain ⟨I, hcl, h0, h1, h2⟩ := hI.sound
  have hy : y ≠ 0 := by
    intro hy
    have := hcl.path hw h0
    rw [hy] at this
    exact hne (by simpa using h1 _ this)
  obtain ⟨e, he, x, hx, hxn⟩ := hc y (by omega) hlt
  obtain ⟨i, hi, rfl⟩ := List.getElem_of_mem he
  have hl := hI.len
  refine ⟨x, hxn, rules[i]'(by omega), List.getElem_mem _, ?_⟩
  have := hcl.path (hw.append hx) h0
  exact h2 i (by omega) _ (by simpa using this)

end LogSurgeon
