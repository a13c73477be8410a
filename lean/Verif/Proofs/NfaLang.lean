import Verif.Proofs.NfaBuild
/-
`buildNfa` recognises, for every rule, exactly the label language `ruleLang`.
-/
namespace LogSurgeon

def wrapLang (neg : List Tag) (p : Lang × Lang) : Lang × Lang :=
  (if neg.isEmpty then p.1 else Lang.seq (p.1.full p.2) (fun w => w = [.negTags neg]),
   if neg.isEmpty then p.2 else .none)

/-- Languages root→end and end→end added by `add_to_nfa`. -/
def Regex.lang : Regex → Lang × Lang
  | .empty _ => (.none, .none)
  | .literal _ c => (.bytesIn [(c, c)], .none)
  | .integer _ _ => (.none, .none)
  | .group _ _ negate ranges => (.bytesIn (groupRanges negate ranges), .none)
  | .or _ l r =>
    let L := wrapLang l.negTags l.lang
    let R := wrapLang r.negTags r.lang
    (L.1.union R.1, L.2.union R.2)
  | .cat _ l r =>
    let L := wrapLang l.negTags l.lang
    let R := wrapLang r.negTags r.lang
    (Lang.seq (L.1.full L.2) R.1, R.2)
  | .mult _ op min max =>
    let L := wrapLang op.negTags op.lang
    (Lang.multEnter L.1 L.2 min max, Lang.multLoop L.1 L.2 max)
  | .capture _ inner t =>
    let L := wrapLang inner.negTags inner.lang
    (Lang.seq (fun w => w = [.openTag t]) (Lang.seq (L.1.full L.2) (fun w => w = [.closeTag t])), .none)

theorem adds_capture {f : Adder} {a b : Lang} (hf : Adds f a b) (t : Tag) :
    Adds (fun n dest =>
      let (n, start, stop) := n.newCaptureStates t dest
      let saved := n.root
      (f (n.setRoot start) stop).map fun n => n.setRoot saved)
      (Lang.seq (fun w => w = [.openTag t]) (Lang.seq (a.full b) (fun w => w = [.closeTag t]))) .none := by
  intro n e n' h hwf hr he
  let n1 : Nfa := (n.pushState {}).1
  let g : NState → NState := fun s => { s with posStart := s.posStart ++ [(t, n.states.length)] }
  let n2 : Nfa := n1.modifyState n.root g
  let s3 : NState := { posEnd := some (t, e) }
  let n3 : Nfa := (n2.pushState s3).1
  have hl1 : n1.states.length = n.states.length + 1 := Nfa.length_pushState
  have hl2 : n2.states.length = n.states.length + 1 := by rw [← hl1]; exact Nfa.length_modifyState
  have hl3 : n3.states.length = n.states.length + 2 := by
    have : n3.states.length = n2.states.length + 1 := Nfa.length_pushState
    omega
  have h' : (f (n3.setRoot n.states.length) n2.states.length).map (fun k => k.setRoot n.root) = some n' := h
  simp only [Option.map_eq_some_iff] at h'
  obtain ⟨k, hk, rfl⟩ := h'
  have hg : ∀ (s : NState) x, x ∈ (g s).out ↔ x ∈ s.out ∨ x ∈ [(Label.openTag t, n.states.length)] := by
    intro s x
    simp only [g, NState.out, List.map_append, List.mem_append, List.map_cons, List.map_nil]
    constructor
    · rintro ((((h | h) | h | h) | h) | h) <;> simp_all
    · rintro (((((h | h) | h) | h) | h) | h) <;> simp_all
  have hr1 : n.root < n1.states.length := by omega
  have E1 : n.Ext n1 := n.ext_pushState {} rfl
  have E2 : n1.Ext n2 := Nfa.ext_modifyState hr1 _ hg (fun s => ⟨rfl, rfl⟩)
  have E3 : n2.Ext n3 := n2.ext_pushState s3 rfl
  have hout3 : ∀ l q, (l, q) ∈ s3.out ↔ l = .closeTag t ∧ q = e := by
    intro l q; simp [s3, NState.out]
  have edge2 : ∀ p l q, n2.Edge p l q ↔ n.Edge p l q ∨ (p = n.root ∧ l = .openTag t ∧ q = n.states.length) := by
    intro p l q
    rw [show n2.Edge p l q ↔ _ from Nfa.edge_modifyState hr1 _ hg]
    rw [show n1.Edge p l q ↔ _ from Nfa.edge_pushState]
    simp [NState.out_default]
  have edge3 : ∀ p l q, n3.Edge p l q ↔ n2.Edge p l q ∨
      (p = n.states.length + 1 ∧ l = .closeTag t ∧ q = e) := by
    intro p l q
    rw [show n3.Edge p l q ↔ _ from Nfa.edge_pushState, hl2, hout3]
  have wf3 : n3.WF := by
    intro p l q hpq
    rw [hl3]
    rcases (edge3 p l q).mp hpq with h | ⟨_, _, rfl⟩
    · rcases (edge2 p l q).mp h with h | ⟨_, _, rfl⟩
      · have := hwf _ _ _ h; omega
      · omega
    · omega
  obtain ⟨_, A⟩ := hf (n3.setRoot n.states.length) n2.states.length k hk wf3
    (by simp only [Nfa.setRoot]; omega) (by simp only [Nfa.setRoot]; omega)
  have A := A.ofSetRoot
  simp only [Nfa.setRoot] at A
  rw [hl2] at A
  refine ⟨rfl, Nfa.Added.setRoot ⟨((E1.trans E2).trans E3).trans A.ext, A.wf, ?_, fun _ h => h.elim, ?_⟩ _⟩
  · rintro w ⟨x, y, rfl, rfl, u, v, rfl, ⟨u1, u2, rfl, hu1, hu2⟩, rfl⟩
    have p1 : k.Path n.root [.openTag t] n.states.length :=
      .single (A.ext.edge _ _ _ ((edge3 _ _ _).mpr (.inl ((edge2 _ _ _).mpr (.inr ⟨rfl, rfl, rfl⟩)))))
    have p2 : k.Path (n.states.length + 1) [.closeTag t] e :=
      .single (A.ext.edge _ _ _ ((edge3 _ _ _).mpr (.inr ⟨rfl, rfl, rfl⟩)))
    exact p1.append (((A.enter _ hu1).append (Nfa.Path.star A.loop hu2)).append p2)
  · intro I hI c1 _
    let I0 : Nat → Lang := fun i =>
      if i = n.states.length then fun w => ∃ x, w = x ++ [.openTag t] ∧ I n.root x
      else if i = n.states.length + 1 then
        fun w => ∃ x y, w = x ++ ([.openTag t] ++ y) ∧ I n.root x ∧ (a.full b) y
      else I i
    have hI0 : ∀ i, i < n.states.length → I0 i = I i := by
      intro i hi
      simp only [I0]
      rw [if_neg (by omega), if_neg (by omega)]
    have hs : I0 n.states.length = fun w => ∃ x, w = x ++ [.openTag t] ∧ I n.root x := by
      simp [I0]
    have ht : I0 (n.states.length + 1) =
        fun w => ∃ x y, w = x ++ ([.openTag t] ++ y) ∧ I n.root x ∧ (a.full b) y := by
      simp [I0]
    have hc : n3.Closed I0 := by
      intro p l q w hpq hw
      rcases (edge3 p l q).mp hpq with h | ⟨rfl, rfl, rfl⟩
      · rcases (edge2 p l q).mp h with h | ⟨rfl, rfl, rfl⟩
        · rw [hI0 p h.lt] at hw
          rw [hI0 q (hwf _ _ _ h)]
          exact hI _ _ _ _ h hw
        · rw [hI0 _ hr] at hw
          rw [hs]; exact ⟨w, rfl, hw⟩
      · rw [ht] at hw
        obtain ⟨x, y, rfl, hx, hy⟩ := hw
        rw [hI0 _ he]
        have := c1 x _ hx ⟨[.openTag t], _, rfl, rfl, y, [.closeTag t], rfl, hy, rfl⟩
        simpa using this
    obtain ⟨I', hA, hC⟩ := A.sound I0 hc
      (by
        rw [hs, ht]
        rintro w x ⟨u, rfl, hu⟩ hx
        exact ⟨u, x, by simp, hu, x, [], by simp, hx, .nil⟩)
      (by
        rw [ht]
        rintro w x ⟨u, v, rfl, hu, y, z, rfl, hy, hz⟩ hx
        exact ⟨u, (y ++ z) ++ x, by simp, hu, y, z ++ x, by simp, hy, hz.append (.single hx)⟩)
    exact ⟨I', fun i hi => by rw [hA i (by omega), hI0 i hi], hC⟩

theorem adds_wrap {f : Adder} {p : Lang × Lang} (hf : Adds f p.1 p.2) (neg : List Tag) :
    Adds (withNegTags neg f) (wrapLang neg p).1 (wrapLang neg p).2 := adds_withNegTags hf neg

theorem adds_regex (r : Regex) : Adds r.addToNfa r.lang.1 r.lang.2 := by
  induction r with
  | empty neg =>
    intro n e n' h hwf _ _
    simp only [Regex.addToNfa, Option.some.injEq] at h
    subst h; exact ⟨rfl, .refl hwf _ _⟩
  | literal neg c => exact adds_ranges [(c, c)]
  | integer neg d => intro n e n' h; simp [Regex.addToNfa] at h
  | group neg w ng rs => exact adds_ranges _
  | or neg l r ihl ihr => exact adds_or (adds_wrap ihl _) (adds_wrap ihr _)
  | cat neg l r ihl ihr => exact adds_cat (adds_wrap ihl _) (adds_wrap ihr _)
  | mult neg o mn mx ih => exact adds_mult (adds_wrap ih _) mn mx
  | capture neg i t ih => exact adds_capture (adds_wrap ih _) t

/-- All label words accepted for a rule. -/
def ruleLang (r : Regex) : Lang :=
  (wrapLang r.negTags r.lang).1.full (wrapLang r.negTags r.lang).2

/-- State of the construction after the rules `done`, with accepting states `ends`. -/
structure RulesInv (n : Nfa) (done : List Rule) (ends : List Nat) : Prop where
  root : n.root = 0
  pos : 0 < n.states.length
  wf : n.WF
  len : ends.length = done.length
  sorted : ends.Pairwise (· < ·)
  lt : ∀ e ∈ ends, 0 < e ∧ e < n.states.length
  acc : ∀ (i : Nat) (h : i < done.length), n.AcceptingFor (ends[i]'(by omega)) done[i].id
  accOnly : ∀ (q : Nat) (s : NState), n.states[q]? = some s → s.accepting = true → q ∈ ends
  path : ∀ (i : Nat) (h : i < done.length) w, ruleLang done[i].regex w → n.Path 0 w (ends[i]'(by omega))
  sound : ∃ I : Nat → Lang, n.Closed I ∧ I 0 [] ∧ (∀ w, I 0 w → w = []) ∧
    ∀ (i : Nat) (h : i < done.length) w, I (ends[i]'(by omega)) w → ruleLang done[i].regex w

theorem rulesInv_init : RulesInv { states := [{}], root := 0 } [] [] where
  root := rfl
  pos := by simp
  wf := by
    rintro p l q ⟨s, hs, h⟩
    cases p with
    | zero => simp at hs; subst hs; simp [NState.out_default] at h
    | succ p => simp at hs
  len := rfl
  sorted := .nil
  lt := by simp
  acc := by simp
  accOnly := by
    intro q s hs ha
    cases q with
    | zero => simp at hs; subst hs; simp at ha
    | succ q => simp at hs
  path := by simp
  sound := by
    refine ⟨fun i w => i = 0 ∧ w = [], ?_, ⟨rfl, rfl⟩, fun w h => h.2, by simp⟩
    rintro p l q w ⟨s, hs, h⟩
    cases p with
    | zero => simp at hs; subst hs; simp [NState.out_default] at h
    | succ p => simp at hs

theorem Nfa.AcceptingFor.ext {n n' : Nfa} (h : n.Ext n') {q v} (ha : n.AcceptingFor q v) :
    n'.AcceptingFor q v := by
  obtain ⟨s, h1, h2, h3⟩ := ha
  obtain ⟨s', h4, h5, h6⟩ := h.flags q s h1
  exact ⟨s', h4, by rw [h5, h2], by rw [h6, h3]⟩

theorem rulesInv_step {n n' : Nfa} {done : List Rule} {ends : List Nat} {r : Rule}
    (hI : RulesInv n done ends) (h : r.addToNfa n = some n') :
    RulesInv n' (done ++ [r]) (ends ++ [n.states.length]) := by
  let s : NState := { accepting := true, varId := r.id }
  let n1 : Nfa := (n.pushState s).1
  have h : withNegTags r.regex.negTags r.regex.addToNfa n1 n.states.length = some n' := h
  have hl1 : n1.states.length = n.states.length + 1 := Nfa.length_pushState
  have hroot1 : n1.root = 0 := hI.root
  have hpos := hI.pos
  have wf1 : n1.WF := Nfa.wf_push hI.wf (by simp [s, NState.out])
  obtain ⟨r1, A⟩ := adds_wrap (adds_regex r.regex) r.regex.negTags n1 n.states.length n' h wf1
    (by rw [hroot1]; omega) (by omega)
  rw [hroot1] at r1 A
  have hl2 := A.ext.len
  have e1 : ∀ p l q, n.Edge p l q → n1.Edge p l q := fun p l q h => Nfa.edge_pushState.mpr (.inl h)
  have st1 : ∀ (i : Nat) (t : NState), n.states[i]? = some t → n1.states[i]? = some t := by
    intro i t ht
    simp only [n1, Nfa.pushState]
    rw [List.getElem?_append_left (List.getElem?_eq_some_iff.mp ht).1]; exact ht
  have p1 : ∀ {p w q}, n.Path p w q → n1.Path p w q := by
    intro p w q hp
    induction hp with
    | nil => exact .nil _
    | cons e _ ih => exact .cons (e1 _ _ _ e) ih
  have hget : ∀ (i : Nat) (h : i < done.length) (h1 : i < (ends ++ [n.states.length]).length),
      (ends ++ [n.states.length])[i] = ends[i]'(by rw [hI.len]; exact h) := by
    intro i h h1; rw [List.getElem_append_left]
  have hgetr : ∀ (i : Nat) (h : i < done.length) (h1 : i < (done ++ [r]).length),
      (done ++ [r])[i] = done[i] := by
    intro i h h1; rw [List.getElem_append_left]
  have hlast : ∀ (i : Nat) (h : ¬ i < done.length) (h1 : i < (done ++ [r]).length)
      (h2 : i < (ends ++ [n.states.length]).length),
      (done ++ [r])[i] = r ∧ (ends ++ [n.states.length])[i] = n.states.length := by
    intro i h h1 h2
    simp at h1
    have : i = done.length := by omega
    subst this
    refine ⟨by simp, ?_⟩
    rw [List.getElem_append_right (by rw [hI.len]; exact Nat.le_refl _)]; simp
  refine ⟨r1, by omega, A.wf, by simp [hI.len], ?_, ?_, ?_, ?_, ?_, ?_⟩
  · rw [List.pairwise_append]
    refine ⟨hI.sorted, by simp, ?_⟩
    intro a ha b hb
    simp at hb; subst hb
    exact (hI.lt a ha).2
  · intro e he
    rcases List.mem_append.mp he with he | he
    · have := hI.lt e he; omega
    · simp at he; omega
  · intro i hi
    by_cases hd : i < done.length
    · rw [hget i hd, hgetr i hd]
      obtain ⟨t, t1, t2, t3⟩ := hI.acc i hd
      exact Nfa.AcceptingFor.ext A.ext ⟨t, st1 _ _ t1, t2, t3⟩
    · obtain ⟨h1, h2⟩ := hlast i hd hi (by simp [hI.len] at hi ⊢; omega)
      rw [h1, h2]
      exact Nfa.AcceptingFor.ext A.ext ⟨s, by simp [n1, Nfa.pushState], rfl, rfl⟩
  · intro q t hq ha
    by_cases hq1 : n1.states.length ≤ q
    · rw [A.ext.fresh q t hq1 hq] at ha; cases ha
    · have hq2 : q < n1.states.length := by omega
      obtain ⟨t', h1, h2, h3⟩ := A.ext.flags q _ (List.getElem?_eq_getElem hq2)
      rw [hq] at h1; cases h1
      by_cases hq3 : q < n.states.length
      · have := st1 q _ (List.getElem?_eq_getElem hq3)
        rw [List.getElem?_eq_getElem hq2, Option.some.injEq] at this
        rw [this] at h2
        exact List.mem_append_left _ (hI.accOnly q _ (List.getElem?_eq_getElem hq3) (by rw [← h2]; exact ha))
      · apply List.mem_append_right; simp; omega
  · intro i hi w hw
    by_cases hd : i < done.length
    · rw [hget i hd]
      rw [hgetr i hd] at hw
      exact A.ext.path (p1 (hI.path i hd w hw))
    · obtain ⟨h1, h2⟩ := hlast i hd hi (by simp [hI.len] at hi ⊢; omega)
      rw [h1] at hw
      rw [h2]
      obtain ⟨x, y, rfl, hx, hy⟩ := hw
      exact (A.enter x hx).append (Nfa.Path.star A.loop hy)
  · obtain ⟨I, hC, hN, hE, hS⟩ := hI.sound
    have hc := Nfa.closed_push (s := s) hI.wf hC (ruleLang r.regex) (by simp [s, NState.out])
    have h0 : (0 : Nat) ≠ n.states.length := by omega
    obtain ⟨I', hA', hC'⟩ := A.sound _ hc
      (by
        intro w x hw hx
        rw [if_neg h0] at hw
        rw [if_pos rfl]
        have := hE w hw
        subst this
        exact ⟨x, [], by simp, hx, .nil⟩)
      (by
        intro w x hw hx
        rw [if_pos rfl] at hw ⊢
        obtain ⟨u, v, rfl, hu, hv⟩ := hw
        exact ⟨u, v ++ x, by simp, hu, hv.append (.single hx)⟩)
    refine ⟨I', hC', ?_, ?_, ?_⟩
    · rw [hA' 0 (by omega), if_neg h0]; exact hN
    · rw [hA' 0 (by omega), if_neg h0]; exact hE
    · intro i hi w hw
      by_cases hd : i < done.length
      · rw [hget i hd] at hw
        rw [hgetr i hd]
        have hlt := (hI.lt _ (List.getElem_mem (l := ends) (n := i) (by rw [hI.len]; exact hd))).2
        rw [hA' _ (by omega), if_neg (by omega)] at hw
        exact hS i hd w hw
      · obtain ⟨h1, h2⟩ := hlast i hd hi (by simp [hI.len] at hi ⊢; omega)
        rw [h1]
        rw [h2, hA' _ (by omega), if_pos rfl] at hw
        exact hw

theorem addRules_inv (rules : List Rule) : ∀ {n n' : Nfa} {done : List Rule} {ends : List Nat},
    RulesInv n done ends → addRules rules n = some n' → ∃ ends', RulesInv n' (done ++ rules) ends' := by
  induction rules with
  | nil =>
    intro n n' done ends hI h
    simp only [addRules, Option.some.injEq] at h
    subst h; exact ⟨ends, by simpa using hI⟩
  | cons r rs ih =>
    intro n n' done ends hI h
    simp only [addRules, Option.bind_eq_some_iff] at h
    obtain ⟨m, h1, h2⟩ := h
    obtain ⟨ends', h3⟩ := ih (rulesInv_step hI h1) h2
    exact ⟨ends', by simpa using h3⟩

/-- The built NFA: one accepting state per rule, in increasing order of creation, reached exactly by
the words of `ruleLang`. -/
theorem buildNfa_inv {rules : List Rule} {n : Nfa} (h : buildNfa rules = some n) :
    ∃ ends, RulesInv n rules ends := by
  simpa using addRules_inv rules rulesInv_init h

theorem RulesInv.path_iff {n : Nfa} {rules : List Rule} {ends : List Nat} (h : RulesInv n rules ends)
    (i : Nat) (hi : i < rules.length) (w : List Label) :
    n.Path n.root w (ends[i]'(by rw [h.len]; exact hi)) ↔ ruleLang rules[i].regex w := by
  rw [h.root]
  constructor
  · intro hp
    obtain ⟨I, hC, hN, _, hS⟩ := h.sound
    have := hC.path hp hN
    exact hS i hi w (by simpa using this)
  · exact h.path i hi w

/-- Acceptance by the built NFA, in terms of rules. -/
theorem accepts_iff {rules : List Rule} {n : Nfa} (h : buildNfa rules = some n) (v : Nat) (s : List Nat) :
    n.Accepts v s ↔ ∃ r ∈ rules, r.id = v ∧ ∃ w, ruleLang r.regex w ∧ bytesOf w = s := by
  obtain ⟨ends, hI⟩ := buildNfa_inv h
  constructor
  · rintro ⟨w, q, hp, hb, t, ht, ha, hv⟩
    obtain ⟨i, hi, rfl⟩ := List.mem_iff_getElem.mp (hI.accOnly q t ht ha)
    rw [hI.len] at hi
    refine ⟨rules[i], List.getElem_mem hi, ?_, w, (hI.path_iff i hi w).mp hp, hb⟩
    obtain ⟨t', h1, _, h3⟩ := hI.acc i hi
    rw [ht] at h1; cases h1
    rw [← h3, hv]
  · rintro ⟨r, hr, rfl, w, hw, hb⟩
    obtain ⟨i, hi, rfl⟩ := List.mem_iff_getElem.mp hr
    exact ⟨w, _, (hI.path_iff i hi w).mpr hw, hb, hI.acc i hi⟩

/-- `add_to_nfa` only fails on `RegexASTInteger` nodes. -/
def Regex.NoInteger : Regex → Prop
  | .integer _ _ => False
  | .mult _ op _ _ => op.NoInteger
  | .or _ l r | .cat _ l r => l.NoInteger ∧ r.NoInteger
  | .capture _ i _ => i.NoInteger
  | _ => True

theorem withNegTags_total {f : Adder} (hf : ∀ n e, ∃ n', f n e = some n') (neg : List Tag) :
    ∀ n e, ∃ n', withNegTags neg f n e = some n' := by
  intro n e
  unfold withNegTags
  split
  · exact hf n e
  · exact hf _ _

theorem chain_total {f : Adder} (hf : ∀ n e, ∃ n', f n e = some n') (k : Nat) :
    ∀ n, ∃ n', chain f k n = some n' := by
  induction k with
  | zero => intro n; exact ⟨n, rfl⟩
  | succ k ih =>
    intro n
    obtain ⟨m, hm⟩ := hf n.newState.1 n.newState.2
    obtain ⟨m', hm'⟩ := ih (m.setRoot n.newState.2)
    exact ⟨m', by simp only [chain]; rw [hm]; exact hm'⟩

theorem chainOpt_total {f : Adder} (hf : ∀ n e, ∃ n', f n e = some n') (e k : Nat) :
    ∀ n, ∃ n', chainOpt f e k n = some n' := by
  induction k with
  | zero => intro n; exact ⟨n, rfl⟩
  | succ k ih =>
    intro n
    obtain ⟨m0, hm0⟩ := hf n e
    obtain ⟨m, hm⟩ := hf m0.newState.1 m0.newState.2
    obtain ⟨m', hm'⟩ := ih (m.setRoot m0.newState.2)
    refine ⟨m', ?_⟩
    simp only [chainOpt]; rw [hm0]; simp only; rw [hm]; exact hm'

theorem addMult_total {f : Adder} (hf : ∀ n e, ∃ n', f n e = some n') (mn mx : Nat) :
    ∀ n e, ∃ n', addMult f mn mx n e = some n' := by
  intro n e
  simp only [addMult]
  have h1 : ∃ n1, (if mn = 0 then some (n.addEpsilon n.root e)
      else (chain f (mn - 1) n).bind fun n => f n e) = some n1 := by
    split
    · exact ⟨_, rfl⟩
    · obtain ⟨m, hm⟩ := chain_total hf (mn - 1) n
      obtain ⟨m', hm'⟩ := hf m e
      exact ⟨m', by rw [hm]; exact hm'⟩
  obtain ⟨n1, h1⟩ := h1
  rw [h1]
  simp only [Option.bind_some]
  split
  · obtain ⟨m, hm⟩ := hf (n1.setRoot e) e
    rw [hm]; exact ⟨_, rfl⟩
  · split
    · have h2 : ∃ n2, (if mn ≠ 0 then chain f 1 n1 else some n1) = some n2 := by
        split
        · exact chain_total hf 1 n1
        · exact ⟨_, rfl⟩
      obtain ⟨n2, h2⟩ := h2
      obtain ⟨n3, h3⟩ := chainOpt_total hf e (mx - (mn + 1)) n2
      obtain ⟨n4, h4⟩ := hf n3 e
      exact ⟨n4.setRoot n.root, by rw [h2]; simp [h3, h4]⟩
    · exact ⟨_, rfl⟩

theorem addToNfa_total (r : Regex) (h : r.NoInteger) : ∀ n e, ∃ n', r.addToNfa n e = some n' := by
  induction r with
  | empty neg => intro n e; exact ⟨n, rfl⟩
  | literal neg c => intro n e; exact ⟨_, rfl⟩
  | integer neg d => exact h.elim
  | group neg w ng rs => intro n e; exact ⟨_, rfl⟩
  | or neg l r ihl ihr =>
    intro n e
    obtain ⟨m, hm⟩ := withNegTags_total (ihl h.1) l.negTags n e
    obtain ⟨m', hm'⟩ := withNegTags_total (ihr h.2) r.negTags m e
    exact ⟨m', by simp only [Regex.addToNfa]; rw [hm]; exact hm'⟩
  | cat neg l r ihl ihr =>
    intro n e
    obtain ⟨m, hm⟩ := withNegTags_total (ihl h.1) l.negTags n.newState.1 n.newState.2
    obtain ⟨m', hm'⟩ := withNegTags_total (ihr h.2) r.negTags (m.setRoot n.newState.2) e
    refine ⟨m'.setRoot n.root, ?_⟩
    simp only [Regex.addToNfa]
    rw [show withNegTags l.negTags l.addToNfa n.newState.fst n.newState.snd = some m from hm]
    simp only [Option.bind_some]
    rw [hm']; rfl
  | mult neg o mn mx ih => exact addMult_total (withNegTags_total (ih h) _) mn mx
  | capture neg i t ih =>
    intro n e
    obtain ⟨m, hm⟩ := withNegTags_total (ih h) i.negTags
      ((n.newCaptureStates t e).1.setRoot (n.newCaptureStates t e).2.1) (n.newCaptureStates t e).2.2
    refine ⟨m.setRoot (n.newCaptureStates t e).1.root, ?_⟩
    simp only [Regex.addToNfa]
    rw [hm]; rfl

theorem addRules_total (rules : List Rule) (h : ∀ r ∈ rules, r.regex.NoInteger) :
    ∀ n, ∃ n', addRules rules n = some n' := by
  induction rules with
  | nil => intro n; exact ⟨n, rfl⟩
  | cons r rs ih =>
    intro n
    obtain ⟨m, hm⟩ := withNegTags_total (addToNfa_total r.regex (h r (.head _))) r.regex.negTags
      (n.pushState { accepting := true, varId := r.id }).1 n.states.length
    obtain ⟨m', hm'⟩ := ih (fun r hr => h r (.tail _ hr)) m
    refine ⟨m', ?_⟩
    simp only [addRules, Rule.addToNfa]
    rw [show withNegTags r.regex.negTags r.regex.addToNfa (n.pushState { accepting := true, varId := r.id }).1
      (n.pushState { accepting := true, varId := r.id }).2 = some m from hm]
    exact hm'

theorem buildNfa_total (rules : List Rule) (h : ∀ r ∈ rules, r.regex.NoInteger) :
    ∃ n, buildNfa rules = some n := addRules_total rules h _

end LogSurgeon
