import Verif.Proofs.NfaBasic
/-
The exact language added to an NFA by `add_to_nfa` (as label words), for every AST.
-/
namespace LogSurgeon

/-! #### Languages of label words -/

def Lang.none : Lang := fun _ => False
def Lang.seq (a b : Lang) : Lang := fun w => ∃ x y, w = x ++ y ∧ a x ∧ b y
def Lang.union (a b : Lang) : Lang := fun w => a w ∨ b w
inductive Lang.Star (a : Lang) : Lang
  | nil : Lang.Star a []
  | cons {x y} : a x → Lang.Star a y → Lang.Star a (x ++ y)
/-- One full copy: enter, then any number of loops on the end state. -/
def Lang.full (a b : Lang) : Lang := Lang.seq a (Lang.Star b)
def Lang.pow (a : Lang) : Nat → Lang
  | 0 => fun w => w = []
  | k + 1 => Lang.seq a (Lang.pow a k)

theorem Lang.Star.single {a : Lang} {x} (h : a x) : Lang.Star a x := by
  simpa using Lang.Star.cons h .nil

theorem Lang.Star.append {a : Lang} {x y} (h : Lang.Star a x) (h' : Lang.Star a y) :
    Lang.Star a (x ++ y) := by
  induction h with
  | nil => simpa
  | cons hx _ ih => rw [List.append_assoc]; exact .cons hx ih

theorem Lang.Star.mono {a b : Lang} (h : ∀ w, a w → b w) {w} (hw : Lang.Star a w) : Lang.Star b w := by
  induction hw with
  | nil => exact .nil
  | cons hx _ ih => exact .cons (h _ hx) ih

theorem Lang.star_none {w} (h : Lang.Star Lang.none w) : w = [] := by
  cases h with
  | nil => rfl
  | cons h _ => exact h.elim

theorem Lang.pow_succ' {a : Lang} {k x y} (h : Lang.pow a k x) (h' : a y) :
    Lang.pow a (k + 1) (x ++ y) := by
  induction k generalizing x with
  | zero => cases h; exact ⟨y, [], by simp, h', rfl⟩
  | succ k ih =>
    obtain ⟨x1, x2, rfl, h1, h2⟩ := h
    exact ⟨x1, x2 ++ y, by simp, h1, ih h2⟩

theorem Lang.pow_succ_inv {a : Lang} {k w} (h : Lang.pow a (k + 1) w) :
    ∃ x y, w = x ++ y ∧ Lang.pow a k x ∧ a y := by
  induction k generalizing w with
  | zero =>
    obtain ⟨x, y, rfl, h1, h2⟩ := h
    cases h2; exact ⟨[], x, by simp, rfl, h1⟩
  | succ k ih =>
    obtain ⟨x, y, rfl, h1, h2⟩ := h
    obtain ⟨u, v, rfl, h3, h4⟩ := ih h2
    exact ⟨x ++ u, v, by simp, ⟨x, u, rfl, h1, h3⟩, h4⟩

/-! #### What an `add_to_nfa` step does -/

def Nfa.n (n : Nfa) : Nat := n.states.length

/-- Soundness: any closed assignment that tolerates the languages `a` (root to end) and `b` (end to
end) extends to the new states. -/
def Nfa.SoundExt (n n' : Nfa) (root e : Nat) (a b : Lang) : Prop :=
  ∀ I : Nat → Lang, n.Closed I → (∀ w x, I root w → a x → I e (w ++ x)) →
    (∀ w x, I e w → b x → I e (w ++ x)) →
    ∃ I' : Nat → Lang, (∀ i, i < n.states.length → I' i = I i) ∧ n'.Closed I'

/-- `n'` is obtained from `n` by adding a sub-automaton reading `a` from `root` to `e` and `b` from
`e` to `e`. -/
structure Nfa.Added (n n' : Nfa) (root e : Nat) (a b : Lang) : Prop where
  ext : n.Ext n'
  wf : n'.WF
  enter : ∀ w, a w → n'.Path root w e
  loop : ∀ w, b w → n'.Path e w e
  sound : n.SoundExt n' root e a b

/-- `f` adds languages `a`, `b` in every context. -/
def Adds (f : Adder) (a b : Lang) : Prop :=
  ∀ n e n', f n e = some n' → n.WF → n.root < n.states.length → e < n.states.length →
    n'.root = n.root ∧ n.Added n' n.root e a b

theorem Nfa.Added.congr {n n' : Nfa} {r e a b a' b'} (h : n.Added n' r e a b)
    (ha : ∀ w, a w ↔ a' w) (hb : ∀ w, b w ↔ b' w) : n.Added n' r e a' b' := by
  have : a = a' := funext fun w => propext (ha w)
  have : b = b' := funext fun w => propext (hb w)
  subst a' b'; exact h

theorem Nfa.Added.refl {n : Nfa} (h : n.WF) (r e : Nat) : n.Added n r e .none .none :=
  ⟨.refl n, h, fun _ h => h.elim, fun _ h => h.elim, fun I hI _ _ => ⟨I, fun _ _ => rfl, hI⟩⟩

theorem loop_star {J : Lang} {b : Lang} (h : ∀ w x, J w → b x → J (w ++ x)) {w x}
    (hw : J w) (hx : Lang.Star b x) : J (w ++ x) := by
  induction hx generalizing w with
  | nil => simpa
  | cons h1 _ ih => rw [← List.append_assoc]; exact ih (h _ _ hw h1)

theorem Nfa.Path.star {n : Nfa} {e : Nat} {b : Lang} (h : ∀ w, b w → n.Path e w e) {w}
    (hw : Lang.Star b w) : n.Path e w e := by
  induction hw with
  | nil => exact .nil _
  | cons h1 _ ih => exact (h _ h1).append ih

/-- Two successive additions with the same root and end. -/
theorem Nfa.Added.union {n n1 n2 : Nfa} {r e a b a' b'} (h : n.Added n1 r e a b)
    (h' : n1.Added n2 r e a' b') (hr : r < n.states.length) (he : e < n.states.length) :
    n.Added n2 r e (a.union a') (b.union b') where
  ext := h.ext.trans h'.ext
  wf := h'.wf
  enter w hw := hw.elim (fun hw => h'.ext.path (h.enter w hw)) (h'.enter w)
  loop w hw := hw.elim (fun hw => h'.ext.path (h.loop w hw)) (h'.loop w)
  sound I hI h1 h2 := by
    obtain ⟨I1, hA, hC⟩ := h.sound I hI (fun w x hw hx => h1 w x hw (.inl hx))
      (fun w x hw hx => h2 w x hw (.inl hx))
    obtain ⟨I2, hA2, hC2⟩ := h'.sound I1 hC
      (fun w x hw hx => by
        rw [hA _ hr] at hw; rw [hA _ he]; exact h1 w x hw (.inr hx))
      (fun w x hw hx => by
        rw [hA _ he] at hw ⊢; exact h2 w x hw (.inr hx))
    exact ⟨I2, fun i hi => by
      rw [hA2 i (Nat.lt_of_lt_of_le hi h.ext.len), hA i hi], hC2⟩

/-- Adding labelled edges from `r` to `e`. -/
theorem Nfa.added_edges {n n' : Nfa} {r e : Nat} (ls : Label → Prop) (hwf : n.WF)
    (he : e < n.states.length)
    (hext : n.Ext n') (hlen : n'.states.length = n.states.length)
    (hedge : ∀ p l q, n'.Edge p l q ↔ n.Edge p l q ∨ (p = r ∧ q = e ∧ ls l)) :
    n.Added n' r e (fun w => ∃ l, w = [l] ∧ ls l) .none where
  ext := hext
  wf p l q h := by
    rw [hlen]
    rcases (hedge p l q).mp h with h | ⟨_, rfl, _⟩
    · exact hwf _ _ _ h
    · exact he
  enter w := by
    rintro ⟨l, rfl, hl⟩
    exact .single ((hedge _ _ _).mpr (.inr ⟨rfl, rfl, hl⟩))
  loop w h := h.elim
  sound I hI h1 _ := ⟨I, fun _ _ => rfl, fun p l q w h hw => by
    rcases (hedge p l q).mp h with h | ⟨rfl, rfl, hl⟩
    · exact hI _ _ _ _ h hw
    · exact h1 w [l] hw ⟨l, rfl, hl⟩⟩

/-- Extending a closed assignment to one pushed state. -/
theorem Nfa.closed_push {n : Nfa} {s : NState} {I : Nat → Lang} (hwf : n.WF) (hI : n.Closed I)
    (J : Lang) (hs : ∀ l q, (l, q) ∈ s.out → q < n.states.length ∧ ∀ w, J w → I q (w ++ [l])) :
    (n.pushState s).1.Closed (fun i => if i = n.states.length then J else I i) := by
  intro p l q w h hw
  rcases Nfa.edge_pushState.mp h with h | ⟨rfl, h'⟩
  · have h1 := h.lt
    have h2 := hwf _ _ _ h
    simp only [Nat.ne_of_lt h1, Nat.ne_of_lt h2, if_false] at hw ⊢
    exact hI _ _ _ _ h hw
  · obtain ⟨h1, h2⟩ := hs l q h'
    simp only [Nat.ne_of_lt h1, if_false, if_true] at hw ⊢
    exact h2 w hw

theorem Nfa.wf_push {n : Nfa} {s : NState} (hwf : n.WF)
    (hs : ∀ l q, (l, q) ∈ s.out → q < n.states.length + 1) : (n.pushState s).1.WF := by
  intro p l q h
  rw [Nfa.length_pushState]
  rcases Nfa.edge_pushState.mp h with h | ⟨rfl, h'⟩
  · have := hwf _ _ _ h; omega
  · exact hs l q h'

theorem NState.out_default : ({} : NState).out = [] := rfl

theorem adds_withNegTags {f : Adder} {a b : Lang} (hf : Adds f a b) (neg : List Tag) :
    Adds (withNegTags neg f)
      (if neg.isEmpty then a else Lang.seq (a.full b) (fun w => w = [.negTags neg]))
      (if neg.isEmpty then b else .none) := by
  intro n e n' h hwf hr he
  unfold withNegTags at h
  split at h
  · rename_i hn; simp only [hn, if_true]; exact hf n e n' h hwf hr he
  · rename_i hn
    have hn' : neg.isEmpty = false := by simpa using hn
    simp only [hn']
    rw [if_neg (by simp), if_neg (by simp)]
    simp only [Nfa.pushState] at h
    let s : NState := { neg := some (neg, e) }
    have hout : ∀ l q, (l, q) ∈ s.out ↔ l = .negTags neg ∧ q = e := by
      intro l q; simp [s, NState.out]
    change f (n.pushState s).1 n.states.length = some n' at h
    have hroot1 : (n.pushState s).1.root = n.root := rfl
    obtain ⟨h1, h2⟩ := hf _ _ n' h
      (Nfa.wf_push hwf fun l q hl => by have := ((hout l q).mp hl).2; omega)
      (by rw [Nfa.length_pushState, hroot1]; omega)
      (by rw [Nfa.length_pushState]; omega)
    rw [hroot1] at h1 h2
    have hE : n.Ext (n.pushState s).1 := n.ext_pushState s rfl
    have hedge : n'.Edge n.states.length (.negTags neg) e :=
      h2.ext.edge _ _ _ (Nfa.edge_pushState.mpr (.inr ⟨rfl, (hout _ _).mpr ⟨rfl, rfl⟩⟩))
    refine ⟨h1, hE.trans h2.ext, h2.wf, ?_, fun _ h => h.elim, ?_⟩
    · rintro w ⟨x, y, rfl, ⟨u, v, rfl, hu, hv⟩, rfl⟩
      exact ((h2.enter u hu).append (Nfa.Path.star h2.loop hv)).append (.single hedge)
    · intro I hI hent _
      let J : Lang := fun w => ∃ x y, w = x ++ y ∧ I n.root x ∧ (a.full b) y
      have hc := Nfa.closed_push (s := s) hwf hI J (by
        intro l q hl
        obtain ⟨rfl, rfl⟩ := (hout l q).mp hl
        refine ⟨he, ?_⟩
        rintro w ⟨x, y, rfl, hx, hy⟩
        rw [List.append_assoc]
        exact hent _ _ hx ⟨y, _, rfl, hy, rfl⟩)
      obtain ⟨I', hA, hC⟩ := h2.sound _ hc
        (by
          intro w x hw hx
          rw [if_neg (Nat.ne_of_lt hr)] at hw
          rw [if_pos rfl]
          exact ⟨w, x, rfl, hw, x, [], by simp, hx, .nil⟩)
        (by
          intro w x hw hx
          rw [if_pos rfl] at hw ⊢
          obtain ⟨u, v, rfl, hu, y, z, rfl, hy, hz⟩ := hw
          exact ⟨u, (y ++ z) ++ x, by simp, hu, y, z ++ x, by simp, hy, hz.append (.single hx)⟩)
      refine ⟨I', fun i hi => ?_, hC⟩
      rw [hA i (by rw [Nfa.length_pushState]; omega), if_neg (Nat.ne_of_lt hi)]

/-! #### Atoms -/

theorem Nfa.addInterval_edges (n : Nfa) (r : Range) {src dest : Nat} (hs : src < n.states.length) :
    n.Ext (n.addInterval src r dest) ∧ (n.addInterval src r dest).states.length = n.states.length ∧
    (n.addInterval src r dest).root = n.root ∧
    ∀ p l q, (n.addInterval src r dest).Edge p l q ↔ n.Edge p l q ∨
      (p = src ∧ q = dest ∧ ∃ c, l = .byte c ∧ c < cSizeOfByte ∧ r.1 ≤ c ∧ c ≤ r.2) := by
  unfold Nfa.addInterval
  split
  · rename_i h
    let extra : List (Label × Nat) :=
      (List.range' r.1 (min r.2 (cSizeOfByte - 1) + 1 - r.1)).map (fun c => (Label.byte c, dest))
    have hf : ∀ (s : NState) x, x ∈ ({ s with bytes := s.bytes ++
          (List.range' r.1 (min r.2 (cSizeOfByte - 1) + 1 - r.1)).map (fun c => (c, dest)) } : NState).out ↔
        x ∈ s.out ∨ x ∈ extra := by
      intro s x
      simp only [NState.out, List.map_append, List.mem_append, extra, List.map_map]
      constructor
      · rintro ((((( h | h) | h) | h) | h) | h) <;> simp_all [Function.comp_def]
      · rintro (((((h | h) | h) | h) | h) | h) <;> simp_all [Function.comp_def]
    refine ⟨Nfa.ext_modifyState hs extra hf (fun s => ⟨rfl, rfl⟩), Nfa.length_modifyState, rfl, ?_⟩
    intro p l q
    rw [Nfa.edge_modifyState hs extra hf]
    apply or_congr Iff.rfl
    simp only [extra, List.mem_map, Prod.mk.injEq]
    constructor
    · rintro ⟨rfl, c, hc, rfl, rfl⟩
      refine ⟨rfl, rfl, c, rfl, ?_⟩
      simp only [List.mem_range'_1, cSizeOfByte] at hc h ⊢
      omega
    · rintro ⟨rfl, rfl, c, rfl, hc⟩
      refine ⟨rfl, c, ?_, rfl, rfl⟩
      simp only [List.mem_range'_1, cSizeOfByte] at hc h ⊢
      omega
  · rename_i h
    refine ⟨.refl n, rfl, rfl, fun p l q => ⟨.inl, ?_⟩⟩
    rintro (h' | ⟨_, _, c, _, hc⟩)
    · exact h'
    · simp only [cSizeOfByte] at *; omega

theorem Nfa.addIntervals_edges (rs : List Range) (n : Nfa) {e : Nat} (hs : n.root < n.states.length) :
    let n' := rs.foldl (fun n r => n.addInterval n.root r e) n
    n.Ext n' ∧ n'.states.length = n.states.length ∧ n'.root = n.root ∧
    ∀ p l q, n'.Edge p l q ↔ n.Edge p l q ∨ (p = n.root ∧ q = e ∧
      ∃ c, l = .byte c ∧ c < cSizeOfByte ∧ ∃ r ∈ rs, r.1 ≤ c ∧ c ≤ r.2) := by
  induction rs generalizing n with
  | nil => exact ⟨.refl n, rfl, rfl, fun p l q => by simp⟩
  | cons r rs ih =>
    obtain ⟨a1, a2, a3, a4⟩ := n.addInterval_edges r (dest := e) hs
    obtain ⟨b1, b2, b3, b4⟩ := ih (n.addInterval n.root r e) (by rw [a2, a3]; exact hs)
    refine ⟨a1.trans b1, b2.trans a2, b3.trans a3, fun p l q => ?_⟩
    simp only [List.foldl_cons]
    rw [b4, a4, a3, or_assoc]
    apply or_congr Iff.rfl
    constructor
    · rintro (⟨h1, h2, c, h3, h4, h5⟩ | ⟨h1, h2, c, h3, h4, r', h5, h6⟩)
      · exact ⟨h1, h2, c, h3, h4, r, .head _, h5⟩
      · exact ⟨h1, h2, c, h3, h4, r', .tail _ h5, h6⟩
    · rintro ⟨h1, h2, c, h3, h4, r', h5, h6⟩
      rcases List.mem_cons.mp h5 with rfl | h5
      · exact .inl ⟨h1, h2, c, h3, h4, h6⟩
      · exact .inr ⟨h1, h2, c, h3, h4, r', h5, h6⟩

/-- Words consisting of one byte lying in `rs`. -/
def Lang.bytesIn (rs : List Range) : Lang :=
  fun w => ∃ c, w = [.byte c] ∧ c < cSizeOfByte ∧ ∃ r ∈ rs, r.1 ≤ c ∧ c ≤ r.2

theorem adds_ranges (rs : List Range) :
    Adds (fun n e => some (rs.foldl (fun n r => n.addInterval n.root r e) n)) (.bytesIn rs) .none := by
  intro n e n' h hwf hr he
  simp only [Option.some.injEq] at h
  subst h
  obtain ⟨b1, b2, b3, b4⟩ := Nfa.addIntervals_edges rs n (e := e) hr
  refine ⟨b3, (Nfa.added_edges _ hwf he b1 b2 b4).congr (fun w => ?_) (fun _ => Iff.rfl)⟩
  constructor
  · rintro ⟨l, rfl, c, rfl, h⟩; exact ⟨c, rfl, h⟩
  · rintro ⟨c, rfl, h⟩; exact ⟨_, rfl, c, rfl, h⟩

theorem Nfa.added_epsilon {n : Nfa} {r e : Nat} (hwf : n.WF) (hr : r < n.states.length)
    (he : e < n.states.length) : n.Added (n.addEpsilon r e) r e (fun w => w = [.eps]) .none := by
  have hf : ∀ (s : NState) x, x ∈ ({ s with eps := s.eps ++ [e] } : NState).out ↔
      x ∈ s.out ∨ x ∈ [(Label.eps, e)] := by
    intro s x
    simp only [NState.out, List.map_append, List.mem_append, List.map_cons, List.map_nil]
    constructor
    · rintro ((((h | h | h) | h) | h) | h) <;> simp_all
    · rintro (((((h | h) | h) | h) | h) | h) <;> simp_all
  refine (Nfa.added_edges (fun l => l = .eps) hwf he
    (Nfa.ext_modifyState hr [(Label.eps, e)] hf (fun s => ⟨rfl, rfl⟩)) Nfa.length_modifyState ?_).congr
    (fun w => by simp) (fun _ => Iff.rfl)
  intro p l q
  have := Nfa.edge_modifyState (p := p) (l := l) (q := q) hr _ hf
  rw [this]
  apply or_congr Iff.rfl
  simp only [List.mem_singleton, Prod.mk.injEq]
  exact ⟨fun ⟨a, b, c⟩ => ⟨a, c, b⟩, fun ⟨a, b, c⟩ => ⟨a, c, b⟩⟩

/-! #### Concatenation through a fresh intermediate state -/

/-- Result of moving the root along a chain: from `r` to the new root `n'.root` by `P`. -/
structure Nfa.Moved (n n' : Nfa) (r : Nat) (P : Lang) : Prop where
  ext : n.Ext n'
  wf : n'.WF
  lt : n'.root < n'.states.length
  path : ∀ w, P w → n'.Path r w n'.root
  sound : ∀ I : Nat → Lang, n.Closed I → ∃ I' : Nat → Lang,
    (∀ i, i < n.states.length → I' i = I i) ∧ n'.Closed I' ∧
    ∀ w, I' n'.root w → ∃ x y, w = x ++ y ∧ I r x ∧ P y

theorem Nfa.Moved.refl {n : Nfa} (h : n.WF) (hr : n.root < n.states.length) :
    n.Moved n n.root (fun w => w = []) :=
  ⟨.refl n, h, hr, fun w hw => by subst hw; exact .nil _,
    fun I hI => ⟨I, fun _ _ => rfl, hI, fun w hw => ⟨w, [], by simp, hw, rfl⟩⟩⟩

theorem Nfa.Moved.trans {n n1 n2 : Nfa} {r : Nat} {P Q : Lang} (h : n.Moved n1 r P)
    (h' : n1.Moved n2 n1.root Q) : n.Moved n2 r (P.seq Q) where
  ext := h.ext.trans h'.ext
  wf := h'.wf
  lt := h'.lt
  path w := by
    rintro ⟨x, y, rfl, hx, hy⟩
    exact (h'.ext.path (h.path x hx)).append (h'.path y hy)
  sound I hI := by
    obtain ⟨I1, hA, hC, hR⟩ := h.sound I hI
    obtain ⟨I2, hA2, hC2, hR2⟩ := h'.sound I1 hC
    refine ⟨I2, fun i hi => by rw [hA2 i (Nat.lt_of_lt_of_le hi h.ext.len), hA i hi], hC2, ?_⟩
    intro w hw
    obtain ⟨x, y, rfl, hx, hy⟩ := hR2 w hw
    obtain ⟨u, v, rfl, hu, hv⟩ := hR x hx
    exact ⟨u, v ++ y, by simp, hu, v, y, rfl, hv, hy⟩

/-- New intermediate state, `f` from the root to it, then it becomes the root. -/
theorem moved_step {f : Adder} {a b : Lang} (hf : Adds f a b) {n n' : Nfa} (hwf : n.WF)
    (hr : n.root < n.states.length) (h : f n.newState.1 n.newState.2 = some n') :
    n.Moved (n'.setRoot n.newState.2) n.root (a.full b) := by
  have hroot : n.newState.1.root = n.root := rfl
  have hlen : n.newState.1.states.length = n.states.length + 1 := Nfa.length_pushState
  have hi : n.newState.2 = n.states.length := rfl
  obtain ⟨h1, h2⟩ := hf _ _ n' h (Nfa.wf_push hwf (by simp [NState.out_default]))
    (by rw [hlen, hroot]; omega) (by rw [hlen, hi]; omega)
  rw [hroot] at h1 h2
  have hE : n.Ext n.newState.1 := n.ext_pushState {} rfl
  rw [hi] at h2 ⊢
  refine ⟨(hE.trans h2.ext).setRoot _, h2.wf, ?_, ?_, ?_⟩
  · have := h2.ext.len; rw [hlen] at this
    simp only [Nfa.setRoot]; omega
  · rintro w ⟨x, y, rfl, hx, hy⟩
    exact Nfa.path_setRoot.mpr ((h2.enter x hx).append (Nfa.Path.star h2.loop hy))
  · intro I hI
    have hc := Nfa.closed_push (s := {}) hwf hI (fun w => ∃ x y, w = x ++ y ∧ I n.root x ∧ (a.full b) y)
      (by simp [NState.out_default])
    obtain ⟨I', hA, hC⟩ := h2.sound _ hc
      (by
        intro w x hw hx
        rw [if_neg (Nat.ne_of_lt hr)] at hw
        rw [if_pos rfl]
        exact ⟨w, x, rfl, hw, x, [], by simp, hx, .nil⟩)
      (by
        intro w x hw hx
        rw [if_pos rfl] at hw ⊢
        obtain ⟨u, v, rfl, hu, y, z, rfl, hy, hz⟩ := hw
        exact ⟨u, (y ++ z) ++ x, by simp, hu, y, z ++ x, by simp, hy, hz.append (.single hx)⟩)
    refine ⟨I', fun i hi => ?_, hC, ?_⟩
    · rw [hA i (by rw [hlen]; omega), if_neg (Nat.ne_of_lt hi)]
    · intro w hw
      change I' n.states.length w at hw
      rw [hA _ (by rw [hlen]; omega), if_pos rfl] at hw
      exact hw

/-- Move the root, then add a sub-automaton to an old end state. -/
theorem Nfa.Moved.added {n n1 n2 : Nfa} {r e : Nat} {P a b : Lang} (h : n.Moved n1 r P)
    (h' : n1.Added n2 n1.root e a b) (he : e < n.states.length) :
    n.Added n2 r e (P.seq a) b where
  ext := h.ext.trans h'.ext
  wf := h'.wf
  enter w := by
    rintro ⟨x, y, rfl, hx, hy⟩
    exact (h'.ext.path (h.path x hx)).append (h'.enter y hy)
  loop := h'.loop
  sound I hI h1 h2 := by
    obtain ⟨I1, hA, hC, hR⟩ := h.sound I hI
    obtain ⟨I2, hA2, hC2⟩ := h'.sound I1 hC
      (by
        intro w x hw hx
        obtain ⟨u, v, rfl, hu, hv⟩ := hR w hw
        rw [hA e he, List.append_assoc]
        exact h1 _ _ hu ⟨v, x, rfl, hv, hx⟩)
      (by rw [hA e he]; exact h2)
    exact ⟨I2, fun i hi => by rw [hA2 i (Nat.lt_of_lt_of_le hi h.ext.len), hA i hi], hC2⟩

theorem Nfa.Added.setRoot {n n' : Nfa} {r e a b} (h : n.Added n' r e a b) (k : Nat) :
    n.Added (n'.setRoot k) r e a b :=
  ⟨h.ext.setRoot k, h.wf, fun w hw => Nfa.path_setRoot.mpr (h.enter w hw),
    fun w hw => Nfa.path_setRoot.mpr (h.loop w hw), h.sound⟩

theorem Nfa.Added.ofSetRoot {n n' : Nfa} {k r e a b} (h : (n.setRoot k).Added n' r e a b) :
    n.Added n' r e a b :=
  ⟨h.ext.ofSetRoot, h.wf, h.enter, h.loop, h.sound⟩

theorem Nfa.newState_len (n : Nfa) : n.newState.1.states.length = n.states.length + 1 :=
  Nfa.length_pushState

theorem adds_or {f g : Adder} {a b a' b' : Lang} (hf : Adds f a b) (hg : Adds g a' b') :
    Adds (fun n e => (f n e).bind fun n => g n e) (a.union a') (b.union b') := by
  intro n e n' h hwf hr he
  simp only [Option.bind_eq_some_iff] at h
  obtain ⟨n1, h1, h2⟩ := h
  obtain ⟨r1, A1⟩ := hf n e n1 h1 hwf hr he
  have hl := A1.ext.len
  obtain ⟨r2, A2⟩ := hg n1 e n' h2 A1.wf (by rw [r1]; omega) (by omega)
  rw [r1] at r2 A2
  exact ⟨r2, A1.union A2 hr he⟩

theorem adds_cat {f g : Adder} {a b a' b' : Lang} (hf : Adds f a b) (hg : Adds g a' b') :
    Adds (fun n e => (f n.newState.1 n.newState.2).bind fun m =>
        (g (m.setRoot n.newState.2) e).map fun k => k.setRoot n.root)
      (Lang.seq (a.full b) a') b' := by
  intro n e n' h hwf hr he
  simp only [Option.bind_eq_some_iff, Option.map_eq_some_iff] at h
  obtain ⟨m, h1, k, h2, rfl⟩ := h
  have M := moved_step hf hwf hr h1
  have hl := M.ext.len
  obtain ⟨r2, A2⟩ := hg _ e k h2 M.wf M.lt (by omega)
  exact ⟨rfl, (M.added A2 he).setRoot _⟩

theorem chain_moved {f : Adder} {a b : Lang} (hf : Adds f a b) (k : Nat) {n n' : Nfa} (hwf : n.WF)
    (hr : n.root < n.states.length) (h : chain f k n = some n') :
    n.Moved n' n.root (Lang.pow (a.full b) k) := by
  induction k generalizing n with
  | zero => simp only [chain, Option.some.injEq] at h; subst h; exact .refl hwf hr
  | succ k ih =>
    simp only [chain] at h
    split at h
    · cases h
    · rename_i m hm
      have M := moved_step hf hwf hr hm
      exact M.trans (ih M.wf M.lt h)

/-- Union over `j < k` of `F^j · a`. -/
def Lang.upto (F a : Lang) (k : Nat) : Lang := fun w => ∃ j, j < k ∧ Lang.seq (Lang.pow F j) a w

/-- Result of `chainOpt`: both a move of the root and an addition to `e`. -/
structure Nfa.MovedAdded (n n' : Nfa) (r e : Nat) (P a b : Lang) : Prop where
  ext : n.Ext n'
  wf : n'.WF
  lt : n'.root < n'.states.length
  path : ∀ w, P w → n'.Path r w n'.root
  enter : ∀ w, a w → n'.Path r w e
  sound : ∀ I : Nat → Lang, n.Closed I → (∀ w x, I r w → a x → I e (w ++ x)) →
    (∀ w x, I e w → b x → I e (w ++ x)) → ∃ I' : Nat → Lang,
    (∀ i, i < n.states.length → I' i = I i) ∧ n'.Closed I' ∧
    ∀ w, I' n'.root w → ∃ x y, w = x ++ y ∧ I r x ∧ P y

theorem chainOpt_movedAdded {f : Adder} {a b : Lang} (hf : Adds f a b) (k : Nat) {n n' : Nfa} {e : Nat}
    (hwf : n.WF) (hr : n.root < n.states.length) (he : e < n.states.length)
    (h : chainOpt f e k n = some n') :
    n.MovedAdded n' n.root e (Lang.pow (a.full b) k) (Lang.upto (a.full b) a k) b := by
  induction k generalizing n with
  | zero =>
    simp only [chainOpt, Option.some.injEq] at h; subst h
    have M := Nfa.Moved.refl hwf hr
    exact ⟨M.ext, M.wf, M.lt, M.path, by rintro w ⟨j, hj, _⟩; omega, fun I hI _ _ => M.sound I hI⟩
  | succ k ih =>
    simp only [chainOpt] at h
    split at h
    · cases h
    · rename_i n1 hn1
      obtain ⟨r1, A1⟩ := hf n e n1 hn1 hwf hr he
      have hl1 := A1.ext.len
      split at h
      · cases h
      · rename_i m hm
        have M := moved_step hf A1.wf (by omega) hm
        have hl2 := M.ext.len
        have R := ih M.wf M.lt (by omega) h
        rw [r1] at M
        refine ⟨(A1.ext.trans M.ext).trans R.ext, R.wf, R.lt, ?_, ?_, ?_⟩
        · rintro w ⟨x, y, rfl, hx, hy⟩
          exact (R.ext.path (M.path x hx)).append (R.path y hy)
        · rintro w ⟨j, hj, hw⟩
          cases j with
          | zero =>
            obtain ⟨x, y, rfl, hx, hy⟩ := hw
            cases hx
            exact (M.ext.trans R.ext).path (A1.enter y hy)
          | succ j =>
            obtain ⟨x, y, rfl, ⟨u, v, rfl, hu, hv⟩, hy⟩ := hw
            rw [List.append_assoc]
            exact (R.ext.path (M.path u hu)).append
              (R.enter _ ⟨j, by omega, v, y, rfl, hv, hy⟩)
        · intro I hI h1 h2
          obtain ⟨I1, hA1, hC1⟩ := A1.sound I hI
            (fun w x hw hx => h1 w x hw ⟨0, by omega, [], x, rfl, rfl, hx⟩) h2
          obtain ⟨I2, hA2, hC2, hR2⟩ := M.sound I1 hC1
          obtain ⟨I3, hA3, hC3, hR3⟩ := R.sound I2 hC2
            (by
              rintro w x hw ⟨j, hj, u, v, rfl, hu, hv⟩
              obtain ⟨y, z, rfl, hy, hz⟩ := hR2 w hw
              rw [hA1 _ hr] at hy
              rw [hA2 e (by omega), hA1 e he, List.append_assoc]
              exact h1 _ _ hy ⟨j + 1, by omega, z ++ u, v, by simp, ⟨z, u, rfl, hz, hu⟩, hv⟩)
            (by rw [hA2 e (by omega), hA1 e he]; exact h2)
          refine ⟨I3, fun i hi => by rw [hA3 i (by omega), hA2 i (by omega), hA1 i hi], hC3, ?_⟩
          intro w hw
          obtain ⟨x, y, rfl, hx, hy⟩ := hR3 w hw
          obtain ⟨u, v, rfl, hu, hv⟩ := hR2 x hx
          rw [hA1 _ hr] at hu
          exact ⟨u, v ++ y, by simp, hu, v, y, rfl, hv, hy⟩

/-- Languages added by a repetition whose operand adds `a`, `b`. -/
def Lang.multEnter (a b : Lang) (min max : Nat) : Lang := fun w =>
  (min = 0 ∧ w = [.eps]) ∨
  ∃ j, min ≤ j + 1 ∧ (j + 1 ≤ min ∨ j + 1 ≤ max) ∧ Lang.seq (Lang.pow (a.full b) j) a w

def Lang.multLoop (a b : Lang) (max : Nat) : Lang := fun w => b w ∨ (max = 0 ∧ a w)

theorem Nfa.MovedAdded.added {n n1 n2 : Nfa} {r e : Nat} {P a b a' : Lang}
    (h : n.MovedAdded n1 r e P a b) (h' : n1.Added n2 n1.root e a' b) (_hr : r < n.states.length)
    (he : e < n.states.length) :
    n.Added n2 r e (a.union (P.seq a')) b where
  ext := h.ext.trans h'.ext
  wf := h'.wf
  enter w := by
    rintro (hw | ⟨x, y, rfl, hx, hy⟩)
    · exact h'.ext.path (h.enter w hw)
    · exact (h'.ext.path (h.path x hx)).append (h'.enter y hy)
  loop := h'.loop
  sound I hI h1 h2 := by
    obtain ⟨I1, hA, hC, hR⟩ := h.sound I hI (fun w x hw hx => h1 w x hw (.inl hx)) h2
    obtain ⟨I2, hA2, hC2⟩ := h'.sound I1 hC
      (by
        intro w x hw hx
        obtain ⟨u, v, rfl, hu, hv⟩ := hR w hw
        rw [hA e he, List.append_assoc]
        exact h1 _ _ hu (.inr ⟨v, x, rfl, hv, hx⟩))
      (by rw [hA e he]; exact h2)
    exact ⟨I2, fun i hi => by rw [hA2 i (Nat.lt_of_lt_of_le hi h.ext.len), hA i hi], hC2⟩

theorem adds_mult {f : Adder} {a b : Lang} (hf : Adds f a b) (min max : Nat) :
    Adds (addMult f min max) (Lang.multEnter a b min max) (Lang.multLoop a b max) := by
  intro n e n' h hwf hr he
  simp only [addMult, Option.bind_eq_some_iff, Option.map_eq_some_iff] at h
  obtain ⟨n1, h1, n2, h2, rfl⟩ := h
  refine ⟨rfl, Nfa.Added.setRoot ?_ _⟩
  -- first part: `min` copies. `R` describes the root afterwards.
  by_cases hmin : min = 0
  · subst hmin
    simp only [if_true, Option.some.injEq] at h1
    subst h1
    have A1 := Nfa.added_epsilon hwf hr he
    have hlen1 : (n.addEpsilon n.root e).states.length = n.states.length := Nfa.length_modifyState
    have hroot1 : (n.addEpsilon n.root e).root = n.root := rfl
    by_cases hmax : max = 0
    · subst hmax
      simp only [if_true] at h2
      obtain ⟨_, A2⟩ := hf _ e n2 h2 A1.wf
        (by simp only [Nfa.setRoot]; rw [hlen1]; exact he)
        (by simp only [Nfa.setRoot]; rw [hlen1]; exact he)
      have A2 := A2.ofSetRoot
      simp only [Nfa.setRoot] at A2
      refine ⟨A1.ext.trans A2.ext, A2.wf, ?_, ?_, ?_⟩
      · rintro w (⟨_, rfl⟩ | ⟨j, h1, h2, _⟩)
        · exact A2.ext.path (A1.enter _ rfl)
        · omega
      · rintro w (hw | ⟨_, hw⟩)
        · exact A2.loop w hw
        · exact A2.enter w hw
      · intro I hI c1 c2
        obtain ⟨I1, hA, hC⟩ := A1.sound I hI (fun w x hw hx => c1 w x hw (.inl ⟨rfl, hx⟩))
          (fun w x _ hx => hx.elim)
        obtain ⟨I2, hA2, hC2⟩ := A2.sound I1 hC
          (by rw [hA e he]; exact fun w x hw hx => c2 w x hw (.inr ⟨rfl, hx⟩))
          (by rw [hA e he]; exact fun w x hw hx => c2 w x hw (.inl hx))
        exact ⟨I2, fun i hi => by rw [hA2 i (by omega), hA i hi], hC2⟩
    · have hgt : max > 0 := by omega
      simp only [hmax, if_false, hgt, if_true, Option.bind_eq_some_iff, ne_eq, not_true_eq_false,
        Option.some.injEq] at h2
      obtain ⟨_, rfl, n3, h3, h4⟩ := h2
      have C := chainOpt_movedAdded hf _ A1.wf (by rw [hlen1]; exact hr) (by rw [hlen1]; exact he) h3
      have hl := C.ext.len
      obtain ⟨_, A3⟩ := hf n3 e n2 h4 C.wf C.lt (by omega)
      have A4 := C.added A3 (by rw [hlen1]; exact hr) (by rw [hlen1]; exact he)
      rw [hroot1] at A4
      refine (A1.union A4 hr he).congr ?_ ?_
      · intro w
        constructor
        · rintro (hw | ⟨j, hj, hw⟩ | hw)
          · exact .inl ⟨rfl, hw⟩
          · exact .inr ⟨j, by omega, by omega, hw⟩
          · exact .inr ⟨max - (0 + 1), by omega, by omega, hw⟩
        · rintro (⟨_, hw⟩ | ⟨j, _, hj, hw⟩)
          · exact .inl hw
          · by_cases hjm : j < max - (0 + 1)
            · exact .inr (.inl ⟨j, hjm, hw⟩)
            · have : j = max - (0 + 1) := by omega
              subst this; exact .inr (.inr hw)
      · intro w; simp [Lang.union, Lang.none, Lang.multLoop, hmax]
  · simp only [hmin, if_false, Option.bind_eq_some_iff] at h1
    obtain ⟨m, hm1, hm2⟩ := h1
    have M := chain_moved hf _ hwf hr hm1
    have hl1 := M.ext.len
    obtain ⟨r1, A0⟩ := hf m e n1 hm2 M.wf M.lt (by omega)
    have hl2 := A0.ext.len
    by_cases hmax : max = 0
    · subst hmax
      simp only [if_true] at h2
      obtain ⟨_, A2⟩ := hf _ e n2 h2 A0.wf
        (by simp only [Nfa.setRoot]; omega) (by simp only [Nfa.setRoot]; omega)
      have A2 := A2.ofSetRoot
      simp only [Nfa.setRoot] at A2
      have A1 := M.added A0 he
      refine ⟨A1.ext.trans A2.ext, A2.wf, ?_, ?_, ?_⟩
      · rintro w (⟨h, _⟩ | ⟨j, h1, h2, hw⟩)
        · omega
        · have : j = min - 1 := by omega
          subst this
          exact A2.ext.path (A1.enter _ hw)
      · rintro w (hw | ⟨_, hw⟩)
        · exact A2.loop w hw
        · exact A2.enter w hw
      · intro I hI c1 c2
        obtain ⟨I1, hA, hC⟩ := A1.sound I hI
          (fun w x hw hx => c1 w x hw (.inr ⟨min - 1, by omega, by omega, hx⟩))
          (fun w x hw hx => c2 w x hw (.inl hx))
        obtain ⟨I2, hA2, hC2⟩ := A2.sound I1 hC
          (by rw [hA e he]; exact fun w x hw hx => c2 w x hw (.inr ⟨rfl, hx⟩))
          (by rw [hA e he]; exact fun w x hw hx => c2 w x hw (.inl hx))
        exact ⟨I2, fun i hi => by rw [hA2 i (by omega), hA i hi], hC2⟩
    · by_cases hgt : max > min
      · simp only [hmax, if_false, hgt, if_true, Option.bind_eq_some_iff, ne_eq, hmin,
          not_false_eq_true] at h2
        obtain ⟨n3, h3, n4, h4, h5⟩ := h2
        -- everything after the first `min - 1` moves happens with root `m.root`
        have M2 := chain_moved hf 1 A0.wf (by have := M.lt; omega) h3
        have hl3 := M2.ext.len
        have C := chainOpt_movedAdded hf _ M2.wf M2.lt (by omega) h4
        have hl4 := C.ext.len
        obtain ⟨_, A5⟩ := hf n4 e n2 h5 C.wf C.lt (by omega)
        have A6 := C.added A5 M2.lt (by omega)
        have A7 := M2.added A6 (by omega)
        rw [r1] at A7
        have A8 := M.added (A0.union A7 M.lt (by omega)) he
        refine A8.congr ?_ ?_
        · intro w
          constructor
          · rintro ⟨x, y, rfl, hx, hy⟩
            rcases hy with hy | ⟨u, v, rfl, hu, hv⟩
            · exact .inr ⟨min - 1, by omega, by omega, x, y, rfl, hx, hy⟩
            · obtain ⟨u1, u2, rfl, hu1, hu2⟩ := hu
              cases hu2
              have hmm : Lang.pow (a.full b) (min - 1 + 1) (x ++ u1) := Lang.pow_succ' hx hu1
              have key : ∀ k z, Lang.pow (a.full b) k z → Lang.pow (a.full b) (min - 1 + 1 + k) ((x ++ u1) ++ z) := by
                intro k z hz
                induction k generalizing z with
                | zero => cases hz; simpa using hmm
                | succ k ih =>
                  obtain ⟨z1, z2, rfl, hz1, hz2⟩ := Lang.pow_succ_inv hz
                  have := Lang.pow_succ' (ih z1 hz1) hz2
                  rw [List.append_assoc] at this
                  exact this
              rcases hv with ⟨j, hj, z, t, rfl, hz, ht⟩ | ⟨z, t, rfl, hz, ht⟩
              · exact .inr ⟨min - 1 + 1 + j, by omega, by omega, (x ++ u1) ++ z, t, by simp, key j z hz, ht⟩
              · exact .inr ⟨min - 1 + 1 + (max - (min + 1)), by omega, by omega, (x ++ u1) ++ z, t,
                  by simp, key _ z hz, ht⟩
          · rintro (⟨h, _⟩ | ⟨j, h1, h2, x, y, rfl, hx, hy⟩)
            · omega
            · by_cases hj : j = min - 1
              · subst hj; exact ⟨x, y, rfl, hx, .inl hy⟩
              · have hsplit : ∀ k z, Lang.pow (a.full b) (min - 1 + 1 + k) z →
                    ∃ z1 z2 z3, z = z1 ++ (z2 ++ z3) ∧ Lang.pow (a.full b) (min - 1) z1 ∧ (a.full b) z2 ∧
                      Lang.pow (a.full b) k z3 := by
                  intro k
                  induction k with
                  | zero =>
                    intro z hz
                    obtain ⟨z1, z2, rfl, hz1, hz2⟩ := Lang.pow_succ_inv hz
                    exact ⟨z1, z2, [], by simp, hz1, hz2, rfl⟩
                  | succ k ih =>
                    intro z hz
                    obtain ⟨z1, z2, rfl, hz1, hz2⟩ := Lang.pow_succ_inv hz
                    obtain ⟨y1, y2, y3, rfl, hy1, hy2, hy3⟩ := ih z1 hz1
                    exact ⟨y1, y2, y3 ++ z2, by simp, hy1, hy2, Lang.pow_succ' hy3 hz2⟩
                obtain ⟨k, rfl⟩ : ∃ k, j = min - 1 + 1 + k := ⟨j - min, by omega⟩
                obtain ⟨z1, z2, z3, rfl, hz1, hz2, hz3⟩ := hsplit k x hx
                refine ⟨z1, z2 ++ (z3 ++ y), by simp, hz1, .inr ⟨z2, z3 ++ y, rfl, ⟨z2, [], by simp, hz2, rfl⟩, ?_⟩⟩
                by_cases hk : k < max - (min + 1)
                · exact .inl ⟨k, hk, z3, y, rfl, hz3, hy⟩
                · have : k = max - (min + 1) := by omega
                  subst this
                  exact .inr ⟨z3, y, rfl, hz3, hy⟩
        · intro w; simp [Lang.union, Lang.multLoop, hmax]
      · simp only [hmax, if_false, hgt, Option.some.injEq] at h2
        subst h2
        refine (M.added A0 he).congr ?_ ?_
        · intro w
          constructor
          · intro hw; exact .inr ⟨min - 1, by omega, by omega, hw⟩
          · rintro (⟨h, _⟩ | ⟨j, h1, h2, hw⟩)
            · omega
            · have : j = min - 1 := by omega
              subst this; exact hw
        · intro w; simp [Lang.multLoop, hmax]

end LogSurgeon
