import Verif.Proofs.NfaTextInj
import Verif.Props.NfaText
/-
C62: the text of an NFA identifies the NFA.
-/
namespace LogSurgeon

/-- A label as it is written in a text: tags by their names. -/
inductive NamedLabel where
  | byte (c : Nat)
  | eps
  | openTag (n : List Nat)
  | closeTag (n : List Nat)
  | negTags (ns : List (List Nat))
deriving Repr, DecidableEq

def Label.named (name : Tag → List Nat) : Label → NamedLabel
  | .byte c => .byte c
  | .eps => .eps
  | .openTag t => .openTag (name t)
  | .closeTag t => .closeTag (name t)
  | .negTags ts => .negTags (ts.map name)

/-- The state can be reached from the root. -/
def Nfa.Reach (n : Nfa) (p : Nat) : Prop := ∃ w, n.Path n.root w p

/-- `f` maps the reachable states of `n` one to one onto those of `n'`, root to root, accepting states to accepting states for the same variable, and
transitions to transitions with the same label (tags with the same name). -/
structure SameNfa (name : Tag → List Nat) (n n' : Nfa) (f : Nat → Nat) : Prop where
  root : f n.root = n'.root
  reach : ∀ p, n.Reach p → n'.Reach (f p)
  onto : ∀ q, n'.Reach q → ∃ p, n.Reach p ∧ f p = q
  inj : ∀ p p', n.Reach p → n.Reach p' → f p = f p' → p = p'
  accept : ∀ p v, n.Reach p → (n.AcceptingFor p v ↔ n'.AcceptingFor (f p) v)
  edge : ∀ p q l, n.Reach p → n.Reach q → ((∃ x, x.named name = l ∧ n.Edge p x q) ↔ ∃ x, x.named name = l ∧ n'.Edge (f p) x (f q))

/-- C62: if two NFAs (with transitions to existing states, on bytes: `C33_built`) are serialized to the same text, they are the same up to the numbering of their states and
to unreachable states.  Names of tags are not empty and contain neither `,` nor `]` (names in schemas consist of letters and digits).  Newline transitions
make no difference: although the text then has more lines than there are states (`C33_text_refuted`), it can be read in one way only. -/
theorem C62_text_identifies {n n' : Nfa} (hwf : n.WF) (hb : n.BytesOk) (hr : n.root < n.states.length) (hwf' : n'.WF) (hb' : n'.BytesOk)
    (hr' : n'.root < n'.states.length) {name : Tag → List Nat} (hn : NamesPlain name) (h : n.serialize name = n'.serialize name) :
    ∃ f, SameNfa name n n' f := by
  obtain ⟨order0, a1, ahead, anodup, areach, _⟩ := C33_bfs hwf hb hr
  obtain ⟨order, lines, a1', a2, a3, a4⟩ := C33_serialize hwf hb hr
  obtain rfl : order0 = order := Option.some.inj (a1.symm.trans a1')
  obtain ⟨order1, b1, bhead, bnodup, breach, _⟩ := C33_bfs hwf' hb' hr'
  obtain ⟨order', lines', b1', b2, b3, b4⟩ := C33_serialize hwf' hb' hr'
  obtain rfl : order1 = order' := Option.some.inj (b1.symm.trans b1')
  have ane : lines ≠ [] := by
    rintro rfl
    have : order0 = [] := List.length_eq_zero_iff.mp (by simpa using a3.symm)
    rw [this] at ahead; simp at ahead
  have bne : lines' ≠ [] := by
    rintro rfl
    have : order1 = [] := List.length_eq_zero_iff.mp (by simpa using b3.symm)
    rw [this] at bhead; simp at bhead
  have hl : lines.map (·.named name) = lines'.map (·.named name) := by
    refine lines_inj hn ?_
    simp only [Nfa.serialize, a2, b2, Option.map_some, Option.some.injEq] at h
    rw [serialize_lines name lines ane, serialize_lines name lines' bne] at h
    exact h
  have hlen : order0.length = order1.length := by
    have := congrArg List.length hl
    simp only [List.length_map] at this
    omega
  -- the lines agree
  have line : ∀ (i : Nat) p q, order0[i]? = some p → order1[i]? = some q →
      (∀ v, n.AcceptingFor p v ↔ n'.AcceptingFor q v) ∧
      ∀ (j : Nat) p' q', order0[j]? = some p' → order1[j]? = some q' → ∀ l, (∃ x : Label, x.named name = l ∧ n.Edge p x p') ↔ ∃ x : Label, x.named name = l ∧ n'.Edge q x q' := by
    intro i p q hp hq
    obtain ⟨s, hs⟩ : ∃ s, lines[i]? = some s :=
      ⟨_, List.getElem?_eq_getElem (by have := (List.getElem?_eq_some_iff.mp hp).1; omega)⟩
    obtain ⟨s', hs'⟩ : ∃ s, lines'[i]? = some s :=
      ⟨_, List.getElem?_eq_getElem (by have := (List.getElem?_eq_some_iff.mp hq).1; omega)⟩
    have he : s.named name = s'.named name := by
      have h1 : (lines.map (·.named name))[i]? = some (s.named name) := by simp [hs]
      rw [hl] at h1
      simp only [List.getElem?_map, hs', Option.map_some, Option.some.injEq] at h1
      exact h1.symm
    simp only [SerState.named, Prod.mk.injEq] at he
    obtain ⟨_, e2, e3, e4, e5, e6, e7⟩ := he
    obtain ⟨_, c2, c3, c4, c5, c6, c7⟩ := a4 i p s hp hs
    obtain ⟨_, d2, d3, d4, d5, d6, d7⟩ := b4 i q s' hq hs'
    refine ⟨fun v => by rw [← c2, ← d2, e2], fun j p' q' hp' hq' l => ?_⟩
    have uniq : ∀ (j' : Nat), order0[j']? = some p' → j' = j := by
      intro j' hj'
      have := (List.getElem?_eq_some_iff.mp hj').1
      exact (List.getElem?_inj this anodup).mp (hj'.trans hp'.symm)
    have uniq' : ∀ (j' : Nat), order1[j']? = some q' → j' = j := by
      intro j' hj'
      have := (List.getElem?_eq_some_iff.mp hj').1
      exact (List.getElem?_inj this bnodup).mp (hj'.trans hq'.symm)
    constructor
    · rintro ⟨x, rfl, hx⟩
      cases x with
      | byte c =>
        have := (c3 c j).mpr ⟨p', hx, hp'⟩
        rw [e3] at this
        obtain ⟨q'', h1, h2⟩ := (d3 c j).mp this
        rw [hq'] at h2; cases h2
        exact ⟨_, rfl, h1⟩
      | eps =>
        have := (c4 j).mpr ⟨p', hx, hp'⟩
        rw [e4] at this
        obtain ⟨q'', h1, h2⟩ := (d4 j).mp this
        rw [hq'] at h2; cases h2
        exact ⟨_, rfl, h1⟩
      | openTag t =>
        have := List.mem_map_of_mem (f := fun p : Nat × Tag => (p.1, name p.2)) ((c5 j t).mpr ⟨p', hx, hp'⟩)
        rw [e5] at this
        obtain ⟨⟨j', t'⟩, hm, e⟩ := List.mem_map.mp this
        simp only [Prod.mk.injEq] at e
        obtain ⟨rfl, e⟩ := e
        obtain ⟨q'', h1, h2⟩ := (d5 j' t').mp hm
        rw [hq'] at h2; cases h2
        exact ⟨_, by simp [Label.named, e], h1⟩
      | closeTag t =>
        have := (c6 j t).mpr ⟨p', hx, hp'⟩
        rw [this] at e6
        simp only [Option.map_some] at e6
        obtain ⟨⟨j', t'⟩, hm, e⟩ := Option.map_eq_some_iff.mp e6.symm
        simp only [Prod.mk.injEq] at e
        obtain ⟨rfl, e⟩ := e
        obtain ⟨q'', h1, h2⟩ := (d6 j' t').mp hm
        rw [hq'] at h2; cases h2
        exact ⟨_, by simp [Label.named, e], h1⟩
      | negTags ts =>
        have := (c7 j ts).mpr ⟨p', hx, hp'⟩
        rw [this] at e7
        simp only [Option.map_some] at e7
        obtain ⟨⟨j', t'⟩, hm, e⟩ := Option.map_eq_some_iff.mp e7.symm
        simp only [Prod.mk.injEq] at e
        obtain ⟨rfl, e⟩ := e
        obtain ⟨q'', h1, h2⟩ := (d7 j' t').mp hm
        rw [hq'] at h2; cases h2
        exact ⟨_, by simp [Label.named, e], h1⟩
    · rintro ⟨x, rfl, hx⟩
      cases x with
      | byte c =>
        have := (d3 c j).mpr ⟨q', hx, hq'⟩
        rw [← e3] at this
        obtain ⟨q'', h1, h2⟩ := (c3 c j).mp this
        rw [hp'] at h2; cases h2
        exact ⟨_, rfl, h1⟩
      | eps =>
        have := (d4 j).mpr ⟨q', hx, hq'⟩
        rw [← e4] at this
        obtain ⟨q'', h1, h2⟩ := (c4 j).mp this
        rw [hp'] at h2; cases h2
        exact ⟨_, rfl, h1⟩
      | openTag t =>
        have := List.mem_map_of_mem (f := fun p : Nat × Tag => (p.1, name p.2)) ((d5 j t).mpr ⟨q', hx, hq'⟩)
        rw [← e5] at this
        obtain ⟨⟨j', t'⟩, hm, e⟩ := List.mem_map.mp this
        simp only [Prod.mk.injEq] at e
        obtain ⟨rfl, e⟩ := e
        obtain ⟨q'', h1, h2⟩ := (c5 j' t').mp hm
        rw [hp'] at h2; cases h2
        exact ⟨_, by simp [Label.named, e], h1⟩
      | closeTag t =>
        have := (d6 j t).mpr ⟨q', hx, hq'⟩
        rw [this] at e6
        simp only [Option.map_some] at e6
        obtain ⟨⟨j', t'⟩, hm, e⟩ := Option.map_eq_some_iff.mp e6
        simp only [Prod.mk.injEq] at e
        obtain ⟨rfl, e⟩ := e
        obtain ⟨q'', h1, h2⟩ := (c6 j' t').mp hm
        rw [hp'] at h2; cases h2
        exact ⟨_, by simp [Label.named, e], h1⟩
      | negTags ts =>
        have := (d7 j ts).mpr ⟨q', hx, hq'⟩
        rw [this] at e7
        simp only [Option.map_some] at e7
        obtain ⟨⟨j', t'⟩, hm, e⟩ := Option.map_eq_some_iff.mp e7
        simp only [Prod.mk.injEq] at e
        obtain ⟨rfl, e⟩ := e
        obtain ⟨q'', h1, h2⟩ := (c7 j' t').mp hm
        rw [hp'] at h2; cases h2
        exact ⟨_, by simp [Label.named, e], h1⟩
  have pos : ∀ p, n.Reach p → ∃ (i : Nat) (q : Nat), order0[i]? = some p ∧ order1[i]? = some q ∧ order1[order0.idxOf p]?.getD 0 = q ∧ n'.Reach q := by
    intro p hp
    obtain ⟨i, hi⟩ := List.getElem?_of_mem ((areach p).mpr hp)
    have hlt := (List.getElem?_eq_some_iff.mp hi).1
    have hidx : order0.idxOf p = i := by
      have := List.Nodup.idxOf_getElem anodup i hlt
      rwa [(List.getElem?_eq_some_iff.mp hi).2] at this
    refine ⟨i, order1[i]'(by omega), hi, List.getElem?_eq_getElem (by omega), ?_, ?_⟩
    · rw [hidx, List.getElem?_eq_getElem (by omega)]; rfl
    · exact (breach _).mp (List.getElem_mem (by omega))
  refine ⟨fun p => order1[order0.idxOf p]?.getD 0, ?_, ?_, ?_, ?_, ?_, ?_⟩
  · have h0 : order0[0]? = some n.root := by rw [← List.head?_eq_getElem?]; exact ahead
    have h1 : order1[0]? = some n'.root := by rw [← List.head?_eq_getElem?]; exact bhead
    have hlt := (List.getElem?_eq_some_iff.mp h0).1
    have hidx : order0.idxOf n.root = 0 := by
      have := List.Nodup.idxOf_getElem anodup 0 hlt
      rwa [(List.getElem?_eq_some_iff.mp h0).2] at this
    simp only [hidx, h1, Option.getD_some]
  · intro p hp
    obtain ⟨i, q, _, _, e, hq⟩ := pos p hp
    show n'.Reach (order1[order0.idxOf p]?.getD 0)
    rw [e]; exact hq
  · intro q hq
    obtain ⟨i, hi⟩ := List.getElem?_of_mem ((breach q).mpr hq)
    have hlt := (List.getElem?_eq_some_iff.mp hi).1
    have hi0 : order0[i]? = some (order0[i]'(by omega)) := List.getElem?_eq_getElem (by omega)
    have hp := (areach _).mp (List.mem_of_getElem? hi0)
    refine ⟨order0[i]'(by omega), hp, ?_⟩
    have hidx : order0.idxOf (order0[i]'(by omega)) = i := List.Nodup.idxOf_getElem anodup i (by omega)
    simp only [hidx, hi, Option.getD_some]
  · intro p p' hp hp' e
    obtain ⟨i, q, h1, h2, e1, _⟩ := pos p hp
    obtain ⟨i', q', h1', h2', e1', _⟩ := pos p' hp'
    simp only [e1, e1'] at e
    subst e
    have := (List.getElem?_inj (List.getElem?_eq_some_iff.mp h2).1 bnodup).mp (h2.trans h2'.symm)
    subst this
    rw [h1] at h1'
    exact Option.some.inj h1'
  · intro p v hp
    obtain ⟨i, q, h1, h2, e1, _⟩ := pos p hp
    simp only [e1]
    exact (line i p q h1 h2).1 v
  · intro p p' l hp hp'
    obtain ⟨i, q, h1, h2, e1, _⟩ := pos p hp
    obtain ⟨i', q', h1', h2', e1', _⟩ := pos p' hp'
    simp only [e1, e1']
    exact (line i p q h1 h2).2 i' p' q' h1' h2' l

/-- The bytes read are the same if the labels have the same names. -/
theorem bytesOf_named {name : Tag → List Nat} {w w' : List Label} (h : w.map (Label.named name) = w'.map (Label.named name)) : bytesOf w = bytesOf w' := by
  induction w generalizing w' with
  | nil => cases w' with
    | nil => rfl
    | cons _ _ => simp at h
  | cons x w ih =>
    cases w' with
    | nil => simp at h
    | cons y w' =>
      simp only [List.map_cons, List.cons.injEq] at h
      have := ih h.2
      obtain ⟨h1, h2⟩ := h
      cases x <;> cases y <;> simp [Label.named] at h1 <;> simp [bytesOf, this, h1]

theorem path_snoc {n : Nfa} {p q r : Nat} {w : List Label} {l : Label} (h : n.Path p w q) (he : n.Edge q l r) : n.Path p (w ++ [l]) r := by
  induction h with
  | nil => exact .cons he (.nil _)
  | cons h1 _ ih => exact .cons h1 (ih he)

/-- A path of the one NFA is one of the other. -/
theorem SameNfa.path {name : Tag → List Nat} {n n' : Nfa} {f : Nat → Nat} (h : SameNfa name n n' f) {p q : Nat} {w : List Label} (hp : n.Reach p)
    (hw : n.Path p w q) : ∃ w', w'.map (Label.named name) = w.map (Label.named name) ∧ n'.Path (f p) w' (f q) := by
  induction hw with
  | nil p => exact ⟨[], rfl, .nil _⟩
  | @cons p l r w q he hr ih =>
    have hreach : n.Reach r := by
      obtain ⟨u, hu⟩ := hp
      refine ⟨u ++ [l], ?_⟩
      exact path_snoc hu he
    obtain ⟨w', h1, h2⟩ := ih hreach
    obtain ⟨x, hx, hx'⟩ := (h.edge p r (l.named name) hp hreach).mp ⟨l, rfl, he⟩
    exact ⟨x :: w', by simp [hx, h1], .cons hx' h2⟩

/-- The inverse direction. -/
theorem SameNfa.path_back {name : Tag → List Nat} {n n' : Nfa} {f : Nat → Nat} (h : SameNfa name n n' f) {p q : Nat} {w : List Label} (hp : n.Reach p)
    (hw : n'.Path (f p) w q) : ∃ w' q', f q' = q ∧ n.Reach q' ∧ w'.map (Label.named name) = w.map (Label.named name) ∧ n.Path p w' q' := by
  generalize e : f p = p0 at hw
  induction hw generalizing p with
  | nil _ => exact ⟨[], p, e, hp, rfl, .nil _⟩
  | @cons p0 l r w q he hr ih =>
    subst e
    have hreach : n'.Reach r := by
      obtain ⟨u, hu⟩ := h.reach p hp
      refine ⟨u ++ [l], ?_⟩
      exact path_snoc hu he
    obtain ⟨r0, hr0, rfl⟩ := h.onto r hreach
    obtain ⟨w', q', h1, h2, h3, h4⟩ := ih hr0 rfl
    obtain ⟨x, hx, hx'⟩ := (h.edge p r0 (l.named name) hp hr0).mpr ⟨l, rfl, he⟩
    exact ⟨x :: w', q', h1, h2, by simp [hx, h3], .cons hx' h4⟩

/-- C62: so NFAs with the same text accept the same strings for the same variables. -/
theorem C62_same_language {n n' : Nfa} (hwf : n.WF) (hb : n.BytesOk) (hr : n.root < n.states.length) (hwf' : n'.WF) (hb' : n'.BytesOk)
    (hr' : n'.root < n'.states.length) {name : Tag → List Nat} (hn : NamesPlain name) (h : n.serialize name = n'.serialize name) (v : Nat) (s : List Nat) :
    n.Accepts v s ↔ n'.Accepts v s := by
  obtain ⟨f, F⟩ := C62_text_identifies hwf hb hr hwf' hb' hr' hn h
  have hroot : n.Reach n.root := ⟨[], .nil _⟩
  constructor
  · rintro ⟨w, q, h1, h2, h3⟩
    obtain ⟨w', e, h4⟩ := F.path hroot h1
    rw [F.root] at h4
    exact ⟨w', f q, h4, by rw [bytesOf_named e, h2], (F.accept q v ⟨w, h1⟩).mp h3⟩
  · rintro ⟨w, q, h1, h2, h3⟩
    rw [← F.root] at h1
    obtain ⟨w', q', rfl, hq, e, h4⟩ := F.path_back hroot h1
    exact ⟨w', q', h4, by rw [bytesOf_named e, h2], (F.accept q' v hq).mpr h3⟩

/-- C62, for patterns: rules with the same NFA text match the same strings, for the same variables. -/
theorem C62_rules {rules rules' : List Rule} {n n' : Nfa} (h : buildNfa rules = some n) (h' : buildNfa rules' = some n') {name : Tag → List Nat}
    (hn : NamesPlain name) (ht : n.serialize name = n'.serialize name) (v : Nat) (s : List Nat) : n.Accepts v s ↔ n'.Accepts v s := by
  obtain ⟨h1, h2, h3⟩ := C33_built h
  obtain ⟨g1, g2, g3⟩ := C33_built h'
  exact C62_same_language h1 h2 h3 g1 g2 g3 hn ht v s

/-- The NFA of `\n(?<3>c)`, and the same with the states stored in another order and an unreachable state. -/
def twinA : Nfa := { states := [{ bytes := [(10, 1)] }, { posStart := [(3, 2)] }, { bytes := [(99, 3)] }, { posEnd := some (3, 4) }, { accepting := true, varId := 8 }], root := 0 }
def twinB : Nfa := { states := [{}, { accepting := true, varId := 8 }, { posEnd := some (3, 1) }, { bytes := [(99, 2)] }, { posStart := [(3, 3)] }, { bytes := [(10, 4)] }], root := 5 }

set_option maxRecDepth 100000 in
example : twinA.serialize (fun t => [97 + t.id]) = twinB.serialize (fun t => [97 + t.id]) ∧ (twinA.serialize fun t => [97 + t.id]).isSome ∧
    NamesPlain (fun t => [100 + t.id]) := by
  refine ⟨by decide +kernel, by decide +kernel, fun t => ⟨by simp, ?_, ?_⟩⟩ <;> simp <;> omega

set_option maxRecDepth 100000 in
/-- The NFA the library builds for a rule with a newline, an alternative and a capture; its text has 7 newlines, but only 6 states. -/
example : ∃ n text, buildNfa [⟨8, .mkOr (.mkLiteral 10) (.mkCat (.mkLiteral 98) (.mkCapture (.mkLiteral 99) 3))⟩] = some n ∧
    n.serialize (fun t => [100 + t.id]) = some text ∧ text.count 10 = 7 ∧ (n.bfsOrder.map List.length) = some 6 :=
  ⟨_, _, rfl, rfl, by decide +kernel, by decide +kernel⟩

end LogSurgeon
