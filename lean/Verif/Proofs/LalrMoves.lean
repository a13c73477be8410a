import Verif.Proofs.LalrComplete
import Verif.Proofs.Viable
/-
Derivations as the sequences of moves of a bottom-up parser.  Where generation reports no conflict, the table
follows every derivation, hence at each point of a derivation the next move is determined by the moves so far and the next terminal.
-/
namespace LogSurgeon
namespace Grammar
variable {g : Grammar}

/-- A move: a terminal is shifted, a production is reduced. -/
inductive Move where
  | shift (s : Nat)
  | red (p : Nat)

/-- `Der g ss h`: the moves by which a bottom-up parser builds a derivation of the symbols. -/
inductive Der (g : Grammar) : List Nat → List Move → Prop
  | nil : Der g [] []
  | tok {s ss h} : s ∈ g.terminals → Der g ss h → Der g (s :: ss) (.shift s :: h)
  | prod {i p ss u h} : g.prods[i]? = some p → Der g p.body u → Der g ss h → Der g (p.head :: ss) (u ++ .red i :: h)

theorem Der.append {ss ss' : List Nat} {h h' : List Move} (a : Der g ss h) (b : Der g ss' h') : Der g (ss ++ ss') (h ++ h') := by
  induction a with
  | nil => exact b
  | tok h1 _ ih => exact .tok h1 ih
  | prod h1 h2 _ _ ih => rw [List.append_assoc, List.cons_append]; exact .prod h1 h2 ih

theorem Der.split {ss' : List Nat} : ∀ {ss : List Nat} {h : List Move}, Der g (ss ++ ss') h → ∃ u v, h = u ++ v ∧ Der g ss u ∧ Der g ss' v
  | [], h, a => ⟨[], h, rfl, .nil, a⟩
  | s :: ss, h, a => by
    cases a with
    | tok h1 h2 =>
      obtain ⟨u, v, rfl, a1, a2⟩ := h2.split
      exact ⟨.shift s :: u, v, rfl, .tok h1 a1, a2⟩
    | @prod i p _ w h' h1 h2 h3 =>
      obtain ⟨u, v, rfl, a1, a2⟩ := h3.split
      exact ⟨w ++ .red i :: u, v, by simp, .prod h1 h2 a1, a2⟩

theorem Der.reduce {i : Nat} {p : Production} {u : List Move} (hi : g.prods[i]? = some p) (h : Der g p.body u) : Der g [p.head] (u ++ [.red i]) :=
  .prod hi h .nil

theorem Der.one {s : Nat} {u : List Move} (h : Der g [s] u) : (s ∈ g.terminals ∧ u = [.shift s]) ∨
    ∃ i p c, g.prods[i]? = some p ∧ p.head = s ∧ Der g p.body c ∧ u = c ++ [.red i] := by
  cases h with
  | tok h1 h2 => cases h2; exact .inl ⟨h1, rfl⟩
  | prod h1 h2 h3 => cases h3; exact .inr ⟨_, _, _, h1, rfl, h2, rfl⟩

theorem Forest.der {ss : List Nat} {ts : List Tree} {w : List Token} (h : Forest g ss ts w) : (∀ x ∈ w, Typed g x) → ∃ u, Der g ss u := by
  induction h with
  | nil => intro _; exact ⟨[], .nil⟩
  | tok h1 h2 _ ih =>
    intro hw
    obtain ⟨u, hu⟩ := ih fun x hx => hw x (by simp [hx])
    obtain ⟨tys, h3, h4⟩ := hw _ List.mem_cons_self
    rw [h1] at h3
    cases h3
    exact ⟨_, .tok (h4 _ h2) hu⟩
  | prod h1 _ _ ih1 ih2 =>
    intro hw
    obtain ⟨u, hu⟩ := ih1 fun x hx => hw x (by simp [hx])
    obtain ⟨v, hv⟩ := ih2 fun x hx => hw x (by simp [hx])
    exact ⟨_, .prod h1 hu hv⟩

/-! ### The next terminal -/

/-- The first terminal that is shifted, `a` if there is none. -/
def ahead : List Move → Nat → Nat
  | [], a => a
  | .shift s :: _, _ => s
  | .red _ :: h, a => ahead h a

theorem ahead_append {a : Nat} : ∀ (x y : List Move), ahead (x ++ y) a = ahead x (ahead y a)
  | [], _ => rfl
  | .shift _ :: _, _ => rfl
  | .red _ :: x, y => ahead_append x y

theorem Der.looks {f : Firsts} (hself : ∀ a ∈ g.terminals, a ∈ mget f.firsts a) (hcl : ∀ p ∈ g.prods, f.Closed p) {ss : List Nat} {h : List Move}
    (hd : Der g ss h) : ∀ a, ahead h a ∈ lookaheadsAfter f a ss := by
  induction hd with
  | nil => intro a; simp [ahead, lookaheadsAfter]
  | tok h1 _ _ => intro a; simp [ahead, lookaheadsAfter, hself _ h1]
  | @prod i p ss u h h1 _ _ ih1 ih2 =>
    intro a
    rw [ahead_append]
    simp only [ahead]
    obtain ⟨c1, c2⟩ := hcl p (List.mem_of_getElem? h1)
    simp only [lookaheadsAfter, List.mem_append]
    rcases mem_lookaheadsAfter.mp (ih1 (ahead h a)) with ⟨pre, s, post, e, hpre, hm⟩ | ⟨hn, e⟩
    · left
      exact c1 pre s post e hpre _ hm
    · right
      rw [if_pos (c2 hn), e]
      exact ih2 a

/-! ### The table -/

variable {tb : Table}

/-- The move the table asks for. -/
def wanted (tb : Table) (st : List Nat) (a : Nat) : Option Move :=
  match st with
  | [] => none
  | q :: _ =>
    match tb.actions.lookup q with
    | none => none
    | some acts =>
      match acts[a]? with
      | some (.shift _) => some (.shift a)
      | some (.reduce p) => some (.red p)
      | _ => none

/-- The state behind a symbol. -/
def goes (tb : Table) (q s : Nat) : Option Nat :=
  match tb.actions.lookup q with
  | none => none
  | some acts =>
    match acts[s]? with
    | some (.shift (some j)) => some j
    | _ => none

/-- The stack of states after the move. -/
def moved (g : Grammar) (tb : Table) (st : List Nat) : Move → Option (List Nat)
  | .shift s =>
    match st with
    | [] => none
    | q :: qs => (goes tb q s).map fun j => j :: q :: qs
  | .red p =>
    match st.drop (g.body p).length with
    | [] => none
    | q :: qs => (goes tb q (g.head p)).map fun j => j :: q :: qs

/-- The table asks for these moves if the terminal `a` comes behind them. -/
inductive Run (g : Grammar) (tb : Table) : List Nat → List Move → Nat → List Nat → Prop
  | nil {st a} : Run g tb st [] a st
  | cons {st m h a st1 st2} : wanted tb st (ahead (m :: h) a) = some m → moved g tb st m = some st1 → Run g tb st1 h a st2 →
      Run g tb st (m :: h) a st2

theorem Run.append {a : Nat} {y : List Move} : ∀ {x : List Move} {st st1 st2 : List Nat}, Run g tb st x (ahead y a) st1 → Run g tb st1 y a st2 →
    Run g tb st (x ++ y) a st2
  | [], _, _, _, .nil, h2 => h2
  | m :: x, _, _, _, .cons h1 h2 h3, h4 => by
    refine .cons ?_ h2 (h3.append h4)
    have e := ahead_append (a := a) (m :: x) y
    rw [← e] at h1
    exact h1

theorem Run.split {a : Nat} {y : List Move} : ∀ {x : List Move} {st st2 : List Nat}, Run g tb st (x ++ y) a st2 →
    ∃ st1, Run g tb st x (ahead y a) st1 ∧ Run g tb st1 y a st2
  | [], st, _, h => ⟨st, .nil, h⟩
  | m :: x, _, _, .cons h1 h2 h3 => by
    obtain ⟨st1, h4, h5⟩ := h3.split
    refine ⟨st1, .cons ?_ h2 h4, h5⟩
    have e := ahead_append (a := a) (m :: x) y
    rw [← e]
    exact h1

theorem Run.det {a : Nat} : ∀ {x : List Move} {st st1 st2 : List Nat}, Run g tb st x a st1 → Run g tb st x a st2 → st1 = st2
  | [], _, _, _, .nil, .nil => rfl
  | _ :: _, _, _, _, .cons _ h2 h3, .cons _ h5 h6 => by
    rw [h2] at h5
    cases h5
    exact h3.det h6

/-- The table follows a derivation. -/
theorem Der.run {start : Nat} (hR : RootOk g start) (hend : tokenEnd ∈ g.terminals) (hsep : Separate g) (hfree : ∀ p ∈ g.prods, tokenEnd ∉ p.body)
    (hclash : ¬ Clash g start) {f : Firsts} {V : Nat → Item → Prop} (F : Full g start tb f V) {ss : List Nat} {h : List Move} (hd : Der g ss h) :
    ∀ {q : Nat} {qs : List Nat} {p d a : Nat}, V q ⟨p, d, a⟩ → (g.body p).drop d = ss →
      ∃ q' qs', Run g tb (q :: qs) h a (q' :: qs') ∧ (q' :: qs').drop ss.length = q :: qs ∧ V q' ⟨p, d + ss.length, a⟩ := by
  induction hd with
  | nil => intro q qs p d a hV _; exact ⟨q, qs, .nil, rfl, hV⟩
  | @tok s ss h hs _ ih =>
    intro q qs p d a hV hd
    have hX : (g.body p)[d]? = some s := by
      have := congrArg (fun l => l[0]?) hd
      simpa [List.getElem?_drop] using this
    have hdrop : (g.body p).drop (d + 1) = ss := by
      have := take_drop_of_get hX; rw [hd] at this; simpa using this.symm
    obtain ⟨acts, j, hl, ha, hVj⟩ := F.next q _ hV s hX
    have hne : s ≠ tokenEnd := by
      rintro rfl
      obtain ⟨P, hP, e⟩ := body_mem hX
      exact hfree P hP (e ▸ List.mem_of_getElem? hX)
    have ha := ha.resolve_right hne
    obtain ⟨q', qs', h1, h2, h3⟩ := ih (qs := q :: qs) hVj hdrop
    refine ⟨q', qs', .cons ?_ ?_ h1, ?_, ?_⟩
    · simp [wanted, ahead, hl, ha]
    · simp [moved, goes, hl, ha]
    · rw [List.length_cons, ← List.drop_drop, h2]; rfl
    · rw [List.length_cons, show d + (ss.length + 1) = d + 1 + ss.length by omega]; exact h3
  | @prod i P ss u h hi hu hh ih1 ih2 =>
    intro q qs p d a hV hd
    have hX : (g.body p)[d]? = some P.head := by
      have := congrArg (fun l => l[0]?) hd
      simpa [List.getElem?_drop] using this
    have hdrop : (g.body p).drop (d + 1) = ss := by
      have := take_drop_of_get hX; rw [hd] at this; simpa using this.symm
    have hbi : g.body i = P.body := by simp [body, hi]
    have hhi : g.head i = P.head := by simp [head, hi]
    have hVi : V q ⟨i, 0, ahead h a⟩ := by
      refine F.clo q _ hV P.head hX i (mem_prodsOf.mpr ⟨P, hi, rfl⟩) _ ?_
      simp only [hdrop]
      exact hh.looks F.self F.closed a
    obtain ⟨q1, qs1, g1, g2, g3⟩ := ih1 (qs := qs) hVi (by simp [hbi])
    have hroot : i ≠ g.root := by
      intro hi'
      obtain ⟨h0, hprod, hocc⟩ := hR.prod
      rw [hi', hprod] at hi
      cases hi
      obtain ⟨P', hP', e⟩ := body_mem hX
      exact hocc P' hP' (e ▸ List.mem_of_getElem? hX)
    obtain ⟨acts1, hl1, ha1⟩ := F.red q1 _ g3 (by simp [hbi]) hroot
    have ha1 := ha1.resolve_right fun h => hclash h.2.2
    obtain ⟨acts, j, hl, haj, hVj⟩ := F.next q _ hV P.head hX
    have hhead : P.head ≠ tokenEnd := by
      intro hc
      exact hsep P (List.mem_of_getElem? hi) (by rw [hc]; exact hend)
    have haj := haj.resolve_right hhead
    obtain ⟨q', qs', h1, h2, h3⟩ := ih2 (qs := q :: qs) hVj hdrop
    refine ⟨q', qs', Run.append (y := .red i :: h) g1 (.cons ?_ ?_ h1), ?_, ?_⟩
    · simp only at ha1
      simp [wanted, ahead, hl1, ha1]
    · simp [moved, goes, hbi, hhi, g2, hl, haj]
    · rw [List.length_cons, ← List.drop_drop, h2]; rfl
    · rw [List.length_cons, show d + (ss.length + 1) = d + 1 + ss.length by omega]; exact h3

/-- Derivations are deterministic: the next move depends on the moves so far and on the next terminal. -/
structure Fixed (g : Grammar) (start : Nat) : Prop where
  next : ∀ {x y1 y2 : List Move}, Der g [start] (x ++ y1) → Der g [start] (x ++ y2) → ahead y1 tokenEnd = ahead y2 tokenEnd → y1.head? = y2.head?
  fert : ∀ p ∈ g.prods, ∀ s ∈ p.body, ∃ u, Der g [s] u

theorem fixed_of {start : Nat} (hR : RootOk g start) (hend : tokenEnd ∈ g.terminals) (hsep : Separate g) (hfree : ∀ p ∈ g.prods, tokenEnd ∉ p.body)
    (hclash : ¬ Clash g start) {f : Firsts} {V : Nat → Item → Prop} (F : Full g start tb f V) (hfe : Fertile g) : Fixed g start := by
  refine ⟨fun {x y1 y2} h1 h2 e => ?_, fun p hp s hs => ?_⟩
  · obtain ⟨r, hr, hVr⟩ := F.root
    obtain ⟨h0, hprod, hocc⟩ := hR.prod
    have hbody : g.body g.root = [start] := by simp [body, hprod]
    have key : ∀ {y : List Move}, Der g [start] (x ++ y) → ∃ st, Run g tb [r] x (ahead y tokenEnd) st ∧ wanted tb st (ahead y tokenEnd) = y.head? := by
      intro y hy
      obtain ⟨q', qs', g1, _, g3⟩ := hy.run hR hend hsep hfree hclash F (qs := []) hVr (by simp [hbody])
      obtain ⟨st, g4, g5⟩ := g1.split
      refine ⟨st, g4, ?_⟩
      cases g5 with
      | nil =>
        obtain ⟨acts, hl, ha⟩ := F.acc q' _ g3 (by simp [hbody]) rfl
        simp [wanted, ahead, hl, ha]
      | cons g6 _ _ => simpa using g6
    obtain ⟨st1, a1, a2⟩ := key h1
    obtain ⟨st2, b1, b2⟩ := key h2
    rw [e] at a1 a2
    rw [a1.det b1] at a2
    rw [← a2, ← b2]
  · obtain ⟨w, ⟨ts, hw⟩, hn⟩ := hfe p hp s hs
    refine hw.der fun x hx => ?_
    obtain ⟨ty, h1, h2, _⟩ := hn x hx
    exact ⟨_, h1, by simpa using h2⟩

end Grammar
end LogSurgeon
