import Verif.Proofs.LalrTables
import Verif.Proofs.LalrNames
/-
Completeness of the LALR(1) parser: it follows every derivation tree.
-/
namespace LogSurgeon
namespace Grammar
variable {g : Grammar}

/-- All types of the token are terminals. -/
def Typed (g : Grammar) (t : Token) : Prop := ∃ tys, t.types = some tys ∧ ∀ ty ∈ tys, ty ∈ g.terminals

/-- FIRST sets contain the first tokens of derivable sequences. -/
theorem Forest.first {f : Firsts} (hself : ∀ a ∈ g.terminals, a ∈ mget f.firsts a) (hcl : ∀ p ∈ g.prods, f.Closed p)
    {ss : List Nat} {ts : List Tree} {w : List Token} (h : Forest g ss ts w) : (∀ t ∈ w, Typed g t) →
    (w = [] → ∀ s ∈ ss, s ∈ f.nullable) ∧
    (∀ t w' tys, w = t :: w' → t.types = some tys →
      ∃ ty ∈ tys, ∃ pre s post, ss = pre ++ s :: post ∧ (∀ y ∈ pre, y ∈ f.nullable) ∧ ty ∈ mget f.firsts s) := by
  induction h with
  | nil => intro _; exact ⟨fun _ s hs => (by cases hs), (fun t w' ty h => by cases h)⟩
  | @tok t s ss ts w tys h1 h2 _ _ =>
    intro hw
    refine ⟨(fun h => by cases h), ?_⟩
    intro t' w' tys' he hty
    cases he
    rw [h1] at hty
    cases hty
    obtain ⟨tys', e, hmem⟩ := hw t (by simp)
    rw [h1] at e
    cases e
    exact ⟨s, h2, [], s, ss, rfl, by simp, hself s (hmem s h2)⟩
  | @prod i p cs ss ts w w' hp _ _ ih1 ih2 =>
    intro hw
    obtain ⟨a1, a2⟩ := ih1 (fun t ht => hw t (by simp [ht]))
    obtain ⟨b1, b2⟩ := ih2 (fun t ht => hw t (by simp [ht]))
    have hc := hcl p (List.mem_of_getElem? hp)
    refine ⟨fun he => ?_, fun t v tys he hty => ?_⟩
    · obtain ⟨e1, e2⟩ := List.append_eq_nil_iff.mp he
      intro s hs
      rcases List.mem_cons.mp hs with rfl | hs
      · exact hc.null (a1 e1)
      · exact b1 e2 s hs
    · cases w with
      | nil =>
        obtain ⟨ty, hm, pre, s, post, e, h1, h2⟩ := b2 t v tys he hty
        refine ⟨ty, hm, p.head :: pre, s, post, by rw [e]; rfl, ?_, h2⟩
        intro y hy
        rcases List.mem_cons.mp hy with rfl | hy
        · exact hc.null (a1 rfl)
        · exact h1 y hy
      | cons x w =>
        simp only [List.cons_append, List.cons.injEq] at he
        obtain ⟨ty, hm, pre, s, post, e, h1, h2⟩ := a2 x w tys rfl (by rw [he.1]; exact hty)
        exact ⟨ty, hm, [], p.head, ss, rfl, by simp, hc.first pre s post e h1 ty h2⟩

theorem Forest.live {f : Firsts} (hself : ∀ a ∈ g.terminals, a ∈ mget f.firsts a) (hcl : ∀ p ∈ g.prods, f.Closed p)
    {s : Nat} {ts : List Tree} {w : List Token} (h : Forest g [s] ts w) (hw : ∀ t ∈ w, Typed g t) : Live f s := by
  obtain ⟨h1, h2⟩ := h.first hself hcl hw
  cases w with
  | nil => exact .inl (h1 rfl s (by simp))
  | cons t w =>
    obtain ⟨tys, hty, _⟩ := hw t (by simp)
    obtain ⟨_, _, pre, s', post, e, _, hm⟩ := h2 t w tys rfl hty
    cases pre with
    | nil =>
      simp only [List.nil_append, List.cons.injEq] at e
      rw [← e.1] at hm
      exact .inr (List.ne_nil_of_mem hm)
    | cons y pre => simp at e

/-- The lookahead of a nonterminal in front of a derivable sequence. -/
theorem Forest.lookahead {f : Firsts} (hself : ∀ a ∈ g.terminals, a ∈ mget f.firsts a) (hcl : ∀ p ∈ g.prods, f.Closed p)
    {ss : List Nat} {ts : List Tree} {w : List Token} (h : Forest g ss ts w) (hw : ∀ t ∈ w, Typed g t) {z : Token} {zs : List Token} {a : Nat}
    {zt : List Nat} (hz : z.types = some zt) (ha : a ∈ zt) :
    ∃ b y ys yt, w ++ z :: zs = y :: ys ∧ y.types = some yt ∧ b ∈ yt ∧ b ∈ lookaheadsAfter f a ss := by
  obtain ⟨h1, h2⟩ := h.first hself hcl hw
  cases w with
  | nil => exact ⟨a, z, zs, zt, rfl, hz, ha, mem_lookaheadsAfter.mpr (.inr ⟨h1 rfl, rfl⟩)⟩
  | cons t w =>
    obtain ⟨tys, hty, _⟩ := hw t (by simp)
    obtain ⟨ty, hm, hh⟩ := h2 t w tys rfl hty
    exact ⟨ty, t, w ++ z :: zs, tys, rfl, hty, hm, mem_lookaheadsAfter.mpr (.inl hh)⟩

/-! ### Steps of the parser -/

variable {tb : Table} {resets : Nat → Bool}

/-- The token `parse` looks at next, and the rest of the input. -/
def pull (nx : Option Token) (inp : List Token) : Option (Token × List Token) :=
  match nx with
  | some t => some (t, inp)
  | none => match inp with
    | [] => none
    | t :: ts => some (t, ts)

theorem parseLoop_succ {k : Nat} {s : PState} {inp : List Token} : g.parseLoop tb resets (k + 1) s inp =
    match pull s.next inp with
    | none => .error .throws
    | some (tok, input) =>
      match tok.types with
      | none => .error .ub
      | some tys =>
        match g.parseAdvance tb resets { s with next := none } tok tys with
        | .error e => .error e
        | .ok .no => .error .throws
        | .ok .accepted =>
          match s.matched with
          | [] => .error .ub
          | .leaf _ :: _ => .error .throws
          | t :: _ => .ok (t, input, s.kids)
        | .ok (.moved s) => g.parseLoop tb resets k s input := rfl

theorem next_token {nx : Option Token} {inp : List Token} {tok : Token} {R : List Token} (h : nx.toList ++ inp = tok :: R) :
    pull nx inp = some (tok, R) := by
  cases nx with
  | some t => simp at h; simp [pull, h]
  | none => simp at h; simp [pull, h]

theorem Clear.typed {t : Token} (h : Clear g tb t) : Typed g t := by
  obtain ⟨tys, h1, h2, _⟩ := h
  exact ⟨tys, h1, fun ty hty => (h2 ty hty).1⟩

/-- The rows of the table have an entry for every terminal. -/
def Wide (g : Grammar) (tb : Table) : Prop := ∀ r ∈ tb.actions, ∀ ty ∈ g.terminals, ∃ a, r.2[ty]? = some a

/-- The types without action are skipped. -/
theorem advance_pick {s : PState} {tok : Token} {q : Nat} {qs : List (Option Nat)} {acts : List Action} {A : Action} (hA : A ≠ .flag false)
    (hq : s.states = some q :: qs) (hacts : tb.actions.lookup q = some acts) : ∀ {tys : List Nat},
    (∀ ty ∈ tys, ∃ a, acts[ty]? = some a ∧ (a = .flag false ∨ a = A)) → (∃ ty ∈ tys, acts[ty]? = some A) →
    (A = .flag true → g.parseAdvance tb resets s tok tys = .ok .accepted) ∧
    (∀ j, A = .shift j → g.parseAdvance tb resets s tok tys =
      .ok (.moved { s with states := j :: s.states, matched := .leaf tok :: s.matched })) ∧
    (∀ p s', A = .reduce p → g.reduce tb resets s tok p = .ok s' → g.parseAdvance tb resets s tok tys = .ok (.moved s')) := by
  intro tys
  induction tys with
  | nil => rintro _ ⟨ty, hty, _⟩; cases hty
  | cons ty tys ih =>
    intro hall hex
    obtain ⟨a, ha, hc⟩ := hall ty (by simp)
    have hqs : ∀ B, B = A → acts[ty]? = some B → (A = .flag true → g.parseAdvance tb resets s tok (ty :: tys) = .ok .accepted) ∧
        (∀ j, A = .shift j → g.parseAdvance tb resets s tok (ty :: tys) =
          .ok (.moved { s with states := j :: s.states, matched := .leaf tok :: s.matched })) ∧
        (∀ p s', A = .reduce p → g.reduce tb resets s tok p = .ok s' → g.parseAdvance tb resets s tok (ty :: tys) = .ok (.moved s')) := by
      intro B hB hb
      refine ⟨fun e => ?_, fun j e => ?_, fun p s' e hr => ?_⟩
      · subst e; subst hB; simp only [parseAdvance, parseSymbol, hq, hacts, hb]
      · subst e; subst hB; simp only [parseAdvance, parseSymbol, hq, hacts, hb]
      · subst e; subst hB; simp only [parseAdvance, parseSymbol, hq, hacts, hb, hr]
    by_cases e : a = A
    · exact hqs a e ha
    · have hf := hc.resolve_right e
      subst hf
      have hskip : g.parseAdvance tb resets s tok (ty :: tys) = g.parseAdvance tb resets s tok tys := by
        simp only [parseAdvance, parseSymbol, hq, hacts, ha]
      rw [hskip]
      refine ih (fun y hy => hall y (by simp [hy])) ?_
      obtain ⟨y, hy, hy'⟩ := hex
      rcases List.mem_cons.mp hy with rfl | hy
      · rw [ha] at hy'; cases hy'; exact absurd rfl hA
      · exact ⟨y, hy, hy'⟩

theorem Clear.pick (hW : Wide g tb) {tok : Token} (h : Clear g tb tok) {q : Nat} {acts : List Action} (hacts : tb.actions.lookup q = some acts)
    {tys : List Nat} (hty : tok.types = some tys) {ty : Nat} (hm : ty ∈ tys) {A : Action} (ha : acts[ty]? = some A) (hA : A ≠ .flag false) :
    (∀ ty ∈ tys, ∃ a, acts[ty]? = some a ∧ (a = .flag false ∨ a = A)) ∧ (∃ ty ∈ tys, acts[ty]? = some A) := by
  obtain ⟨tys', e, h1, h2⟩ := h
  rw [hty] at e
  cases e
  refine ⟨fun y hy => ?_, ty, hm, ha⟩
  obtain ⟨a, haa⟩ := hW _ (lookup_mem hacts) y (h1 y hy).1
  refine ⟨a, haa, ?_⟩
  by_cases hf : a = .flag false
  · exact .inl hf
  · exact .inr (h2 _ (lookup_mem hacts) y hy ty hm a A haa ha hf hA)

/-- One step of the parser. -/
theorem step_moved {s s1 : PState} {inp : List Token} {tok : Token} {R : List Token} {tys : List Nat}
    (h : s.next.toList ++ inp = tok :: R) (hty : tok.types = some tys)
    (hadv : g.parseAdvance tb resets { s with next := none } tok tys = .ok (.moved s1)) (k : Nat) :
    g.parseLoop tb resets (k + 1) s inp = g.parseLoop tb resets k s1 R := by
  simp only [parseLoop_succ, next_token h, hty, hadv]

theorem step_accept {s : PState} {inp : List Token} {tok : Token} {R : List Token} {tys : List Nat} {p : Nat} {cs ms : List Tree}
    (h : s.next.toList ++ inp = tok :: R) (hty : tok.types = some tys)
    (hadv : g.parseAdvance tb resets { s with next := none } tok tys = .ok .accepted) (hm : s.matched = .node p cs :: ms) (k : Nat) :
    g.parseLoop tb resets (k + 1) s inp = .ok (.node p cs, R, s.kids) := by
  simp only [parseLoop_succ, next_token h, hty, hadv]
  simp only [hm]

/-- The reduction by a production whose children lie on top of the stack. -/
theorem reduce_eq {s : PState} {tok : Token} {p q j : Nat} {qs : List (Option Nat)} {acts : List Action} {cs ms : List Tree}
    (hst : s.states.drop (g.body p).length = some q :: qs) (hm : s.matched = cs.reverse ++ ms) (hcs : cs.length = (g.body p).length)
    (hkids : ¬ (0 < cs.length ∧ 10000 < s.kids + cs.length)) (hacts : tb.actions.lookup q = some acts)
    (ha : acts[g.head p]? = some (.shift (some j))) :
    g.reduce tb resets s tok p = .ok ⟨some j :: some q :: qs, .node p cs :: ms, some tok,
      if resets p = true ∧ 5000 < s.kids + cs.length then 0 else s.kids + cs.length⟩ := by
  have h1 : ¬ s.states.length < (g.body p).length := by
    intro h
    rw [List.drop_eq_nil_of_le (by omega)] at hst
    cases hst
  have h2 : ¬ s.matched.length < (g.body p).length := by
    rw [hm]; simp; omega
  unfold reduce
  simp only
  rw [if_neg]
  · rw [hst]
    simp only [hacts, ha]
    congr 1
    have e1 : s.matched.take (g.body p).length = cs.reverse := by rw [hm, ← hcs]; simp
    have e2 : s.matched.drop (g.body p).length = ms := by rw [hm, ← hcs]; simp
    rw [e1, e2, List.reverse_reverse]
    congr 1
    simp only [resetKids, cSizeOfAllChildren, ← hcs, Bool.and_eq_true, decide_eq_true_eq, Nat.reduceDiv, gt_iff_lt]
  · simp only [Bool.or_eq_true, decide_eq_true_eq, not_or]
    exact ⟨⟨h1, h2⟩, by rw [← hcs]; exact hkids⟩

/-- The parse ends with this rest. -/
def Ends (g : Grammar) (tb : Table) (resets : Nat → Bool) (s : PState) (inp rest : List Token) : Prop :=
  ∃ n tree kids, ∀ k, g.parseLoop tb resets (k + n) s inp = .ok (tree, rest, kids)

/-- The accepting entry at the end of the input. -/
theorem accept_end {t : LR0} (hT : TableOk g t tb) {r start : Nat} (hr : tb.root = some r) (hR : RootOk g start) (hs : start ∉ g.terminals)
    {used : List Token} {s : PState} (h : ParseInv g t r used s) (hused : ∀ x ∈ used, Typed g x) {inp : List Token} {e : Token} {rest : List Token}
    (hin : s.next.toList ++ inp = e :: rest) (he : e.types = some [tokenEnd]) {q : Nat} {qs : List (Option Nat)} {acts : List Action}
    (hq : s.states = some q :: qs) (hacts : tb.actions.lookup q = some acts) (ha : acts[tokenEnd]? = some (.flag true)) :
    ∃ p cs, s.matched = [.node p cs] ∧ ∀ k, g.parseLoop tb resets (k + 1) s inp = .ok (.node p cs, rest, s.kids) := by
  obtain ⟨xs, hst, hfo⟩ := h.stacks
  have hj := hT.acts q acts hacts tokenEnd _ ha
  have hxs := accept_spec hT hr hR hst hq hj.2
  subst hxs
  have hl := hfo.length
  simp only [List.reverse_cons, List.reverse_nil, List.nil_append, List.length_singleton, List.length_reverse] at hl hfo
  match hm : s.matched, hl with
  | [m], _ =>
    rw [hm] at hfo
    simp only [List.reverse_cons, List.reverse_nil, List.nil_append] at hfo
    cases hfo with
    | tok h1 h2 _ =>
      exfalso
      obtain ⟨tys, hty, hmem⟩ := hused _ List.mem_cons_self
      rw [h1] at hty
      cases hty
      exact hs (hmem _ h2)
    | @prod i p cs _ _ w w' h1 h2 h3 =>
      refine ⟨i, cs, rfl, fun k => step_accept hin he ?_ hm k⟩
      simp only [parseAdvance, parseSymbol, hq, hacts, ha]

/-- The parser follows a derivation. -/
theorem follow {t : LR0} (hT : TableOk g t tb) {r start : Nat} (hr : tb.root = some r) (hR : RootOk g start) (hs : start ∉ g.terminals)
    (hend : tokenEnd ∈ g.terminals) (hsep : Separate g) (hW : Wide g tb) {f : Firsts} {V : Nat → Item → Prop} (F : Full g start tb f V)
    {ss : List Nat} {ts : List Tree} {w : List Token} (h : Forest g ss ts w) : (∀ x ∈ w, Clear g tb x) →
    ∀ {q : Nat} {qs : List (Option Nat)} {p d a : Nat} {ms : List Tree} {kids kids' : Nat} {v : List Token} {e : Token} {rest : List Token}
      {s : PState} {inp used : List Token},
    V q ⟨p, d, a⟩ → (g.body p).drop d = ss → (∃ z zs zt, v ++ e :: rest = z :: zs ∧ z.types = some zt ∧ a ∈ zt) → (∀ x ∈ v, Clear g tb x) →
    e.types = some [tokenEnd] → Tree.counter.counters resets ts kids = some kids' →
    s.states = some q :: qs → s.matched = ms → s.kids = kids → s.next.toList ++ inp = w ++ (v ++ e :: rest) →
    ParseInv g t r used s → (∀ x ∈ used, Typed g x) →
    (Clash g start ∧ Ends g tb resets s inp rest) ∨
    ∃ n s' inp' q' qs', (∀ k, g.parseLoop tb resets (k + n) s inp = g.parseLoop tb resets k s' inp') ∧
      s'.states = some q' :: qs' ∧ s'.states.drop ss.length = some q :: qs ∧ V q' ⟨p, d + ss.length, a⟩ ∧
      s'.matched = ts.reverse ++ ms ∧ s'.kids = kids' ∧ s'.next.toList ++ inp' = v ++ e :: rest ∧ ParseInv g t r (used ++ w) s' := by
  induction h with
  | nil =>
    intro _ q qs p d a ms kids kids' v e rest s inp used hV hd hz hv he hk h1 h2 h3 h4 hP hU
    simp only [Tree.counter.counters, Option.some.injEq] at hk
    exact .inr ⟨0, s, inp, q, qs, fun _ => rfl, h1, by simpa using h1, hV, by simpa using h2, by rw [← hk]; exact h3, by simpa using h4,
      by simpa using hP⟩
  | @tok x X ss ts w tys hx1 hx2 _ ih =>
    intro hw q qs p d a ms kids kids' v e rest s inp used hV hd hz hv he hk h1 h2 h3 h4 hP hU
    have htne : X ≠ tokenEnd := by
      obtain ⟨tys', e', h', _⟩ := hw x (by simp)
      rw [hx1] at e'
      cases e'
      exact (h' X hx2).2
    have hX : (g.body p)[d]? = some X := by
      have := congrArg (fun l => l[0]?) hd
      simpa [List.getElem?_drop] using this
    obtain ⟨acts, j, hl, ha, hVj⟩ := F.next q _ hV X hX
    have ha := ha.resolve_right htne
    obtain ⟨s1, hs1⟩ : ∃ s1 : PState, s1 = { s with next := none, states := some j :: s.states, matched := .leaf x :: s.matched } := ⟨_, rfl⟩
    have hadv : g.parseAdvance tb resets { s with next := none } x tys = .ok (.moved s1) := by
      obtain ⟨p1, p2⟩ := (hw x (by simp)).pick hW hl hx1 hx2 ha (by simp)
      rw [hs1]
      exact (advance_pick (s := { s with next := none }) (by simp) h1 hl p1 p2).2.1 (some j) rfl
    have hstep := fun k => step_moved (R := w ++ (v ++ e :: rest)) h4 hx1 hadv k
    have hP1 : ParseInv g t r (used ++ [x]) s1 := by
      have := parseAdvance_spec hT hr hR (s := { s with next := none }) (used := used) ⟨hP.stacks⟩ hx1 (fun _ h => h) hadv
      rcases this with h | h
      · exact h.2
      · rw [hs1] at h; cases h.1
    have hk1 : Tree.counter.counters resets ts kids = some kids' := by
      simpa [Tree.counter.counters, Tree.counter] using hk
    have hrec := ih (fun y hy => hw y (by simp [hy])) (q := j) (qs := some q :: qs) (s := s1) (inp := w ++ (v ++ e :: rest)) (used := used ++ [x])
      (ms := .leaf x :: ms) hVj
      (by have := take_drop_of_get hX; rw [hd] at this; simpa using this.symm)
      hz hv he hk1 (by rw [hs1, h1]) (by rw [hs1, h2]) (by rw [hs1]; exact h3) (by rw [hs1]; rfl) hP1
      (by
        intro y hy
        rcases List.mem_append.mp hy with hy | hy
        · exact hU y hy
        · rw [List.mem_singleton.mp hy]; exact (hw x (by simp)).typed)
    rcases hrec with ⟨hc, n, tree, kk, hn⟩ | ⟨n, s', inp', q', qs', g1, g2, g3, g4, g5, g6, g7, g8⟩
    · refine .inl ⟨hc, n + 1, tree, kk, fun k => ?_⟩
      have := hstep (k + n)
      rw [← hn k, ← this]; rfl
    · refine .inr ⟨n + 1, s', inp', q', qs', fun k => ?_, g2, ?_, ?_, ?_, g6, g7, ?_⟩
      · rw [← g1 k, ← hstep (k + n)]; rfl
      · rw [List.length_cons, ← List.drop_drop, g3]; rfl
      · rw [List.length_cons, show d + (ss.length + 1) = d + 1 + ss.length by omega]; exact g4
      · rw [g5]; simp
      · have : used ++ [x] ++ w = used ++ x :: w := by simp
        rw [← this]; exact g8
  | @prod i P cs ss ts w1 w2 hP0 hF1 hF2 ih1 ih2 =>
    intro hw q qs p d a ms kids kids' v e rest s inp used hV hd hz hv he hk h1 h2 h3 h4 hP hU
    obtain ⟨z, zs, zt, hz1, hz2, hz3⟩ := hz
    have hX : (g.body p)[d]? = some P.head := by
      have := congrArg (fun l => l[0]?) hd
      simpa [List.getElem?_drop] using this
    have hdrop : (g.body p).drop (d + 1) = ss := by
      have := take_drop_of_get hX; rw [hd] at this; simpa using this.symm
    have hbi : g.body i = P.body := by simp [body, hP0]
    have hhi : g.head i = P.head := by simp [head, hP0]
    -- the lookahead of the nonterminal
    obtain ⟨b, y, ys, yt, hy1, hy2, hyb, hy3⟩ :=
      hF2.lookahead F.self F.closed (fun t ht => (hw t (by simp [ht])).typed) (z := z) (zs := zs) hz2 hz3
    have hVi : V q ⟨i, 0, b⟩ := by
      refine F.clo q _ hV P.head hX i (mem_prodsOf.mpr ⟨P, hP0, rfl⟩) b ?_
      simp only [hdrop]; exact hy3
    -- its children
    obtain ⟨k1, hk1⟩ : ∃ k1, Tree.counter.counters resets cs kids = some k1 := by
      cases hc : Tree.counter.counters resets cs kids with
      | some k1 => exact ⟨k1, rfl⟩
      | none => simp [Tree.counter.counters, Tree.counter, hc] at hk
    simp only [Tree.counter.counters, Tree.counter, hk1] at hk
    have hfit : ¬ (0 < cs.length ∧ 10000 < k1 + cs.length) := by
      intro h
      rw [if_pos h] at hk
      cases hk
    rw [if_neg hfit] at hk
    simp only at hk
    have hrec1 := ih1 (fun t ht => hw t (by simp [ht])) (v := w2 ++ v) (e := e) (rest := rest) (s := s) (inp := inp) (used := used) hVi (by simp [hbi])
      ⟨y, ys, yt, by rw [List.append_assoc, hz1]; exact hy1, hy2, hyb⟩
      (by
        intro t ht
        rcases List.mem_append.mp ht with ht | ht
        · exact hw t (by simp [ht])
        · exact hv t ht)
      he hk1 h1 h2 h3 (by rw [h4]; simp) hP hU
    rcases hrec1 with hE | ⟨n, s1, inp1, q1, qs1, g1, g2, g3, g4, g5, g6, g7, g8⟩
    · exact .inl hE
    have hcs : cs.length = P.body.length := hF1.length.symm
    have hin1 : s1.next.toList ++ inp1 = y :: ys := by
      rw [g7, List.append_assoc, hz1]; exact hy1
    have hroot : i ≠ g.root := by
      intro hi
      obtain ⟨h0, hprod, hocc⟩ := hR.prod
      rw [hi, hprod] at hP0
      cases hP0
      have := List.mem_of_getElem? hX
      unfold body at this
      cases hp : g.prods[p]? with
      | none => rw [hp] at this; cases this
      | some pr => rw [hp] at this; exact hocc pr (List.mem_of_getElem? hp) this
    have hV1 : V q1 ⟨i, P.body.length, b⟩ := by simpa using g4
    obtain ⟨acts1, hl1, ha1⟩ := F.red q1 _ hV1 (by simp [hbi]) hroot
    have hU1 : ∀ x ∈ used ++ w1, Typed g x := by
      intro x hx
      rcases List.mem_append.mp hx with hx | hx
      · exact hU x hx
      · exact (hw x (by simp [hx])).typed
    rcases ha1 with ha1 | ⟨hb0, ha1, hclash⟩
    rotate_left
    · -- the accepting entry instead
      simp only at hb0 ha1
      subst hb0
      have hempty : w2 ++ v = [] := by
        cases hwv : w2 ++ v with
        | nil => rfl
        | cons x xs =>
          exfalso
          have : y = x := by
            have h := hy1
            rw [← hz1, ← List.append_assoc, hwv] at h
            simp only [List.cons_append, List.cons.injEq] at h
            exact h.1.symm
          have hpl : Clear g tb x := by
            have hx : x ∈ w2 ++ v := by rw [hwv]; simp
            rcases List.mem_append.mp hx with hx | hx
            · exact hw x (by simp [hx])
            · exact hv x hx
          obtain ⟨tys, hty, hne, _⟩ := hpl
          rw [← this, hy2] at hty
          cases hty
          exact (hne _ hyb).2 rfl
      rw [hempty, List.nil_append] at g7
      obtain ⟨pp, cc, _, hacc⟩ := accept_end (resets := resets) hT hr hR hs g8 hU1 g7 he g2 hl1 ha1
      exact .inl ⟨hclash, n + 1, .node pp cc, s1.kids, fun k => by rw [← hacc k, ← g1 (k + 1)]; congr 1; omega⟩
    simp only at ha1
    -- the reduction
    obtain ⟨acts, j, hl, haj, hVj⟩ := F.next q _ hV P.head hX
    have hhead : P.head ≠ tokenEnd := by
      intro hc
      exact hsep P (List.mem_of_getElem? hP0) (by rw [hc]; exact hend)
    have haj := haj.resolve_right hhead
    have hred := reduce_eq (g := g) (tb := tb) (resets := resets) (s := { s1 with next := none }) (tok := y) (p := i) (q := q) (j := j) (qs := qs) (acts := acts) (cs := cs) (ms := ms)
      (by rw [hbi]; exact g3) g5 (by rw [hbi]; exact hcs) (by simp only [g6]; exact hfit) hl (by rw [hhi]; exact haj)
    simp only at hred
    obtain ⟨s2, hs2⟩ : ∃ s2 : PState, s2 = ⟨some j :: some q :: qs, .node i cs :: ms, some y,
      if resets i = true ∧ 5000 < s1.kids + cs.length then 0 else s1.kids + cs.length⟩ := ⟨_, rfl⟩
    rw [← hs2] at hred
    have hadv : g.parseAdvance tb resets { s1 with next := none } y yt = .ok (.moved s2) := by
      have hpick : (∀ ty ∈ yt, ∃ a, acts1[ty]? = some a ∧ (a = .flag false ∨ a = .reduce i)) ∧ (∃ ty ∈ yt, acts1[ty]? = some (.reduce i)) := by
        have hmem : y ∈ w2 ++ v ∨ y = e := by
          have h := hy1
          rw [← hz1, ← List.append_assoc] at h
          cases hwv : w2 ++ v with
          | nil => rw [hwv] at h; simp only [List.nil_append, List.cons.injEq] at h; exact .inr h.1.symm
          | cons x xs => rw [hwv] at h; simp only [List.cons_append, List.cons.injEq] at h; left; rw [h.1]; simp
        rcases hmem with hm | hm
        · have hc : Clear g tb y := by
            rcases List.mem_append.mp hm with hm | hm
            · exact hw y (by simp [hm])
            · exact hv y hm
          exact hc.pick hW hl1 hy2 hyb ha1 (by simp)
        · rw [hm, he] at hy2
          cases hy2
          have hb0 := List.mem_singleton.mp hyb
          subst hb0
          refine ⟨fun ty hty => ?_, _, hyb, ha1⟩
          rw [List.mem_singleton.mp hty]
          exact ⟨_, ha1, .inr rfl⟩
      exact (advance_pick (s := { s1 with next := none }) (by simp) g2 hl1 hpick.1 hpick.2).2.2 i s2 rfl hred
    have hstep := fun k => step_moved hin1 hy2 hadv k
    have hP2 : ParseInv g t r (used ++ w1) s2 := by
      have hacts := hT.acts q1 acts1 hl1 b _ ha1
      exact (reduce_spec hT hr (s := { s1 with next := none }) ⟨g8.stacks⟩ g2 hacts.2 hacts.1 hred).1
    have hrec2 := ih2 (fun t ht => hw t (by simp [ht])) (q := j) (qs := some q :: qs) (p := p) (d := d + 1) (a := a) (ms := .node i cs :: ms)
      (v := v) (e := e) (rest := rest) (s := s2) (inp := ys) (used := used ++ w1) hVj hdrop ⟨z, zs, zt, hz1, hz2, hz3⟩ hv he hk
      (by rw [hs2]) (by rw [hs2]) (by rw [hs2, g6]) (by rw [hs2, hz1, hy1]; rfl) hP2 hU1
    rcases hrec2 with ⟨hc, n2, tree, kk, hn⟩ | ⟨n2, s', inp', q', qs', f1, f2, f3, f4, f5, f6, f7, f8⟩
    · refine .inl ⟨hc, n2 + 1 + n, tree, kk, fun k => ?_⟩
      rw [← hn k, ← hstep (k + n2), ← g1 (k + n2 + 1)]
      congr 1; omega
    · refine .inr ⟨n2 + 1 + n, s', inp', q', qs', fun k => ?_, f2, ?_, ?_, ?_, f6, f7, ?_⟩
      · rw [← f1 k, ← hstep (k + n2), ← g1 (k + n2 + 1)]; congr 1; omega
      · rw [List.length_cons, ← List.drop_drop, f3]; rfl
      · rw [List.length_cons, show d + (ss.length + 1) = d + 1 + ss.length by omega]; exact f4
      · rw [f5]; simp
      · rw [← List.append_assoc]; exact f8

/-- Completeness, with ids. -/
theorem parse_complete {t : LR0} (hT : TableOk g t tb) {start : Nat} (hR : RootOk g start) (hs : start ∉ g.terminals)
    (hend : tokenEnd ∈ g.terminals) (hsep : Separate g) (hW : Wide g tb) {f : Firsts} {V : Nat → Item → Prop} (F : Full g start tb f V)
    {tree : Tree} {w : List Token} (h : Forest g [start] [tree] w) (hw : ∀ x ∈ w, Clear g tb x) {kids kids' : Nat}
    (hk : tree.counter resets kids = some kids') {e : Token} (he : e.types = some [tokenEnd]) (rest : List Token) :
    ∃ n tree' k', (∀ fuel, n ≤ fuel → g.parse tb resets fuel kids (w ++ e :: rest) = .ok (tree', rest, k')) ∧
      (¬ Clash g start → tree' = tree ∧ k' = kids') := by
  obtain ⟨r, hr, hVr⟩ := F.root
  obtain ⟨h0, hprod, hocc⟩ := hR.prod
  have hbody : g.body g.root = [start] := by simp [body, hprod]
  have := follow (resets := resets) hT hr hR hs hend hsep hW F h hw (v := []) (e := e) (rest := rest) (qs := []) (ms := []) (kids := kids) (kids' := kids')
    (s := { states := [tb.root], matched := [], next := none, kids := kids }) (inp := w ++ e :: rest) (used := []) hVr (by simp [hbody])
    ⟨e, rest, [tokenEnd], rfl, he, by simp⟩ (by simp) he (by simp [Tree.counter.counters, hk]) (by simp [hr]) rfl rfl (by simp)
    ⟨[], by simp only [hr]; exact .root, .nil⟩ (by simp)
  rcases this with ⟨hc, n, tree', k', hn⟩ | ⟨n, s', inp', q', qs', g1, g2, g3, g4, g5, g6, g7, g8⟩
  · refine ⟨n, tree', k', fun fuel hle => ?_, fun h => absurd hc h⟩
    have := hn (fuel - n)
    rw [Nat.sub_add_cancel hle] at this
    exact this
  · obtain ⟨acts, hl, ha⟩ := F.acc q' _ g4 (by simp [hbody]) rfl
    obtain ⟨p, cs, hm, hacc⟩ := accept_end (resets := resets) hT hr hR hs g8 (by simpa using fun x hx => (hw x hx).typed) g7 he g2 hl ha
    refine ⟨1 + n, .node p cs, s'.kids, fun fuel hle => ?_, fun _ => ⟨?_, g6⟩⟩
    · have := g1 (fuel - (1 + n) + 1)
      rw [hacc, show fuel - (1 + n) + 1 + n = fuel by omega] at this
      exact this
    · rw [hm] at g5
      simpa using g5

end Grammar
end LogSurgeon
