import Verif.Spec.PrefixTree
/- Refinement of the prefix tree and of the register handler. -/
namespace LogSurgeon

structure TreeRel (t : PrefixTree) (a : AbsTree) : Prop where
  len : a.chains.length = t.nodes.length
  rootN : ∃ x, t.nodes[0]? = some ⟨none, x⟩
  root : ∀ (i : Nat) x, t.nodes[i]? = some ⟨none, x⟩ → a.chains[i]? = some [] ∧ i = 0
  node : ∀ (i p : Nat) x, t.nodes[i]? = some ⟨some p, x⟩ →
    p < i ∧ ∃ c, a.chains[p]? = some c ∧ a.chains[i]? = some (i :: c) ∧ a.pos i = x

theorem treeRel_init : TreeRel .empty .init where
  len := rfl
  rootN := ⟨-1, rfl⟩
  root := by
    intro i x h
    cases i with
    | zero => exact ⟨rfl, rfl⟩
    | succ i => simp [PrefixTree.empty] at h
  node := by
    intro i p x h
    cases i with
    | zero => simp [PrefixTree.empty] at h
    | succ i => simp [PrefixTree.empty] at h

theorem walk_spec {t : PrefixTree} {a : AbsTree} (h : TreeRel t a) :
    ∀ (i : Nat) (n : PNode) (k : Nat) (acc : List Int), t.nodes[i]? = some n → i < k →
    ∃ c, a.chains[i]? = some c ∧ t.walk k n acc = .ok (acc ++ c.map a.pos) := by
  intro i
  induction i using Nat.strongRecOn with
  | _ i ih =>
    intro n k acc hn hk
    obtain ⟨par, x⟩ := n
    obtain ⟨k, rfl⟩ : ∃ k', k = k' + 1 := ⟨k - 1, by omega⟩
    cases par with
    | none =>
      exact ⟨[], (h.root i x hn).1, by simp [PrefixTree.walk]⟩
    | some p =>
      obtain ⟨hp, c, h1, h2, h3⟩ := h.node i p x hn
      have hlt : p < t.nodes.length := by
        have := (List.getElem?_eq_some_iff.mp hn).1; omega
      obtain ⟨c', h4, h5⟩ := ih p hp t.nodes[p] k (acc ++ [x]) (List.getElem?_eq_getElem hlt) (by omega)
      rw [h1] at h4; cases h4
      refine ⟨i :: c, h2, ?_⟩
      simp only [PrefixTree.walk, List.getElem?_eq_getElem hlt, h5, List.map_cons, h3]
      simp

theorem query_spec {t : PrefixTree} {a : AbsTree} (h : TreeRel t a) (i : Nat) :
    t.getReversedPositions i = match a.chains[i]? with
      | none => .error .outOfRange
      | some c => .ok (c.map a.pos) := by
  unfold PrefixTree.getReversedPositions
  cases hn : t.nodes[i]? with
  | none =>
    have : a.chains[i]? = none := by
      rw [List.getElem?_eq_none_iff] at hn ⊢
      have := h.len; omega
    rw [this]
  | some n =>
    have hlt := (List.getElem?_eq_some_iff.mp hn).1
    obtain ⟨c, h1, h2⟩ := walk_spec h i n (t.nodes.length + 1) [] hn (by omega)
    rw [h1]
    simpa using h2

theorem chain_lt {t : PrefixTree} {a : AbsTree} (h : TreeRel t a) :
    ∀ (i : Nat) (c : List Nat), a.chains[i]? = some c → ∀ j ∈ c, j ≤ i ∧ i < t.nodes.length := by
  intro i
  induction i using Nat.strongRecOn with
  | _ i ih =>
    intro c hc j hj
    have hlt : i < t.nodes.length := by
      have := (List.getElem?_eq_some_iff.mp hc).1; have := h.len; omega
    cases hn : t.nodes[i] with
    | mk par x =>
      have hn' : t.nodes[i]? = some ⟨par, x⟩ := by rw [List.getElem?_eq_getElem hlt, hn]
      cases par with
      | none =>
        rw [(h.root i x hn').1] at hc; cases hc; cases hj
      | some p =>
        obtain ⟨hp, c', h1, h2, h3⟩ := h.node i p x hn'
        rw [h2] at hc; cases hc
        cases hj with
        | head => exact ⟨Nat.le_refl _, hlt⟩
        | tail _ hj => have := ih p hp c' h1 j hj; exact ⟨by omega, hlt⟩

theorem insert_spec {t : PrefixTree} {a : AbsTree} (h : TreeRel t a) (p : Nat) (x : Int) :
    match t.insert p x with
    | .ok (t', i) => (a.step (.insert p x)).2 = .id i ∧ i = t.nodes.length ∧
      TreeRel t' (a.step (.insert p x)).1 ∧ p < t.nodes.length
    | .error e => (a.step (.insert p x)).2 = .err e ∧ e = .outOfRange ∧ (a.step (.insert p x)).1 = a ∧
      t.nodes.length ≤ p := by
  unfold PrefixTree.insert
  by_cases hp : t.nodes.length ≤ p
  · have : a.chains[p]? = none := by rw [List.getElem?_eq_none_iff]; have := h.len; omega
    simp [hp, AbsTree.step, this]
  · have hpc : p < a.chains.length := by have := h.len; omega
    have hc : a.chains[p]? = some a.chains[p] := List.getElem?_eq_getElem hpc
    simp only [if_neg hp, AbsTree.step, hc]
    refine ⟨by simp [h.len], by simp, ?_, by omega⟩
    constructor
    · simp [h.len]
    · obtain ⟨y, hy⟩ := h.rootN
      exact ⟨y, by
        have := (List.getElem?_eq_some_iff.mp hy).1
        simp only
        rw [List.getElem?_append_left this, hy]⟩
    · intro i y hi
      by_cases hlt : i < t.nodes.length
      · simp only [List.getElem?_append_left hlt] at hi
        have := h.root i y hi
        rw [List.getElem?_append_left (by have := h.len; omega)]
        exact this
      · simp only at hi
        rw [List.getElem?_append_right (by omega)] at hi
        cases hk : i - t.nodes.length with
        | zero => simp [hk] at hi
        | succ k => simp [hk] at hi
    · intro i q y hi
      by_cases hlt : i < t.nodes.length
      · simp only [List.getElem?_append_left hlt] at hi
        obtain ⟨h1, c, h2, h3, h4⟩ := h.node i q y hi
        refine ⟨h1, c, ?_, ?_, ?_⟩
        · rw [List.getElem?_append_left (by have := h.len; omega)]; exact h2
        · rw [List.getElem?_append_left (by have := h.len; omega)]; exact h3
        · simp only; rw [if_neg (by have := h.len; omega)]; exact h4
      · simp only at hi
        rw [List.getElem?_append_right (by omega)] at hi
        cases hk : i - t.nodes.length with
        | zero =>
          simp only [hk, List.getElem?_cons_zero, Option.some.injEq, PNode.mk.injEq] at hi
          obtain ⟨hi1, rfl⟩ := hi
          subst hi1
          have hil : i = a.chains.length := by have := h.len; omega
          refine ⟨by omega, a.chains[p], ?_, ?_, ?_⟩
          · rw [List.getElem?_append_left hpc]; exact hc
          · rw [hil]; simp
          · simp [hil]
        | succ k => simp [hk] at hi

theorem set_spec {t : PrefixTree} {a : AbsTree} (h : TreeRel t a) (i : Nat) (x : Int) :
    match t.set i x with
    | .ok t' => (a.step (.set i x)).2 = .unit ∧ TreeRel t' (a.step (.set i x)).1 ∧ i < t.nodes.length
    | .error e => (a.step (.set i x)).2 = .err e ∧ e = .outOfRange ∧ (a.step (.set i x)).1 = a ∧
      t.nodes.length ≤ i := by
  unfold PrefixTree.set
  by_cases hi : i < t.nodes.length
  · simp only [if_pos hi, AbsTree.step, h.len]
    refine ⟨?_, ?_, hi⟩
    · simp
    have key : ∀ (j : Nat) par y, (t.nodes.modify i fun n => { n with pos := x })[j]? = some ⟨par, y⟩ →
        ∃ z, t.nodes[j]? = some ⟨par, z⟩ ∧ y = if j = i then x else z := by
      intro j par y hj
      rw [List.getElem?_modify] at hj
      split at hj
      · subst i
        cases hn : t.nodes[j]? with
        | none => simp [hn] at hj
        | some n =>
          simp only [hn, Option.map_eq_map, Option.map_some, Option.some.injEq, PNode.mk.injEq] at hj
          obtain ⟨rfl, rfl⟩ := hj
          exact ⟨n.pos, rfl, by simp⟩
      · rename_i hne
        cases hn : t.nodes[j]? with
        | none => simp [hn] at hj
        | some n =>
          simp only [hn, Option.map_eq_map, Option.map_some, Option.some.injEq] at hj
          subst hj
          exact ⟨y, rfl, by rw [if_neg (fun h => hne h.symm)]⟩
    constructor
    · simpa using h.len
    · obtain ⟨y, hy⟩ := h.rootN
      refine ⟨if i = 0 then x else y, ?_⟩
      simp only [List.getElem?_modify, hy]
      split <;> simp
    · intro j y hj
      obtain ⟨z, h1, _⟩ := key j none y hj
      exact h.root j z h1
    · intro j p y hj
      obtain ⟨z, h1, rfl⟩ := key j (some p) y hj
      obtain ⟨h2, c, h3, h4, h5⟩ := h.node j p z h1
      refine ⟨h2, c, h3, h4, ?_⟩
      simp only [h5]
  · simp only [if_neg hi, AbsTree.step, h.len]
    exact ⟨trivial, trivial, trivial, by omega⟩

theorem tree_step {t : PrefixTree} {a : AbsTree} (h : TreeRel t a) (o : TreeOp) :
    TreeRel (t.step o).1 (a.step o).1 ∧ (t.step o).2 = (a.step o).2 := by
  cases o with
  | insert p x =>
    have := insert_spec h p x
    cases hi : t.insert p x with
    | ok r =>
      obtain ⟨t', i⟩ := r
      rw [hi] at this
      simp only [PrefixTree.step, hi]
      exact ⟨this.2.2.1, this.1.symm⟩
    | error e =>
      rw [hi] at this
      simp only [PrefixTree.step, hi]
      obtain ⟨h1, _, h2, _⟩ := this
      exact ⟨by rw [h2]; exact h, h1.symm⟩
  | set i x =>
    have := set_spec h i x
    cases hi : t.set i x with
    | ok t' =>
      rw [hi] at this
      simp only [PrefixTree.step, hi]
      exact ⟨this.2.1, this.1.symm⟩
    | error e =>
      rw [hi] at this
      simp only [PrefixTree.step, hi]
      obtain ⟨h1, _, h2, _⟩ := this
      exact ⟨by rw [h2]; exact h, h1.symm⟩
  | query i =>
    have hq := query_spec h i
    simp only [PrefixTree.step, AbsTree.step]
    cases hc : a.chains[i]? with
    | none =>
      rw [hc] at hq
      simp only [hq]
      exact ⟨h, trivial⟩
    | some c =>
      rw [hc] at hq
      simp only [hq]
      exact ⟨h, trivial⟩

theorem tree_outputs (ops : List TreeOp) : ∀ {t : PrefixTree} {a : AbsTree}, TreeRel t a →
    outputs PrefixTree.step t ops = outputs AbsTree.step a ops ∧
    TreeRel (finalState PrefixTree.step t ops) (finalState AbsTree.step a ops) := by
  induction ops with
  | nil => intro t a h; exact ⟨rfl, h⟩
  | cons o os ih =>
    intro t a h
    obtain ⟨h1, h2⟩ := tree_step h o
    obtain ⟨h3, h4⟩ := ih h1
    exact ⟨by simp only [outputs, h2, h3], h4⟩

/-! ### Registers -/

/-- Chain of the node a register points to. -/
structure RegRel (h : RegisterHandler) (t : AbsTree) (a : AbsRegs) (own : List Bool) : Prop where
  tree : TreeRel h.tree t
  len : h.regs.length = a.length
  lenO : own.length = a.length
  reg : ∀ (r n : Nat), h.regs[r]? = some n → ∃ c, t.chains[n]? = some (n :: c) ∧
    a[r]? = some ((n :: c).map t.pos)
  own : ∀ (r n : Nat), own[r]? = some true → h.regs[r]? = some n →
    ∀ (r' n' : Nat) c', r' ≠ r → h.regs[r']? = some n' → t.chains[n']? = some c' → n ∉ c'

theorem regRel_init : RegRel .empty .init [] [] where
  tree := treeRel_init
  len := rfl
  lenO := rfl
  reg := by intro r n h; simp [RegisterHandler.empty] at h
  own := by intro r n h; simp at h

theorem getElem?_some_of_lt {α} {l : List α} {i : Nat} (h : i < l.length) : ∃ x, l[i]? = some x :=
  ⟨l[i], List.getElem?_eq_getElem h⟩

/-- Creating a node for register `r` (new or existing). -/
theorem reg_newNode {h : RegisterHandler} {t : AbsTree} {a : AbsRegs} {own : List Bool}
    (hR : RegRel h t a own) {p : Nat} {cp : List Nat} (hp : t.chains[p]? = some cp) (x : Int) :
    ∃ tr, h.tree.insert p x = .ok (tr, h.tree.nodes.length) ∧
      TreeRel tr (t.step (.insert p x)).1 ∧
      (t.step (.insert p x)).1.chains = t.chains ++ [h.tree.nodes.length :: cp] ∧
      (∀ i, i < h.tree.nodes.length → (t.step (.insert p x)).1.pos i = t.pos i) ∧
      (t.step (.insert p x)).1.pos h.tree.nodes.length = x := by
  have := insert_spec hR.tree p x
  have hlt : p < h.tree.nodes.length := by
    have := (List.getElem?_eq_some_iff.mp hp).1; have := hR.tree.len; omega
  cases hi : h.tree.insert p x with
  | error e => rw [hi] at this; obtain ⟨_, _, _, h4⟩ := this; omega
  | ok r =>
    obtain ⟨t', i⟩ := r
    rw [hi] at this
    obtain ⟨h1, h2, h3, _⟩ := this
    subst h2
    refine ⟨t', rfl, h3, ?_, ?_, ?_⟩
    · simp [AbsTree.step, hp, hR.tree.len]
    · intro i hi
      simp only [AbsTree.step, hp]
      rw [if_neg (by have := hR.tree.len; omega)]
    · simp [AbsTree.step, hp, hR.tree.len]

theorem chains_old {h : RegisterHandler} {t : AbsTree} (_hT : TreeRel h.tree t) {n : Nat} {c x : List Nat}
    (hn : t.chains[n]? = some c) : (t.chains ++ [x])[n]? = some c := by
  rw [List.getElem?_append_left (List.getElem?_eq_some_iff.mp hn).1]; exact hn

theorem chain_ext_map {h : RegisterHandler} {t : AbsTree} (hT : TreeRel h.tree t) {f : Nat → Int}
    (hf : ∀ i, i < h.tree.nodes.length → f i = t.pos i) {n : Nat} {c : List Nat}
    (hn : t.chains[n]? = some c) : c.map f = c.map t.pos := by
  apply List.map_congr_left
  intro j hj
  have := chain_lt hT n c hn j hj
  exact hf j (by omega)

theorem reg_step {h : RegisterHandler} {t : AbsTree} {a : AbsRegs} {own : List Bool}
    (hR : RegRel h t a own) (o : RegOp) (hset : ∀ r x, o = .set r x → own[r]? ≠ some false) :
    (h.step o).2 = (AbsRegs.step a o).2 ∧
    ∃ t', RegRel (h.step o).1 t' (AbsRegs.step a o).1 (ownStep own o) := by
  have hat : ∀ r, (h.regs[r]? = none ∧ a[r]? = none) ∨
      ∃ n c, h.regs[r]? = some n ∧ t.chains[n]? = some (n :: c) ∧ a[r]? = some ((n :: c).map t.pos) ∧
        r < a.length := by
    intro r
    by_cases hr : r < a.length
    · obtain ⟨n, hn⟩ := getElem?_some_of_lt (l := h.regs) (i := r) (by have := hR.len; omega)
      obtain ⟨c, h1, h2⟩ := hR.reg r n hn
      exact .inr ⟨n, c, hn, h1, h2, hr⟩
    · left
      constructor
      · rw [List.getElem?_eq_none_iff]; have := hR.len; omega
      · rw [List.getElem?_eq_none_iff]; omega
  have hnlt : ∀ (n : Nat) c, t.chains[n]? = some c → n < h.tree.nodes.length := by
    intro n c hc
    have := (List.getElem?_eq_some_iff.mp hc).1; have := hR.tree.len; omega
  cases o with
  | query r =>
    simp only [RegisterHandler.step, RegisterHandler.getReversedPositions, RegisterHandler.at_, AbsRegs.step]
    rcases hat r with ⟨h1, h2⟩ | ⟨n, c, h1, h2, h3, _⟩
    · simp only [h1, h2]; exact ⟨rfl, t, hR⟩
    · simp only [h1, h3]
      have := query_spec hR.tree n
      rw [h2] at this
      simp only [bind, Except.bind, this]
      exact ⟨trivial, t, hR⟩
  | add x =>
    have hroot : t.chains[0]? = some [] := by
      obtain ⟨y, hy⟩ := hR.tree.rootN
      exact (hR.tree.root 0 y hy).1
    obtain ⟨tr, h1, h2, h3, h4, h5⟩ := reg_newNode hR hroot x
    simp only [RegisterHandler.step, RegisterHandler.addRegister, h1, bind, Except.bind, AbsRegs.step, ownStep]
    refine ⟨trivial, _, h2, by simp [hR.len], by simp [hR.lenO], ?_, ?_⟩
    · intro r n hn
      rw [h3]
      by_cases hr : r < h.regs.length
      · simp only [List.getElem?_append_left hr] at hn
        obtain ⟨c, h6, h7⟩ := hR.reg r n hn
        refine ⟨c, chains_old hR.tree h6, ?_⟩
        rw [List.getElem?_append_left (by have := hR.len; omega), h7, chain_ext_map hR.tree h4 h6]
      · simp only at hn
        rw [List.getElem?_append_right (by omega)] at hn
        cases hk : r - h.regs.length with
        | zero =>
          simp [hk] at hn
          subst hn
          refine ⟨[], ?_, ?_⟩
          · rw [← hR.tree.len]; simp
          · rw [List.getElem?_append_right (by have := hR.len; omega)]
            simp [show r - a.length = 0 by have := hR.len; omega, h5]
        | succ k => simp [hk] at hn
    · intro r n ho hn r' n' c' hne hn' hc'
      rw [h3] at hc'
      by_cases hr : r < h.regs.length
      · simp only [List.getElem?_append_left hr] at hn
        rw [List.getElem?_append_left (by have := hR.len; have := hR.lenO; omega)] at ho
        obtain ⟨c, h6, _⟩ := hR.reg r n hn
        have hn1 := hnlt n _ h6
        by_cases hr' : r' < h.regs.length
        · simp only [List.getElem?_append_left hr'] at hn'
          obtain ⟨c2, h7, _⟩ := hR.reg r' n' hn'
          rw [chains_old hR.tree h7] at hc'; cases hc'
          exact hR.own r n ho hn r' n' _ hne hn' h7
        · simp only at hn'
          rw [List.getElem?_append_right (by omega)] at hn'
          cases hk : r' - h.regs.length with
          | zero =>
            simp [hk] at hn'; subst hn'
            rw [← hR.tree.len] at hc'
            simp at hc'; subst hc'
            simp; have := hR.tree.len; omega
          | succ k => simp [hk] at hn'
      · simp only at hn
        rw [List.getElem?_append_right (by omega)] at hn
        cases hk : r - h.regs.length with
        | zero =>
          simp [hk] at hn; subst hn
          have hr' : r' < h.regs.length := by
            have := (List.getElem?_eq_some_iff.mp hn').1
            simp at this; omega
          simp only [List.getElem?_append_left hr'] at hn'
          obtain ⟨c2, h7, _⟩ := hR.reg r' n' hn'
          rw [chains_old hR.tree h7] at hc'; cases hc'
          intro hmem
          have := chain_lt hR.tree n' _ h7 _ hmem
          omega
        | succ k => simp [hk] at hn
  | append r x =>
    simp only [RegisterHandler.step, RegisterHandler.appendPosition, RegisterHandler.at_, AbsRegs.step, ownStep]
    rcases hat r with ⟨h1, h2⟩ | ⟨n0, c0, h1, h2, h3, hrl⟩
    · simp only [h1, h2, bind, Except.bind]
      refine ⟨trivial, t, ?_⟩
      have : own.set r true = own := by
        apply List.set_eq_of_length_le
        have := List.getElem?_eq_none_iff.mp h2; have := hR.lenO; omega
      rw [this]; exact hR
    · obtain ⟨tr, g1, g2, g3, g4, g5⟩ := reg_newNode hR h2 x
      simp only [h1, h3, bind, Except.bind, g1]
      have hrl2 : r < h.regs.length := by have := hR.len; omega
      refine ⟨trivial, _, g2, by simp [hR.len], by simp [hR.lenO], ?_, ?_⟩
      · intro r' n hn
        rw [g3]
        simp only [List.getElem?_set] at hn ⊢
        by_cases hrr : r = r'
        · subst hrr
          simp only [if_true, hrl2, Option.some.injEq] at hn
          subst hn
          refine ⟨n0 :: c0, ?_, ?_⟩
          · rw [← hR.tree.len]; simp
          · have := chain_ext_map hR.tree g4 h2
            simp only [if_true, hrl, Option.some.injEq]
            rw [List.map_cons (f := (t.step (.insert n0 x)).1.pos), g5, this]
        · rw [if_neg hrr] at hn
          obtain ⟨c, h6, h7⟩ := hR.reg r' n hn
          refine ⟨c, chains_old hR.tree h6, ?_⟩
          rw [if_neg hrr, h7, chain_ext_map hR.tree g4 h6]
      · intro r1 n ho hn r2 n' c' hne hn' hc'
        rw [g3] at hc'
        simp only [List.getElem?_set] at hn hn' ho
        by_cases hrr : r = r1
        · subst hrr
          simp only [if_true, hrl2, Option.some.injEq] at hn
          subst hn
          rw [if_neg (fun e => hne e.symm)] at hn'
          obtain ⟨c2, h7, _⟩ := hR.reg r2 n' hn'
          rw [chains_old hR.tree h7] at hc'; cases hc'
          intro hmem
          have := chain_lt hR.tree n' _ h7 _ hmem
          omega
        · rw [if_neg hrr] at hn ho
          obtain ⟨c1, h6, _⟩ := hR.reg r1 n hn
          have hn1 := hnlt n _ h6
          by_cases hr2 : r = r2
          · subst hr2
            simp only [if_true, hrl2, Option.some.injEq] at hn'
            subst hn'
            rw [← hR.tree.len] at hc'
            simp at hc'; subst hc'
            have := hR.own r1 n ho hn r n0 _ hne h1 h2
            simp only [List.mem_cons] at this ⊢
            have := hR.tree.len
            grind
          · rw [if_neg hr2] at hn'
            obtain ⟨c2, h7, _⟩ := hR.reg r2 n' hn'
            rw [chains_old hR.tree h7] at hc'; cases hc'
            exact hR.own r1 n ho hn r2 n' _ hne hn' h7
  | copy d s =>
    simp only [RegisterHandler.step, RegisterHandler.copyRegister, RegisterHandler.at_, AbsRegs.step, ownStep]
    rcases hat s with ⟨h1, h2⟩ | ⟨n0, c0, h1, h2, h3, hsl⟩
    · simp only [h1, h2, bind, Except.bind]
      refine ⟨trivial, t, ?_⟩
      rw [if_neg]
      · exact hR
      · have := List.getElem?_eq_none_iff.mp h2; have := hR.lenO; omega
    · rcases hat d with ⟨h4, h5⟩ | ⟨n1, c1, h4, h5, h6, hdl⟩
      · simp only [h1, h3, h4, h5, bind, Except.bind]
        refine ⟨trivial, t, ?_⟩
        rw [if_neg]
        · exact hR
        · have := List.getElem?_eq_none_iff.mp h5; have := hR.lenO; omega
      · simp only [h1, h3, h4, h6, bind, Except.bind]
        have hl := hR.len
        have hlo := hR.lenO
        rw [if_pos (by omega)]
        refine ⟨trivial, t, hR.tree, by simp [hR.len], by simp [hR.lenO], ?_, ?_⟩
        · intro r n hn
          simp only [List.getElem?_set] at hn ⊢
          by_cases hrr : d = r
          · subst hrr
            simp only [if_true, show d < h.regs.length by omega, Option.some.injEq] at hn
            subst hn
            exact ⟨c0, h2, by simp [hdl]⟩
          · rw [if_neg hrr] at hn ⊢
            exact hR.reg r n hn
        · intro r n ho hn r' n' c' hne hn' hc'
          simp only [List.getElem?_set, List.length_set] at ho hn hn'
          have hrd : ¬ d = r := by
            intro e; subst e; simp [show d < own.length by omega] at ho
          rw [if_neg hrd] at hn ho
          have hrs : ¬ s = r := by
            intro e; subst e; simp [show s < own.length by omega] at ho
          rw [if_neg hrs] at ho
          by_cases hr' : d = r'
          · subst hr'
            simp only [if_true, show d < h.regs.length by omega, Option.some.injEq] at hn'
            subst hn'
            exact hR.own r n ho hn s n0 c' (fun e => hrs e) h1 hc'
          · rw [if_neg hr'] at hn'
            exact hR.own r n ho hn r' n' c' hne hn' hc'
  | set r x =>
    simp only [RegisterHandler.step, RegisterHandler.setRegister, RegisterHandler.at_, AbsRegs.step, ownStep]
    rcases hat r with ⟨h1, h2⟩ | ⟨n0, c0, h1, h2, h3, hrl⟩
    · simp only [h1, h2, bind, Except.bind]
      exact ⟨trivial, t, hR⟩
    · have hspec := set_spec hR.tree n0 x
      have hn0 := hnlt n0 _ h2
      cases hs : h.tree.set n0 x with
      | error e => rw [hs] at hspec; obtain ⟨_, _, _, h⟩ := hspec; omega
      | ok tr =>
        rw [hs] at hspec
        obtain ⟨_, hT, _⟩ := hspec
        have hstep : (t.step (.set n0 x)).1 = ⟨t.chains, fun j => if j = n0 then x else t.pos j⟩ := by
          simp only [AbsTree.step]; rw [if_pos (by have := hR.tree.len; omega)]
        rw [hstep] at hT
        simp only [h1, h3, bind, Except.bind, hs]
        have hown : own[r]? = some true := by
          obtain ⟨b, hb⟩ := getElem?_some_of_lt (l := own) (i := r) (by have := hR.lenO; omega)
          cases b with
          | true => exact hb
          | false => exact absurd hb (hset r x rfl)
        -- the node's own chain continues strictly below
        have hc0 : n0 ∉ c0 := by
          have hlt := hnlt n0 _ h2
          cases hn : h.tree.nodes[n0] with
          | mk par y =>
            have hn' : h.tree.nodes[n0]? = some ⟨par, y⟩ := by rw [List.getElem?_eq_getElem hlt, hn]
            cases par with
            | none => rw [(hR.tree.root n0 y hn').1] at h2; cases h2
            | some p =>
              obtain ⟨hp, c, g1, g2, _⟩ := hR.tree.node n0 p y hn'
              rw [g2] at h2; cases h2
              intro hm
              have := chain_lt hR.tree p _ g1 _ hm
              omega
        refine ⟨trivial, _, hT, by simp [hR.len], by simp [hR.lenO], ?_, ?_⟩
        · intro r' n hn
          simp only [List.getElem?_set]
          by_cases hrr : r = r'
          · subst hrr
            have hn2 : h.regs[r]? = some n := hn
            rw [h1] at hn2; cases hn2
            refine ⟨c0, h2, ?_⟩
            simp only [if_true, hrl, Option.some.injEq, List.map_cons, List.tail_cons]
            congr 1
            apply List.map_congr_left
            intro j hj
            rw [if_neg (by rintro rfl; exact hc0 hj)]
          · rw [if_neg hrr]
            obtain ⟨c, g1, g2⟩ := hR.reg r' n hn
            refine ⟨c, g1, ?_⟩
            rw [g2]
            congr 1
            apply List.map_congr_left
            intro j hj
            have := hR.own r n0 hown h1 r' n _ (fun e => hrr e.symm) hn g1
            rw [if_neg (by rintro rfl; exact this hj)]
        · intro r1 n ho hn r2 n' c' hne hn' hc'
          exact hR.own r1 n ho hn r2 n' c' hne hn' hc'

theorem reg_outputs (ops : List RegOp) : ∀ {h : RegisterHandler} {t a own}, RegRel h t a own →
    SetsOwned own ops → outputs RegisterHandler.step h ops = outputs AbsRegs.step a ops := by
  induction ops with
  | nil => intros; rfl
  | cons o os ih =>
    intro h t a own hR hs
    obtain ⟨h1, t', h2⟩ := reg_step hR o hs.1
    simp only [outputs, h1, ih h2 hs.2]

end LogSurgeon
