import Verif.Model.NfaText
import Verif.Proofs.NfaNear
import Mathlib.Data.List.Forall2
import Mathlib.Data.List.Perm.Subperm
/-
Breadth-first traversal of an NFA.
-/
namespace LogSurgeon

/-- Every byte label is a byte (in the code the transitions are an array of 256 vectors). -/
def Nfa.BytesOk (n : Nfa) : Prop := ∀ p c q, n.Edge p (.byte c) q → c < cSizeOfByte

theorem nearF_bytes (r : Regex) : NearF (· < cSizeOfByte) r.addToNfa := by
  induction r with
  | empty neg =>
    intro n e n' h _ _
    simp only [Regex.addToNfa, Option.some.injEq] at h
    subst h; exact ⟨rfl, .refl ..⟩
  | literal neg c => exact nearF_ranges [(c, c)] (fun d h _ => h)
  | integer neg d => intro n e n' h; simp [Regex.addToNfa] at h
  | group neg w ng rs => exact nearF_ranges _ fun c hc hin => hc
  | or neg l r ihl ihr =>
    intro n e n' hh hr he
    simp only [Regex.addToNfa, Option.bind_eq_some_iff] at hh
    obtain ⟨n1, h1, h2⟩ := hh
    obtain ⟨a1, a2⟩ := nearF_withNegTags ihl l.negTags n e n1 h1 hr he
    have := a2.1
    obtain ⟨b1, b2⟩ := nearF_withNegTags ihr r.negTags n1 e n' h2 (by omega) (by omega)
    exact ⟨by rw [b1, a1], a2.trans b2 (.inl a1) (.inl rfl)⟩
  | cat neg l r ihl ihr => exact nearF_cat (nearF_withNegTags ihl l.negTags) (nearF_withNegTags ihr r.negTags)
  | mult neg op mn mx ih => exact nearF_mult (nearF_withNegTags ih op.negTags) mn mx
  | capture neg i t ih => exact nearF_capture (nearF_withNegTags ih i.negTags) t

theorem addRules_bytes (rules : List Rule) : ∀ {n n' : Nfa}, n.root < n.states.length → n.BytesOk →
    addRules rules n = some n' → n'.BytesOk := by
  induction rules with
  | nil => intro n n' _ h e; simp only [addRules, Option.some.injEq] at e; subst e; exact h
  | cons r rs ih =>
    intro n n' hr h e
    simp only [addRules, Option.bind_eq_some_iff] at e
    obtain ⟨m, h1, h2⟩ := e
    have hl : (n.pushState { accepting := true, varId := r.id }).1.states.length = n.states.length + 1 :=
      Nfa.length_pushState
    have h1 : withNegTags r.regex.negTags r.regex.addToNfa
        (n.pushState { accepting := true, varId := r.id }).1 n.states.length = some m := h1
    obtain ⟨a1, a2⟩ := nearF_withNegTags (nearF_bytes r.regex) r.regex.negTags _ _ _ h1
      (by simp only [Nfa.pushState, List.length_append] at *; omega) (by omega)
    refine ih ?_ ?_ h2
    · rw [a1]; have := a2.1; simp only [Nfa.pushState, List.length_append] at *; omega
    · intro p c q hp
      rcases a2.2 p _ q hp with hp | ⟨_, _, h3⟩
      · rcases Nfa.edge_pushState.mp hp with hp | ⟨_, hp⟩
        · exact h p c q hp
        · simp [NState.out] at hp
      · exact h3 c rfl

theorem buildNfa_bytes {rules : List Rule} {n : Nfa} (h : buildNfa rules = some n) : n.BytesOk := by
  refine addRules_bytes rules (by simp) ?_ h
  rintro p c q ⟨s, hs, hm⟩
  cases p with
  | zero => simp at hs; subst hs; simp [NState.out_default] at hm
  | succ p => simp at hs

/-- Successors of a state number. -/
def Nfa.succs (n : Nfa) (p : Nat) : List Nat := (n.states[p]?.getD {}).bfsSuccs

theorem mem_succs {n : Nfa} (hb : n.BytesOk) {p q : Nat} : q ∈ n.succs p ↔ ∃ l, n.Edge p l q := by
  unfold Nfa.succs
  cases hp : n.states[p]? with
  | none =>
    constructor
    · intro h; simp [NState.bfsSuccs, NState.byteTransitions] at h
    · rintro ⟨l, s, hs, _⟩; rw [hp] at hs; cases hs
  | some s =>
    have he : ∀ l q, n.Edge p l q ↔ (l, q) ∈ s.out := by
      intro l q; unfold Nfa.Edge; rw [hp]; simp
    simp only [Option.getD_some, NState.bfsSuccs, List.mem_append, List.mem_flatMap, List.mem_range,
      NState.byteTransitions, List.mem_map, List.mem_filter, he, NState.out]
    constructor
    · rintro ((((⟨b, hb, x, ⟨hx, hxb⟩, rfl⟩ | h) | ⟨x, hx, rfl⟩) | ⟨x, hx, rfl⟩) | ⟨x, hx, rfl⟩)
      · exact ⟨.byte x.1, .inl (.inl (.inl (.inl ⟨x, hx, rfl⟩)))⟩
      · exact ⟨.eps, .inl (.inl (.inl (.inr ⟨q, h, rfl⟩)))⟩
      · exact ⟨_, .inl (.inl (.inr ⟨x, hx, rfl⟩))⟩
      · exact ⟨_, .inl (.inr ⟨x, hx, rfl⟩)⟩
      · exact ⟨_, .inr ⟨x, hx, rfl⟩⟩
    · rintro ⟨l, ((((⟨x, hx, h⟩ | ⟨x, hx, h⟩) | ⟨x, hx, h⟩) | ⟨x, hx, h⟩) | ⟨x, hx, h⟩)⟩ <;> cases h
      · refine .inl (.inl (.inl (.inl ⟨x.1, ?_, x, ⟨hx, by simp⟩, rfl⟩)))
        refine hb p x.1 x.2 ((he _ _).mpr ?_)
        simp only [NState.out, List.mem_append, List.mem_map]
        exact .inl (.inl (.inl (.inl ⟨x, hx, rfl⟩)))
      · exact .inl (.inl (.inl (.inr hx)))
      · exact .inl (.inl (.inr ⟨x, hx, rfl⟩))
      · exact .inl (.inr ⟨x, hx, rfl⟩)
      · exact .inr ⟨x, hx, rfl⟩

/-- Adding destinations: what is new goes to both lists, in the same order. -/
theorem bfsAdd_fold (ds : List Nat) : ∀ (queue visited : List Nat), visited.Nodup → ∃ new : List Nat,
    ds.foldl bfsAdd (queue, visited) = (queue ++ new, visited ++ new) ∧ (visited ++ new).Nodup ∧
    (∀ d ∈ ds, d ∈ visited ++ new) ∧ ∀ d ∈ new, d ∈ ds := by
  induction ds with
  | nil => intro q v h; exact ⟨[], by simp [h]⟩
  | cons d ds ih =>
    intro q v h
    simp only [List.foldl_cons, bfsAdd]
    by_cases hd : d ∈ v
    · rw [if_pos hd]
      obtain ⟨new, h1, h2, h3, h4⟩ := ih q v h
      refine ⟨new, h1, h2, ?_, fun x hx => by simp [h4 x hx]⟩
      intro x hx
      rcases List.mem_cons.mp hx with rfl | hx
      · simp [hd]
      · exact h3 x hx
    · rw [if_neg hd]
      obtain ⟨new, h1, h2, h3, h4⟩ := ih (q ++ [d]) (v ++ [d])
        (List.nodup_append.mpr ⟨h, by simp, by simp; exact fun a ha hd' => hd (hd' ▸ ha)⟩)
      refine ⟨d :: new, by simpa using h1, by simpa using h2, ?_, ?_⟩
      · intro x hx
        rcases List.mem_cons.mp hx with rfl | hx
        · simp
        · simpa using h3 x hx
      · intro x hx
        rcases List.mem_cons.mp hx with rfl | hx
        · simp
        · simp [h4 x hx]

/-- Invariant of the loop: the visited states are `order ++ queue`; `L` is a ghost level. -/
structure BfsInv (n : Nfa) (order queue : List Nat) (L : Nat → Nat) : Prop where
  nodup : (order ++ queue).Nodup
  head : (order ++ queue).head? = some n.root
  root : L n.root = 0
  reach : ∀ q ∈ order ++ queue, q < n.states.length ∧ ∃ w, n.Path n.root w q ∧ w.length = L q
  edges : ∀ p ∈ order, ∀ l q, n.Edge p l q → q ∈ order ++ queue ∧ L q ≤ L p + 1
  sorted : (order ++ queue).Pairwise (fun a b => L a ≤ L b)
  near : ∀ a ∈ queue.head?, ∀ b ∈ queue, L b ≤ L a + 1

theorem bfs_step {n : Nfa} (hwf : n.WF) (hb : n.BytesOk) {order queue : List Nat} {cur : Nat} {L : Nat → Nat}
    (h : BfsInv n order (cur :: queue) L) : ∃ (new : List Nat) (L' : Nat → Nat),
    (n.succs cur).foldl bfsAdd (queue, order ++ cur :: queue) =
      (queue ++ new, order ++ cur :: queue ++ new) ∧ BfsInv n (order ++ [cur]) (queue ++ new) L' := by
  obtain ⟨new, h1, h2, h3, h4⟩ := bfsAdd_fold (n.succs cur) queue (order ++ cur :: queue) h.nodup
  let L' : Nat → Nat := fun q => if q ∈ new then L cur + 1 else L q
  have hdis : ∀ q ∈ order ++ cur :: queue, q ∉ new := by
    intro q hq hq'
    exact (List.nodup_append.mp h2).2.2 q hq q hq' rfl
  have hL : ∀ q ∈ order ++ cur :: queue, L' q = L q := by
    intro q hq; simp only [L', if_neg (hdis q hq)]
  have hN : ∀ q ∈ new, L' q = L cur + 1 := by intro q hq; simp only [L', if_pos hq]
  have e0 : order ++ [cur] ++ (queue ++ new) = (order ++ cur :: queue) ++ new := by simp
  have hcur : cur ∈ order ++ cur :: queue := by simp
  have hrootm : n.root ∈ order ++ cur :: queue := List.mem_of_mem_head? h.head
  have hsorted := List.pairwise_append.mp h.sorted
  have hbef : ∀ q ∈ order, L q ≤ L cur := fun q hq => hsorted.2.2 q hq cur (by simp)
  have hnear : ∀ q ∈ cur :: queue, L q ≤ L cur + 1 := h.near cur (by simp)
  have hall : ∀ q ∈ order ++ cur :: queue, L q ≤ L cur + 1 := by
    intro q hq
    rcases List.mem_append.mp hq with hq | hq
    · have := hbef q hq; omega
    · exact hnear q hq
  have hqge : ∀ q ∈ queue, L cur ≤ L q := by
    intro q hq
    exact (List.pairwise_cons.mp hsorted.2.1).1 q hq
  refine ⟨new, L', h1, ?_, ?_, ?_, ?_, ?_, ?_, ?_⟩
  · rw [e0]; exact h2
  · rw [e0, List.head?_append, h.head]; rfl
  · rw [hL _ hrootm, h.root]
  · rw [e0]
    intro q hq
    rcases List.mem_append.mp hq with hq | hq
    · rw [hL q hq]; exact h.reach q hq
    · rw [hN q hq]
      obtain ⟨l, hl⟩ := (mem_succs hb).mp (h4 q hq)
      obtain ⟨w, hw, hwl⟩ := (h.reach cur hcur).2
      exact ⟨hwf _ _ _ hl, w ++ [l], hw.append (.single hl), by simp [hwl]⟩
  · rw [e0]
    intro p hp l q hpq
    rcases List.mem_append.mp hp with hp | hp
    · obtain ⟨a, b⟩ := h.edges p hp l q hpq
      exact ⟨List.mem_append_left _ a, by rw [hL q a, hL p (List.mem_append_left _ hp)]; exact b⟩
    · simp at hp; subst hp
      have hq := h3 q ((mem_succs hb).mpr ⟨l, hpq⟩)
      refine ⟨hq, ?_⟩
      rw [hL p hcur]
      rcases List.mem_append.mp hq with hq | hq
      · rw [hL q hq]; exact hall q hq
      · rw [hN q hq]; exact Nat.le_refl _
  · rw [e0, List.pairwise_append]
    refine ⟨?_, ?_, ?_⟩
    · refine h.sorted.imp_of_mem ?_
      intro a b ha hb' hab
      rw [hL a ha, hL b hb']; exact hab
    · rw [List.pairwise_iff_forall_sublist]
      intro a b hab
      have ha : a ∈ new := hab.subset (by simp)
      have hb' : b ∈ new := hab.subset (by simp)
      rw [hN a ha, hN b hb']; exact Nat.le_refl _
    · intro a ha b hb'
      rw [hL a ha, hN b hb']
      exact hall a ha
  · intro a ha b hb'
    have ha' : L cur ≤ L' a := by
      cases queue with
      | nil =>
        have : a ∈ new := List.mem_of_mem_head? (by simpa using ha)
        rw [hN a this]; omega
      | cons x xs =>
        simp at ha; subst ha
        rw [hL x (by simp)]; exact hqge x (by simp)
    rcases List.mem_append.mp hb' with hb' | hb'
    · rw [hL b (by simp [hb'])]
      have := hnear b (by simp [hb']); omega
    · rw [hN b hb']; omega

theorem bfsLoop_spec {n : Nfa} (hwf : n.WF) (hb : n.BytesOk) (fuel : Nat) : ∀ {order queue : List Nat}
    {L : Nat → Nat}, BfsInv n order queue L → n.states.length ≤ order.length + fuel →
    ∃ (res : List Nat) (L' : Nat → Nat), n.bfsLoop fuel queue (order ++ queue) order = some res ∧
      BfsInv n res [] L' := by
  induction fuel with
  | zero =>
    intro order queue L h hf
    cases queue with
    | nil => exact ⟨order, L, by simp [Nfa.bfsLoop], by simpa using h⟩
    | cons cur queue =>
      exfalso
      have hsub : (order ++ cur :: queue) ⊆ List.range n.states.length := by
        intro q hq; exact List.mem_range.mpr (h.reach q hq).1
      have := (h.nodup.subperm hsub).length_le
      simp at this; omega
  | succ fuel ih =>
    intro order queue L h hf
    cases queue with
    | nil => exact ⟨order, L, by simp [Nfa.bfsLoop], by simpa using h⟩
    | cons cur queue =>
      obtain ⟨new, L', h1, h2⟩ := bfs_step hwf hb h
      obtain ⟨res, L'', h3, h4⟩ := ih h2 (by simp; omega)
      refine ⟨res, L'', ?_, h4⟩
      unfold Nfa.succs at h1
      simp only [Nfa.bfsLoop, h1]
      simpa using h3

theorem bfs_spec {n : Nfa} (hwf : n.WF) (hb : n.BytesOk) (hr : n.root < n.states.length) :
    ∃ (res : List Nat) (L : Nat → Nat), n.bfsOrder = some res ∧ BfsInv n res [] L := by
  have h0 : BfsInv n [] [n.root] (fun _ => 0) := by
    refine ⟨by simp, by simp, rfl, ?_, by simp, by simp, by simp⟩
    simp
    exact ⟨hr, .nil _⟩
  simpa [Nfa.bfsOrder, bfsAdd] using bfsLoop_spec hwf hb n.states.length h0 (by simp)

theorem BfsInv.closed {n : Nfa} {res : List Nat} {L : Nat → Nat} (h : BfsInv n res [] L) {p w q}
    (hp : n.Path p w q) : p ∈ res → q ∈ res ∧ L q ≤ L p + w.length := by
  induction hp with
  | nil p => intro h; exact ⟨h, by simp⟩
  | cons e _ ih =>
    intro hm
    obtain ⟨a, b⟩ := h.edges _ hm _ _ e
    simp only [List.append_nil] at a
    obtain ⟨c, d⟩ := ih a
    exact ⟨c, by simp; omega⟩

/-! Serialization. -/

theorem mapAll_some {α β} {f : α → Option β} {as : List α} {bs : List β} (h : mapAll f as = some bs) :
    List.Forall₂ (fun a b => f a = some b) as bs := by
  induction as generalizing bs with
  | nil => simp only [mapAll, Option.some.injEq] at h; subst h; exact .nil
  | cons a as ih =>
    simp only [mapAll, Option.bind_eq_some_iff, Option.map_eq_some_iff] at h
    obtain ⟨b, h1, bs', h2, rfl⟩ := h
    exact .cons h1 (ih h2)

theorem mapAll_total {α β} {f : α → Option β} {g : α → β} {as : List α} (h : ∀ a ∈ as, f a = some (g a)) :
    mapAll f as = some (as.map g) := by
  induction as with
  | nil => rfl
  | cons a as ih =>
    simp only [mapAll, h a (by simp), Option.bind_some, ih (fun x hx => h x (by simp [hx])), Option.map_some,
      List.map_cons]

theorem stateIds_eq (order : List Nat) (h : order.Nodup) : stateIds order = order.zipIdx := by
  unfold stateIds
  suffices ∀ (todo done : List Nat), (done ++ todo).Nodup →
      todo.foldl (fun m s => if m.any (·.1 == s) then m else m ++ [(s, m.length)]) done.zipIdx =
        (done ++ todo).zipIdx by
    simpa using this order [] (by simpa using h)
  intro todo
  induction todo with
  | nil => intro done _; simp
  | cons x xs ih =>
    intro done hn
    have hx : x ∉ done := by
      intro hx; exact (List.nodup_append.mp hn).2.2 x hx x (by simp) rfl
    have : (done.zipIdx.any (·.1 == x)) = false := by
      rw [List.any_eq_false]
      intro p hp
      have := List.mem_zipIdx' hp
      simp only [beq_iff_eq]
      intro e; apply hx; rw [← e, this.2]; exact List.getElem_mem _
    rw [List.foldl_cons, this]
    simp only [Bool.false_eq_true, if_false, List.length_zipIdx]
    have := ih (done ++ [x]) (by simpa using hn)
    rw [List.zipIdx_append] at this
    simpa using this

theorem lookup_zipIdx (order : List Nat) (h : order.Nodup) (k : Nat) (i : Nat) (hi : i < order.length) :
    (order.zipIdx k).lookup order[i] = some (k + i) := by
  induction order generalizing k i with
  | nil => simp at hi
  | cons x xs ih =>
    obtain ⟨h1, h2⟩ := List.nodup_cons.mp h
    cases i with
    | zero => simp [List.zipIdx_cons]
    | succ i =>
      simp only [List.zipIdx_cons, List.getElem_cons_succ, List.lookup_cons]
      have : (xs[i]'(by simpa using hi) == x) = false := by
        rw [beq_eq_false_iff_ne]; intro e; exact h1 (e ▸ List.getElem_mem _)
      rw [this]
      have := ih h2 (k + 1) i (by simpa using hi)
      rw [this, Nat.add_assoc, Nat.add_comm 1]

theorem stateIds_lookup {order : List Nat} (h : order.Nodup) {q : Nat} (hq : q ∈ order) :
    (stateIds order).lookup q = some (order.idxOf q) := by
  rw [stateIds_eq order h]
  have hi := List.idxOf_lt_length_iff.mpr hq
  have := lookup_zipIdx order h 0 (order.idxOf q) hi
  rw [List.getElem_idxOf hi] at this
  simpa using this

theorem idxOf_iff {order : List Nat} (h : order.Nodup) {q j : Nat} (hq : q ∈ order) :
    j = order.idxOf q ↔ order[j]? = some q := by
  have hi := List.idxOf_lt_length_iff.mpr hq
  constructor
  · rintro rfl
    rw [List.getElem?_eq_getElem hi, List.getElem_idxOf hi]
  · intro hj
    obtain ⟨hj1, hj2⟩ := List.getElem?_eq_some_iff.mp hj
    subst hj2
    exact (List.Nodup.idxOf_getElem h j hj1).symm

/-- The line of a state of the traversal. -/
theorem serializeState_spec {n : Nfa} {order : List Nat} (hn : order.Nodup) {p : Nat} {s : NState}
    (hs : n.states[p]? = some s) (hp : p ∈ order) (hcl : ∀ l q, n.Edge p l q → q ∈ order)
    (hb : n.BytesOk) :
    ∃ line, serializeState (stateIds order) p s = some line ∧ order[line.id]? = some p ∧
      line.accepting = (if s.accepting then some s.varId else none) ∧
      (∀ c j, (c, j) ∈ line.bytes ↔ ∃ q, n.Edge p (.byte c) q ∧ order[j]? = some q) ∧
      (∀ j, j ∈ line.eps ↔ ∃ q, n.Edge p .eps q ∧ order[j]? = some q) ∧
      (∀ j t, (j, t) ∈ line.posStart ↔ ∃ q, n.Edge p (.openTag t) q ∧ order[j]? = some q) ∧
      (∀ j t, line.posEnd = some (j, t) ↔ ∃ q, n.Edge p (.closeTag t) q ∧ order[j]? = some q) ∧
      (∀ j ts, line.neg = some (j, ts) ↔ ∃ q, n.Edge p (.negTags ts) q ∧ order[j]? = some q) := by
  have he : ∀ l q, n.Edge p l q ↔ (l, q) ∈ s.out := by
    intro l q; unfold Nfa.Edge; rw [hs]; simp
  have eb : ∀ c q, n.Edge p (.byte c) q ↔ (c, q) ∈ s.bytes := by
    intro c q; rw [he]; simp [NState.out]
  have ee : ∀ q, n.Edge p .eps q ↔ q ∈ s.eps := by intro q; rw [he]; simp [NState.out]
  have eo : ∀ t q, n.Edge p (.openTag t) q ↔ (t, q) ∈ s.posStart := by
    intro c q; rw [he]; simp [NState.out]
  have ec : ∀ t q, n.Edge p (.closeTag t) q ↔ s.posEnd = some (t, q) := by
    intro c q; rw [he]; simp [NState.out]
  have en : ∀ ts q, n.Edge p (.negTags ts) q ↔ s.neg = some (ts, q) := by
    intro c q; rw [he]; simp [NState.out]
  have hl : ∀ l q, n.Edge p l q → (stateIds order).lookup q = some (order.idxOf q) := fun l q h =>
    stateIds_lookup hn (hcl l q h)
  let B := (List.range cSizeOfByte).flatMap fun b => (s.byteTransitions b).map fun q => (b, q)
  have hB : ∀ c q, (c, q) ∈ B ↔ n.Edge p (.byte c) q := by
    intro c q
    simp only [B, List.mem_flatMap, List.mem_range, List.mem_map, NState.byteTransitions, List.mem_filter, eb]
    constructor
    · rintro ⟨b, _, q', ⟨x, ⟨hx, hxb⟩, rfl⟩, h⟩
      cases h
      rw [beq_iff_eq] at hxb; subst hxb; exact hx
    · intro h
      exact ⟨c, hb p c q ((eb c q).mpr h), q, ⟨(c, q), ⟨h, by simp⟩, rfl⟩, rfl⟩
  have m1 : mapAll (fun p => ((stateIds order).lookup p.2).map fun i => (p.1, i)) B =
      some (B.map fun p => (p.1, order.idxOf p.2)) :=
    mapAll_total fun a ha => by rw [hl _ _ ((hB a.1 a.2).mp ha)]; rfl
  have m2 : mapAll (fun q => (stateIds order).lookup q) s.eps = some (s.eps.map order.idxOf) :=
    mapAll_total fun a ha => hl _ _ ((ee a).mpr ha)
  have m3 : mapAll (fun p : Tag × Nat => ((stateIds order).lookup p.2).map fun i => (i, p.1)) s.posStart =
      some (s.posStart.map fun p => (order.idxOf p.2, p.1)) :=
    mapAll_total fun a ha => by rw [hl _ _ ((eo a.1 a.2).mpr ha)]; rfl
  have m4 : mapAll (fun p : Tag × Nat => ((stateIds order).lookup p.2).map fun i => (i, p.1)) s.posEnd.toList =
      some (s.posEnd.toList.map fun p => (order.idxOf p.2, p.1)) :=
    mapAll_total fun a ha => by rw [hl _ _ ((ec a.1 a.2).mpr (by simpa using ha))]; rfl
  have m5 : mapAll (fun p : List Tag × Nat => ((stateIds order).lookup p.2).map fun i => (i, p.1)) s.neg.toList =
      some (s.neg.toList.map fun p => (order.idxOf p.2, p.1)) :=
    mapAll_total fun a ha => by rw [hl _ _ ((en a.1 a.2).mpr (by simpa using ha))]; rfl
  refine ⟨{ id := order.idxOf p, accepting := if s.accepting then some s.varId else none,
            bytes := B.map fun p => (p.1, order.idxOf p.2), eps := s.eps.map order.idxOf,
            posStart := s.posStart.map fun p => (order.idxOf p.2, p.1),
            posEnd := (s.posEnd.toList.map fun p => (order.idxOf p.2, p.1)).head?,
            neg := (s.neg.toList.map fun p => (order.idxOf p.2, p.1)).head? },
    ?_, (idxOf_iff hn hp).mp rfl, rfl, ?_, ?_, ?_, ?_, ?_⟩
  · simp only [serializeState]
    rw [show (List.range cSizeOfByte).flatMap (fun b => (s.byteTransitions b).map fun q => (b, q)) = B from rfl,
      m1]
    simp only [Option.bind_some, m2, m3, m4, m5, stateIds_lookup hn hp, Option.map_some]
  · intro c j
    simp only [List.mem_map]
    constructor
    · rintro ⟨x, hx, h⟩
      cases h
      have := (hB x.1 x.2).mp hx
      exact ⟨x.2, this, (idxOf_iff hn (hcl _ _ this)).mp rfl⟩
    · rintro ⟨q, h1, h2⟩
      exact ⟨(c, q), (hB c q).mpr h1, by rw [← (idxOf_iff hn (hcl _ _ h1)).mpr h2]⟩
  · intro j
    simp only [List.mem_map]
    constructor
    · rintro ⟨x, hx, rfl⟩
      exact ⟨x, (ee x).mpr hx, (idxOf_iff hn (hcl _ _ ((ee x).mpr hx))).mp rfl⟩
    · rintro ⟨q, h1, h2⟩
      exact ⟨q, (ee q).mp h1, ((idxOf_iff hn (hcl _ _ h1)).mpr h2).symm⟩
  · intro j t
    simp only [List.mem_map]
    constructor
    · rintro ⟨x, hx, h⟩
      cases h
      have := (eo x.1 x.2).mpr hx
      exact ⟨x.2, this, (idxOf_iff hn (hcl _ _ this)).mp rfl⟩
    · rintro ⟨q, h1, h2⟩
      exact ⟨(t, q), (eo t q).mp h1, by rw [← (idxOf_iff hn (hcl _ _ h1)).mpr h2]⟩
  · intro j t
    cases hpe : s.posEnd with
    | none =>
      simp only [Option.toList_none, List.map_nil, List.head?_nil, ec, hpe]
      simp
    | some x =>
      simp only [Option.toList_some, List.map_cons, List.map_nil, List.head?_cons, Option.some.injEq]
      have := (ec x.1 x.2).mpr (by rw [hpe])
      constructor
      · intro h; cases h
        exact ⟨x.2, this, (idxOf_iff hn (hcl _ _ this)).mp rfl⟩
      · rintro ⟨q, h1, h2⟩
        have h3 := (ec t q).mp h1
        rw [hpe] at h3; cases h3
        rw [← (idxOf_iff hn (hcl _ _ h1)).mpr h2]
  · intro j t
    cases hpe : s.neg with
    | none =>
      simp only [Option.toList_none, List.map_nil, List.head?_nil, en, hpe]
      simp
    | some x =>
      simp only [Option.toList_some, List.map_cons, List.map_nil, List.head?_cons, Option.some.injEq]
      have := (en x.1 x.2).mpr (by rw [hpe])
      constructor
      · intro h; cases h
        exact ⟨x.2, this, (idxOf_iff hn (hcl _ _ this)).mp rfl⟩
      · rintro ⟨q, h1, h2⟩
        have h3 := (en t q).mp h1
        rw [hpe] at h3; cases h3
        rw [← (idxOf_iff hn (hcl _ _ h1)).mpr h2]

/-! The text. -/

theorem decimalText_nl (k : Nat) : 10 ∉ decimalText k := by
  simp only [decimalText, List.mem_map, not_exists, not_and]
  intro c hc h
  have := Nat.isDigit_of_mem_toDigits (by decide) (by decide) hc
  simp only [Char.isDigit, Bool.and_eq_true, decide_eq_true_eq, ge_iff_le] at this
  have h1 := UInt32.le_iff_toNat_le.mp this.1
  have h2 : c.val.toNat = 10 := h
  rw [h2] at h1
  simp at h1

theorem joinWith_not_mem {x : Nat} {sep : List Nat} (hs : x ∉ sep) {parts : List (List Nat)}
    (h : ∀ a ∈ parts, x ∉ a) : x ∉ joinWith sep parts := by
  induction parts with
  | nil => simp [joinWith]
  | cons a as ih =>
    cases as with
    | nil => simpa [joinWith] using h a (by simp)
    | cons b bs =>
      simp only [joinWith, List.mem_append, not_or]
      exact ⟨⟨h a (by simp), hs⟩, ih fun c hc => h c (by simp [hc])⟩

theorem taggedText_nl {name : Tag → List Nat} (hn : ∀ t, 10 ∉ name t) (i : Nat) (ts : List Tag) :
    10 ∉ taggedText name i ts := by
  have h := joinWith_not_mem (x := 10) (sep := ascii ",") (by decide) (parts := ts.map name)
    (by simp only [List.mem_map]; rintro a ⟨t, _, rfl⟩; exact hn t)
  have h1 : 10 ∉ ascii "[" := by decide
  have h2 : 10 ∉ ascii "]" := by decide
  simp only [taggedText, List.mem_append, not_or]
  exact ⟨⟨⟨decimalText_nl i, h1⟩, h⟩, h2⟩

theorem serText_nl {name : Tag → List Nat} (hn : ∀ t, 10 ∉ name t) (s : SerState)
    (hb : ∀ p ∈ s.bytes, p.1 ≠ 10) : 10 ∉ s.text name := by
  have c : 10 ∉ ascii "," := by decide
  have h1 := joinWith_not_mem c (parts := s.bytes.map fun p => p.1 :: (ascii "-->" ++ decimalText p.2)) (by
    simp only [List.mem_map]; rintro a ⟨p, hp, rfl⟩
    have h3 : 10 ∉ ascii "-->" := by decide
    simp only [List.mem_cons, List.mem_append, not_or]
    exact ⟨fun h => hb p hp h.symm, h3, decimalText_nl _⟩)
  have h2 := joinWith_not_mem c (parts := s.eps.map decimalText) (by
    simp only [List.mem_map]; rintro a ⟨p, hp, rfl⟩; exact decimalText_nl _)
  have h3 := joinWith_not_mem c (parts := s.posStart.map fun p => taggedText name p.1 [p.2]) (by
    simp only [List.mem_map]; rintro a ⟨p, hp, rfl⟩; exact taggedText_nl hn _ _)
  have k1 : 10 ∉ ascii ":" := by decide
  have k2 : 10 ∉ ascii "byte_transitions={" := by decide
  have k3 : 10 ∉ ascii "},epsilon_transitions={" := by decide
  have k4 : 10 ∉ ascii "},positive_tagged_start_transitions={" := by decide
  have k5 : 10 ∉ ascii "},positive_tagged_end_transitions={" := by decide
  have k6 : 10 ∉ ascii "},negative_tagged_transition={" := by decide
  have k7 : 10 ∉ ascii "}" := by decide
  have k8 : 10 ∉ ascii "accepting_tag=" := by decide
  simp only [SerState.text, List.mem_append, not_or]
  refine ⟨⟨⟨⟨⟨⟨⟨⟨⟨⟨⟨⟨⟨?_, k1⟩, ?_⟩, k2⟩, h1⟩, k3⟩, h2⟩, k4⟩, h3⟩, k5⟩, ?_⟩, k6⟩, ?_⟩, k7⟩
  · exact decimalText_nl _
  · split
    · simp only [List.mem_append, not_or]
      exact ⟨⟨k8, decimalText_nl _⟩, c⟩
    · simp
  · split
    · exact taggedText_nl hn _ _
    · simp
  · split
    · exact taggedText_nl hn _ _
    · simp

theorem count_join (parts : List (List Nat)) (h : ∀ a ∈ parts, 10 ∉ a) (hne : parts ≠ []) :
    (joinWith [10] parts ++ [10]).count 10 = parts.length := by
  induction parts with
  | nil => exact absurd rfl hne
  | cons a as ih =>
    have ha : a.count 10 = 0 := List.count_eq_zero.mpr (h a (by simp))
    cases as with
    | nil => simp [joinWith, ha]
    | cons b bs =>
      have := ih (fun c hc => h c (by simp [hc])) (by simp)
      simp only [joinWith, List.append_assoc, List.count_append, ha] at this ⊢
      simp only [List.length_cons] at this ⊢
      simp at this ⊢
      omega

end LogSurgeon
