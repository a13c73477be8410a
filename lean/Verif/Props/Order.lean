import Verif.Spec.Order
import Verif.Props.Lexing
import Verif.Props.Dfa
/-
C58: the order in which the types of a token are listed, for any addresses of the NFA states.
-/
namespace LogSurgeon

/-- C58: there is one ranking of the rules, by the address of the rule's accepting NFA state, by which the ids are listed for
every byte string. -/
theorem C58_order {rules : List Rule} {n : Nfa} (hn : buildNfa rules = some n) {addr : Nat → Nat}
    (hinj : ∀ a b, addr a = addr b → a = b) {d : Dfa} (hd : generateDfa rules addr = some d) :
    ∃ accept : Nat → Nat,
      (∀ (i : Nat) (r : Rule), rules[i]? = some r → ∃ st, n.states[accept i]? = some st ∧ st.accepting = true ∧ st.varId = r.id) ∧
      (∀ i j, i < j → j < rules.length → accept i < accept j) ∧
      ∀ s, AllBytes s → ListedBy (fun i => addr (accept i)) rules (fun r => r.AcceptsAlone s) (d.idsOn s) := by
  classical
  simp only [generateDfa, hn, Option.bind_some] at hd
  obtain ⟨ends, hI⟩ := buildNfa_inv hn
  obtain ⟨d', hd', hspec⟩ := dfa_run_spec hI.wf (by rw [hI.root]; exact hI.pos) hinj
  rw [hd] at hd'; cases hd'
  have hlen := hI.len
  refine ⟨fun i => ends[i]?.getD 0, ?_, ?_, ?_⟩
  · intro i r hr
    obtain ⟨hi, rfl⟩ := List.getElem?_eq_some_iff.mp hr
    obtain ⟨st, h1, h2, h3⟩ := hI.acc i hi
    have hi' : i < ends.length := by omega
    simp only [List.getElem?_eq_getElem hi', Option.getD_some]
    exact ⟨st, h1, h2, h3⟩
  · intro i j hij hj
    have hj' : j < ends.length := by omega
    have hi' : i < ends.length := by omega
    simp only [List.getElem?_eq_getElem hj', List.getElem?_eq_getElem hi', Option.getD_some]
    exact List.pairwise_iff_getElem.mp hI.sorted i j hi' hj' hij
  · intro s hs
    have hacc : ∀ (i : Nat) (hi : i < rules.length) (hi' : i < ends.length), rules[i].AcceptsAlone s ↔ n.ReachBy s ends[i] := by
      intro i hi hi'
      rw [acceptsAlone_iff hn (List.getElem_mem hi)]
      constructor
      · rintro ⟨lw, hl, hb⟩
        exact ⟨lw, (hI.path_iff i hi lw).mpr hl, hb⟩
      · rintro ⟨lw, hp, hb⟩
        exact ⟨lw, (hI.path_iff i hi lw).mp hp, hb⟩
    rcases hspec s hs with ⟨q', S, h1, _, h2, h3, _, h4⟩ | ⟨h1, h2⟩
    · -- the numbers of the rules whose accepting states are in `S`, in the order of `S`
      let num : Nat → Nat := fun q => ends.findIdx (· == q)
      have hnum : ∀ q ∈ ends, ∃ h : num q < ends.length, ends[num q] = q := by
        intro q hq
        have : num q < ends.length := List.findIdx_lt_length_of_exists ⟨q, hq, by simp⟩
        refine ⟨this, ?_⟩
        have := List.findIdx_getElem (w := this)
        simpa using this
      have hmemF : ∀ q, q ∈ S.filter (fun q => decide (q ∈ ends)) ↔ q ∈ S ∧ q ∈ ends := by
        intro q; simp
      refine ⟨(S.filter (fun q => decide (q ∈ ends))).map num, ?_, ?_, ?_⟩
      · rw [List.pairwise_map]
        refine List.Pairwise.imp_of_mem ?_ (List.Pairwise.filter _ h3)
        intro a b ha hb hab
        obtain ⟨a1, a2⟩ := hnum a ((hmemF a).mp ha).2
        obtain ⟨b1, b2⟩ := hnum b ((hmemF b).mp hb).2
        simp only [List.getElem?_eq_getElem a1, List.getElem?_eq_getElem b1, Option.getD_some, a2, b2]
        exact hab
      · intro i
        simp only [List.mem_map, hmemF]
        constructor
        · rintro ⟨q, ⟨hq1, hq2⟩, rfl⟩
          obtain ⟨a1, a2⟩ := hnum q hq2
          have a3 : num q < rules.length := by omega
          refine ⟨rules[num q], List.getElem?_eq_getElem a3, ?_⟩
          rw [hacc _ a3 a1, a2]
          exact (h4 q).mp hq1
        · rintro ⟨r, hr, ha⟩
          obtain ⟨hi, rfl⟩ := List.getElem?_eq_some_iff.mp hr
          have hi' : i < ends.length := by omega
          refine ⟨ends[i], ⟨(h4 _).mpr ((hacc i hi hi').mp ha), List.getElem_mem hi'⟩, ?_⟩
          obtain ⟨a1, a2⟩ := hnum ends[i] (List.getElem_mem hi')
          rcases Nat.lt_trichotomy (num ends[i]) i with h | h | h
          · have := List.pairwise_iff_getElem.mp hI.sorted _ _ a1 hi' h; omega
          · exact h
          · have := List.pairwise_iff_getElem.mp hI.sorted _ _ hi' a1 h; omega
      · simp only [Dfa.idsOn, h1, Option.map_some, Option.getD_some, h2, acceptIds_eq hI, List.map_map]
        apply List.map_congr_left
        intro q hq
        obtain ⟨a1, a2⟩ := hnum q ((hmemF q).mp hq).2
        have a3 : num q < rules.length := by omega
        obtain ⟨st, b1, _, b3⟩ := hI.acc (num q) a3
        rw [a2] at b1
        simp only [Function.comp, Nfa.varOf, b1, List.getElem?_eq_getElem a3, Option.map_some, Option.getD_some, b3]
    · refine ⟨[], .nil, ?_, by simp [Dfa.idsOn, h1]⟩
      intro i
      simp only [List.not_mem_nil, false_iff]
      rintro ⟨r, hr, ha⟩
      obtain ⟨hi, rfl⟩ := List.getElem?_eq_some_iff.mp hr
      exact h2 _ ((hacc i hi (by omega)).mp ha)

/-- Ids listed by a ranking of rules with distinct ids are in the order of the ranks. -/
theorem listedBefore_rank {rank : Nat → Nat} {rules : List Rule} {P : Rule → Prop} {ids : List Nat} (h : ListedBy rank rules P ids)
    {u v : Nat} (hb : ListedBefore ids u v) : ∃ i j, rules[i]?.map Rule.id = some u ∧ rules[j]?.map Rule.id = some v ∧ rank i < rank j := by
  obtain ⟨l, h1, h2, h3⟩ := h
  obtain ⟨a, b, c, rfl⟩ := hb
  have hl : l.length = (a ++ u :: b ++ v :: c).length := by
    have := congrArg List.length h3; simpa using this.symm
  have g : ∀ (k : Nat) (x : Nat), (a ++ u :: b ++ v :: c)[k]? = some x → ∃ i, l[k]? = some i ∧ rules[i]?.map Rule.id = some x := by
    intro k x hk
    have h4 : ((a ++ u :: b ++ v :: c).map some)[k]? = some (some x) := by rw [List.getElem?_map, hk]; rfl
    rw [h3, List.getElem?_map] at h4
    simp only [Option.map_eq_some_iff] at h4
    obtain ⟨i, e1, e2⟩ := h4
    exact ⟨i, e1, by simpa using e2⟩
  obtain ⟨i, e1, e2⟩ := g a.length u (by simp)
  obtain ⟨j, f1, f2⟩ := g (a.length + (b.length + 1)) v (by simp)
  refine ⟨i, j, e2, f2, ?_⟩
  obtain ⟨p1, rfl⟩ := List.getElem?_eq_some_iff.mp e1
  obtain ⟨p2, rfl⟩ := List.getElem?_eq_some_iff.mp f1
  exact List.pairwise_iff_getElem.mp h1 _ _ p1 p2 (by omega)

theorem listedBefore_total {ids : List Nat} {u v : Nat} (hu : u ∈ ids) (hv : v ∈ ids) (hne : u ≠ v) : ListedBefore ids u v ∨ ListedBefore ids v u := by
  obtain ⟨a, b, rfl⟩ := List.append_of_mem hu
  rcases List.mem_append.mp hv with h | h
  · obtain ⟨c, d, rfl⟩ := List.append_of_mem h
    exact .inr ⟨c, d, b, by simp⟩
  · rcases List.mem_cons.mp h with h | h
    · exact absurd h.symm hne
    · obtain ⟨c, d, rfl⟩ := List.append_of_mem h
      exact .inl ⟨a, c, d, by simp⟩

theorem listedBefore_ne {rules : List Rule} (huniq : (rules.map Rule.id).Nodup) {addr : Nat → Nat}
    (hinj : ∀ a b, addr a = addr b → a = b) {d : Dfa} (hd : generateDfa rules addr = some d) {s : List Nat} (hs : AllBytes s)
    {u v : Nat} (h : ListedBefore (d.idsOn s) u v) : u ≠ v := by
  obtain ⟨n, hn⟩ : ∃ n, buildNfa rules = some n := by
    simp only [generateDfa, Option.bind_eq_some_iff] at hd
    exact ⟨_, hd.choose_spec.1⟩
  obtain ⟨accept, _, _, hl⟩ := C58_order hn hinj hd
  rintro rfl
  obtain ⟨i, j, e1, e2, e3⟩ := listedBefore_rank (hl s hs) h
  have h1' : (rules.map Rule.id)[i]? = some u := by rw [List.getElem?_map]; exact e1
  have h2' : (rules.map Rule.id)[j]? = some u := by rw [List.getElem?_map]; exact e2
  obtain ⟨a1, a2⟩ := List.getElem?_eq_some_iff.mp h1'
  obtain ⟨b1, b2⟩ := List.getElem?_eq_some_iff.mp h2'
  have := (List.Nodup.getElem_inj_iff huniq).mp (a2.trans b2.symm)
  subst this
  omega

/-- C58: the order of two types is the same for all texts that have both, whatever the addresses. -/
theorem C58_consistent {rules : List Rule} (huniq : (rules.map Rule.id).Nodup) {addr : Nat → Nat}
    (hinj : ∀ a b, addr a = addr b → a = b) {d : Dfa} (hd : generateDfa rules addr = some d) {s₁ s₂ : List Nat} (hs₁ : AllBytes s₁)
    (hs₂ : AllBytes s₂) {u v : Nat} (h : ListedBefore (d.idsOn s₁) u v) (hu : u ∈ d.idsOn s₂) (hv : v ∈ d.idsOn s₂) :
    ListedBefore (d.idsOn s₂) u v := by
  obtain ⟨n, hn⟩ : ∃ n, buildNfa rules = some n := by
    simp only [generateDfa, Option.bind_eq_some_iff] at hd
    exact ⟨_, hd.choose_spec.1⟩
  obtain ⟨accept, _, _, hl⟩ := C58_order hn hinj hd
  have hidx : ∀ (i j : Nat) (x : Nat), rules[i]?.map Rule.id = some x → rules[j]?.map Rule.id = some x → i = j := by
    intro i j x h1 h2
    have h1' : (rules.map Rule.id)[i]? = some x := by rw [List.getElem?_map]; exact h1
    have h2' : (rules.map Rule.id)[j]? = some x := by rw [List.getElem?_map]; exact h2
    obtain ⟨a1, a2⟩ := List.getElem?_eq_some_iff.mp h1'
    obtain ⟨b1, b2⟩ := List.getElem?_eq_some_iff.mp h2'
    exact (List.Nodup.getElem_inj_iff huniq).mp (a2.trans b2.symm)
  obtain ⟨i, j, e1, e2, e3⟩ := listedBefore_rank (hl s₁ hs₁) h
  have hne : u ≠ v := by
    rintro rfl
    have := hidx i j u e1 e2
    subst this
    omega
  rcases listedBefore_total hu hv hne with hb | hb
  · exact hb
  · obtain ⟨i', j', f1, f2, f3⟩ := listedBefore_rank (hl s₂ hs₂) hb
    have := hidx i' j v f1 e2
    have := hidx j' i u f2 e1
    subst_vars
    omega

variable {s : SchemaAST} {addr : Nat → Nat} {t : ParserTables} {L : Lexer}

/-- C58, for the tokens of two texts scanned by the same lexer: if one lists type `u` before type `v`, then so does every other one
that has both types. -/
theorem C58_tokens (hC : s.Compiled addr t L) (hv : s.vars ≠ []) (huniq : (t.rules.map Rule.id).Nodup) (st₁ st₂ : LexState)
    (b₁ b₂ : InBuf) (ptr₁ ptr₂ : Nat) {text₁ text₂ : List Nat} (hb₁ : AllBytes text₁) (hb₂ : AllBytes text₂) {k₁ k₂ : Nat}
    (hk₁ : text₁.length < k₁) (hk₂ : text₂.length < k₂) {x y : Token} (hx : x ∈ (L.lexAll k₁ st₁ b₁ ptr₁ text₁ text₁.length true).1)
    (hy : y ∈ (L.lexAll k₂ st₂ b₂ ptr₂ text₂ text₂.length true).1) {xs ys : List Nat} (hxs : x.types = some xs)
    (hys : y.types = some ys) {u v : Nat} (h : ListedBefore xs u v) (hu : u ∈ ys) (hv' : v ∈ ys) : ListedBefore ys u v := by
  have hgen := (buildLexer_ok hC.ok).gen
  have hsingle : ∀ c : Nat, ¬ ListedBefore [c] u v := by
    rintro c ⟨a, b, e, h⟩
    have := congrArg List.length h
    simp at this
    omega
  have hbytes : ∀ (text : List Nat), AllBytes text → ∀ (sof : Bool) (a e : Nat),
      AllBytes ((if sof then [cCharStartOfFile] else []) ++ slice text a e) := by
    intro text ht sof a e c hc
    rcases List.mem_append.mp hc with h | h
    · cases sof with
      | false => simp at h
      | true => simp at h; subst h; simp [cCharStartOfFile, cSizeOfByte]
    · exact ht c (by unfold slice at h; exact List.mem_of_mem_drop (List.mem_of_mem_take h))
  rcases C05_recognised hC hv st₁ b₁ ptr₁ (Nat.le_refl _) hk₁ hx with h1 | h1 | ⟨sof, _, _, _, h1, _⟩
  · rw [hxs] at h1; cases h1; exact absurd h (hsingle _)
  · rw [hxs] at h1; cases h1.1; exact absurd h (hsingle _)
  rw [hxs] at h1
  cases h1
  have hne : u ≠ v := listedBefore_ne huniq hC.inj hgen (hbytes _ hb₁ sof _ _) h
  rcases C05_recognised hC hv st₂ b₂ ptr₂ (Nat.le_refl _) hk₂ hy with h2 | h2 | ⟨sof', _, _, _, h2, _⟩
  · rw [hys] at h2; cases h2
    simp only [List.mem_singleton] at hu hv'
    subst hu hv'
    exact absurd rfl hne
  · rw [hys] at h2; cases h2.1
    simp only [List.mem_singleton] at hu hv'
    subst hu hv'
    exact absurd rfl hne
  · rw [hys] at h2
    cases h2
    exact C58_consistent huniq hC.inj hgen (hbytes _ hb₁ sof _ _) (hbytes _ hb₂ sof' _ _) h hu hv'

/-- Both orders occur, depending on the addresses; in either case it is the same for `a` and, in a third rule's company, for `b`. -/
example : (generateDfa twoRules (fun q => if q = 1 then 2 else if q = 2 then 1 else q)).map (fun d => d.idsOn [97]) = some [9, 8] ∧
    (generateDfa twoRules id).map (fun d => d.idsOn [97]) = some [8, 9] ∧ (twoRules.map Rule.id).Nodup := by decide +kernel

/-- Two variables, `b` and a digit or `b`. -/
def sharedSchema : SchemaAST where
  delims := [[32, 10]]
  vars := [⟨"x", .literal [] 98⟩, ⟨"y", ((Pat.or .digit (.lit 98)).elab).getD (.empty [])⟩]

theorem sharedSchema_sensible : sharedSchema.Sensible := by
  intro v hv
  simp only [sharedSchema, List.mem_cons, List.not_mem_nil, or_false] at hv
  rcases hv with rfl | rfl
  · exact ⟨(by decide : '$' ∉ "x".toList), .lit 98, rfl, trivial⟩
  · exact ⟨(by decide : '$' ∉ "y".toList), .or .digit (.lit 98), rfl, ⟨trivial, trivial⟩⟩

set_option maxRecDepth 100000 in
set_option synthInstance.maxSize 2000 in
set_option synthInstance.maxHeartbeats 200000 in
/-- The hypotheses of `C58_tokens`: the texts `a b` and `b 1 b` have tokens with the types of both variables. -/
example : ∃ t L, sharedSchema.Compiled id t L ∧ (t.rules.map Rule.id).Nodup ∧
    (L.lexAll 4 {} (InBuf.init (fun _ => []) 48000 2) 1 [97, 32, 98] 3 true).1.map (fun x => (x.startPos, x.types)) =
      [(0, some [1]), (1, some [8, 9]), (3, some [0])] ∧
    (L.lexAll 6 {} (InBuf.init (fun _ => []) 48000 2) 1 [32, 98, 32, 49] 4 true).1.map (fun x => (x.startPos, x.types)) =
      [(0, some [8, 9]), (2, some [9]), (4, some [0])] := by
  obtain ⟨t, L, hc, hC⟩ := compiled_spec sharedSchema_sensible (by decide +kernel)
  have : ((compiled sharedSchema).map fun x => (x.1.rules.map Rule.id,
      (x.2.lexAll 4 {} (InBuf.init (fun _ => []) 48000 2) 1 [97, 32, 98] 3 true).1.map (fun x => (x.startPos, x.types)),
      (x.2.lexAll 6 {} (InBuf.init (fun _ => []) 48000 2) 1 [32, 98, 32, 49] 4 true).1.map (fun x => (x.startPos, x.types)))) =
    some ([7, 8, 9], [(0, some [1]), (1, some [8, 9]), (3, some [0])], [(0, some [8, 9]), (2, some [9]), (4, some [0])]) := by
    decide +kernel
  rw [hc] at this
  simp only [Option.map_some, Option.some.injEq, Prod.mk.injEq] at this
  exact ⟨t, L, hC, by rw [this.1]; decide, this.2.1, this.2.2⟩

end LogSurgeon
