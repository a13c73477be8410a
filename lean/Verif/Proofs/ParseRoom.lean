import Verif.Proofs.Viable
/-
The children array suffices if it does for whatever is on the stack.
-/
namespace LogSurgeon
namespace Grammar
variable {g : Grammar}

theorem StackOk.fitted {t : LR0} {fuel r : Nat} (hI : LR0Inv g fuel [] t) (hne : ∀ x ∈ t.sets, x.1 ≠ []) {qs : List (Option Nat)} {xs : List Nat}
    (h : StackOk t r qs xs) : ∀ q qs', qs = some q :: qs' → Fitted g xs := by
  induction h with
  | root => intro _ _ _; trivial
  | @push q qs xs s j h hlk ih =>
    intro _ _ _
    obtain ⟨_, ker0, c0, c', h1, h2⟩ := hI.goes q s j (lookup_mem hlk)
    obtain ⟨y, hy⟩ := List.exists_mem_of_ne_nil _ (hne _ (List.mem_of_getElem? h2))
    obtain ⟨it, hit, hb, -⟩ := mem_advance.mp hy
    exact ⟨h.fits hI h1 hit hb, ih q qs rfl⟩
  | null h ih => intro q qs' he; cases he

/-- The symbols on the stack, the top first, may follow one another. -/
def NamesFit (all : List (String × List String)) : List String → Prop
  | [] => True
  | y :: xs => (∀ x xs', xs = x :: xs' → Beside all x y) ∧ NamesFit all xs

theorem Fitted.names {terms : List String} {start : String} {all : List (String × List String)} (hB : BuildOk terms start all g) (hp : NoPrime all)
    {xs : List Nat} {ns : List String} (h : Fitted g xs) (hns : List.Forall₂ (fun id n => g.symbolId.lookup n = some id) xs ns) : NamesFit all ns := by
  induction hns with
  | nil => trivial
  | @cons y n xs ns hn hns ih =>
    refine ⟨?_, ih h.2⟩
    rintro x xs' rfl
    cases hns with
    | cons hm hns' =>
      obtain ⟨n', h1, h2⟩ := Follows.names hB hp hm (h.1 _ _ rfl)
      rw [hB.names.inj _ _ _ hn h1]
      exact h2

theorem lab_of_forest {ss : List Nat} {ts : List Tree} {w : List Token} (h : Forest g ss ts w) (hw : ∀ x ∈ w, Typed g x) : List.Forall₂ (Lab g) ss ts := by
  induction h with
  | nil => exact .nil
  | @tok t s ss ts w tys h1 h2 _ ih =>
    refine .cons (fun tk _ => ?_) (ih fun x hx => hw x (by simp [hx]))
    obtain ⟨tys', h3, h4⟩ := hw t (by simp)
    rw [h1] at h3
    cases h3
    exact h4 s h2
  | prod _ _ _ _ ih2 => exact .cons (fun tk e => by cases e) (ih2 fun x hx => hw x (by simp [hx]))

variable {o : Orders} {fuel : Nat} {tb : Table} {terms : List String} {start : String} {all : List (String × List String)} {sid : Nat} {t : LR0}

theorem parseLoop_room (S : Sound g o fuel tb terms start all sid t) (hp : NoPrime all) (hend : ∀ d ∈ all, "$end" ∉ d.2) (hse : start ≠ "$end") (hsp : start ≠ "$START_PRIME")
    {resets : Nat → Bool} {input : List Token} {kids : Nat}
    (hroom : ∀ ns ts used rest k, used ++ rest = input → (∀ x ∈ used, x.types ≠ some [tokenEnd]) → NamesFit all ns →
      "$START_PRIME" ∉ ns → Derivation g.decls (g.IsTok (reservedNames ++ terms)) ns.reverse ts used → Tree.counter.counters resets ts kids = some k →
      ∀ d ∈ all, d.2 ≠ [] → ∀ ns', ns = d.2.reverse ++ ns' → k + d.2.length ≤ 10000) :
    ∀ {k : Nat} {s : PState} {inp used : List Token} {q : Nat} {qs : List (Option Nat)}, ParseInv g t 0 used s → s.states = some q :: qs →
    (∀ x ∈ input, Typed g x) → used ++ remaining s inp = input → (∀ x ∈ used, x.types ≠ some [tokenEnd]) →
    Tree.counter.counters resets s.matched.reverse kids = some s.kids → g.parseLoop tb resets k s inp ≠ .error .ub := by
  have hne := lr0Sets_ne S.sets
  intro k
  induction k with
  | zero => intro s inp used q qs _ _ _ _ _ _ h; simp [parseLoop] at h
  | succ k ih =>
    intro s inp used q qs hinv hq htyped hsplit hused hcnt
    rw [parseLoop_succ]
    cases hpull : pull s.next inp with
    | none => simp
    | some x =>
      obtain ⟨tok, inp'⟩ := x
      have hrem : remaining s inp = tok :: inp' := pull_some hpull
      rw [hrem] at hsplit
      have htu : ∀ x ∈ used, Typed g x := fun x hx => htyped x (by rw [← hsplit]; simp [hx])
      obtain ⟨tys, hty, htt⟩ := htyped tok (by rw [← hsplit]; simp)
      simp only [hty]
      obtain ⟨xs, hst, hfo⟩ := hinv.stacks
      have hlab : List.Forall₂ (Lab g) xs s.matched := by
        have := lab_of_forest hfo htu
        simpa using List.rel_reverse this
      have hstep := advance_total (s := { s with next := none }) (resets := resets) S.table S.firm S.wide S.sep S.finT S.root S.rootOk S.lr0 rfl hst hlab hq
        tok hty (fun _ h => h) htt
      have hinv' : ParseInv g t 0 used { s with next := none } := ⟨xs, hst, hfo⟩
      generalize hadv : g.parseAdvance tb resets { s with next := none } tok tys = res at hstep
      cases hstep with
      | no => simp
      | accepted hx =>
        subst hx
        simp only
        cases hm : s.matched with
        | nil => rw [hm] at hlab; cases hlab
        | cons tr ms =>
          rw [hm] at hlab
          cases hlab with
          | cons hl _ =>
            cases tr with
            | leaf tk => exact absurd (hl tk rfl) S.startT
            | node p cs => simp
      | @shift ty j tys' h1 h2 h3 h4 h5 h6 =>
        simp only
        have hspec := parseAdvance_spec S.table S.root S.rootOk hinv' hty (fun _ h => h) hadv
        simp only at hspec
        have hc := parseAdvance_counter (k0 := kids) (by exact hcnt) hadv
        rcases hspec with ⟨_, hspec⟩ | ⟨h, _⟩
        · refine ih hspec rfl htyped (by simpa [remaining] using hsplit) (fun x hx => ?_) hc
          rcases List.mem_append.mp hx with hx | hx
          · exact hused x hx
          · rw [List.mem_singleton.mp hx, h1]
            intro e
            cases e
            obtain ⟨p, hpp, hmem⟩ := h4
            rw [List.mem_singleton.mp h2] at hmem
            exact S.end_free hend hse hpp hmem
        · cases h
      | @full p pr xs' h1 h2 h3 h4 h5 =>
        exfalso
        obtain ⟨d, hd, hh, hf⟩ := S.names.names.decl h1
        have hnames : ∃ ns', List.Forall₂ (fun id n => g.symbolId.lookup n = some id) xs' ns' := by
          have hx : ∀ x ∈ xs', ∃ n, g.symbolId.lookup n = some x := by
            intro x hx
            obtain ⟨p', hp', hm⟩ := stack_used S.lr0 hne hst q qs hq x (by rw [h3]; simp [hx])
            obtain ⟨i, hi⟩ := List.getElem?_of_mem hp'
            obtain ⟨d', _, _, hf'⟩ := S.names.names.decl hi
            obtain ⟨k', hk'⟩ := List.getElem?_of_mem hm
            obtain ⟨n, _, e'⟩ := forall₂_getElem?' hf' hk'
            exact ⟨n, e'⟩
          clear h3
          induction xs' with
          | nil => exact ⟨[], .nil⟩
          | cons x xs' ih =>
            obtain ⟨n, hn⟩ := hx x (by simp)
            obtain ⟨ns', h⟩ := ih fun y hy => hx y (by simp [hy])
            exact ⟨n :: ns', .cons hn h⟩
        obtain ⟨ns', hns'⟩ := hnames
        have hns : List.Forall₂ (fun id n => g.symbolId.lookup n = some id) xs (d.2.reverse ++ ns') := by
          rw [h3]
          exact List.rel_append (List.rel_reverse hf) hns'
        have hder := hfo.names S.names.names (fun x hx tys h1 ty h2 => by
          obtain ⟨tys', h3, h4⟩ := htu x hx
          rw [h1] at h3
          cases h3
          exact h4 ty h2) (List.rel_reverse hns)
        have hi1 : p ≠ 1 := by rw [← S.names.root]; exact h2
        have hlen := hf.length_eq
        have hpr : "$START_PRIME" ∉ d.2.reverse ++ ns' := by
          intro hm
          obtain ⟨x, hx, e⟩ := forall₂_mem_right hns hm
          obtain ⟨p', hp', hm⟩ := stack_used S.lr0 hne hst q qs hq x hx
          obtain ⟨i, hi⟩ := List.getElem?_of_mem hp'
          obtain ⟨d', hd', _, hf'⟩ := S.names.names.decl hi
          obtain ⟨k', hk'⟩ := List.getElem?_of_mem hm
          obtain ⟨n, hn, e'⟩ := forall₂_getElem?' hf' hk'
          cases S.names.names.inj _ _ _ e e'
          by_cases hi1 : i = 1
          · subst hi1
            have := hd'.symm.trans S.names.prime
            simp only [Option.some.injEq] at this
            rw [this] at hn
            have := List.mem_of_getElem? hn
            simp only [List.mem_singleton] at this
            exact hsp this.symm
          · exact (hp d' (S.names.decls i d' hd' hi1)).2 (List.mem_of_getElem? hn)
        have := hroom _ _ used (tok :: inp') s.kids hsplit hused ((hst.fitted S.lr0 hne q qs hq).names S.names hp hns) hpr hder hcnt d
          (S.names.decls p d hd hi1) (by intro e; rw [e] at hlen; simp at hlen; rw [hlen] at h4; simp at h4) ns' rfl
        simp only at h5
        omega
      | @reduce p pr xs' s' j qs1 h1 h2 h3 h4 h5 h6 h7 h8 h9 =>
        simp only
        have hspec := parseAdvance_spec S.table S.root S.rootOk hinv' hty (fun _ h => h) hadv
        simp only at hspec
        have hc := parseAdvance_counter (k0 := kids) (by exact hcnt) hadv
        rcases hspec with ⟨h, _⟩ | ⟨_, hspec⟩
        · rw [h7] at h; cases h
        · exact ih hspec h5 htyped (by simpa [remaining, h7] using hsplit) hused hc

/-- No undefined behaviour. -/
theorem Sound.room (S : Sound g o fuel tb terms start all sid t) (hp : NoPrime all) (hend : ∀ d ∈ all, "$end" ∉ d.2) (hse : start ≠ "$end") (hsp : start ≠ "$START_PRIME")
    {resets : Nat → Bool} {input : List Token} {kids : Nat} (hty : ∀ x ∈ input, Typed g x)
    (hroom : ∀ ns ts used rest k, used ++ rest = input → (∀ x ∈ used, x.types ≠ some [tokenEnd]) → NamesFit all ns →
      "$START_PRIME" ∉ ns → Derivation g.decls (g.IsTok (reservedNames ++ terms)) ns.reverse ts used → Tree.counter.counters resets ts kids = some k →
      ∀ d ∈ all, d.2 ≠ [] → ∀ ns', ns = d.2.reverse ++ ns' → k + d.2.length ≤ 10000) (k : Nat) :
    g.parse tb resets k kids input ≠ .error .ub := by
  unfold parse
  rw [S.root]
  exact parseLoop_room S hp hend hse hsp hroom (used := []) ⟨⟨[], .root, .nil⟩⟩ rfl hty (by simp [remaining]) (by simp) rfl

end Grammar
end LogSurgeon
