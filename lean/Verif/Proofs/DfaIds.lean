import Verif.Proofs.Subset
import Verif.Proofs.RegexLang
/- The ids reported by the DFA in terms of the rules. -/
namespace LogSurgeon

theorem acceptsAlone_iff {rules : List Rule} {n : Nfa} (h : buildNfa rules = some n) {r : Rule} (hr : r ∈ rules)
    (s : List Nat) : r.AcceptsAlone s ↔ ∃ w, ruleLang r.regex w ∧ bytesOf w = s := by
  have hex : ∃ m, buildNfa [r] = some m := by
    suffices hsuf : ∀ (rules : List Rule) (n n' : Nfa), addRules rules n = some n' → r ∈ rules →
        ∃ a b, r.addToNfa a = some b by
      obtain ⟨a, b, hab⟩ := hsuf rules _ _ h hr
      -- failure of the construction does not depend on the NFA
      have tot : r.regex.NoInteger := by
        suffices hh : ∀ (q : Regex) n e m, q.addToNfa n e = some m → q.NoInteger by
          simp only [Rule.addToNfa, withNegTags] at hab
          split at hab
          · exact hh _ _ _ _ hab
          · exact hh _ _ _ _ hab
        have wr : ∀ (q : Regex), (∀ n e m, q.addToNfa n e = some m → q.NoInteger) →
            ∀ n e m, withNegTags q.negTags q.addToNfa n e = some m → q.NoInteger := by
          intro q hq n e m hm
          simp only [withNegTags] at hm
          split at hm
          · exact hq _ _ _ hm
          · exact hq _ _ _ hm
        intro q
        induction q with
        | empty => intros; trivial
        | literal => intros; trivial
        | integer => intro n e m h; cases h
        | group => intros; trivial
        | or neg l r ihl ihr =>
          intro n e m h
          simp only [Regex.addToNfa, Option.bind_eq_some_iff] at h
          obtain ⟨a, h1, h2⟩ := h
          exact ⟨wr _ ihl _ _ _ h1, wr _ ihr _ _ _ h2⟩
        | cat neg l r ihl ihr =>
          intro n e m h
          simp only [Regex.addToNfa, Option.bind_eq_some_iff, Option.map_eq_some_iff] at h
          obtain ⟨a, h1, b, h2, _⟩ := h
          exact ⟨wr _ ihl _ _ _ h1, wr _ ihr _ _ _ h2⟩
        | mult neg o mn mx ih =>
          intro n e m h
          simp only [Regex.addToNfa, addMult, Option.bind_eq_some_iff, Option.map_eq_some_iff] at h
          obtain ⟨a, h1, b, h2, _⟩ := h
          by_cases h0 : mn = 0
          · subst h0
            split at h2
            · exact wr o ih _ _ _ h2
            · split at h2
              · simp only [Option.bind_eq_some_iff] at h2
                obtain ⟨c, _, d, _, h3⟩ := h2
                exact wr o ih _ _ _ h3
              · omega
          · rw [if_neg h0] at h1
            simp only [Option.bind_eq_some_iff] at h1
            obtain ⟨c, _, h3⟩ := h1
            exact wr o ih _ _ _ h3
        | capture neg i t ih =>
          intro n e m h
          simp only [Regex.addToNfa, Option.map_eq_some_iff] at h
          obtain ⟨a, h1, _⟩ := h
          exact wr i ih _ _ _ h1
      exact buildNfa_total [r] (by simpa using tot)
    intro rules
    induction rules with
    | nil => intro n n' _ h; cases h
    | cons x xs ih =>
      intro n n' h hm
      simp only [addRules, Option.bind_eq_some_iff] at h
      obtain ⟨a, h1, h2⟩ := h
      cases hm with
      | head => exact ⟨_, _, h1⟩
      | tail _ hm => exact ih _ _ h2 hm
  constructor
  · rintro ⟨m, hm, ha⟩
    obtain ⟨r', hr', _, h⟩ := (accepts_iff hm _ _).mp ha
    simp only [List.mem_singleton] at hr'
    subst hr'; exact h
  · intro h
    obtain ⟨m, hm⟩ := hex
    exact ⟨m, hm, (accepts_iff hm _ _).mpr ⟨r, by simp, rfl, h⟩⟩

/-- Variable id of an NFA state. -/
def Nfa.varOf (n : Nfa) (q : Nat) : Nat := ((n.states[q]?).map (·.varId)).getD 0

theorem acceptIds_eq {n : Nfa} {rules : List Rule} {ends : List Nat} (h : RulesInv n rules ends) (S : StateSet) :
    acceptIds n S = (S.filter (fun q => decide (q ∈ ends))).map n.varOf := by
  unfold acceptIds
  induction S with
  | nil => rfl
  | cons q S ih =>
    simp only [List.filterMap_cons, List.filter_cons]
    by_cases hq : q ∈ ends
    · obtain ⟨i, hi, rfl⟩ := List.mem_iff_getElem.mp hq
      rw [h.len] at hi
      obtain ⟨s, h1, h2, h3⟩ := h.acc i hi
      simp only [h1, h2, if_true, hq, decide_true, List.map_cons, ih]
      simp [Nfa.varOf, h1]
    · simp only [hq, decide_false]
      cases hs : n.states[q]? with
      | none => simpa using ih
      | some s =>
        have : s.accepting = false := by
          cases ha : s.accepting with
          | false => rfl
          | true => exact absurd (h.accOnly q s hs ha) hq
        simpa [this] using ih

theorem filter_zip {P : Rule → Prop} [DecidablePred P] {S : List Nat} {f : Nat → Nat} :
    ∀ (ends : List Nat) (rules : List Rule), ends.length = rules.length →
    (∀ (i : Nat) (h : i < rules.length) (h' : i < ends.length), (ends[i] ∈ S ↔ P rules[i]) ∧ f ends[i] = rules[i].id) →
    (ends.filter (fun q => decide (q ∈ S))).map f = (rules.filter (fun r => decide (P r))).map Rule.id := by
  intro ends
  induction ends with
  | nil => intro rules hl _; cases rules with
    | nil => rfl
    | cons => simp at hl
  | cons e es ih =>
    intro rules hl h
    cases rules with
    | nil => simp at hl
    | cons r rs =>
      have h0 := h 0 (by simp) (by simp)
      simp only [List.getElem_cons_zero] at h0
      have ih' := ih rs (by simpa using hl) (fun i h1 h2 => by
        have := h (i + 1) (by simpa using h1) (by simpa using h2)
        simpa using this)
      simp only [List.filter_cons]
      by_cases hp : P r
      · have := h0.1.mpr hp
        simp [hp, this, h0.2, ih']
      · have : e ∉ S := fun hx => hp (h0.1.mp hx)
        simp [hp, this, ih']

theorem sorted_nodup {addr : Nat → Nat} {S : List Nat} (h : SortedBy addr S) : S.Nodup := by
  refine List.Pairwise.imp ?_ h
  rintro a b hab rfl
  omega

open Classical in
/-- The ids of the DFA, for any address order and for creation order. -/
theorem dfa_ids_spec {rules : List Rule} {n : Nfa} (hbuild : buildNfa rules = some n) {addr : Nat → Nat}
    (hinj : ∀ a b, addr a = addr b → a = b) :
    ∃ d, nfaToDfa n addr = some d ∧
      (∀ w q, AllBytes w → d.run 0 w = some q → q < d.states.length) ∧
      (∀ w, AllBytes w → (d.run 0 w = none ↔ ∀ y, ¬ n.ReachBy w y)) ∧
      (∀ w, AllBytes w → (d.idsOn w).Perm ((rules.filter (fun r => r.AcceptsAlone w)).map Rule.id)) ∧
      ((∀ a b, a < b → addr a < addr b) → ∀ w, AllBytes w →
        d.idsOn w = (rules.filter (fun r => r.AcceptsAlone w)).map Rule.id) := by
  obtain ⟨ends, hI⟩ := buildNfa_inv hbuild
  obtain ⟨d, hd, hspec⟩ := dfa_run_spec hI.wf (by rw [hI.root]; exact hI.pos) hinj
  have hzip : ∀ w, ∀ S : List Nat, (∀ y, y ∈ S ↔ n.ReachBy w y) →
      (ends.filter (fun q => decide (q ∈ S))).map n.varOf =
        (rules.filter (fun r => decide (r.AcceptsAlone w))).map Rule.id := by
    intro w S hS
    apply filter_zip
    · exact hI.len
    · intro i hi hi'
      constructor
      · rw [hS, acceptsAlone_iff hbuild (List.getElem_mem hi)]
        constructor
        · rintro ⟨lw, hp, hb⟩
          exact ⟨lw, (hI.path_iff i hi lw).mp hp, hb⟩
        · rintro ⟨lw, hl, hb⟩
          exact ⟨lw, (hI.path_iff i hi lw).mpr hl, hb⟩
      · obtain ⟨s, h1, _, h3⟩ := hI.acc i hi
        simp [Nfa.varOf, h1, h3]
  have hnone : ∀ w, (∀ y, ¬ n.ReachBy w y) → (rules.filter (fun r => decide (r.AcceptsAlone w))) = [] := by
    intro w h
    have := hzip w [] (fun y => by simp [h y])
    simp only [List.not_mem_nil, decide_false] at this
    rw [List.filter_eq_nil_iff.mpr (by simp)] at this
    exact (List.map_eq_nil_iff.mp this.symm)
  refine ⟨d, hd, ?_, ?_, ?_, ?_⟩
  · intro w q hw hq
    rcases hspec w hw with ⟨q', S, h1, h2, _⟩ | ⟨h1, _⟩
    · rw [hq] at h1; cases h1; exact h2
    · rw [hq] at h1; cases h1
  · intro w hw
    rcases hspec w hw with ⟨q', S, h1, _, _, _, h2, h3⟩ | ⟨h1, h2⟩
    · rw [h1]
      refine ⟨(fun h => by cases h), fun h => ?_⟩
      obtain ⟨y, hy⟩ := List.exists_mem_of_ne_nil S h2
      exact absurd ((h3 y).mp hy) (h y)
    · exact ⟨fun _ => h2, fun _ => h1⟩
  · intro w hw
    rcases hspec w hw with ⟨q', S, h1, _, h2, h3, _, h4⟩ | ⟨h1, h2⟩
    · simp only [Dfa.idsOn, h1, Option.map_some, Option.getD_some, h2]
      rw [acceptIds_eq hI, ← hzip w S h4]
      apply List.Perm.map
      refine (List.perm_ext_iff_of_nodup ((sorted_nodup h3).filter _) ?_).mpr ?_
      · exact (List.Pairwise.imp (by intro a b h; omega) hI.sorted : ends.Nodup).filter _
      · intro a; simp [and_comm]
    · simp [Dfa.idsOn, h1, hnone w h2]
  · intro hmono w hw
    rcases hspec w hw with ⟨q', S, h1, _, h2, h3, _, h4⟩ | ⟨h1, h2⟩
    · simp only [Dfa.idsOn, h1, Option.map_some, Option.getD_some, h2]
      rw [acceptIds_eq hI, ← hzip w S h4]
      congr 1
      refine sortedBy_ext (addr := addr) ?_ ?_ ?_
      · exact List.Pairwise.filter _ h3
      · exact List.Pairwise.filter _ (hI.sorted.imp fun h => hmono _ _ h)
      · intro a; simp [and_comm]
    · simp [Dfa.idsOn, h1, hnone w h2]

end LogSurgeon
