import Verif.Proofs.NfaNear
import Verif.Proofs.DfaIds
/-
Rules that begin with a single character class: what the automaton can read before it dies.
-/
namespace LogSurgeon

/-- Possible first characters of a rule of the form `x` or `x r`. -/
def Regex.firstOf : Regex → Nat → Bool
  | .literal _ c => fun d => d == c
  | .cat _ f _ => f.possible
  | _ => fun _ => false

/-- Possible characters of the rest. -/
def Regex.restOf : Regex → Nat → Bool
  | .cat _ _ r => r.possible
  | _ => fun _ => false

/-- A character class node without negated tags. -/
def Regex.IsChar : Regex → Prop
  | .literal n _ => n = []
  | .group n _ _ _ => n = []
  | _ => False

/-- The rule is a literal, or a character (class) followed by something. -/
def Regex.Headed : Regex → Prop
  | .literal n _ => n = []
  | .cat n f r => n = [] ∧ f.IsChar ∧ f.ClassesOk ∧ r.ClassesOk
  | _ => False

/-- The automaton consists of one region per rule, reachable through the root only. -/
structure Regions (n : Nfa) (rules : List Rule) (own : Nat → Rule) : Prop where
  mem : ∀ i, 0 < i → i < n.states.length → own i ∈ rules
  edge : ∀ p l q, n.Edge p l q → 0 < q ∧
    (p = 0 → ∃ c, l = .byte c ∧ (own q).regex.firstOf c = true) ∧
    (p ≠ 0 → own p = own q ∧ ∀ c, l = .byte c → (own q).regex.restOf c = true)
  first : ∀ r ∈ rules, ∀ c, c < cSizeOfByte → r.regex.firstOf c = true → ∃ q, n.Edge 0 (.byte c) q

theorem char_edges {f : Regex} (h : f.IsChar) (hc : f.ClassesOk) {n n' : Nfa} {e : Nat}
    (hf : withNegTags f.negTags f.addToNfa n e = some n') (hr : n.root < n.states.length) :
    n.Ext n' ∧ n'.states.length = n.states.length ∧ n'.root = n.root ∧
    ∀ p l q, n'.Edge p l q ↔ n.Edge p l q ∨
      (p = n.root ∧ q = e ∧ ∃ c, l = .byte c ∧ c < cSizeOfByte ∧ f.possible c = true) := by
  have conv : ∀ rs : List Range, (∀ c, c < cSizeOfByte → (InRanges rs c ↔ f.possible c = true)) →
      f.addToNfa n e = some (rs.foldl (fun n r => n.addInterval n.root r e) n) → f.addToNfa n e = some n' →
      n.Ext n' ∧ n'.states.length = n.states.length ∧ n'.root = n.root ∧
      ∀ p l q, n'.Edge p l q ↔ n.Edge p l q ∨
        (p = n.root ∧ q = e ∧ ∃ c, l = .byte c ∧ c < cSizeOfByte ∧ f.possible c = true) := by
    intro rs hrs h1 h2
    rw [h1] at h2; cases h2
    obtain ⟨b1, b2, b3, b4⟩ := Nfa.addIntervals_edges rs n (e := e) hr
    refine ⟨b1, b2, b3, fun p l q => ?_⟩
    rw [b4]
    constructor
    · rintro (h | ⟨h1, h2, c, h3, h4, h5⟩)
      · exact .inl h
      · exact .inr ⟨h1, h2, c, h3, h4, (hrs c h4).mp h5⟩
    · rintro (h | ⟨h1, h2, c, h3, h4, h5⟩)
      · exact .inl h
      · exact .inr ⟨h1, h2, c, h3, h4, (hrs c h4).mpr h5⟩
  cases f with
  | literal m a =>
    have hm : m = [] := h
    subst hm
    have hf : (Regex.literal [] a).addToNfa n e = some n' := hf
    refine conv [(a, a)] ?_ rfl hf
    intro c _
    simp [InRanges, Regex.possible]; omega
  | group m w ng rs =>
    have hm : m = [] := h
    subst hm
    have hf : (Regex.group [] w ng rs).addToNfa n e = some n' := hf
    refine conv (groupRanges ng rs) ?_ rfl hf
    intro c hcb
    rw [inRanges_groupRanges ng rs c (by simp [cSizeOfByte, cUnicodeMax] at *; omega) hc]
    cases ng with
    | false => simp [ClassMatches, Regex.possible, InRanges]
    | true => simp [ClassMatches, Regex.possible, InRanges]
  | _ => exact h.elim

theorem regions_step {n n' : Nfa} {rules : List Rule} {own : Nat → Rule} {r : Rule}
    (hI : Regions n rules own) (hwf : n.WF) (hroot : n.root = 0) (hpos : 0 < n.states.length) (hh : r.regex.Headed)
    (h : r.addToNfa n = some n') :
    ∃ own', Regions n' (rules ++ [r]) own' := by
  let s : NState := { accepting := true, varId := r.id }
  let n1 : Nfa := (n.pushState s).1
  have h : withNegTags r.regex.negTags r.regex.addToNfa n1 n.states.length = some n' := h
  have hl1 : n1.states.length = n.states.length + 1 := Nfa.length_pushState
  have hroot1 : n1.root = 0 := hroot
  have e1 : ∀ p l q, n1.Edge p l q ↔ n.Edge p l q := by
    intro p l q
    rw [Nfa.edge_pushState]
    simp [s, NState.out]
  -- description of the new edges
  suffices hs : (∀ p l q, n'.Edge p l q → n.Edge p l q ∨
      (p = 0 ∧ n.states.length ≤ q ∧ ∃ c, l = .byte c ∧ r.regex.firstOf c = true) ∨
      (n.states.length ≤ p ∧ n.states.length ≤ q ∧ ∀ c, l = .byte c → r.regex.restOf c = true)) ∧
      (∀ p l q, n.Edge p l q → n'.Edge p l q) ∧
      (∀ c, c < cSizeOfByte → r.regex.firstOf c = true → ∃ q, n'.Edge 0 (.byte c) q) by
    obtain ⟨hs1, hs2, hs3⟩ := hs
    refine ⟨fun i => if i < n.states.length then own i else r, ?_, ?_, ?_⟩
    · intro i hi _
      by_cases hlt : i < n.states.length
      · simp only [hlt, if_true]; exact List.mem_append_left _ (hI.mem i hi hlt)
      · simp [hlt]
    · intro p l q hp
      rcases hs1 p l q hp with hp | ⟨rfl, hq, c, rfl, hc⟩ | ⟨hp, hq, hB⟩
      · have hplt := hp.lt
        have hqlt := hwf _ _ _ hp
        simp only [hplt, hqlt, if_true]
        exact hI.edge p l q hp
      · have : ¬ q < n.states.length := by omega
        simp only [this, if_false]
        exact ⟨by omega, fun _ => ⟨c, rfl, hc⟩, fun h => absurd rfl h⟩
      · have h1 : ¬ q < n.states.length := by omega
        have h2 : ¬ p < n.states.length := by omega
        simp only [h1, h2, if_false]
        exact ⟨by omega, fun h => absurd h (by omega), fun _ => ⟨trivial, hB⟩⟩
    · intro r' hr' c hc hf
      rcases List.mem_append.mp hr' with hr' | hr'
      · obtain ⟨q, hq⟩ := hI.first r' hr' c hc hf
        exact ⟨q, hs2 _ _ _ hq⟩
      · simp at hr'; subst hr'
        exact hs3 c hc hf
  cases hre : r.regex with
  | literal m a =>
    rw [hre] at h hh
    obtain ⟨a1, a2, a3, a4⟩ := char_edges (f := .literal m a) hh trivial h (by rw [hroot1, hl1]; omega)
    refine ⟨fun p l q hp => ?_, fun p l q hp => (a4 p l q).mpr (.inl ((e1 p l q).mpr hp)), fun c hc hf => ?_⟩
    · rcases (a4 p l q).mp hp with hp | ⟨h1, h2, c, h3, _, h5⟩
      · exact .inl ((e1 p l q).mp hp)
      · exact .inr (.inl ⟨by rw [h1, hroot1], by omega, c, h3, h5⟩)
    · exact ⟨_, (a4 0 (.byte c) _).mpr (.inr ⟨hroot1.symm, rfl, c, rfl, hc, hf⟩)⟩
  | cat m f g =>
    rw [hre] at h hh
    obtain ⟨rfl, hf, hfc, hgc⟩ := hh
    have h : (withNegTags f.negTags f.addToNfa n1.newState.1 n1.newState.2).bind (fun n2 =>
      (withNegTags g.negTags g.addToNfa (n2.setRoot n1.newState.2) n.states.length).map fun n3 => n3.setRoot n1.root) = some n' := h
    simp only [Option.bind_eq_some_iff, Option.map_eq_some_iff] at h
    obtain ⟨n2, h2, n3, h3, rfl⟩ := h
    have hl2 : n1.newState.1.states.length = n.states.length + 2 := by
      rw [Nfa.newState_len, hl1]
    have hi : n1.newState.2 = n.states.length + 1 := hl1
    have hr2 : n1.newState.1.root = 0 := hroot1
    obtain ⟨a1, a2, a3, a4⟩ := char_edges hf hfc h2 (by rw [hr2]; omega)
    obtain ⟨_, b2⟩ := nearF_withNegTags (nearF_regex g hgc) g.negTags _ _ _ h3
      (by show n1.newState.2 < n2.states.length; omega) (by show _ < n2.states.length; omega)
    have hext : n2.Ext n3 := by
      obtain ⟨_, A⟩ := adds_wrap (adds_regex g) g.negTags _ _ _ h3 (by
        intro p l q hp
        show q < n2.states.length
        rcases (a4 p l q).mp hp with hp | ⟨_, h2, _⟩
        · rcases Nfa.edge_pushState.mp hp with hp | ⟨_, hp⟩
          · have := hwf _ _ _ ((e1 p l q).mp hp); omega
          · simp [NState.out] at hp
        · omega)
        (by show n1.newState.2 < n2.states.length; omega) (by show _ < n2.states.length; omega)
      exact A.ext.ofSetRoot
    have e2 : ∀ p l q, n1.newState.1.Edge p l q ↔ n.Edge p l q := by
      intro p l q
      rw [show n1.newState.1 = (n1.pushState {}).1 from rfl, Nfa.edge_pushState, e1]
      simp [NState.out]
    refine ⟨fun p l q hp => ?_, fun p l q hp => hext.edge _ _ _ ((a4 p l q).mpr (.inl ((e2 p l q).mpr hp))), fun c hc hf => ?_⟩
    · have hp : n3.Edge p l q := hp
      rcases b2.2 p l q hp with hp | ⟨hp1, hp2, hp3⟩
      · rcases (a4 p l q).mp hp with hp | ⟨h1, h2, c, h3, _, h5⟩
        · exact .inl ((e2 p l q).mp hp)
        · exact .inr (.inl ⟨by rw [h1, hr2], by omega, c, h3, h5⟩)
      · refine .inr (.inr ⟨?_, ?_, hp3⟩)
        · rcases hp1 with hp1 | hp1 | hp1
          · rw [hp1]; show n.states.length ≤ n1.newState.2; omega
          · omega
          · have : n2.states.length ≤ p := hp1
            omega
        · rcases hp2 with hp2 | hp2
          · omega
          · have : n2.states.length ≤ q := hp2
            omega
    · exact ⟨_, hext.edge _ _ _ ((a4 0 (.byte c) _).mpr (.inr ⟨hr2.symm, rfl, c, rfl, hc, hf⟩))⟩
  | _ => rw [hre] at hh; exact hh.elim

theorem addRules_regions (rules : List Rule) : ∀ {n n' : Nfa} {done : List Rule} {ends : List Nat} {own : Nat → Rule},
    (∀ r ∈ rules, r.regex.Headed) → RulesInv n done ends → Regions n done own → addRules rules n = some n' →
    ∃ own', Regions n' (done ++ rules) own' := by
  induction rules with
  | nil =>
    intro n n' done ends own _ _ hR h
    simp only [addRules, Option.some.injEq] at h
    subst h; exact ⟨own, by simpa using hR⟩
  | cons r rs ih =>
    intro n n' done ends own hH hI hR h
    simp only [addRules, Option.bind_eq_some_iff] at h
    obtain ⟨m, hm, h⟩ := h
    obtain ⟨own', hR'⟩ := regions_step hR hI.wf hI.root hI.pos (hH r (.head _)) hm
    obtain ⟨own'', hR''⟩ := ih (fun r hr => hH r (.tail _ hr)) (rulesInv_step hI hm) hR' h
    exact ⟨own'', by simpa using hR''⟩

theorem buildNfa_regions {rules : List Rule} {n : Nfa} (hH : ∀ r ∈ rules, r.regex.Headed)
    (h : buildNfa rules = some n) : ∃ own, Regions n rules own := by
  have : Regions { states := [{}], root := 0 } [] (fun _ => ⟨0, .empty []⟩) := by
    refine ⟨fun i h1 h2 => by simp at h2; omega, ?_, by simp⟩
    rintro p l q ⟨s, hs, hlq⟩
    cases p with
    | zero => simp at hs; subst hs; simp [NState.out] at hlq
    | succ p => simp at hs
  simpa using addRules_regions rules hH rulesInv_init this h

theorem Regions.path {n : Nfa} {rules : List Rule} {own : Nat → Rule} (h : Regions n rules own) {p w q}
    (hp : n.Path p w q) : 0 < p → own p = own q ∧ ∀ c ∈ bytesOf w, (own p).regex.restOf c = true := by
  induction hp with
  | nil => intro _; exact ⟨rfl, by simp [bytesOf]⟩
  | @cons p l q w r he _ ih =>
    intro hpos
    obtain ⟨h1, _, h3⟩ := h.edge _ _ _ he
    obtain ⟨h4, h5⟩ := h3 (by omega)
    obtain ⟨h6, h7⟩ := ih h1
    refine ⟨by rw [h4, h6], ?_⟩
    intro c hc
    cases l with
    | byte d =>
      simp only [bytesOf, List.mem_cons] at hc
      rcases hc with rfl | hc
      · rw [h4]; exact h5 _ rfl
      · rw [h4]; exact h7 c hc
    | _ => rw [h4]; exact h7 c hc

/-- What can be read from the root. -/
theorem Regions.root_path {n : Nfa} {rules : List Rule} {own : Nat → Rule} (h : Regions n rules own)
    (hwf : n.WF) {w q} (hp : n.Path 0 w q) :
    (w = [] ∧ q = 0) ∨ ∃ r ∈ rules, ∃ c v, bytesOf w = c :: v ∧ r.regex.firstOf c = true ∧
      ∀ d ∈ v, r.regex.restOf d = true := by
  cases hp with
  | nil => exact .inl ⟨rfl, rfl⟩
  | @cons _ l q' w r he hp =>
    obtain ⟨h1, h2, _⟩ := h.edge _ _ _ he
    obtain ⟨c, rfl, hc⟩ := h2 rfl
    obtain ⟨_, h4⟩ := h.path hp h1
    exact .inr ⟨own q', h.mem _ h1 (hwf _ _ _ he), c, bytesOf w, rfl, hc, h4⟩

end LogSurgeon
