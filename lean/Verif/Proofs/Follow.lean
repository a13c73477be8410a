import Verif.Proofs.LalrTables
import Verif.Proofs.LalrNames
import Verif.Spec.Conflict
import Verif.Model.Conflict
/-
The generator's sets against the specification: FIRST, lookaheads, items.
-/
namespace LogSurgeon

/-- Only which terminals and productions there are counts. -/
theorem Empties.mono {ps ps' : List (String × List String)} (hp : ∀ d ∈ ps, d ∈ ps') {x : String} (h : Empties ps x) : Empties ps' x := by
  induction h with
  | mk h1 _ ih => exact .mk (hp _ h1) ih

theorem Begins.mono {T T' : List String} {ps ps' : List (String × List String)} (ht : ∀ a ∈ T, a ∈ T') (hp : ∀ d ∈ ps, d ∈ ps') {x a : String}
    (h : Begins T ps x a) : Begins T' ps' x a := by
  induction h with
  | term h => exact .term (ht _ h)
  | prod h1 h2 _ ih => exact .prod (hp _ h1) (fun y hy => (h2 y hy).mono hp) ih

theorem Follows.mono {T T' : List String} {ps ps' : List (String × List String)} (ht : ∀ a ∈ T, a ∈ T') (hp : ∀ d ∈ ps, d ∈ ps') {x a : String}
    (h : Follows T ps x a) : Follows T' ps' x a := by
  induction h with
  | whole => exact .whole
  | next h1 h2 h3 => exact .next (hp _ h1) (fun y hy => (h2 y hy).mono hp) (h3.mono ht hp)
  | last h1 h2 _ ih => exact .last (hp _ h1) (fun y hy => (h2 y hy).mono hp) ih

namespace Grammar
variable {g : Grammar}

/-- Names for the symbols of a grammar, under which its productions are among `ps` and its terminals among `terms`. -/
structure Named (g : Grammar) (nm : Nat → String) (terms : List String) (ps : List (String × List String)) : Prop where
  prods : ∀ p ∈ g.prods, (nm p.head, p.body.map nm) ∈ ps
  terms : ∀ a ∈ g.terminals, nm a ∈ terms

variable {nm : Nat → String} {T : List String} {ps : List (String × List String)}

/-- FIRST sets and nullable symbols say the truth. -/
structure FirstsTrue (nm : Nat → String) (T : List String) (ps : List (String × List String)) (f : Firsts) : Prop where
  first : ∀ s, ∀ a ∈ mget f.firsts s, Begins T ps (nm s) (nm a)
  null : ∀ s ∈ f.nullable, Empties ps (nm s)

theorem FirstsTrue.addNullable {f : Firsts} {s : Nat} (h : FirstsTrue nm T ps f) (hs : Empties ps (nm s)) :
    FirstsTrue nm T ps (f.addNullable s) := by
  unfold Firsts.addNullable
  split
  · exact h
  · split
    · exact h
    · refine ⟨h.first, fun x hx => ?_⟩
      rcases mem_insertNat.mp hx with rfl | hx
      · exact hs
      · exact h.null x hx

theorem FirstsTrue.ofBody {hd : Nat} {bd : List Nat} (hp : (nm hd, bd.map nm) ∈ ps) : ∀ {rest pre : List Nat} {f : Firsts},
    bd = pre ++ rest → (∀ x ∈ pre, Empties ps (nm x)) → FirstsTrue nm T ps f →
    FirstsTrue nm T ps (f.ofBody hd rest).1 ∧ ((f.ofBody hd rest).2 = true → ∀ x ∈ bd, Empties ps (nm x)) := by
  intro rest
  induction rest with
  | nil =>
    intro pre f e hpre hf
    refine ⟨hf, fun _ => ?_⟩
    rw [e, List.append_nil]; exact hpre
  | cons s rest ih =>
    intro pre f e hpre hf
    have h1 : FirstsTrue nm T ps { f with firsts := mput f.firsts hd (sUnion (mget f.firsts hd) (mget f.firsts s)) } := by
      refine ⟨fun x a ha => ?_, hf.null⟩
      simp only [mget_mput] at ha
      split at ha
      · rename_i ex
        subst ex
        rcases mem_sUnion.mp ha with ha | ha
        · exact hf.first _ a ha
        · refine Begins.prod (head := nm x) (pre := pre.map nm) (x := nm s) (post := rest.map nm) ?_ ?_ (hf.first s a ha)
          · rw [e] at hp; simpa using hp
          · intro y hy
            obtain ⟨z, hz, rfl⟩ := List.mem_map.mp hy
            exact hpre z hz
      · exact hf.first x a ha
    simp only [Firsts.ofBody]
    split
    · rename_i hn
      refine ih (pre := pre ++ [s]) (by rw [e]; simp) ?_ h1
      intro x hx
      rcases List.mem_append.mp hx with hx | hx
      · exact hpre x hx
      · rw [List.mem_singleton.mp hx]; exact hf.null s hn
    · exact ⟨h1, fun h => by cases h⟩

theorem FirstsTrue.step {f : Firsts} {p : Production} (hp : (nm p.head, p.body.map nm) ∈ ps) (hf : FirstsTrue nm T ps f) :
    FirstsTrue nm T ps (f.step p) := by
  unfold Firsts.step
  split
  · rename_i he
    refine hf.addNullable (.mk hp ?_)
    rw [List.isEmpty_iff.mp he]; simp
  · obtain ⟨h1, h2⟩ := FirstsTrue.ofBody (T := T) hp (rest := p.body) (pre := []) rfl (by simp) hf
    simp only
    split
    · rename_i ha
      have h3 := h1.addNullable (s := p.head) (.mk hp fun x hx => by
        obtain ⟨z, hz, rfl⟩ := List.mem_map.mp hx
        exact h2 ha z hz)
      exact ⟨h3.first, h3.null⟩
    · exact ⟨h1.first, h1.null⟩

theorem FirstsTrue.loop {qs : List Production} (hq : ∀ p ∈ qs, (nm p.head, p.body.map nm) ∈ ps) : ∀ {k : Nat} {f f' : Firsts},
    Firsts.loop qs k f = .ok f' → FirstsTrue nm T ps f → FirstsTrue nm T ps f' := by
  have fold : ∀ (qs : List Production) (f : Firsts), (∀ p ∈ qs, (nm p.head, p.body.map nm) ∈ ps) → FirstsTrue nm T ps f →
      FirstsTrue nm T ps (qs.foldl Firsts.step f) := by
    intro qs
    induction qs with
    | nil => intro f _ h; exact h
    | cons p qs ih => intro f hq h; exact ih _ (fun x hx => hq x (by simp [hx])) (h.step (hq p (by simp)))
  intro k
  induction k with
  | zero => intro f f' h; simp [Firsts.loop] at h
  | succ k ih =>
    intro f f' h hf
    simp only [Firsts.loop] at h
    have h1 := fold qs { f with changed := false } hq ⟨hf.first, hf.null⟩
    split at h
    · exact ih h h1
    · cases h; exact h1

theorem firstSets_true (hN : Named g nm T ps) {fuel : Nat} {f : Firsts} (h : g.firstSets fuel = .ok f) : FirstsTrue nm T ps f := by
  refine FirstsTrue.loop hN.prods h ⟨fun s a ha => ?_, by simp⟩
  unfold mget at ha
  cases hl : (g.terminals.map fun t => (t, [t])).lookup s with
  | none => simp only [hl] at ha; cases ha
  | some l =>
    simp only [hl, Option.getD_some] at ha
    have := lookup_mem hl
    obtain ⟨t, ht, e⟩ := List.mem_map.mp this
    cases e
    rw [List.mem_singleton.mp ha]; exact .term (hN.terms s ht)

/-! ### Lookaheads -/

/-- A production by name. -/
def declOf (g : Grammar) (nm : Nat → String) (p : Nat) : String × List String := (nm (g.head p), (g.body p).map nm)

theorem Named.mem (hN : Named g nm T ps) {p s : Nat} (h : p ∈ g.prodsOf s) : g.declOf nm p ∈ ps ∧ g.head p = s := by
  obtain ⟨q, hq, rfl⟩ := mem_prodsOf.mp h
  have := hN.prods q (List.mem_of_getElem? hq)
  simp only [declOf, head, body, hq, Option.map_some, Option.getD_some]
  exact ⟨this, trivial⟩

theorem Named.mem_body (hN : Named g nm T ps) {p k s : Nat} (h : (g.body p)[k]? = some s) : g.declOf nm p ∈ ps := by
  cases hq : g.prods[p]? with
  | none => simp [body, hq] at h
  | some q =>
    have := hN.prods q (List.mem_of_getElem? hq)
    simp only [declOf, head, body, hq, Option.map_some, Option.getD_some]
    exact this

theorem body_split {p k s : Nat} (h : (g.body p)[k]? = some s) : g.body p = (g.body p).take k ++ s :: (g.body p).drop (k + 1) := by
  rw [← take_drop_of_get h, List.take_append_drop]

/-- The lookaheads of a closure, for any reading of lookaheads that obeys the rules. -/
theorem closure_las (hN : Named g nm T ps) {f : Firsts} (hf : FirstsTrue nm T ps f) {Good : Nat → Nat → Prop}
    (hterm : ∀ x s, ∀ a ∈ mget f.firsts s, Follows T ps (nm x) (nm a) → Good x a)
    (hlast : ∀ x y a, (∀ b, Follows T ps (nm x) b → Follows T ps (nm y) b) → Good x a → Good y a)
    {fuel : Nat} {ker clo : List Item} (h : g.lr1Closure f fuel ker = .ok clo) (hk : ∀ it ∈ ker, Good (g.head it.prod) it.la) :
    ∀ it ∈ clo, Good (g.head it.prod) it.la := by
  obtain ⟨_, _, h3, _⟩ := closureLoop_spec h
  refine h3 (fun it => Good (g.head it.prod) it.la) (by simp) (fun it hit => hk it (by simpa using hit)) ?_
  intro it hit x hx
  obtain ⟨s, hs, hp, _, hl⟩ := mem_freshItems.mp hx
  obtain ⟨_, e⟩ := hN.mem hp
  have hmem := hN.mem_body hs
  have hsp := body_split hs
  rw [e]
  rcases mem_lookaheadsAfter.mp hl with ⟨pre, y, post, ey, hn, hy⟩ | ⟨hn, hl⟩
  · refine hterm s y _ hy (Follows.next (head := nm (g.head it.prod)) (pre := ((g.body it.prod).take it.dot).map nm) (x := nm s)
      (mid := pre.map nm) (y := nm y) (post := post.map nm) ?_ ?_ (hf.first y _ hy))
    · rw [ey] at hsp
      have : (g.body it.prod).map nm = ((g.body it.prod).take it.dot).map nm ++ nm s :: (pre.map nm ++ nm y :: post.map nm) := by
        conv_lhs => rw [hsp]
        simp
      rw [← this]; exact hmem
    · intro z hz
      obtain ⟨w, hw, rfl⟩ := List.mem_map.mp hz
      exact hf.null w (hn w hw)
  · rw [hl]
    refine hlast (g.head it.prod) s it.la (fun b hb => Follows.last (head := nm (g.head it.prod))
      (pre := ((g.body it.prod).take it.dot).map nm) (x := nm s) (post := ((g.body it.prod).drop (it.dot + 1)).map nm) ?_ ?_ hb) hit
    · have : (g.body it.prod).map nm =
          ((g.body it.prod).take it.dot).map nm ++ nm s :: ((g.body it.prod).drop (it.dot + 1)).map nm := by
        conv_lhs => rw [hsp]
        simp
      rw [← this]; exact hmem
    · intro z hz
      obtain ⟨w, hw, rfl⟩ := List.mem_map.mp hz
      exact hf.null w (hn w hw)

/-- The maps of lookaheads say the truth. -/
structure MapsTrue (g : Grammar) (nm : Nat → String) (T : List String) (ps : List (String × List String)) (m : LaMaps) : Prop where
  spont : ∀ p, ∀ a ∈ mget m.spont p, Follows T ps (nm (g.head p)) (nm a)
  prop : ∀ x, ∀ y ∈ mget m.prop x, ∀ b, Follows T ps (nm (g.head x.prod)) b → Follows T ps (nm (g.head y.prod)) b

theorem MapsTrue.note {it y : Item} {m : LaMaps} (hm : MapsTrue g nm T ps m)
    (h1 : y.la ≠ cNullSymbol → Follows T ps (nm (g.head y.prod)) (nm y.la))
    (h2 : y.la = cNullSymbol → ∀ b, Follows T ps (nm (g.head it.prod)) b → Follows T ps (nm (g.head y.prod)) b) :
    MapsTrue g nm T ps (LaMaps.note g it m y) := by
  unfold LaMaps.note
  split
  · rename_i h
    refine ⟨fun p a ha => ?_, hm.prop⟩
    simp only [mget_mput] at ha
    split at ha
    · rename_i e
      subst e
      rcases mem_insertNat.mp ha with rfl | ha
      · exact h1 h
      · exact hm.spont _ a ha
    · exact hm.spont p a ha
  · rename_i h
    split
    · refine ⟨hm.spont, fun x z hz => ?_⟩
      simp only [mget_mput] at hz
      split at hz
      · rename_i e
        subst e
        rcases mem_insertItem.mp hz with rfl | hz
        · exact h2 (by simpa using h)
        · exact hm.prop _ z hz
      · exact hm.prop x z hz
    · exact hm

theorem laMaps_true (hN : Named g nm T ps) (hnull : cNullSymbol ∉ g.terminals) {f : Firsts} (hf : FirstsTrue nm T ps f)
    (hsub : ∀ s, ∀ a ∈ mget f.firsts s, a ∈ g.terminals) {fuel : Nat} : ∀ {its : List Item} {m m' : LaMaps},
    g.laMaps f fuel its m = .ok m' → (∀ it ∈ its, it.la = cNullSymbol) → MapsTrue g nm T ps m → MapsTrue g nm T ps m' := by
  intro its
  induction its with
  | nil => intro m m' h _ hm; simp only [laMaps, Except.ok.injEq] at h; subst h; exact hm
  | cons it its ih =>
    intro m m' h hla hm
    simp only [laMaps] at h
    split at h
    · cases h
    · rename_i clo hclo
      refine ih h (fun x hx => hla x (by simp [hx])) ?_
      have hgood := closure_las hN hf (Good := fun x a => (a ≠ cNullSymbol → Follows T ps (nm x) (nm a)) ∧
        (a = cNullSymbol → ∀ b, Follows T ps (nm (g.head it.prod)) b → Follows T ps (nm x) b))
        (fun x s a ha hF => ⟨fun _ => hF, fun e => absurd (hsub s a ha) (e ▸ hnull)⟩)
        (fun x y a hxy hg => ⟨fun e => hxy _ (hg.1 e), fun e b hb => hxy _ (hg.2 e b hb)⟩) hclo
        (by
          intro x hx
          rw [List.mem_singleton.mp hx]
          exact ⟨fun h => absurd (hla it (by simp)) h, fun _ _ h => h⟩)
      clear hclo h
      generalize hc : clo = c at hgood ⊢
      clear hc
      induction c generalizing m with
      | nil => exact hm
      | cons y c ihc =>
        simp only [List.foldl_cons]
        exact ihc (hm.note (hgood y (by simp)).1 (hgood y (by simp)).2) (fun x hx => hgood x (by simp [hx]))

/-- The lookaheads say the truth. -/
def LasTrue (g : Grammar) (nm : Nat → String) (T : List String) (ps : List (String × List String)) (l : List (Item × List Nat)) : Prop :=
  ∀ i, ∀ a ∈ mget l i, Follows T ps (nm (g.head i.prod)) (nm a)

theorem initLas_true {m : LaMaps} (hm : MapsTrue g nm T ps m) (hroot : nm (g.head g.root) = "$START_PRIME") (hend : nm tokenEnd = "$end") :
    ∀ {its : List Item} {l : List (Item × List Nat)}, LasTrue g nm T ps l → LasTrue g nm T ps (its.foldl (initLas g m) l) := by
  intro its
  induction its with
  | nil => intro l h; exact h
  | cons it its ih =>
    intro l h
    refine ih ?_
    intro i a ha
    unfold initLas at ha
    simp only [mget_mput] at ha
    have key : ∀ a ∈ sUnion (mget l it) (mget m.spont it.prod), Follows T ps (nm (g.head it.prod)) (nm a) := by
      intro a ha
      rcases mem_sUnion.mp ha with ha | ha
      · exact h it a ha
      · exact hm.spont _ a ha
    split at ha
    · rename_i e
      subst e
      split at ha
      · rename_i hr
        rcases mem_insertNat.mp ha with rfl | ha
        · rw [hr, hroot, hend]; exact .whole
        · exact key a ha
      · exact key a ha
    · exact h i a ha

theorem las_loop_true {m : LaMaps} (hm : MapsTrue g nm T ps m) : ∀ {k : Nat} {l l' : Las}, Las.loop m k l = .ok l' →
    LasTrue g nm T ps l.las → LasTrue g nm T ps l'.las := by
  have one : ∀ (x : Item) (ys : List Item), (∀ y ∈ ys, y ∈ mget m.prop x) → ∀ l : Las, LasTrue g nm T ps l.las →
      LasTrue g nm T ps (ys.foldl (Las.propagate x) l).las := by
    intro x ys
    induction ys with
    | nil => intro _ l h; exact h
    | cons y ys ih =>
      intro hy l h
      refine ih (fun z hz => hy z (by simp [hz])) _ ?_
      intro i a ha
      simp only [Las.propagate, mget_mput] at ha
      split at ha
      · rename_i e
        subst e
        rcases mem_sUnion.mp ha with ha | ha
        · exact h _ a ha
        · exact hm.prop x _ (hy _ (by simp)) _ (h x a ha)
      · exact h i a ha
  have round : ∀ (xs : List Item) (l : Las), LasTrue g nm T ps l.las →
      LasTrue g nm T ps (xs.foldl (fun l x => (mget m.prop x).foldl (Las.propagate x) l) l).las := by
    intro xs
    induction xs with
    | nil => intro l h; exact h
    | cons x xs ih => intro l h; exact ih _ (one x _ (fun _ h => h) l h)
  intro k
  induction k with
  | zero => intro l l' h; simp [Las.loop] at h
  | succ k ih =>
    intro l l' h hl
    simp only [Las.loop] at h
    have h1 : LasTrue g nm T ps (Las.round m { l with changed := false }).las := round _ { l with changed := false } hl
    split at h
    · exact ih h h1
    · cases h; exact h1

/-! ### Items -/

theorem underWay_le {start : String} {γ d k} (h : UnderWay ps start γ d k) : k ≤ d.2.length := by
  induction h with
  | start => omega
  | inner _ _ _ _ => omega
  | step _ h1 _ =>
    have := (List.getElem?_eq_some_iff.mp h1).1
    omega

theorem closure_underWay (hN : Named g nm T ps) {start : String} {γ : List String} {las : Item → List Nat} {fuel : Nat} {ker clo : List Item}
    (h : g.closureLoop (fun it => g.freshItems it (las it)) fuel ker.reverse [] = .ok clo)
    (hk : ∀ it ∈ ker, UnderWay ps start γ (g.declOf nm it.prod) it.dot) : ∀ it ∈ clo, UnderWay ps start γ (g.declOf nm it.prod) it.dot := by
  obtain ⟨_, _, h3, _⟩ := closureLoop_spec h
  refine h3 (fun it => UnderWay ps start γ (g.declOf nm it.prod) it.dot) (by simp) (fun it hit => hk it (by simpa using hit)) ?_
  intro it hit x hx
  obtain ⟨s, hs, hp, h0, _⟩ := mem_freshItems.mp hx
  obtain ⟨hm, e⟩ := hN.mem hp
  rw [h0]
  have hm' : (nm s, (g.body x.prod).map nm) ∈ ps := by rw [← e]; exact hm
  have : g.declOf nm x.prod = (nm s, (g.body x.prod).map nm) := by rw [declOf, e]
  rw [this]
  exact .inner hit (by simp [declOf, hs]) hm'

theorem lr0_underWay (hN : Named g nm T ps) {start : String} (hroot : g.declOf nm g.root = ("$START_PRIME", [start])) {fuel : Nat} {t : LR0}
    (h : LR0Inv g fuel [] t) : ∀ j, ∃ γ, ∀ it ∈ t.kernel j, UnderWay ps start γ (g.declOf nm it.prod) it.dot := by
  intro j
  induction j using Nat.strongRecOn with
  | ind j ih =>
    by_cases hj : j < t.sets.length
    · rcases Nat.eq_zero_or_pos j with rfl | hpos
      · obtain ⟨c, hc⟩ := h.zero
        refine ⟨[], fun it hit => ?_⟩
        rw [LR0.kernel_eq hc, List.mem_singleton] at hit
        subst hit
        rw [hroot]; exact .start
      · obtain ⟨i, s, hi, hgo⟩ := h.reach j hpos hj
        obtain ⟨γ, hγ⟩ := ih i hi
        obtain ⟨_, ker, c, c', h1, h2⟩ := h.goes i s j hgo
        have hclo := h.clo i ker c h1 (by simp)
        have hu := closure_underWay hN hclo (by rw [LR0.kernel_eq h1] at hγ; exact hγ)
        refine ⟨γ ++ [nm s], fun it hit => ?_⟩
        rw [LR0.kernel_eq h2] at hit
        obtain ⟨y, hy, hb, rfl⟩ := mem_advance.mp hit
        exact .step (hu y hy) (by simp [declOf, hb])
    · refine ⟨[], fun it hit => ?_⟩
      obtain ⟨c, hc⟩ := LR0.kernel_of_mem hit
      rw [List.getElem?_eq_none (by omega)] at hc
      cases hc

end Grammar
end LogSurgeon
