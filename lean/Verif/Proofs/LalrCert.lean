import Verif.Proofs.LalrTerm
import Verif.Proofs.LalrTables
import Mathlib.Tactic.Tauto
/-
Checking that a grammar is free of conflicts: a certificate on numbers (item sets that contain all reachable ones, FIRST
and FOLLOW sets that are large enough), its check, and what follows from it for every grammar that is mapped into it.
-/
namespace LogSurgeon
namespace Grammar

/-- Sets of numbers are the bits of a number. -/
def bsub (a b : Nat) : Bool := a &&& b == a

theorem bsub_spec {a b i : Nat} (h : bsub a b = true) (ha : a.testBit i = true) : b.testBit i = true := by
  have e : a &&& b = a := by simpa [bsub] using h
  rw [← e, Nat.testBit_and] at ha
  simp at ha; exact ha.2

theorem and_zero {a b i : Nat} (h : (a &&& b == 0) = true) (ha : a.testBit i = true) : b.testBit i = false := by
  have e : a &&& b = 0 := by simpa using h
  have : (a &&& b).testBit i = false := by rw [e]; simp
  rw [Nat.testBit_and, ha] at this
  simpa using this

structure Cert where
  prods : List (Nat × List Nat)
  terms : Nat
  starts : List (List Nat)
  null : Nat
  first : List Nat
  follow : List Nat
  beside : List Nat
  states : List (List (Nat × Nat) × List (Nat × Nat))
  fin : Nat

namespace Cert
variable (c : Cert)

def fi (s : Nat) : Nat := c.first.getD s 0
def fo (s : Nat) : Nat := c.follow.getD s 0
def be (s : Nat) : Nat := c.beside.getD s 0
def hd (p : Nat) : Nat := (c.prods[p]?.map (·.1)).getD 0
def bd (p : Nat) : List Nat := (c.prods[p]?.map (·.2)).getD []

def firstOk (h : Nat) : List Nat → Bool
  | [] => c.null.testBit h
  | s :: ss => bsub (c.fi s) (c.fi h) && (!c.null.testBit s || firstOk h ss)

def afterOk (h x : Nat) : List Nat → Bool
  | [] => bsub (c.fo h) (c.fo x)
  | s :: ss => bsub (c.fi s) (c.fo x) && (!c.null.testBit s || afterOk h x ss)

def followOk (h : Nat) : List Nat → Bool
  | [] => true
  | s :: ss => (c.terms.testBit s || c.afterOk h s ss) && followOk h ss

def checkSets : Bool :=
  (c.prods.zipIdx.all fun x => (c.starts.getD x.1.1 []).contains x.2 && !c.terms.testBit x.1.1) &&
  (c.prods.all fun x => c.firstOk x.1 x.2 && c.followOk x.1 x.2) &&
  ((List.range c.first.length).all fun s => !c.terms.testBit s || (c.fi s).testBit s) &&
  (c.terms < 2 ^ c.first.length) &&
  (c.fo (c.hd 0)).testBit c.fin

def checkState (st : List (Nat × Nat) × List (Nat × Nat)) : Bool :=
  st.1.all fun it => decide (it.2 ≤ (c.bd it.1).length) &&
    match (c.bd it.1)[it.2]? with
    | none => true
    | some x =>
      (c.terms.testBit x || (c.starts.getD x []).all fun q => st.1.contains (q, 0)) &&
      match st.2.lookup x with
      | none => false
      | some j => match c.states[j]? with
        | none => false
        | some st' => st'.1.contains (it.1, it.2 + 1)

def dones (st : List (Nat × Nat) × List (Nat × Nat)) : List (Nat × Nat) :=
  st.1.filterMap fun it => if it.1 ≠ 0 ∧ (c.bd it.1)[it.2]? = none then some (c.fo (c.hd it.1), it.1) else none

def checkClash (st : List (Nat × Nat) × List (Nat × Nat)) : Bool :=
  let ds := c.dones st
  (st.2.all fun x => (ds.all fun m => !m.1.testBit x.1 && (c.be x.1 &&& m.1 == 0)) &&
    st.2.all fun y => x.1 == y.1 || !(c.be x.1).testBit y.1) &&
  ds.all fun m => ds.all fun m' => m.2 == m'.2 || (m.1 &&& m'.1 == 0 &&
    (List.range c.first.length).all fun a => !m.1.testBit a || (c.be a &&& m'.1 == 0))

def check : Bool :=
  c.checkSets && (match c.states[0]? with | none => false | some st => st.1.contains (0, 0)) &&
  c.states.all fun st => c.checkState st && c.checkClash st

end Cert

/-- The grammar `g` looks like that of the certificate. -/
structure Hom (g : Grammar) (c : Cert) where
  sym : Nat → Nat
  pr : Nat → Nat
  known : Nat → Prop
  prod : ∀ (p : Nat) P, g.prods[p]? = some P → c.prods[pr p]? = some (sym P.head, P.body.map sym)
  prInj : ∀ (p q : Nat), p < g.prods.length → q < g.prods.length → pr p = pr q → p = q
  rootLt : g.root < g.prods.length
  root : pr g.root = 0
  term : ∀ a ∈ g.terminals, c.terms.testBit (sym a) = true ∧ known a
  heads : ∀ P ∈ g.prods, known P.head ∧ ∀ s ∈ P.body, known s
  symInj : ∀ a b, known a → known b → sym a = sym b → a = b
  fin : sym tokenEnd = c.fin
  finT : tokenEnd ∈ g.terminals
  lt : ∀ a, known a → a < g.symbolId.length
  small : cNullSymbol ∉ g.terminals
  whole : ∀ P ∈ g.prods, ∀ s ∈ P.body, g.isToken s = true ∨ (g.prodsOf s).isEmpty = false

namespace Hom
variable {g : Grammar} {c : Cert} (H : Hom g c)
include H

theorem body {p : Nat} (hp : p < g.prods.length) : c.bd (H.pr p) = (g.body p).map H.sym := by
  obtain ⟨P, hP⟩ : ∃ P, g.prods[p]? = some P := ⟨_, List.getElem?_eq_getElem hp⟩
  simp [Cert.bd, Grammar.body, hP, H.prod p P hP]

theorem head {p : Nat} (hp : p < g.prods.length) : c.hd (H.pr p) = H.sym (g.head p) := by
  obtain ⟨P, hP⟩ : ∃ P, g.prods[p]? = some P := ⟨_, List.getElem?_eq_getElem hp⟩
  simp [Cert.hd, Grammar.head, hP, H.prod p P hP]

theorem bodyLt {p : Nat} {d s : Nat} (h : (g.body p)[d]? = some s) : ∃ P ∈ g.prods, g.prods[p]? = some P ∧ P.body[d]? = some s ∧ p < g.prods.length := by
  unfold Grammar.body at h
  cases hp : g.prods[p]? with
  | none => simp [hp] at h
  | some P =>
    simp only [hp, Option.map_some, Option.getD_some] at h
    exact ⟨P, List.mem_of_getElem? hp, rfl, h, (List.getElem?_eq_some_iff.mp hp).1⟩

/-! ### Closures do not fail -/

theorem closureLoop_ok {next : Item → List Item} : ∀ (k : Nat) (q clo : List Item), g.closureLoop next k q clo = .error .diverge ∨
    ∃ R, g.closureLoop next k q clo = .ok R := by
  intro k
  induction k with
  | zero => intro q clo; cases q <;> simp [closureLoop]
  | succ k ih =>
    intro q clo
    cases q with
    | nil => simp [closureLoop]
    | cons it q =>
      simp only [closureLoop]
      split
      · exact ih _ _
      · split
        · exact ih _ _
        · rename_i s hs
          obtain ⟨P, hP, _, hb, _⟩ := H.bodyLt hs
          split
          · exact ih _ _
          · rename_i ht
            have := (H.whole P hP s (List.mem_of_getElem? hb)).resolve_left ht
            rw [if_neg (by simp [this])]
            exact ih _ _

/-! ### FIRST -/

/-- FIRST sets and nullable symbols are within those of the certificate. -/
def FB (f : Firsts) : Prop :=
  (∀ s, ∀ a ∈ mget f.firsts s, (c.fi (H.sym s)).testBit (H.sym a) = true) ∧ ∀ s ∈ f.nullable, c.null.testBit (H.sym s) = true

theorem ofBody_fb {h : Nat} : ∀ {ss : List Nat} {f : Firsts}, c.firstOk (H.sym h) (ss.map H.sym) = true → H.FB f →
    H.FB (f.ofBody h ss).1 ∧ ((f.ofBody h ss).2 = true → c.null.testBit (H.sym h) = true) := by
  intro ss
  induction ss with
  | nil => intro f hk hf; exact ⟨hf, fun _ => by simpa [Cert.firstOk] using hk⟩
  | cons x ss ih =>
    intro f hk hf
    simp only [List.map_cons, Cert.firstOk, Bool.and_eq_true] at hk
    have h1 : H.FB { f with firsts := mput f.firsts h (sUnion (mget f.firsts h) (mget f.firsts x)) } := by
      refine ⟨fun s a ha => ?_, hf.2⟩
      simp only [mget_mput] at ha
      split at ha
      · rename_i e
        subst e
        rcases mem_sUnion.mp ha with ha | ha
        · exact hf.1 _ a ha
        · exact bsub_spec hk.1 (hf.1 _ a ha)
      · exact hf.1 _ a ha
    simp only [Firsts.ofBody]
    split
    · rename_i hn
      have := hf.2 x hn
      rw [this] at hk
      exact ih (by simpa using hk.2) h1
    · exact ⟨h1, by simp⟩

theorem addNullable_fb {s : Nat} {f : Firsts} (hf : H.FB f) (hs : c.null.testBit (H.sym s) = true) : H.FB (f.addNullable s) := by
  unfold Firsts.addNullable
  split
  · exact hf
  · split
    · exact hf
    · refine ⟨hf.1, fun x hx => ?_⟩
      rcases mem_insertNat.mp hx with rfl | hx
      · exact hs
      · exact hf.2 x hx

theorem step_fb {f : Firsts} {P : Production} (hk : c.firstOk (H.sym P.head) (P.body.map H.sym) = true) (hf : H.FB f) : H.FB (f.step P) := by
  unfold Firsts.step
  split
  · rename_i he
    have : P.body = [] := by simpa using he
    rw [this] at hk
    exact H.addNullable_fb hf (by simpa [Cert.firstOk] using hk)
  · obtain ⟨h1, h2⟩ := H.ofBody_fb hk hf
    simp only
    split
    · rename_i hall
      exact H.addNullable_fb h1 (h2 hall)
    · exact h1

theorem loop_fb {ps : List Production} (hk : ∀ P ∈ ps, c.firstOk (H.sym P.head) (P.body.map H.sym) = true) : ∀ {k : Nat} {f f' : Firsts},
    Firsts.loop ps k f = .ok f' → H.FB f → H.FB f' := by
  have fold : ∀ (qs : List Production) (f : Firsts), (∀ P ∈ qs, P ∈ ps) → H.FB f → H.FB (qs.foldl Firsts.step f) := by
    intro qs
    induction qs with
    | nil => intro f _ h; exact h
    | cons P qs ih =>
      intro f hs h
      exact ih _ (fun Q hQ => hs Q (by simp [hQ])) (H.step_fb (hk P (hs P (by simp))) h)
  intro k
  induction k with
  | zero => intro f f' h; simp [Firsts.loop] at h
  | succ k ih =>
    intro f f' h hf
    simp only [Firsts.loop] at h
    have h1 := fold ps { f with changed := false } (fun _ h => h) hf
    split at h
    · exact ih h h1
    · cases h; exact h1

variable (hc : c.checkSets = true)
include hc

theorem sets1 {p : Nat} {P : Production} (hp : g.prods[p]? = some P) :
    H.pr p ∈ c.starts.getD (H.sym P.head) [] ∧ c.terms.testBit (H.sym P.head) = false ∧
    c.firstOk (H.sym P.head) (P.body.map H.sym) = true ∧ c.followOk (H.sym P.head) (P.body.map H.sym) = true := by
  simp only [Cert.checkSets, Bool.and_eq_true, List.all_eq_true] at hc
  obtain ⟨⟨⟨⟨h1, h2⟩, -⟩, -⟩, -⟩ := hc
  have hP := H.prod p P hp
  have a := h1 ((H.sym P.head, P.body.map H.sym), H.pr p) (List.mem_zipIdx_iff_getElem?.mpr hP)
  have b := h2 _ (List.mem_of_getElem? hP)
  simp only [List.contains_eq_mem, decide_eq_true_eq, Bool.not_eq_true'] at a
  exact ⟨a.1, a.2, b⟩

theorem term_lt {a : Nat} (ha : c.terms.testBit a = true) : a < c.first.length := by
  simp only [Cert.checkSets, Bool.and_eq_true, List.all_eq_true] at hc
  obtain ⟨⟨⟨-, h2⟩, h3⟩, -⟩ := hc
  refine Decidable.byContradiction fun hn => ?_
  have := Nat.testBit_lt_two_pow (x := c.terms) (i := a) (Nat.lt_of_lt_of_le (by simpa using h3) (Nat.pow_le_pow_right (by omega) (by omega)))
  rw [this] at ha; cases ha

theorem terms_first {a : Nat} (ha : c.terms.testBit a = true) : (c.fi a).testBit a = true := by
  have hlt := H.term_lt hc ha
  simp only [Cert.checkSets, Bool.and_eq_true, List.all_eq_true] at hc
  obtain ⟨⟨⟨-, h2⟩, h3⟩, -⟩ := hc
  have := h2 a (List.mem_range.mpr hlt)
  rw [ha] at this
  simpa using this

theorem firsts_fb {fuel : Nat} {f : Firsts} (h : g.firstSets fuel = .ok f) : H.FB f := by
  refine H.loop_fb (fun P hP => ?_) h ⟨fun s a ha => ?_, by simp⟩
  · obtain ⟨p, hp⟩ := List.getElem?_of_mem hP
    exact (H.sets1 hc hp).2.2.1
  · unfold mget at ha
    cases hl : (g.terminals.map fun t => (t, [t])).lookup s with
    | none => simp only [hl] at ha; cases ha
    | some l =>
      simp only [hl, Option.getD_some] at ha
      obtain ⟨t, ht, e⟩ := List.mem_map.mp (lookup_mem hl)
      cases e
      rw [List.mem_singleton.mp ha]
      exact H.terms_first hc (H.term _ ht).1

/-! ### FOLLOW -/

omit hc in
/-- The lookahead is in the FOLLOW set of the head. -/
def W (p a : Nat) : Prop := a ∈ g.terminals ∧ (c.fo (H.sym (g.head p))).testBit (H.sym a) = true

omit hc in
theorem follow_get {h : Nat} : ∀ {ss : List Nat}, c.followOk h ss = true → ∀ {d x : Nat}, ss[d]? = some x → c.terms.testBit x = false →
    c.afterOk h x (ss.drop (d + 1)) = true := by
  intro ss
  induction ss with
  | nil => intro _ d x e; simp at e
  | cons y ss ih =>
    intro hk d x e ht
    simp only [Cert.followOk, Bool.and_eq_true] at hk
    cases d with
    | zero =>
      simp at e; subst e
      simpa [ht] using hk.1
    | succ d => exact ih hk.2 (by simpa using e) ht

omit hc in
theorem after_get {h x : Nat} {f : Firsts} (hf : H.FB f) {la y : Nat} : ∀ {ss : List Nat}, c.afterOk h x (ss.map H.sym) = true →
    y ∈ lookaheadsAfter f la ss → (c.fo x).testBit (H.sym y) = true ∧ (∃ s, y ∈ mget f.firsts s) ∨ y = la ∧ bsub (c.fo h) (c.fo x) = true := by
  intro ss
  induction ss with
  | nil => intro hk hy; exact .inr ⟨by simpa [lookaheadsAfter] using hy, by simpa [Cert.afterOk] using hk⟩
  | cons s ss ih =>
    intro hk hy
    simp only [List.map_cons, Cert.afterOk, Bool.and_eq_true] at hk
    simp only [lookaheadsAfter, List.mem_append] at hy
    rcases hy with hy | hy
    · exact .inl ⟨bsub_spec hk.1 (hf.1 _ _ hy), s, hy⟩
    · split at hy
      · rename_i hn
        have := hf.2 s hn
        rw [this] at hk
        exact ih (by simpa using hk.2) hy
      · cases hy

theorem fresh {f : Firsts} (hf : H.FB f) (hsub : ∀ s, ∀ a ∈ mget f.firsts s, a ∈ g.terminals) {it x : Item}
    (hx : x ∈ g.freshItems it (lookaheadsAfter f it.la ((g.body it.prod).drop (it.dot + 1)))) :
    x.dot = 0 ∧ x.prod < g.prods.length ∧ (H.W x.prod x.la ∨ x.la = it.la ∧ ∀ a, H.W it.prod a → H.W x.prod a) := by
  obtain ⟨s, hs, hp, h0, hl⟩ := mem_freshItems.mp hx
  obtain ⟨P, hP, hP', hb, _⟩ := H.bodyLt hs
  obtain ⟨Q, hQ, rfl⟩ := mem_prodsOf.mp hp
  obtain ⟨-, ht, -, -⟩ := H.sets1 hc hQ
  obtain ⟨-, -, -, hfo⟩ := H.sets1 hc hP'
  have hbody : g.body it.prod = P.body := by simp [Grammar.body, hP']
  have hheadP : g.head it.prod = P.head := by simp [Grammar.head, hP']
  have hhead : g.head x.prod = Q.head := by simp [Grammar.head, hQ]
  have ha := follow_get (H := H) hfo (d := it.dot) (x := H.sym Q.head) (by simp [hb]) ht
  rw [← List.map_drop] at ha
  rw [hbody] at hl
  refine ⟨h0, (List.getElem?_eq_some_iff.mp hQ).1, ?_⟩
  rcases H.after_get hf ha hl with ⟨h1, s, h2⟩ | ⟨h1, h2⟩
  · exact .inl ⟨hsub _ _ h2, by rw [hhead]; exact h1⟩
  · exact .inr ⟨h1, fun a hw => ⟨hw.1, by rw [hhead]; exact bsub_spec h2 (by rw [← hheadP]; exact hw.2)⟩⟩

/-! ### Lookaheads -/

omit hc in
theorem W_ne {p a : Nat} (h : H.W p a) : a ≠ cNullSymbol := fun e => H.small (e ▸ h.1)

theorem closure1 {f : Firsts} (hf : H.FB f) (hsub : ∀ s, ∀ a ∈ mget f.firsts s, a ∈ g.terminals) {it : Item} (hn : it.la = cNullSymbol)
    {fuel : Nat} {clo : List Item} (h : g.lr1Closure f fuel [it] = .ok clo) : ∀ x ∈ clo,
    (x.la ≠ cNullSymbol → H.W x.prod x.la) ∧ (x.la = cNullSymbol → ∀ a, H.W it.prod a → H.W x.prod a) := by
  refine (closureLoop_spec h).2.2.1 (fun x => (x.la ≠ cNullSymbol → H.W x.prod x.la) ∧ (x.la = cNullSymbol → ∀ a, H.W it.prod a → H.W x.prod a))
    (by simp) ?_ ?_
  · intro x hx
    have : x = it := by simpa using hx
    subst this
    exact ⟨fun h => absurd hn h, fun _ a h => h⟩
  · intro y hy x hx
    obtain ⟨-, -, h⟩ := H.fresh hc hf hsub hx
    rcases h with h | ⟨h1, h2⟩
    · exact ⟨fun _ => h, fun e => absurd e (H.W_ne h)⟩
    · refine ⟨fun e => ?_, fun e a ha => h2 a (hy.2 (h1 ▸ e) a ha)⟩
      rw [h1] at e ⊢
      exact h2 _ (hy.1 e)

theorem closure2 {f : Firsts} (hf : H.FB f) (hsub : ∀ s, ∀ a ∈ mget f.firsts s, a ∈ g.terminals) {ker : List Item} (hk : ∀ it ∈ ker, H.W it.prod it.la)
    {fuel : Nat} {clo : List Item} (h : g.lr1Closure f fuel ker = .ok clo) : ∀ x ∈ clo, H.W x.prod x.la := by
  refine (closureLoop_spec h).2.2.1 (fun x => H.W x.prod x.la) (by simp) (fun x hx => hk x (by simpa using hx)) ?_
  intro y hy x hx
  obtain ⟨-, -, h⟩ := H.fresh hc hf hsub hx
  rcases h with h | ⟨h1, h2⟩
  · exact h
  · rw [h1]; exact h2 _ hy

omit hc in
/-- The maps are within FOLLOW. -/
def MB (m : LaMaps) : Prop :=
  (∀ p, ∀ a ∈ mget m.spont p, H.W p a) ∧ ∀ (i : Item), ∀ x ∈ mget m.prop i, ∀ a, H.W i.prod a → H.W x.prod a

omit hc in
theorem note_mb {from' it : Item} {m : LaMaps} (hm : H.MB m) (h1 : it.la ≠ cNullSymbol → H.W it.prod it.la)
    (h2 : it.la = cNullSymbol → ∀ a, H.W from'.prod a → H.W it.prod a) : H.MB (LaMaps.note g from' m it) := by
  unfold LaMaps.note
  split
  · rename_i hla
    refine ⟨fun p a ha => ?_, hm.2⟩
    simp only [mget_mput] at ha
    split at ha
    · rename_i e
      rw [e]
      rcases mem_insertNat.mp ha with rfl | ha
      · exact h1 hla
      · exact hm.1 _ _ ha
    · exact hm.1 _ _ ha
  · rename_i hla
    have hla : it.la = cNullSymbol := by simpa using hla
    split
    · refine ⟨hm.1, fun i x hx => ?_⟩
      simp only [mget_mput] at hx
      split at hx
      · rename_i e
        rw [e]
        rcases mem_insertItem.mp hx with rfl | hx
        · exact h2 hla
        · exact hm.2 _ _ hx
      · exact hm.2 _ _ hx
    · exact hm

omit hc in
theorem notes_mb {from' : Item} : ∀ {clo : List Item} {m : LaMaps}, H.MB m → (∀ it ∈ clo, (it.la ≠ cNullSymbol → H.W it.prod it.la) ∧
    (it.la = cNullSymbol → ∀ a, H.W from'.prod a → H.W it.prod a)) → H.MB (clo.foldl (LaMaps.note g from') m) := by
  intro clo
  induction clo with
  | nil => intro m h _; exact h
  | cons x clo ih =>
    intro m h hx
    exact ih (H.note_mb h (hx x (by simp)).1 (hx x (by simp)).2) (fun y hy => hx y (by simp [hy]))

theorem laMaps_fine {f : Firsts} (hf : H.FB f) (hsub : ∀ s, ∀ a ∈ mget f.firsts s, a ∈ g.terminals) {fuel : Nat} : ∀ (its : List Item) (m : LaMaps),
    (∀ it ∈ its, it.la = cNullSymbol) → H.MB m → g.laMaps f fuel its m = .error .diverge ∨ ∃ m', g.laMaps f fuel its m = .ok m' ∧ H.MB m' := by
  intro its
  induction its with
  | nil => intro m _ h; exact .inr ⟨m, rfl, h⟩
  | cons it its ih =>
    intro m hn h
    simp only [laMaps]
    rcases H.closureLoop_ok (next := fun it => g.freshItems it (lookaheadsAfter f it.la ((g.body it.prod).drop (it.dot + 1)))) fuel
        [it].reverse [] with e | ⟨clo, e⟩
    · left
      have : g.lr1Closure f fuel [it] = .error .diverge := e
      rw [this]
    · have : g.lr1Closure f fuel [it] = .ok clo := e
      rw [this]
      exact ih _ (fun x hx => hn x (by simp [hx])) (H.notes_mb h (H.closure1 hc hf hsub (hn it (by simp)) this))

omit hc in
/-- The lookaheads are within FOLLOW. -/
def LB (l : List (Item × List Nat)) : Prop := ∀ (i : Item), ∀ a ∈ mget l i, H.W i.prod a

theorem root_end : H.W g.root tokenEnd := by
  simp only [Cert.checkSets, Bool.and_eq_true] at hc
  refine ⟨H.finT, ?_⟩
  rw [← H.head H.rootLt, H.root, H.fin]
  exact hc.2

theorem initLas_lb {m : LaMaps} (hm : H.MB m) : ∀ (its : List Item) (l : List (Item × List Nat)), H.LB l → H.LB (its.foldl (initLas g m) l) := by
  intro its
  induction its with
  | nil => intro l h; exact h
  | cons it its ih =>
    intro l h
    refine ih _ ?_
    intro i a ha
    unfold initLas at ha
    simp only [mget_mput] at ha
    split at ha
    · rename_i e
      rw [e]
      have key : ∀ a ∈ sUnion (mget l it) (mget m.spont it.prod), H.W it.prod a := by
        intro a ha
        rcases mem_sUnion.mp ha with ha | ha
        · exact h it a ha
        · exact hm.1 _ _ ha
      split at ha
      · rename_i hr
        rcases mem_insertNat.mp ha with rfl | ha
        · rw [hr]; exact H.root_end hc
        · exact key a ha
      · exact key a ha
    · exact h i a ha

omit hc in
theorem round_lb {m : LaMaps} (hm : H.MB m) (l : Las) (h : H.LB l.las) : H.LB (Las.round m l).las := by
  have one : ∀ (from' : Item) (tos : List Item) (l : Las), (∀ x ∈ tos, ∀ a, H.W from'.prod a → H.W x.prod a) → H.LB l.las →
      H.LB (tos.foldl (Las.propagate from') l).las := by
    intro from' tos
    induction tos with
    | nil => intro l _ h; exact h
    | cons x tos ih =>
      intro l hx h
      refine ih _ (fun y hy => hx y (by simp [hy])) ?_
      intro i a ha
      unfold Las.propagate at ha
      simp only [mget_mput] at ha
      split at ha
      · rename_i e
        rw [e]
        rcases mem_sUnion.mp ha with ha | ha
        · exact h _ a ha
        · exact hx x (by simp) a (h _ a ha)
      · exact h i a ha
  have all : ∀ (froms : List Item) (l : Las), H.LB l.las →
      H.LB (froms.foldl (fun l from' => (mget m.prop from').foldl (Las.propagate from') l) l).las := by
    intro froms
    induction froms with
    | nil => intro l h; exact h
    | cons x froms ih => intro l h; exact ih _ (one x _ l (hm.2 x) h)
  exact all _ l h

omit hc in
theorem las_loop_fine {m : LaMaps} (hm : H.MB m) : ∀ (k : Nat) (l : Las), H.LB l.las → Las.loop m k l = .error .diverge ∨
    ∃ l', Las.loop m k l = .ok l' ∧ H.LB l'.las := by
  intro k
  induction k with
  | zero => intro l _; exact .inl rfl
  | succ k ih =>
    intro l h
    have h1 := H.round_lb hm { l with changed := false } h
    simp only [Las.loop]
    split
    · exact ih _ h1
    · exact .inr ⟨_, rfl, h1⟩

/-! ### Item sets -/

omit hc in
/-- The item lies in the state of the certificate. -/
def In (st : List (Nat × Nat) × List (Nat × Nat)) (it : Item) : Prop := it.prod < g.prods.length ∧ (H.pr it.prod, it.dot) ∈ st.1

omit hc in
theorem state_get {st} (hs : c.checkState st = true) {it : Item} (hi : H.In st it) :
    it.dot ≤ (g.body it.prod).length ∧ ∀ s, (g.body it.prod)[it.dot]? = some s →
      (c.terms.testBit (H.sym s) = true ∨ ∀ q ∈ c.starts.getD (H.sym s) [], (q, 0) ∈ st.1) ∧
      ∃ j st', st.2.lookup (H.sym s) = some j ∧ c.states[j]? = some st' ∧ (H.pr it.prod, it.dot + 1) ∈ st'.1 := by
  simp only [Cert.checkState, List.all_eq_true] at hs
  have h := hs _ hi.2
  simp only [H.body hi.1, List.length_map, Bool.and_eq_true, decide_eq_true_eq, List.getElem?_map] at h
  refine ⟨h.1, fun s hb => ?_⟩
  rw [hb] at h
  simp only [Option.map_some, Bool.and_eq_true, Bool.or_eq_true, List.all_eq_true, List.contains_eq_mem, decide_eq_true_eq] at h
  refine ⟨h.2.1, ?_⟩
  have h2 := h.2.2
  cases hl : st.2.lookup (H.sym s) with
  | none => rw [hl] at h2; simp at h2
  | some j =>
    rw [hl] at h2
    simp only at h2
    cases hj : c.states[j]? with
    | none => rw [hj] at h2; simp at h2
    | some st' =>
      rw [hj] at h2
      exact ⟨j, st', rfl, hj, by simpa using h2⟩

theorem fresh_in {st} (hs : c.checkState st = true) {it x : Item} {las : List Nat} (hi : H.In st it) (hx : x ∈ g.freshItems it las) : H.In st x := by
  obtain ⟨s, hb, hp, h0, _⟩ := mem_freshItems.mp hx
  obtain ⟨Q, hQ, rfl⟩ := mem_prodsOf.mp hp
  obtain ⟨h1, h2, -, -⟩ := H.sets1 hc hQ
  have := ((H.state_get hs hi).2 _ hb).1.resolve_left (by simp [h2]) _ h1
  exact ⟨(List.getElem?_eq_some_iff.mp hQ).1, by rw [h0]; exact this⟩

theorem closure_in {st} (hs : c.checkState st = true) {las : Item → List Nat} {fuel : Nat} {ker clo : List Item}
    (h : g.closureLoop (fun it => g.freshItems it (las it)) fuel ker.reverse [] = .ok clo) (hk : ∀ it ∈ ker, H.In st it) :
    ∀ it ∈ clo, H.In st it :=
  (closureLoop_spec h).2.2.1 (fun it => H.In st it) (by simp) (fun it hit => hk it (by simpa using hit)) (fun _ hi _ hx => H.fresh_in hc hs hi hx)

variable (hall : ∀ st ∈ c.states, c.checkState st = true ∧ c.checkClash st = true)
  (h00 : ∃ st, c.states[0]? = some st ∧ (0, 0) ∈ st.1)
include hall h00

theorem kernels_in {fuel : Nat} {t : LR0} (hI : LR0Inv g fuel [] t) : ∀ (i : Nat), i < t.sets.length →
    ∃ st ∈ c.states, ∀ it ∈ t.kernel i, H.In st it := by
  intro i
  induction i using Nat.strongRecOn with
  | _ i ih =>
    intro hi
    rcases Nat.eq_zero_or_pos i with rfl | hpos
    · obtain ⟨st, h1, h2⟩ := h00
      obtain ⟨cl, hz⟩ := hI.zero
      refine ⟨st, List.mem_of_getElem? h1, fun it hit => ?_⟩
      rw [LR0.kernel_eq hz] at hit
      have : it = ⟨g.root, 0, cNullSymbol⟩ := by simpa using hit
      subst this
      exact ⟨H.rootLt, by rw [H.root]; exact h2⟩
    · obtain ⟨j, s, hj, hgo⟩ := hI.reach i hpos hi
      obtain ⟨-, ker, cl, cl', e1, e2⟩ := hI.goes _ _ _ hgo
      obtain ⟨st, hst, hk⟩ := ih j hj (by omega)
      rw [LR0.kernel_eq e1] at hk
      rw [LR0.kernel_eq e2]
      have hcl : g.lr0Closure fuel ker = .ok cl := hI.clo j _ _ e1 (by simp)
      have hin := H.closure_in hc (hall st hst).1 (las := fun _ => [cNullSymbol]) hcl hk
      cases hl : st.2.lookup (H.sym s) with
      | none =>
        refine ⟨st, hst, fun it hit => ?_⟩
        obtain ⟨y, hy, hb, -⟩ := mem_advance.mp hit
        obtain ⟨j, st', h1, -⟩ := ((H.state_get (hall st hst).1 (hin y hy)).2 s hb).2
        rw [hl] at h1; cases h1
      | some j' =>
        cases hj' : c.states[j']? with
        | none =>
          refine ⟨st, hst, fun it hit => ?_⟩
          obtain ⟨y, hy, hb, -⟩ := mem_advance.mp hit
          obtain ⟨j, st', h1, h2, -⟩ := ((H.state_get (hall st hst).1 (hin y hy)).2 s hb).2
          rw [hl] at h1; cases h1; rw [hj'] at h2; cases h2
        | some st2 =>
          refine ⟨st2, List.mem_of_getElem? hj', fun it hit => ?_⟩
          obtain ⟨y, hy, hb, rfl⟩ := mem_advance.mp hit
          obtain ⟨j, st', h1, h2, h3⟩ := ((H.state_get (hall st hst).1 (hin y hy)).2 s hb).2
          rw [hl] at h1; cases h1; rw [hj'] at h2; cases h2
          exact ⟨(hin y hy).1, h3⟩

/-! ### Actions -/

omit hc hall h00 in
theorem clash_get {st} (hs : c.checkClash st = true) :
    (∀ x j, st.2.lookup x = some j → ∀ p d, (p, d) ∈ st.1 → p ≠ 0 → (c.bd p)[d]? = none →
      (c.fo (c.hd p)).testBit x = false ∧ ∀ y, (c.be x).testBit y = true → (c.fo (c.hd p)).testBit y = false) ∧
    (∀ x j y k, st.2.lookup x = some j → st.2.lookup y = some k → (c.be x).testBit y = true → x = y) ∧
    (∀ p d q e, (p, d) ∈ st.1 → p ≠ 0 → (c.bd p)[d]? = none → (q, e) ∈ st.1 → q ≠ 0 → (c.bd q)[e]? = none → p ≠ q →
      ∀ x, (c.fo (c.hd p)).testBit x = true → (c.fo (c.hd q)).testBit x = false ∧
        (x < c.first.length → ∀ y, (c.be x).testBit y = true → (c.fo (c.hd q)).testBit y = false)) := by
  have hd : ∀ p d, (p, d) ∈ st.1 → p ≠ 0 → (c.bd p)[d]? = none → (c.fo (c.hd p), p) ∈ c.dones st := by
    intro p d h1 h2 h3
    exact List.mem_filterMap.mpr ⟨(p, d), h1, by simp [h2, h3]⟩
  simp only [Cert.checkClash, Bool.and_eq_true, List.all_eq_true] at hs
  obtain ⟨h1, h2⟩ := hs
  refine ⟨fun x j hx p d a1 a2 a3 => ?_, fun x j y k hx hy hb => ?_, fun p d q e a1 a2 a3 b1 b2 b3 hne x hx => ?_⟩
  · have := (h1 _ (lookup_mem hx)).1 _ (hd p d a1 a2 a3)
    exact ⟨by simpa using this.1, fun y hy => and_zero this.2 hy⟩
  · have := (h1 _ (lookup_mem hx)).2 _ (lookup_mem hy)
    simp only [hb, Bool.not_true, Bool.or_false, beq_iff_eq] at this
    exact this
  · have := h2 _ (hd p d a1 a2 a3) _ (hd q e b1 b2 b3)
    simp only [Bool.or_eq_true, beq_iff_eq, hne, false_or, Bool.and_eq_true, List.all_eq_true] at this
    refine ⟨and_zero (by simpa using this.1) hx, fun hlt y hy => ?_⟩
    have h3 := this.2 x (List.mem_range.mpr hlt)
    simp only [hx, Bool.not_true, Bool.false_eq_true, false_or] at h3
    exact and_zero (by simpa using h3) hy

omit hc hall h00 in
/-- What the actions are after some of the items of an item set. -/
def ActsOk (g : Grammar) (next : Nat → Option Nat) (done : List Item) (acts : List Action) : Prop :=
  acts.length = g.symbolId.length ∧ ∀ (k : Nat) a, acts[k]? = some a →
    match a with
    | .flag b => b = true → k = tokenEnd
    | .shift x => x = next k ∧ ∃ it ∈ done, (g.body it.prod)[it.dot]? = some k
    | .reduce p => p ≠ g.root ∧ ∃ it ∈ done, it.prod = p ∧ it.la = k ∧ (g.body it.prod)[it.dot]? = none

omit hc hall h00 in
theorem acts_mono {next : Nat → Option Nat} {done done' : List Item} {acts : List Action} (h : ActsOk g next done acts) (hs : ∀ x ∈ done, x ∈ done') :
    ActsOk g next done' acts := by
  refine ⟨h.1, fun k a hk => ?_⟩
  have := h.2 k a hk
  cases a with
  | flag b => exact this
  | shift x => obtain ⟨a, it, b, c⟩ := this; exact ⟨a, it, hs it b, c⟩
  | reduce p => obtain ⟨a, it, b, c⟩ := this; exact ⟨a, it, hs it b, c⟩

omit hc hall h00 in
theorem root_iff {p : Nat} (hp : p < g.prods.length) : H.pr p = 0 ↔ p = g.root := by
  constructor
  · intro h; exact H.prInj p g.root hp H.rootLt (by rw [h, H.root])
  · rintro rfl; exact H.root

omit hc hall h00 in
/-- A shift and a reduction on the same symbol exclude each other. -/
theorem no_clash {st} (hs : c.checkState st = true) (hcl : c.checkClash st = true) {x y : Item} (hx : H.In st x) (hy : H.In st y) {s : Nat}
    (h1 : (g.body x.prod)[x.dot]? = some s) (h2 : (g.body y.prod)[y.dot]? = none) (hr : y.prod ≠ g.root) (hw : H.W y.prod s) : False := by
  obtain ⟨j, st', a1, -⟩ := ((H.state_get hs hx).2 s h1).2
  have := ((H.clash_get hcl).1 _ _ a1 _ _ hy.2 (fun e => hr ((H.root_iff hy.1).mp e)) (by rw [H.body hy.1]; simp [h2])).1
  rw [H.head hy.1, hw.2] at this
  cases this

omit hc hall h00 in
theorem setAction_fine {st} (hs : c.checkState st = true) (hcl : c.checkClash st = true) {next : Nat → Option Nat} {done : List Item} {it : Item}
    {acts : List Action} (hA : ActsOk g next done acts) (hit : it ∉ done) (hin : H.In st it) (hw : H.W it.prod it.la)
    (hdone : ∀ x ∈ done, H.In st x ∧ H.W x.prod x.la) :
    ∃ acts', g.setAction next acts it = .ok acts' ∧ ActsOk g next (it :: done) acts' := by
  have hmono := H.acts_mono hA (done' := it :: done) (fun x hx => by simp [hx])
  have hset : ∀ (k : Nat) (b : Action), (match b with
      | .flag b => b = true → k = tokenEnd
      | .shift x => x = next k ∧ ∃ i ∈ it :: done, (g.body i.prod)[i.dot]? = some k
      | .reduce p => p ≠ g.root ∧ ∃ i ∈ it :: done, i.prod = p ∧ i.la = k ∧ (g.body i.prod)[i.dot]? = none) →
      ActsOk g next (it :: done) (acts.set k b) := by
    intro k b hb
    refine ⟨by simpa using hA.1, fun k' a hk => ?_⟩
    rw [List.getElem?_set] at hk
    split at hk
    · rename_i e
      subst e
      split at hk
      · cases hk; exact hb
      · cases hk
    · exact hmono.2 k' a hk
  unfold setAction
  cases hb : (g.body it.prod)[it.dot]? with
  | some s =>
    simp only
    split
    · exact ⟨acts, rfl, hmono⟩
    · obtain ⟨P, hP, _, hb', _⟩ := H.bodyLt hb
      have hlt : s < acts.length := by rw [hA.1]; exact H.lt s ((H.heads P hP).2 s (List.mem_of_getElem? hb'))
      have hg : acts[s]? = some acts[s] := List.getElem?_eq_getElem hlt
      have hj := hA.2 s _ hg
      rw [hg]
      cases ha : acts[s] with
      | flag b => exact ⟨_, rfl, hset s _ ⟨rfl, it, by simp, hb⟩⟩
      | shift x =>
        rw [ha] at hj
        simp only [hj.1, if_pos]
        exact ⟨acts, rfl, hmono⟩
      | reduce p =>
        rw [ha] at hj
        obtain ⟨r1, y, hy, rfl, r2, r3⟩ := hj
        exact (H.no_clash hs hcl hin (hdone y hy).1 hb r3 r1 (r2 ▸ (hdone y hy).2)).elim
  | none =>
    simp only
    split
    · rw [if_pos (by rw [hA.1]; exact H.lt _ (H.term _ H.finT).2)]
      exact ⟨_, rfl, hset _ _ (fun _ => rfl)⟩
    · rename_i hr
      have hlt : it.la < acts.length := by rw [hA.1]; exact H.lt _ (H.term _ hw.1).2
      have hg : acts[it.la]? = some acts[it.la] := List.getElem?_eq_getElem hlt
      have hj := hA.2 it.la _ hg
      rw [hg]
      cases ha : acts[it.la] with
      | flag b => exact ⟨_, rfl, hset _ _ ⟨hr, it, by simp, rfl, rfl, hb⟩⟩
      | shift x =>
        rw [ha] at hj
        obtain ⟨-, y, hy, r2⟩ := hj
        exact (H.no_clash hs hcl (hdone y hy).1 hin r2 hb hr hw).elim
      | reduce p =>
        rw [ha] at hj
        obtain ⟨r1, y, hy, rfl, r2, r3⟩ := hj
        exfalso
        obtain ⟨i1, i2⟩ := hdone y hy
        by_cases e : H.pr it.prod = H.pr y.prod
        · have e := H.prInj _ _ hin.1 i1.1 e
          have d1 := (H.state_get hs hin).1
          have d2 := (H.state_get hs i1).1
          have l1 := List.getElem?_eq_none_iff.mp hb
          have l2 := List.getElem?_eq_none_iff.mp r3
          have : it = y := by
            cases it; cases y
            simp only at e r2 d1 d2 l1 l2
            subst e
            simp only [Item.mk.injEq, true_and]
            exact ⟨by omega, r2.symm⟩
          exact hit (this ▸ hy)
        · have := ((H.clash_get hcl).2.2 _ _ _ _ hin.2 (fun e => hr ((H.root_iff hin.1).mp e)) (by rw [H.body hin.1]; simp [hb])
            i1.2 (fun e => r1 ((H.root_iff i1.1).mp e)) (by rw [H.body i1.1]; simp [r3]) e (H.sym it.la) (by rw [H.head hin.1]; exact hw.2)).1
          rw [H.head i1.1, ← r2, i2.2] at this
          cases this

omit hc hall h00 in
theorem setActions_fine {st} (hs : c.checkState st = true) (hcl : c.checkClash st = true) {next : Nat → Option Nat} : ∀ (its done : List Item)
    (acts : List Action), ActsOk g next done acts → (its ++ done).Nodup → (∀ x ∈ its ++ done, H.In st x ∧ H.W x.prod x.la) →
    ∃ acts', g.setActions next its acts = .ok acts' ∧ ∃ done', ActsOk g next done' acts' ∧ ∀ x ∈ done', x ∈ its ++ done := by
  intro its
  induction its with
  | nil => intro done acts h _ _; exact ⟨acts, rfl, done, h, fun _ h => by simpa using h⟩
  | cons it its ih =>
    intro done acts h hn hx
    have hn' := hn
    simp only [List.cons_append, List.nodup_cons, List.mem_append, not_or] at hn'
    obtain ⟨acts1, h1, h2⟩ := H.setAction_fine hs hcl h hn'.1.2 (hx it (by simp)).1 (hx it (by simp)).2 (fun x hd => hx x (by simp [hd]))
    have hp : (its ++ it :: done).Perm (it :: its ++ done) := by simp
    obtain ⟨acts2, h3, done', h4, h5⟩ := ih (it :: done) acts1 h2 (hp.nodup_iff.mpr hn) (fun x h => hx x (hp.mem_iff.mp h))
    exact ⟨acts2, by simp only [setActions, h1, h3], done', h4, fun x h => hp.mem_iff.mp (h5 x h)⟩

omit hc hall h00 in
/-- Tokens with two terminals beside each other have only one action. -/
def Rows (tb : List (Nat × List Action)) : Prop := ∀ r ∈ tb, ∀ a ∈ g.terminals, ∀ b ∈ g.terminals, a ≠ tokenEnd → b ≠ tokenEnd →
  (c.be (H.sym a)).testBit (H.sym b) = true → (c.be (H.sym b)).testBit (H.sym a) = true → ∀ A B, r.2[a]? = some A → r.2[b]? = some B →
  A ≠ .flag false → B ≠ .flag false → A = B

omit hall h00 in
theorem row {st} (hs : c.checkState st = true) (hcl : c.checkClash st = true) {next : Nat → Option Nat} {done : List Item} {acts : List Action}
    (hA : ActsOk g next done acts) (hdone : ∀ x ∈ done, H.In st x ∧ H.W x.prod x.la) {a b : Nat} (ha : a ∈ g.terminals) (hb : b ∈ g.terminals)
    (ea : a ≠ tokenEnd) (eb : b ≠ tokenEnd) (ab : (c.be (H.sym a)).testBit (H.sym b) = true) (ba : (c.be (H.sym b)).testBit (H.sym a) = true)
    {A B : Action} (hAa : acts[a]? = some A) (hBb : acts[b]? = some B) (fa : A ≠ .flag false) (fb : B ≠ .flag false) : A = B := by
  have j1 := hA.2 a A hAa
  have j2 := hA.2 b B hBb
  obtain ⟨c1, c2, c3⟩ := H.clash_get hcl
  cases A with
  | flag v => cases v with
    | false => exact absurd rfl fa
    | true => exact absurd (j1 rfl) ea
  | shift x =>
    obtain ⟨e1, i, hi, hbi⟩ := j1
    obtain ⟨j, _, l1, -⟩ := ((H.state_get hs (hdone i hi).1).2 _ hbi).2
    cases B with
    | flag v => cases v with
      | false => exact absurd rfl fb
      | true => exact absurd (j2 rfl) eb
    | shift y =>
      obtain ⟨e2, i', hi', hbi'⟩ := j2
      obtain ⟨j', _, l2, -⟩ := ((H.state_get hs (hdone i' hi').1).2 _ hbi').2
      have := H.symInj _ _ (H.term a ha).2 (H.term b hb).2 (c2 _ _ _ _ l1 l2 ab)
      rw [e1, e2, this]
    | reduce p =>
      obtain ⟨r1, y, hy, rfl, r2, r3⟩ := j2
      obtain ⟨i1, i2⟩ := hdone y hy
      have := (c1 _ _ l1 _ _ i1.2 (fun e => r1 ((H.root_iff i1.1).mp e)) (by rw [H.body i1.1]; simp [r3])).2 _ ab
      rw [H.head i1.1, ← r2, i2.2] at this
      cases this
  | reduce p =>
    obtain ⟨r1, y, hy, rfl, r2, r3⟩ := j1
    obtain ⟨i1, i2⟩ := hdone y hy
    cases B with
    | flag v => cases v with
      | false => exact absurd rfl fb
      | true => exact absurd (j2 rfl) eb
    | shift x =>
      obtain ⟨e1, i, hi, hbi⟩ := j2
      obtain ⟨j, _, l1, -⟩ := ((H.state_get hs (hdone i hi).1).2 _ hbi).2
      have := (c1 _ _ l1 _ _ i1.2 (fun e => r1 ((H.root_iff i1.1).mp e)) (by rw [H.body i1.1]; simp [r3])).2 _ ba
      rw [H.head i1.1, ← r2, i2.2] at this
      cases this
    | reduce q =>
      obtain ⟨q1, z, hz, rfl, q2, q3⟩ := j2
      obtain ⟨k1, k2⟩ := hdone z hz
      by_cases e : H.pr y.prod = H.pr z.prod
      · rw [H.prInj _ _ i1.1 k1.1 e]
      · exfalso
        have hlt : H.sym a < c.first.length := H.term_lt hc (H.term a ha).1
        have := (c3 _ _ _ _ i1.2 (fun e => r1 ((H.root_iff i1.1).mp e)) (by rw [H.body i1.1]; simp [r3])
          k1.2 (fun e => q1 ((H.root_iff k1.1).mp e)) (by rw [H.body k1.1]; simp [q3]) e (H.sym a) (by rw [H.head i1.1, ← r2]; exact i2.2)).2 hlt _ ab
        rw [H.head k1.1, ← q2, k2.2] at this
        cases this

/-! ### Generation -/

omit H hc hall h00 in
theorem closureLoop_sorted {next : Item → List Item} : ∀ {k : Nat} {q clo R : List Item}, g.closureLoop next k q clo = .ok R → Sorted clo → Sorted R := by
  intro k
  induction k with
  | zero =>
    intro q clo R h hs
    cases q with
    | nil => simp only [closureLoop, Except.ok.injEq] at h; exact h ▸ hs
    | cons => simp [closureLoop] at h
  | succ k ih =>
    intro q clo R h hs
    cases q with
    | nil => simp only [closureLoop, Except.ok.injEq] at h; exact h ▸ hs
    | cons it q =>
      simp only [closureLoop] at h
      split at h
      · exact ih h hs
      · split at h
        · exact ih h hs.insert
        · split at h
          · exact ih h hs.insert
          · split at h
            · cases h
            · exact ih h hs.insert

omit H hc hall h00 in
theorem _root_.LogSurgeon.Sorted.nodup {l : List Item} (h : Sorted l) : l.Nodup := by
  refine List.Pairwise.imp ?_ h
  intro a b hab e
  rw [e, Item.lt_irrefl] at hab
  cases hab

omit hc hall h00 in
theorem lr0Loop_fine {syms : List Nat} {cf : Nat} : ∀ (k : Nat) (q : List Nat) (t : LR0), g.lr0Loop syms cf k q t = .error .diverge ∨
    ∃ t', g.lr0Loop syms cf k q t = .ok t' := by
  intro k
  induction k with
  | zero => intro q t; cases q <;> simp [lr0Loop]
  | succ k ih =>
    intro q t
    cases q with
    | nil => simp [lr0Loop]
    | cons i q =>
      simp only [lr0Loop]
      rcases H.closureLoop_ok (next := fun it => g.freshItems it [cNullSymbol]) cf ((t.sets[i]?.map (·.1)).getD []).reverse [] with e | ⟨clo, e⟩
      · have : g.lr0Closure cf ((t.sets[i]?.map (·.1)).getD []) = .error .diverge := e
        simp [this]
      · have : g.lr0Closure cf ((t.sets[i]?.map (·.1)).getD []) = .ok clo := e
        simp only [this]
        exact ih _ _

omit hc hall h00 in
theorem lr1Sets_fine {f : Firsts} {fuel : Nat} {t : LR0} {las : List (Item × List Nat)} : ∀ (order : List Nat) (acc : List LR1Set),
    lr1Sets g f fuel t las order acc = .error .diverge ∨ ∃ sets, lr1Sets g f fuel t las order acc = .ok sets := by
  intro order
  induction order with
  | nil => intro acc; exact .inr ⟨acc, rfl⟩
  | cons i order ih =>
    intro acc
    simp only [lr1Sets]
    rcases H.closureLoop_ok (next := fun it => g.freshItems it (lookaheadsAfter f it.la ((g.body it.prod).drop (it.dot + 1)))) fuel
        (lr1Kernel las ((t.sets[i]?.map (·.1)).getD [])).reverse [] with e | ⟨clo, e⟩
    · have : g.lr1Closure f fuel (lr1Kernel las ((t.sets[i]?.map (·.1)).getD [])) = .error .diverge := e
      simp [this]
    · have : g.lr1Closure f fuel (lr1Kernel las ((t.sets[i]?.map (·.1)).getD [])) = .ok clo := e
      simp only [this]
      exact ih _

omit hall h00 in
theorem actionTable_fine {t : LR0} {sets : List LR1Set} : ∀ (ss : List LR1Set), (∀ s ∈ ss, s.closure.Nodup ∧
      ∃ st ∈ c.states, (c.checkState st = true ∧ c.checkClash st = true) ∧ ∀ x ∈ s.closure, H.In st x ∧ H.W x.prod x.la) →
    ∃ tab, g.actionTable t sets ss = .ok tab ∧ H.Rows tab := by
  intro ss
  induction ss with
  | nil => intro _; exact ⟨[], rfl, by intro r hr; cases hr⟩
  | cons s ss ih =>
    intro h
    obtain ⟨tab, h1, h2⟩ := ih (fun x hx => h x (by simp [hx]))
    obtain ⟨hn, st, hst, hk, hx⟩ := h s (by simp)
    have h0 : ActsOk g (nextSet t sets s.index) [] (List.replicate g.symbolId.length (.flag false)) := by
      refine ⟨by simp, fun k a ha => ?_⟩
      rw [List.getElem?_replicate] at ha
      split at ha
      · cases ha; intro h; cases h
      · cases ha
    obtain ⟨acts, h3, done, h4, h5⟩ := H.setActions_fine hk.1 hk.2 s.closure [] _ h0 (by simpa using hn) (fun x hx' => hx x (by simpa using hx'))
    refine ⟨(s.index, acts) :: tab, by simp only [actionTable, h3, h1], ?_⟩
    intro r hr
    rcases List.mem_cons.mp hr with rfl | hr
    · intro a ha b hb ea eb ab ba A B hA hB fa fb
      exact H.row hc hk.1 hk.2 h4 (fun x hx' => hx x (by simpa using h5 x hx')) ha hb ea eb ab ba hA hB fa fb
    · exact h2 r hr

theorem generate_fine {o : Orders} (ho : ∀ ks i, i ∈ o.sets ks → i < ks.length) (fuel : Nat) : g.generate o fuel = .error .diverge ∨
    ∃ tb, g.generate o fuel = .ok tb ∧ H.Rows tb.actions := by
  have hne : ¬ g.prods.isEmpty = true := by
    intro h
    have := H.rootLt
    have h : g.prods = [] := by simpa using h
    rw [h] at this; simp at this
  unfold generate
  rw [if_neg hne]
  rcases H.lr0Loop_fine (syms := g.terminals ++ o.nts) (cf := fuel) fuel [0] { sets := [([⟨g.root, 0, cNullSymbol⟩], [])] } with e | ⟨t, e⟩
  · have : g.lr0Sets o fuel = .error .diverge := e
    simp [this]
  have ht : g.lr0Sets o fuel = .ok t := e
  simp only [ht]
  obtain ⟨hI, -⟩ := lr0Sets_spec ht
  have hfs : g.firstSets fuel = .error .diverge ∨ ∃ f, g.firstSets fuel = .ok f := by
    have key : ∀ (k : Nat) (f : Firsts), Firsts.loop g.prods k f = .error .diverge ∨ ∃ f', Firsts.loop g.prods k f = .ok f' := by
      intro k
      induction k with
      | zero => intro f; exact .inl rfl
      | succ k ih => intro f; simp only [Firsts.loop]; split; exact ih _; exact .inr ⟨_, rfl⟩
    exact key _ _
  rcases hfs with e | ⟨f, hf⟩
  · simp [e]
  simp only [hf]
  have hFB := H.firsts_fb hc hf
  have hsub := firstSets_sub hf
  have hitems : ∀ it ∈ (o.sets (t.sets.map (·.1))).flatMap (fun i => (t.sets[i]?.map (·.1)).getD []), it.la = cNullSymbol := by
    intro it hit
    obtain ⟨i, -, hi⟩ := List.mem_flatMap.mp hit
    have hi : it ∈ t.kernel i := hi
    obtain ⟨cl, hcl⟩ := LR0.kernel_of_mem hi
    exact (hI.valid i _ _ hcl it hi).2
  rcases H.laMaps_fine hc hFB hsub (fuel := fuel) _ {} hitems ⟨fun p a ha => by simp [mget] at ha, fun i x hx => by simp [mget] at hx⟩ with e | ⟨m, e, hm⟩
  · simp [e]
  simp only [e]
  rcases H.las_loop_fine hm fuel { las := ((o.sets (t.sets.map (·.1))).flatMap fun i => (t.sets[i]?.map (·.1)).getD []).foldl (initLas g m) [] }
    (H.initLas_lb hc hm _ [] (fun i a ha => by simp [mget] at ha)) with e | ⟨l, e, hl⟩
  · simp [e]
  simp only [e]
  rcases H.lr1Sets_fine (f := f) (fuel := fuel) (t := t) (las := l.las) (o.sets (t.sets.map (·.1))) [] with e | ⟨sets, hsets⟩
  · simp [e]
  simp only [hsets]
  obtain ⟨tab, h1, h2⟩ := H.actionTable_fine hc (t := t) (sets := sets) sets (by
    intro s hs
    rcases lr1Sets_spec hsets s hs with h | ⟨a1, a2, a3⟩
    · cases h
    have hlt : s.index < t.sets.length := by simpa using ho _ _ a1
    obtain ⟨st, hst, hk⟩ := H.kernels_in hc hall h00 hI s.index hlt
    refine ⟨(closureLoop_sorted a3 List.Pairwise.nil).nodup, st, hst, hall st hst, ?_⟩
    have hker : ∀ x ∈ s.kernel, H.In st x ∧ H.W x.prod x.la := by
      intro x hx
      rw [a2] at hx
      obtain ⟨it, hit, hla, e1, e2⟩ : ∃ it ∈ t.kernel s.index, x.la ∈ mget l.las it ∧ x.prod = it.prod ∧ x.dot = it.dot := by
        obtain ⟨it, hit, la, hla, rfl⟩ := mem_lr1Kernel.mp hx
        exact ⟨it, hit, hla, rfl, rfl⟩
      have := hk it hit
      exact ⟨⟨by rw [e1]; exact this.1, by rw [e1, e2]; exact this.2⟩, by rw [e1]; exact hl it _ hla⟩
    have b1 := H.closure_in hc (hall st hst).1 (las := fun it => lookaheadsAfter f it.la ((g.body it.prod).drop (it.dot + 1))) a3 (fun x hx => (hker x hx).1)
    have b2 := H.closure2 hc hFB hsub (fun x hx => (hker x hx).2) a3
    exact fun x hx => ⟨b1 x hx, b2 x hx⟩)
  exact .inr ⟨⟨g.rootSet t (o.sets (t.sets.map (·.1))), tab⟩, by simp only [h1], h2⟩

end Hom

/-- A grammar that looks like that of a checked certificate has a parse table. -/
theorem cert_generate {g : Grammar} {c : Cert} (H : Hom g c) (hc : c.check = true) {o : Orders} (ho : ∀ ks i, i ∈ o.sets ks → i < ks.length) :
    ∃ n tb, H.Rows tb.actions ∧ ∀ fuel, n ≤ fuel → g.generate o fuel = .ok tb := by
  simp only [Cert.check, Bool.and_eq_true, List.all_eq_true] at hc
  obtain ⟨⟨h1, h2⟩, h3⟩ := hc
  have h00 : ∃ st, c.states[0]? = some st ∧ (0, 0) ∈ st.1 := by
    cases h : c.states[0]? with
    | none => rw [h] at h2; simp at h2
    | some st => rw [h] at h2; exact ⟨st, rfl, by simpa using h2⟩
  obtain ⟨n, r, hr, hn⟩ := generate_settles (g := g) o
  simp only at hn
  rcases H.generate_fine h1 h3 h00 ho n with e | ⟨tb, e, hrows⟩
  · rw [hn n (Nat.le_refl _)] at e; exact absurd e hr
  · refine ⟨n, tb, hrows, fun k hk => ?_⟩
    rw [hn k hk, ← e, hn n (Nat.le_refl _)]

end Grammar
end LogSurgeon
