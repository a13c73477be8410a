import Verif.Proofs.SchemaMachine
import Verif.Proofs.SchemaTree
/-
The machine needs the text of a token only while the token is on top of the stack.
-/
namespace LogSurgeon
open Grammar

/-! ### What the semantic rules read -/

/-- Children that differ at most in the texts of tokens. -/
def SameChild : SemChild → SemChild → Prop
  | .tok _, .tok _ => True
  | .val v, .val w => v = w
  | _, _ => False

/-- The token a rule reads. -/
def SemRule.reads : SemRule → Option Nat
  | .newIdentifier | .literal | .newInteger => some 0
  | .existingIdentifier | .cancelLiteral | .existingInteger => some 1
  | _ => none

theorem sameChild_get {cs cs' : List SemChild} (h : List.Forall₂ SameChild cs cs') (i : Nat) :
    (cs[i]? = none ∧ cs'[i]? = none) ∨ ∃ a b, cs[i]? = some a ∧ cs'[i]? = some b ∧ SameChild a b := by
  induction h generalizing i with
  | nil => exact .inl ⟨rfl, rfl⟩
  | @cons a b as bs hab _ ih =>
    cases i with
    | zero => exact .inr ⟨a, b, rfl, rfl, hab⟩
    | succ i => simpa using ih i

theorem childVal_same {α : Type} {cs cs' : List SemChild} (h : List.Forall₂ SameChild cs cs') (i : Nat) (f : Option SemChild → α)
    (hf : ∀ u, f (some (.tok u)) = f none) : f cs[i]? = f cs'[i]? := by
  rcases sameChild_get h i with ⟨h1, h2⟩ | ⟨a, b, h1, h2, h3⟩
  · rw [h1, h2]
  · rw [h1, h2]
    cases a with
    | tok u => cases b with
      | tok u' => rw [hf, hf]
      | val v => exact h3.elim
    | val v => cases b with
      | tok u' => exact h3.elim
      | val w => rw [show v = w from h3]

section
variable {cs cs' : List SemChild} (h : List.Forall₂ SameChild cs cs') (i : Nat)
include h
theorem childRegex_same : childRegex cs i = childRegex cs' i := childVal_same h i (fun o => (match o with | some (.val (.regex r)) => .ok r | _ => .error .ub : Except Fail (Regex))) (fun _ => rfl)
theorem childSchema_same : childSchema cs i = childSchema cs' i := childVal_same h i (fun o => (match o with | some (.val (.schema r)) => .ok r | _ => .error .ub : Except Fail (SchemaAST))) (fun _ => rfl)
theorem childVar_same : childVar cs i = childVar cs' i := childVal_same h i (fun o => (match o with | some (.val (.var r)) => .ok r | _ => .error .ub : Except Fail (SchemaVar))) (fun _ => rfl)
theorem childDelims_same : childDelims cs i = childDelims cs' i := childVal_same h i (fun o => (match o with | some (.val (.delims r)) => .ok r | _ => .error .ub : Except Fail (List Nat))) (fun _ => rfl)
theorem childIdent_same : childIdent cs i = childIdent cs' i := childVal_same h i (fun o => (match o with | some (.val (.ident r)) => .ok r | _ => .error .ub : Except Fail (List Nat))) (fun _ => rfl)
end

theorem apply_same (r : SemRule) (start : Nat) {cs cs' : List SemChild} (h : List.Forall₂ SameChild cs cs')
    (hr : ∀ i, r.reads = some i → cs[i]? = cs'[i]?) : r.apply start cs = r.apply start cs' := by
  have hc : ∀ i, r.reads = some i → childChar cs i = childChar cs' i := by
    intro i hi; unfold childChar; rw [hr i hi]
  have ho : ∀ i, r.reads = some i → childOneChar cs i = childOneChar cs' i := by
    intro i hi; unfold childOneChar; rw [hr i hi]
  cases r <;> simp only [SemRule.apply, childRegex_same h, childSchema_same h, childVar_same h, childDelims_same h, childIdent_same h]
  case newIdentifier => rw [hc 0 rfl]
  case existingIdentifier => rw [hc 1 rfl]
  case literal => rw [ho 0 rfl]
  case cancelLiteral => rw [ho 1 rfl]
  case existingInteger => rw [ho 1 rfl]
  case newInteger => rw [ho 0 rfl]

theorem reads_last : ∀ x ∈ D0, ∀ i, x.2.reads = some i → i + 1 = x.1.2.length := by
  have key : ∀ x ∈ D0, (match x.2.reads with | some i => decide (i + 1 = x.1.2.length) | none => true) = true := by decide +kernel
  intro x hx i hi
  have := key x hx
  rw [hi] at this
  simpa using this

/-- The rule of every production reads at most the last of its children. -/
theorem schema_reads {sp : List String} (hsp : sp.Perm schemaSpecials) {p : Nat} {r : SemRule} (hr : schemaRuleOf sp p = some r) {i : Nat}
    (hi : r.reads = some i) : i + 1 = ((schemaGrammar sp).body p).length := by
  cases hd : (schemaGrammar sp).decls[p]? with
  | none => unfold schemaRuleOf at hr; rw [hd] at hr; cases hr
  | some d =>
    have := reads_last _ (ruleOf_mem hsp p d r hd hr) i hi
    simp only at this
    have hp := (schema_conditions hsp).1
    have hB : Grammar.BuildOk _ "Schema" (schemaProductions sp) (schemaGrammar sp) :=
      Grammar.build_ok (terms := schemaTerminals sp) (start := "Schema") (bd := ["Comment"]) (ds := (schemaProductions sp).tail) hp
    obtain ⟨pr, h1, h2⟩ := forall₂_getElem? hB.names.prods hd
    rw [this, ← h2.2.length_eq]
    unfold body
    rw [h1]
    rfl

/-! ### The stacks -/

/-- The same symbol, with related tokens. -/
inductive Twin (Q : Token → Token → Prop) : Matched → Matched → Prop
  | tok {a b} : Q a b → Twin Q (.tok a) (.tok b)
  | nt {a b p v n} : Twin Q (.nt a p v n) (.nt b p v n)

/-- The same stacks, except that the texts of tokens below the top need not be the same. -/
structure TwinStack (Q : Token → Token → Prop) (textc textl : Token → List Nat) (mc ml : MStack) : Prop where
  states : mc.states = ml.states
  twins : List.Forall₂ (Twin Q) mc.matched ml.matched
  top : ∀ a b, mc.matched.head? = some (.tok a) → ml.matched.head? = some (.tok b) → textc a = textl b

variable {textc textl : Token → List Nat} {Q : Token → Token → Prop}

theorem Twin.len {a b : Matched} (hQ : ∀ a b, Q a b → (textc a).length = (textl b).length) (h : Twin Q a b) : a.len textc = b.len textl := by
  cases h with
  | tok h => exact hQ _ _ h
  | nt => rfl

theorem Twin.child {a b : Matched} (h : Twin Q a b) : SameChild (a.child textc) (b.child textl) := by
  cases h with
  | tok h => trivial
  | nt => rfl

theorem twins_len (hQ : ∀ a b, Q a b → (textc a).length = (textl b).length) {as bs : List Matched} (h : List.Forall₂ (Twin Q) as bs) : as.map (Matched.len textc) = bs.map (Matched.len textl) := by
  induction h with
  | nil => rfl
  | cons h _ ih => rw [List.map_cons, List.map_cons, ih, h.len hQ]

variable {g : Grammar} {tb : Grammar.Table} {ruleOf : Nat → Option SemRule} {resets : Nat → Bool}

/-- What two steps lead to. -/
def TwinRes (Q : Token → Token → Prop) (textc textl : Token → List Nat) (tokc tokl : Token) : Except MFail MStack × Statics → Except MFail MStack × Statics → Prop
  | (.error e, Gc), (.error e', Gl) => e = e' ∧ Gc.kids = Gl.kids
  | (.ok sc, Gc), (.ok sl, Gl) => TwinStack Q textc textl sc sl ∧ sc.next = some tokc ∧ sl.next = some tokl ∧ Gc.kids = Gl.kids ∧
      (∃ a p v n ms, sc.matched = .nt a p v n :: ms)
  | _, _ => False

theorem reduceM_twin (hQ : ∀ a b, Q a b → (textc a).length = (textl b).length) (hlast : ∀ p r, ruleOf p = some r → ∀ i, r.reads = some i → i + 1 = (g.body p).length) {mc ml : MStack}
    (h : TwinStack Q textc textl mc ml) (tokc tokl : Token) (p : Nat) {Gc Gl : Statics} (hk : Gc.kids = Gl.kids) :
    TwinRes Q textc textl tokc tokl (reduceM g tb ruleOf resets textc mc tokc p Gc) (reduceM g tb ruleOf resets textl ml tokl p Gl) := by
  obtain ⟨hs, hm, ht⟩ := h
  unfold reduceM
  simp only
  rw [hs, hk, hm.length_eq]
  by_cases h1 : (decide (ml.states.length < (g.body p).length) || decide (ml.matched.length < (g.body p).length)) = true
  · rw [if_pos h1, if_pos h1]; exact ⟨rfl, hk⟩
  rw [if_neg h1, if_neg h1]
  by_cases h2 : 0 < (g.body p).length ∧ cSizeOfAllChildren < Gl.kids + (g.body p).length
  · rw [if_pos h2, if_pos h2]; exact ⟨rfl, rfl⟩
  rw [if_neg h2, if_neg h2]
  simp only [Bool.or_eq_true, decide_eq_true_eq, not_or, Nat.not_lt] at h1
  have hr : ∀ (m : MStack), m.matched.length = ml.matched.length → ∀ {α : Type} (G' : Statics) (f : Matched → α),
      ((List.range (g.body p).length).map fun i => f ((G'.store Gl.kids (m.matched.take (g.body p).length).reverse).arr (Gl.kids + i))) =
        ((m.matched.take (g.body p).length).reverse).map f := by
    intro m hml α G' f
    have := store_read G' Gl.kids (m.matched.take (g.body p).length).reverse f
    rw [List.length_reverse, List.length_take, hml, Nat.min_eq_left h1.2] at this
    exact this
  simp only [hr mc hm.length_eq, hr ml rfl]
  have hd : List.Forall₂ (Twin Q) (mc.matched.drop (g.body p).length) (ml.matched.drop (g.body p).length) := List.forall₂_drop _ hm
  have htk : List.Forall₂ (Twin Q) (mc.matched.take (g.body p).length).reverse (ml.matched.take (g.body p).length).reverse :=
    List.rel_reverse (List.forall₂_take _ hm)
  rw [twins_len hQ hd, twins_len hQ htk]
  cases hrule : ruleOf p with
  | none => exact ⟨rfl, rfl⟩
  | some r =>
    simp only
    have hsame : List.Forall₂ SameChild ((mc.matched.take (g.body p).length).reverse.map (Matched.child textc))
        ((ml.matched.take (g.body p).length).reverse.map (Matched.child textl)) := by
      rw [List.forall₂_map_left_iff, List.forall₂_map_right_iff]
      exact htk.imp fun _ _ h => h.child
    have happ := apply_same r (((ml.matched.drop (g.body p).length).map (Matched.len textl)).sum) hsame (by
      intro i hi
      have hn := hlast p r hrule i hi
      have e : ∀ (m : MStack) (f : Matched → SemChild), m.matched.length = ml.matched.length →
          (((m.matched.take (g.body p).length).reverse).map f)[i]? = m.matched.head?.map f := by
        intro m f hml
        rw [List.getElem?_map, List.getElem?_reverse (by simp; omega)]
        congr 1
        rw [List.length_take, Nat.min_eq_left (by omega), show (g.body p).length - 1 - i = 0 by omega, List.getElem?_take, if_pos (by omega), List.head?_eq_getElem?]
      rw [e mc _ hm.length_eq, e ml _ rfl]
      cases hc : mc.matched with
      | nil =>
        cases hl : ml.matched with
        | nil => rfl
        | cons b bs => rw [hc, hl] at hm; cases hm
      | cons a as =>
        cases hl : ml.matched with
        | nil => rw [hc, hl] at hm; cases hm
        | cons b bs =>
          rw [hc, hl] at hm
          cases hm with
          | cons hab _ =>
            cases hab with
            | tok _ =>
              have := ht _ _ (by rw [hc]; rfl) (by rw [hl]; rfl)
              simp only [List.head?_cons, Option.map_some, Matched.child, this]
            | nt => rfl)
    rw [happ]
    cases r.apply (((ml.matched.drop (g.body p).length).map (Matched.len textl)).sum) ((ml.matched.take (g.body p).length).reverse.map (Matched.child textl)) with
    | error e => exact ⟨rfl, rfl⟩
    | ok v =>
      simp only
      have hst : ∀ {x y : Statics} {l l' : List Matched} {n n' : Nat}, x.kids = y.kids → (x.store n l).kids = (y.store n' l').kids := fun h => h
      cases ml.states.drop (g.body p).length with
      | nil => exact ⟨rfl, rfl⟩
      | cons q qs =>
        cases q with
        | none => exact ⟨rfl, rfl⟩
        | some q =>
          simp only
          cases tb.actions.lookup q with
          | none => exact ⟨rfl, rfl⟩
          | some acts =>
            simp only
            cases acts[g.head p]? with
            | none => exact ⟨rfl, rfl⟩
            | some a =>
              cases a with
              | flag x => exact ⟨rfl, rfl⟩
              | reduce x => exact ⟨rfl, rfl⟩
              | shift q' =>
                refine ⟨⟨rfl, .cons .nt hd, ?_⟩, rfl, rfl, rfl, _, _, _, _, _, rfl⟩
                intro a b h; cases h

/-- The same for one symbol. -/
def TwinSym (Q : Token → Token → Prop) (textc textl : Token → List Nat) (tokc tokl : Token) : Except MFail MSym × Statics → Except MFail MSym × Statics → Prop
  | (.error e, Gc), (.error e', Gl) => e = e' ∧ Gc.kids = Gl.kids
  | (.ok .no, Gc), (.ok .no, Gl) => Gc.kids = Gl.kids
  | (.ok .accepted, Gc), (.ok .accepted, Gl) => Gc.kids = Gl.kids
  | (.ok (.moved sc), Gc), (.ok (.moved sl), Gl) => TwinStack Q textc textl sc sl ∧ Gc.kids = Gl.kids ∧
      ((sc.next = none ∧ sl.next = none ∧ (∃ ms, sc.matched = .tok tokc :: ms) ∧ (∃ ms, sl.matched = .tok tokl :: ms)) ∨
        (sc.next = some tokc ∧ sl.next = some tokl ∧ ∃ a p v n ms, sc.matched = .nt a p v n :: ms))
  | _, _ => False

theorem parseSymbolM_twin (hQ : ∀ a b, Q a b → (textc a).length = (textl b).length) (hlast : ∀ p r, ruleOf p = some r → ∀ i, r.reads = some i → i + 1 = (g.body p).length) {mc ml : MStack}
    (h : TwinStack Q textc textl mc ml) (hn : mc.next = none) (hn' : ml.next = none) {tokc tokl : Token} (htok : textc tokc = textl tokl) (hq : Q tokc tokl) (ty : Nat) {Gc Gl : Statics}
    (hk : Gc.kids = Gl.kids) :
    TwinSym Q textc textl tokc tokl (parseSymbolM g tb ruleOf resets textc mc tokc ty Gc) (parseSymbolM g tb ruleOf resets textl ml tokl ty Gl) := by
  unfold parseSymbolM
  rw [h.states]
  cases ml.states with
  | nil => exact ⟨rfl, hk⟩
  | cons q qs =>
    cases q with
    | none => exact ⟨rfl, hk⟩
    | some q =>
      simp only
      cases tb.actions.lookup q with
      | none => exact ⟨rfl, hk⟩
      | some acts =>
        simp only
        cases acts[ty]? with
        | none => exact ⟨rfl, hk⟩
        | some a =>
          cases a with
          | flag x => cases x <;> exact hk
          | shift q' =>
            refine ⟨⟨rfl, .cons (.tok hq) h.twins, ?_⟩, hk, .inl ⟨hn, hn', ⟨_, rfl⟩, ⟨_, rfl⟩⟩⟩
            intro a b h1 h2; cases h1; cases h2; exact htok
          | reduce p =>
            simp only
            have := reduceM_twin (tb := tb) (resets := resets) hQ hlast h tokc tokl p hk
            generalize reduceM g tb ruleOf resets textc mc tokc p Gc = x at this
            generalize reduceM g tb ruleOf resets textl ml tokl p Gl = y at this
            obtain ⟨x, Gx⟩ := x
            obtain ⟨y, Gy⟩ := y
            cases x with
            | error e =>
              cases y with
              | error e' => exact this
              | ok _ => exact this.elim
            | ok sc =>
              cases y with
              | error e' => exact this.elim
              | ok sl => exact ⟨this.1, this.2.2.2.1, .inr ⟨this.2.1, this.2.2.1, this.2.2.2.2⟩⟩

theorem parseAdvanceM_twin (hQ : ∀ a b, Q a b → (textc a).length = (textl b).length) (hlast : ∀ p r, ruleOf p = some r → ∀ i, r.reads = some i → i + 1 = (g.body p).length) {mc ml : MStack}
    (h : TwinStack Q textc textl mc ml) (hn : mc.next = none) (hn' : ml.next = none) {tokc tokl : Token} (htok : textc tokc = textl tokl) (hq : Q tokc tokl) :
    ∀ (tys : List Nat) {Gc Gl : Statics}, Gc.kids = Gl.kids →
    TwinSym Q textc textl tokc tokl (parseAdvanceM g tb ruleOf resets textc mc tokc tys Gc) (parseAdvanceM g tb ruleOf resets textl ml tokl tys Gl) := by
  intro tys
  induction tys with
  | nil => intro Gc Gl hk; exact hk
  | cons ty tys ih =>
    intro Gc Gl hk
    rw [parseAdvanceM, parseAdvanceM]
    have := parseSymbolM_twin (tb := tb) (resets := resets) hQ hlast h hn hn' htok hq ty hk
    generalize parseSymbolM g tb ruleOf resets textc mc tokc ty Gc = x at this
    generalize parseSymbolM g tb ruleOf resets textl ml tokl ty Gl = y at this
    obtain ⟨x, Gx⟩ := x
    obtain ⟨y, Gy⟩ := y
    cases x with
    | error e =>
      cases y with
      | error e' => exact this
      | ok r => cases r <;> exact this.elim
    | ok sc =>
      cases y with
      | error e' => cases sc <;> exact this.elim
      | ok sl =>
        cases sc <;> cases sl <;> first | exact this.elim | exact ih this | exact this

end LogSurgeon
