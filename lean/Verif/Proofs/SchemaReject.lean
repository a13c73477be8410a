import Verif.Proofs.SchemaTextComplete
import Verif.Props.LalrTotal
/-
What happens on texts that are no schema files.
-/
namespace LogSurgeon
open Grammar

/-! ### Syntax -/

section
variable {decls prods : List (String × List String)} {isTok : Token → String → Prop} {text : Token → List Nat}

theorem derives_of_tree (hall : ∀ (i : Nat) d, decls[i]? = some d → d.1 = "$START_PRIME" ∨ d ∈ prods) (hno : ∀ d ∈ prods, "$START_PRIME" ∉ d.2)
    {ss : List String} {ts : List Tree} {w : List Token} (h : Derivation decls isTok ss ts w) : "$START_PRIME" ∉ ss →
    ∀ {ls : List Lexeme}, List.Forall₂ (SameUnit isTok text) w ls → Derives prods (fun l s => Stands s l) ss ls := by
  induction h with
  | nil => intro _ ls hl; cases hl; exact .nil
  | tok ht _ ih =>
    intro hss ls hl
    simp only [List.mem_cons, not_or] at hss
    cases hl with
    | cons hx hl => exact .tok ((hx.2 _).mp ht) (ih hss.2 hl)
  | @prod i head body cs ss ts w w' hd _ _ ih1 ih2 =>
    intro hss ls hl
    simp only [List.mem_cons, not_or] at hss
    obtain ⟨l1, l2, rfl, hl1, hl2⟩ := forall₂_append_inv hl
    rcases hall i _ hd with h | h
    · exact absurd h.symm hss.1
    · exact .prod h (ih1 (hno _ h) hl1) (ih2 hss.2 hl2)

theorem tree_of_derives (hall : ∀ d ∈ prods, ∃ i : Nat, decls[i]? = some d) {ss : List String} {ls : List Lexeme}
    (h : Derives prods (fun l s => Stands s l) ss ls) : ∀ {w : List Token}, List.Forall₂ (SameUnit isTok text) w ls →
    ∃ ts, Derivation decls isTok ss ts w := by
  induction h with
  | nil => intro w hw; cases hw; exact ⟨[], .nil⟩
  | tok hs _ ih =>
    intro w hw
    cases hw with
    | cons hx hw =>
      obtain ⟨ts, h1⟩ := ih hw
      exact ⟨_, .tok ((hx.2 _).mpr hs) h1⟩
  | prod hm _ _ ih1 ih2 =>
    intro w hw
    obtain ⟨w1, w2, rfl, hw1, hw2⟩ := forall₂_append_inv' hw
    obtain ⟨cs, h1⟩ := ih1 hw1
    obtain ⟨ts, h3⟩ := ih2 hw2
    obtain ⟨i, hi⟩ := hall _ hm
    exact ⟨_, .prod hi h1 h3⟩

end

/-! ### Failures of semantic rules -/

/-- An exception or undefined behaviour, if it fails. -/
def Tame {α : Type} (x : Except Fail α) : Prop := ∀ e, x = .error e → e = .throws ∨ e = .ub

theorem Tame.ok {α : Type} (a : α) : Tame (.ok a : Except Fail α) := fun _ h => by cases h

theorem Tame.err {α : Type} {e : Fail} (h : e = .throws ∨ e = .ub) : Tame (.error e : Except Fail α) := fun _ h' => by cases h'; exact h

theorem Tame.bind {α β : Type} {x : Except Fail α} {f : α → Except Fail β} (hx : Tame x) (hf : ∀ a, Tame (f a)) : Tame (x >>= f) := by
  intro e h
  cases x with
  | error e' =>
    have h : (Except.error e' : Except Fail β) = .error e := h
    exact hx e (by rw [Except.error.injEq] at h ⊢; exact h)
  | ok a => exact hf a e h

theorem tame_childRegex (cs : List SemChild) (i : Nat) : Tame (childRegex cs i) := by
  unfold childRegex; split <;> first | exact .ok _ | exact .err (.inr rfl)
theorem tame_childSchema (cs : List SemChild) (i : Nat) : Tame (childSchema cs i) := by
  unfold childSchema; split <;> first | exact .ok _ | exact .err (.inr rfl)
theorem tame_childVar (cs : List SemChild) (i : Nat) : Tame (childVar cs i) := by
  unfold childVar; split <;> first | exact .ok _ | exact .err (.inr rfl)
theorem tame_childDelims (cs : List SemChild) (i : Nat) : Tame (childDelims cs i) := by
  unfold childDelims; split <;> first | exact .ok _ | exact .err (.inr rfl)
theorem tame_childIdent (cs : List SemChild) (i : Nat) : Tame (childIdent cs i) := by
  unfold childIdent; split <;> first | exact .ok _ | exact .err (.inr rfl)
theorem tame_childChar (cs : List SemChild) (i : Nat) : Tame (childChar cs i) := by
  unfold childChar; split <;> first | exact .ok _ | exact .err (.inr rfl)
theorem tame_childOneChar (cs : List SemChild) (i : Nat) : Tame (childOneChar cs i) := by
  unfold childOneChar; split <;> first | exact .ok _ | exact .err (.inr rfl)
theorem tame_literalChar_t (r : Regex) : Tame (literalChar .throws r) := by
  unfold literalChar; split <;> first | exact .ok _ | exact .err (.inl rfl)
theorem tame_literalChar_u (r : Regex) : Tame (literalChar .ub r) := by
  unfold literalChar; split <;> first | exact .ok _ | exact .err (.inr rfl)
theorem tame_groupParts (r : Regex) : Tame (groupParts r) := by
  unfold groupParts; split <;> first | exact .ok _ | exact .err (.inr rfl)
theorem tame_integerDigits (r : Regex) : Tame (integerDigits r) := by
  unfold integerDigits; split <;> first | exact .ok _ | exact .err (.inr rfl)
theorem tame_onlyRange (r : List Range) : Tame (onlyRange r) := by
  unfold onlyRange; split <;> first | exact .ok _ | exact .err (.inr rfl)
theorem tame_countOf (r : List Nat) : Tame (countOf r) := by
  unfold countOf; split <;> first | exact .ok _ | exact .err (.inr rfl)

theorem apply_tame (r : SemRule) (k : Nat) (cs : List SemChild) : Tame (r.apply k cs) := by
  cases r <;> unfold SemRule.apply <;>
    repeat' first
      | exact .ok _
      | exact .err (.inr rfl)
      | exact tame_childRegex _ _ | exact tame_childSchema _ _ | exact tame_childVar _ _ | exact tame_childDelims _ _
      | exact tame_childIdent _ _ | exact tame_childChar _ _ | exact tame_childOneChar _ _ | exact tame_literalChar_t _
      | exact tame_literalChar_u _ | exact tame_groupParts _ | exact tame_integerDigits _ | exact tame_onlyRange _ | exact tame_countOf _
      | refine Tame.bind ?_ fun _ => ?_
      | split

section
variable (ruleOf : Nat → Option SemRule) (text : Token → List Nat)

mutual
theorem eval_tame : ∀ (t : Tree) (k : Nat), Tame (t.eval ruleOf text k)
  | .leaf t, k => by unfold Tree.eval; exact .ok _
  | .node p cs, k => by
    unfold Tree.eval
    split
    · rename_i e he
      exact .err (evals_tame cs k e he)
    · split
      · exact .err (.inr rfl)
      · split
        · rename_i e he
          exact .err (apply_tame _ _ _ e he)
        · exact .ok _
theorem evals_tame : ∀ (ts : List Tree) (k : Nat), Tame (Tree.eval.evals ruleOf text ts k)
  | [], k => by unfold Tree.eval.evals; exact .ok _
  | t :: ts, k => by
    unfold Tree.eval.evals
    split
    · rename_i e he
      exact .err (eval_tame t k e he)
    · split
      · rename_i e he
        exact .err (evals_tame ts _ e he)
      · exact .ok _
end
end

theorem schemaOfTree_tame (sp : List String) (text : Token → List Nat) (t : Tree) : Tame (schemaOfTree sp text t) := by
  unfold schemaOfTree
  split
  · exact .ok _
  · exact .err (.inr rfl)
  · rename_i e he
    exact .err (eval_tame _ _ t 0 e he)

/-! ### The outcome -/

/-- The text is a schema file by the grammar. -/
def SchemaSyntax (ls : List Lexeme) : Prop := Derives (schemaProductions schemaSpecials) (fun l s => Stands s l) ["Schema"] ls

end LogSurgeon
