import Verif.Proofs.ErrorReport
import Verif.Proofs.Expected
import Verif.Proofs.Conflict
import Verif.Proofs.SchemaFault
import Verif.Spec.ErrorMessage
/-
Syntax errors in schema files.
-/
namespace LogSurgeon
open Grammar

/-! ### Derivations of tokens and of units -/

section
variable {decls prods : List (String × List String)} {isTok : Token → String → Prop}

theorem units_of_tokens (hall : ∀ (i : Nat) d, decls[i]? = some d → d.1 = "$START_PRIME" ∨ d ∈ prods) (hno : ∀ d ∈ prods, "$START_PRIME" ∉ d.2)
    {ss : List String} {ts : List Tree} {w : List Token} (h : Derivation decls isTok ss ts w) : "$START_PRIME" ∉ ss →
    ∀ {ls : List Lexeme}, List.Forall₂ (fun t l => ∀ s, isTok t s → Stands s l) w ls → Derives prods (fun l s => Stands s l) ss ls := by
  induction h with
  | nil => intro _ ls hl; cases hl; exact .nil
  | tok ht _ ih =>
    intro hss ls hl
    simp only [List.mem_cons, not_or] at hss
    cases hl with
    | cons hx hl => exact .tok (hx _ ht) (ih hss.2 hl)
  | @prod i head body cs ss ts w w' hd _ _ ih1 ih2 =>
    intro hss ls hl
    simp only [List.mem_cons, not_or] at hss
    obtain ⟨l1, l2, rfl, hl1, hl2⟩ := forall₂_append_inv hl
    rcases hall i _ hd with h | h
    · exact absurd h.symm hss.1
    · exact .prod h (ih1 (hno _ h) hl1) (ih2 hss.2 hl2)

theorem tokens_of_units (hall : ∀ d ∈ prods, ∃ i : Nat, decls[i]? = some d) {ss : List String} {ls : List Lexeme}
    (h : Derives prods (fun l s => Stands s l) ss ls) : ∀ {w : List Token}, List.Forall₂ (fun t l => ∀ s, Stands s l → isTok t s) w ls →
    ∃ ts, Derivation decls isTok ss ts w := by
  induction h with
  | nil => intro w hw; cases hw; exact ⟨[], .nil⟩
  | tok hs _ ih =>
    intro w hw
    cases hw with
    | cons hx hw =>
      obtain ⟨ts, h1⟩ := ih hw
      exact ⟨_, .tok (hx _ hs) h1⟩
  | prod hm _ _ ih1 ih2 =>
    intro w hw
    obtain ⟨w1, w2, rfl, hw1, hw2⟩ := forall₂_append_inv' hw
    obtain ⟨cs, h1⟩ := ih1 hw1
    obtain ⟨ts, h3⟩ := ih2 hw2
    obtain ⟨i, hi⟩ := hall _ hm
    exact ⟨_, .prod hi h1 h3⟩

theorem derives_stands {ss : List String} {ls : List Lexeme} (h : Derives prods (fun l s => Stands s l) ss ls) : ∀ l ∈ ls, ∃ s, Stands s l := by
  induction h with
  | nil => intro l hl; cases hl
  | tok hs _ ih =>
    intro l hl
    rcases List.mem_cons.mp hl with rfl | hl
    · exact ⟨_, hs⟩
    · exact ih l hl
  | prod _ _ _ ih1 ih2 =>
    intro l hl
    rcases List.mem_append.mp hl with hl | hl
    · exact ih1 l hl
    · exact ih2 l hl

end

theorem stands_bytes {s : String} {l : Lexeme} (h : Stands s l) : AllBytes l.text := by
  cases l with
  | delimiters =>
    have : ∀ c ∈ delimitersWord, c < 256 := by decide
    exact this
  | char c =>
    obtain ⟨x, hx, _, r, hr, _, h2⟩ := h
    have hall : ∀ x ∈ charToks, ∀ r ∈ x.2, r.2 < 256 := by decide
    have := hall x hx r hr
    intro y hy
    simp only [Lexeme.text, List.mem_singleton] at hy
    subst hy
    unfold cSizeOfByte
    omega

theorem single_tree {decls : List (String × List String)} {isTok : Token → String → Prop} {s : String} {ts : List Tree} {w : List Token}
    (h : Derivation decls isTok [s] ts w) : ∃ t, ts = [t] := by
  cases h with
  | tok _ h => cases h; exact ⟨_, rfl⟩
  | prod _ _ h => cases h; exact ⟨_, rfl⟩

/-! ### The grammar of schema files -/

theorem schema_decent {sp : List String} (hsp : sp.Perm schemaSpecials) :
    Decent (schemaTerminals sp) "Schema" ["Comment"] (schemaProductions sp).tail (schemaGrammar sp) := by
  obtain ⟨c1, c2, c3, c4, c5, c6, c7⟩ := schema_conditions hsp
  refine ⟨rfl, c1, c2, c3, c4, c5, c6, c7, ?_⟩
  have h : ∀ d ∈ schemaProductions schemaSpecials, d.2.length ≤ 5000 := by decide +kernel
  intro d hd
  exact h d ((mem_schemaProductions hsp d).mp hd)

section
variable {sp : List String} (hsp : sp.Perm schemaSpecials)
include hsp

theorem schema_decl (i : Nat) (d : String × List String) (hi : (schemaGrammar sp).decls[i]? = some d) :
    d.1 = "$START_PRIME" ∨ d ∈ schemaProductions schemaSpecials := by
  rcases decl_cases hsp i d hi with h | ⟨r, h⟩
  · exact .inl h
  · exact .inr (List.mem_map.mpr ⟨(d, r), h, rfl⟩)

theorem schema_has (d : String × List String) (hdm : d ∈ schemaProductions schemaSpecials) : ∃ i : Nat, (schemaGrammar sp).decls[i]? = some d := by
  obtain ⟨⟨d', r⟩, hr, e⟩ := List.mem_map.mp hdm
  simp only at e
  subst e
  obtain ⟨i, hi, _⟩ := ruleOf_has hsp d' r hr
  exact ⟨i, hi⟩

/-- For a token a production uses there is a unit. -/
theorem nice_unit {x : Token} (hx : Nice (schemaGrammar sp) x) :
    ∃ l : Lexeme, ∀ s, (schemaGrammar sp).IsTok (reserved.map (·.1) ++ schemaTerminals sp) x s → Stands s l := by
  obtain ⟨ty, h1, -, p, hp, hty⟩ := hx
  have hB : Grammar.BuildOk _ "Schema" (schemaProductions sp) (schemaGrammar sp) :=
    Grammar.build_ok (terms := schemaTerminals sp) (start := "Schema") (bd := ["Comment"]) (ds := (schemaProductions sp).tail)
      (schema_conditions hsp).1
  obtain ⟨i, hi⟩ := List.getElem?_of_mem hp
  obtain ⟨d, hd, -, hf⟩ := hB.names.decl hi
  obtain ⟨n, hn, hlk⟩ := forall₂_mem_left hf hty
  have hmem : n ∈ schemaTerminals sp → ∃ l : Lexeme, Stands n l := by
    intro h
    have hall : ∀ n ∈ schemaTerminals schemaSpecials, n = "Delimiters" ∨ ∃ x ∈ charToks, x.1 = n ∧ ∃ r ∈ x.2, r.1 ≤ r.2 := by decide +kernel
    rcases hall n ((mem_schemaTerminals hsp n).mp h) with h | ⟨x, hx, e, r, hr, hle⟩
    · exact ⟨.delimiters, h⟩
    · exact ⟨.char r.1, x, hx, e, r, hr, Nat.le_refl _, hle⟩
  have hres : n ∉ reserved.map (·.1) := by
    by_cases hi1 : i = 1
    · subst hi1
      have := hd.symm.trans hB.prime
      simp only [Option.some.injEq] at this
      rw [this] at hn
      simp only [List.mem_singleton] at hn
      rw [hn]; decide
    · have h := (mem_schemaProductions hsp d).mp (hB.decls i d hd hi1)
      have hall : ∀ d ∈ schemaProductions schemaSpecials, ∀ n ∈ d.2, n ∉ reserved.map (·.1) := by decide +kernel
      exact hall d h n hn
  by_cases hm : n ∈ schemaTerminals sp
  · obtain ⟨l, hl⟩ := hmem hm
    refine ⟨l, fun s hs => ?_⟩
    obtain ⟨_, id, tys, e1, e2, e3⟩ := hs
    rw [h1] at e2
    cases e2
    rw [List.mem_singleton.mp e3] at e1
    rw [schema_names hsp e1 hlk]
    exact hl
  · refine ⟨.delimiters, fun s hs => ?_⟩
    obtain ⟨hs0, id, tys, e1, e2, e3⟩ := hs
    rw [h1] at e2
    cases e2
    rw [List.mem_singleton.mp e3] at e1
    have := schema_names hsp e1 hlk
    subst this
    rcases List.mem_append.mp hs0 with h | h
    · exact absurd h hres
    · exact absurd h hm

theorem nice_units : ∀ {z : List Token}, (∀ x ∈ z, Nice (schemaGrammar sp) x) →
    ∃ more : List Lexeme, List.Forall₂ (fun t l => ∀ s, (schemaGrammar sp).IsTok (reserved.map (·.1) ++ schemaTerminals sp) t s → Stands s l) z more
  | [], _ => ⟨[], .nil⟩
  | x :: z, h => by
    obtain ⟨l, hl⟩ := nice_unit hsp (h x (by simp))
    obtain ⟨more, hm⟩ := nice_units (z := z) (fun y hy => h y (List.mem_cons_of_mem _ hy))
    exact ⟨l :: more, .cons hl hm⟩

end

/-- The symbols of the grammar of schema files: the reserved names, those of the lexical rules and of the productions, and the extra start symbol. -/
def SchemaSymbol (n : String) : Prop :=
  n ∈ reserved.map (·.1) ∨ n = "$START_PRIME" ∨ n ∈ schemaTerminals schemaSpecials ∨ ∃ d ∈ schemaProductions schemaSpecials, n = d.1 ∨ n ∈ d.2

/-- `SchemaFollows x a`: in schema files the terminal `a` may come behind what is derived from `x`. -/
def SchemaFollows : String → String → Prop :=
  LogSurgeon.Follows (reserved.map (·.1) ++ schemaTerminals schemaSpecials) (("$START_PRIME", ["Schema"]) :: schemaProductions schemaSpecials)

/-- What may be listed as expected behind some units of a schema file. -/
def SchemaExpected : List Lexeme → List Nat → Prop :=
  ExpectedName SchemaSyntax (Derives (schemaProductions schemaSpecials) fun l s => Stands s l) (schemaProductions schemaSpecials) SchemaFollows SchemaSymbol

theorem schema_follows {sp : List String} (hsp : sp.Perm schemaSpecials) {o : Orders} {fuel : Nat} {tb : Table}
    (hgen : (schemaGrammar sp).generate o fuel = .ok tb) : ∀ q acts, tb.actions.lookup q = some acts →
    ∀ (i p : Nat), acts[i]? = some (.reduce p) → ∀ d n, (schemaGrammar sp).decls[p]? = some d → (n, i) ∈ (schemaGrammar sp).symbolId →
    SchemaFollows d.1 n := by
  have D := schema_decent hsp
  intro q acts ha i p hi d n hd hn
  refine (reduce_follows D.build D.prime D.size hgen q acts ha i p hi d n hd hn).mono ?_ ?_
  · intro a ha
    rcases List.mem_append.mp ha with ha | ha
    · exact List.mem_append_left _ ha
    · exact List.mem_append_right _ ((mem_schemaTerminals hsp a).mp ha)
  · intro d hd
    rcases List.mem_cons.mp hd with rfl | hd
    · simp
    · exact List.mem_cons_of_mem _ ((mem_schemaProductions hsp d).mp hd)

theorem schema_dense {sp : List String} (hsp : sp.Perm schemaSpecials) : Dense SchemaSymbol (schemaGrammar sp) := by
  unfold schemaGrammar
  refine dense_build (fun n hn => .inl hn) (.inr (.inl rfl)) (fun n hn => ?_) fun d hd => ?_
  · exact .inr (.inr (.inl ((mem_schemaTerminals hsp n).mp hn)))
  · have hd := (mem_schemaProductions hsp d).mp hd
    exact ⟨.inr (.inr (.inr ⟨d, hd, .inl rfl⟩)), fun n hn => .inr (.inr (.inr ⟨d, hd, .inr hn⟩))⟩

/-! ### The rejected token -/

section
variable {sc : List (Nat × String)} (hsc : sc.Perm schemaSpecialChars) {L : Lexer} (hL : SchemaLexOk L (schemaGrammar (sc.map (·.2))))
  {o : Orders} (ho : o.Ok (schemaGrammar (sc.map (·.2)))) {fuel : Nat} {tb : Table} (hgen : (schemaGrammar (sc.map (·.2))).generate o fuel = .ok tb)
  (hclear : ∀ (t : Token) (l : Lexeme), AllBytes l.text → t.types = some (L.dfa.idsOn l.text) → (schemaGrammar (sc.map (·.2))).Clear tb t)
include hsc hL ho hgen hclear

/-- If the parser rejects a token, the units before it can be completed to a schema file, and with it they cannot. -/
theorem schema_rejected {ls : List Lexeme} {toks : List Token} (hu : List.Forall₂ (fun t l => t.types = some (L.dfa.idsOn l.text) ∧ AllBytes l.text) toks ls)
    {e0 : Token} (he0 : e0.types = some [tokenEnd]) {resets : Nat → Bool} {k kids : Nat} {s : PState} {tok : Token} {rest : List Token}
    (h : (schemaGrammar (sc.map (·.2))).stop tb resets k kids (toks ++ [e0]) = .ok (.rejected s tok rest)) :
    ∃ i, i + rest.length = toks.length ∧ (toks ++ [e0])[i]? = some tok ∧ Tree.leaves.all s.matched.reverse = toks.take i ∧
      (∃ q qs acts, s.states = some q :: qs ∧ tb.actions.lookup q = some acts ∧
        ∀ (j : Nat) a, acts[j]? = some a → (∀ b, a ≠ .flag b) → SchemaExpected (ls.take i) (symbolText [] (schemaGrammar (sc.map (·.2))) j)) ∧
      (∃ ns, Derivation (schemaGrammar (sc.map (·.2))).decls ((schemaGrammar (sc.map (·.2))).IsTok (reserved.map (·.1) ++ schemaTerminals (sc.map (·.2)))) ns
        s.matched.reverse (toks.take i) ∧ "$START_PRIME" ∉ ns ∧ ("DelimiterString" ∈ ns → "Delimiters" ∈ ns)) ∧
      (∃ more, SchemaSyntax (ls.take i ++ more)) ∧
      (∀ l, ls[i]? = some l → ∀ more, ¬ SchemaSyntax (ls.take i ++ l :: more)) ∧ (ls[i]? = none → ¬ SchemaSyntax ls) := by
  have hsp := perm_names hsc
  have hprime : ∀ d ∈ schemaProductions schemaSpecials, "$START_PRIME" ∉ d.2 := by decide +kernel
  have hlen := hu.length_eq
  have hcl : ∀ x ∈ toks, (schemaGrammar (sc.map (·.2))).Clear tb x := by
    intro x hx
    obtain ⟨l, _, h3⟩ := forall₂_mem_left hu hx
    exact hclear x l h3.2 h3.1
  obtain ⟨u, t, e1, e2, ⟨sid0, S0⟩, ⟨q0, qs0, acts0, e3, e3'⟩, ⟨ns, n1, n2, n3⟩, ⟨z, tree, e4, e5⟩, e6, e7⟩ := rejected_names (schema_decent hsp) ho hgen (fun x hx => by
    rcases List.mem_append.mp hx with hx | hx
    · exact .inl (hcl x hx)
    · exact .inr (by rw [List.mem_singleton.mp hx]; exact he0)) h
  have htail : ∃ z2, toks = u ++ z2 := by
    rcases List.eq_nil_or_concat rest with rfl | ⟨r', y, rfl⟩
    · rw [show tok :: [] = [tok] from rfl] at e1
      exact ⟨[], by rw [List.append_nil]; exact (List.append_inj' e1 rfl).1⟩
    · rw [List.concat_eq_append, show u ++ tok :: (r' ++ [y]) = (u ++ tok :: r') ++ [y] by simp] at e1
      exact ⟨tok :: r', (List.append_inj' e1 rfl).1⟩
  obtain ⟨z2, hz2⟩ := htail
  have hul : u = toks.take u.length := by rw [hz2]; simp
  have hlu : List.Forall₂ (fun t l => t.types = some (L.dfa.idsOn l.text) ∧ AllBytes l.text) u (ls.take u.length) := by
    have := List.forall₂_take u.length hu
    rw [← hul] at this
    exact this
  have hget : (toks ++ [e0])[u.length]? = some tok := by rw [e1]; simp
  have hisU : List.Forall₂ (fun t l => ∀ s, (schemaGrammar (sc.map (·.2))).IsTok (reserved.map (·.1) ++ schemaTerminals (sc.map (·.2))) t s ↔ Stands s l)
      u (ls.take u.length) := hlu.imp fun t l hx s => isTok_unit hsc hL hx.2 hx.1 s
  -- any derivable list of units has tokens
  have mk : ∀ more : List Lexeme, (∀ l ∈ more, AllBytes l.text) → ∃ z : List Token, (∀ x ∈ z, (schemaGrammar (sc.map (·.2))).Clear tb x) ∧
      List.Forall₂ (fun t l => ∀ s, Stands s l → (schemaGrammar (sc.map (·.2))).IsTok (reserved.map (·.1) ++ schemaTerminals (sc.map (·.2))) t s) z more := by
    intro more
    induction more with
    | nil => intro _; exact ⟨[], by simp, .nil⟩
    | cons l more ih =>
      intro hall
      obtain ⟨z, h1, h2⟩ := ih fun x hx => hall x (by simp [hx])
      refine ⟨{ types := some (L.dfa.idsOn l.text) } :: z, ?_, .cons (fun s hs => (isTok_unit hsc hL (hall l (by simp)) rfl s).mpr hs) h2⟩
      intro x hx
      rcases List.mem_cons.mp hx with rfl | hx
      · exact hclear _ l (hall l (by simp)) rfl
      · exact h1 x hx
  -- from tokens back to units
  have back : ∀ {a v z : List Token} {la lv : List Lexeme} {tree : Tree},
      List.Forall₂ (fun t l => ∀ s, (schemaGrammar (sc.map (·.2))).IsTok (reserved.map (·.1) ++ schemaTerminals (sc.map (·.2))) t s ↔ Stands s l) a la →
      List.Forall₂ (fun t l => ∀ s, (schemaGrammar (sc.map (·.2))).IsTok (reserved.map (·.1) ++ schemaTerminals (sc.map (·.2))) t s ↔ Stands s l) v lv →
      (∀ y ∈ z, Nice (schemaGrammar (sc.map (·.2))) y) →
      Derivation (schemaGrammar (sc.map (·.2))).decls ((schemaGrammar (sc.map (·.2))).IsTok (reserved.map (·.1) ++ schemaTerminals (sc.map (·.2)))) ["Schema"] [tree] (a ++ v ++ z) →
      ∃ more, SchemaSyntax (la ++ lv ++ more) := by
    intro a v z la lv tree ha hv hz hd
    obtain ⟨more, hm⟩ := nice_units hsp hz
    refine ⟨more, units_of_tokens (schema_decl hsp) hprime hd (by decide) ?_⟩
    exact List.rel_append (List.rel_append (ha.imp fun t l hx s => (hx s).mp) (hv.imp fun t l hx s => (hx s).mp)) hm
  have mk2 : ∀ (ss : List String) (lv : List Lexeme), Derives (schemaProductions schemaSpecials) (fun l s => Stands s l) ss lv →
      ∃ v ts, (∀ y ∈ v, Typed (schemaGrammar (sc.map (·.2))) y) ∧
        Derivation (schemaGrammar (sc.map (·.2))).decls ((schemaGrammar (sc.map (·.2))).IsTok (reserved.map (·.1) ++ schemaTerminals (sc.map (·.2)))) ss ts v ∧
        List.Forall₂ (fun t l => ∀ s, (schemaGrammar (sc.map (·.2))).IsTok (reserved.map (·.1) ++ schemaTerminals (sc.map (·.2))) t s ↔ Stands s l) v lv := by
    intro ss lv hder
    have hall := derives_stands hder
    have hbytes : ∀ l ∈ lv, AllBytes l.text := fun l hl => by
      obtain ⟨s, hs⟩ := hall l hl
      exact stands_bytes hs
    have hiff : List.Forall₂ (fun t l => ∀ s, (schemaGrammar (sc.map (·.2))).IsTok (reserved.map (·.1) ++ schemaTerminals (sc.map (·.2))) t s ↔ Stands s l)
        (lv.map fun l => ({ types := some (L.dfa.idsOn l.text) } : Token)) lv := by
      clear hder hall
      induction lv with
      | nil => exact .nil
      | cons l lv ih => exact .cons (fun s => isTok_unit hsc hL (hbytes l (by simp)) rfl s) (ih fun x hx => hbytes x (by simp [hx]))
    obtain ⟨ts, hd⟩ := tokens_of_units (schema_has hsp) hder (hiff.imp fun t l hx s => (hx s).mpr)
    refine ⟨_, ts, fun y hy => ?_, hd, hiff⟩
    obtain ⟨l, hl, rfl⟩ := List.mem_map.mp hy
    exact (hclear _ l (hbytes l hl) rfl).typed
  have hexp : ∀ (j : Nat) a, acts0[j]? = some a → (∀ b, a ≠ .flag b) → SchemaExpected (ls.take u.length) (symbolText [] (schemaGrammar (sc.map (·.2))) j) := by
    intro j a hj hflag
    obtain ⟨n, h1, h2, h3⟩ := entry_names (schema_decent hsp) (schema_follows hsp hgen) S0 hgen (schema_dense hsp)
      (fun x hx => (hcl x (by rw [hz2]; simp [hx])).typed) e2 e3 e3' hj hflag
    refine ⟨n, h1, h2, ?_⟩
    rcases h3 with ⟨hn, ⟨v0, ts0, hv0, hvn0⟩, h3⟩ | ⟨d, hd, hfo, a, b, hab, ⟨ts, hb⟩, h3⟩
    · refine .inl ⟨?_, fun lv hlv => ?_⟩
      · obtain ⟨more, hm⟩ := nice_units hsp hvn0
        refine ⟨more, units_of_tokens (schema_decl hsp) hprime hv0 ?_ hm⟩
        intro hm
        have hm := List.mem_singleton.mp hm
        rcases hn with h | ⟨d, hd, h⟩
        · exact absurd (hm.trans h) (by decide)
        · exact hprime d ((mem_schemaProductions hsp d).mp hd) (hm ▸ h)
      · obtain ⟨v, ts, hv, hder, hiff⟩ := mk2 _ _ hlv
        obtain ⟨z, tree, hz, hzn⟩ := h3 v ts hv hder
        exact back hisU hiff hzn hz
    · have hd' := (mem_schemaProductions hsp d).mp hd
      have hsub : ∀ {lu : List Lexeme}, List.Forall₂ (fun t l => ∀ s, (schemaGrammar (sc.map (·.2))).IsTok (reserved.map (·.1) ++ schemaTerminals (sc.map (·.2))) t s ↔ Stands s l)
          u lu → List.Forall₂ (fun t l => ∀ s, (schemaGrammar (sc.map (·.2))).IsTok (reserved.map (·.1) ++ schemaTerminals (sc.map (·.2))) t s ↔ Stands s l) (a ++ b) lu :=
        fun h => hab ▸ h
      obtain ⟨la, lb, hlab, hla, hlb⟩ := forall₂_append_inv (hsub hisU)
      refine .inr ⟨d, hd', hfo, la, lb, hlab, ?_, fun lv hlv => ?_⟩
      · exact units_of_tokens (schema_decl hsp) hprime hb (hprime d hd') (hlb.imp fun t l hx s => (hx s).mp)
      · obtain ⟨v, ts, hv, hder, hiff⟩ := mk2 _ _ hlv
        obtain ⟨z, tree, hz, hzn⟩ := h3 v ts hv hder
        exact back hla hiff hzn hz
  refine ⟨u.length, ?_, hget, ?_, ⟨q0, qs0, acts0, e3, e3', hexp⟩, ⟨ns, by rw [← hul]; exact n1, ?_, ?_⟩, ?_, ?_, ?_⟩
  · have := congrArg List.length e1
    simp at this
    omega
  · obtain ⟨xs, _, hf⟩ := e2.stacks
    rw [forest_leaves hf, ← hul]
  · intro hm
    rcases n2 _ hm with h | ⟨d, hd, h⟩
    · exact absurd h (by decide)
    · exact hprime d ((mem_schemaProductions hsp d).mp hd) h
  · obtain ⟨sid, t', S⟩ := sound_names (schema_decent hsp).build (schema_decent hsp).prime (schema_decent hsp).sep (schema_decent hsp).primeT
      (schema_decent hsp).productive (schema_decent hsp).size ho hgen
    refine n3 "DelimiterString" "Delimiters" (by decide) (by decide) ?_ ?_
    · obtain ⟨d, hd, hm⟩ : ∃ d ∈ schemaProductions schemaSpecials, "Delimiters" ∈ d.2 := by decide +kernel
      obtain ⟨i, hi⟩ := schema_has hsp d hd
      obtain ⟨p, _, h⟩ := forall₂_mem_right S.names.names.prods (List.mem_of_getElem? hi)
      obtain ⟨x, _, hx⟩ := forall₂_mem_right h.2 hm
      exact ⟨x, hx⟩
    · have key : ∀ d ∈ schemaProductions schemaSpecials, ∀ j < d.2.length, d.2[j]? = some "DelimiterString" → "Delimiters" ∈ d.2.take j ∨ d.1 = "DelimiterString" := by
        decide +kernel
      intro d hd j hj
      exact key d ((mem_schemaProductions hsp d).mp hd) j (List.getElem?_eq_some_iff.mp hj).1 hj
  · obtain ⟨more, hm⟩ := nice_units hsp e5
    refine ⟨more, units_of_tokens (schema_decl hsp) hprime e4 (by decide) ?_⟩
    exact List.rel_append (hisU.imp fun t l hx s => (hx s).mp) hm
  · intro l hl more hsyn
    have hall := derives_stands hsyn
    obtain ⟨z, h1, h2⟩ := mk more fun l' hl' => by
      obtain ⟨s, hs⟩ := hall l' (by simp [hl'])
      exact stands_bytes hs
    have hlt : u.length < toks.length := by
      have := (List.getElem?_eq_some_iff.mp hl).1
      omega
    rw [List.getElem?_append_left hlt] at hget
    obtain ⟨htt, hlb⟩ := (hu.get hlt (by omega))
    have e8 : toks.get ⟨u.length, hlt⟩ = tok := by
      rw [List.getElem?_eq_getElem hlt] at hget
      exact Option.some.inj hget
    have e9 : ls.get ⟨u.length, by omega⟩ = l := by
      rw [List.getElem?_eq_getElem (by omega)] at hl
      exact Option.some.inj hl
    rw [e8, e9] at htt
    rw [e9] at hlb
    obtain ⟨ts, hd⟩ := tokens_of_units (schema_has hsp) hsyn (w := u ++ tok :: z)
      (List.rel_append (hisU.imp fun t l hx s => (hx s).mpr) (.cons (fun s hs => (isTok_unit hsc hL hlb htt s).mpr hs) h2))
    obtain ⟨tr, rfl⟩ := single_tree hd
    exact e7 (hclear tok l hlb htt) z h1 ⟨tr, hd⟩
  · intro hn hsyn
    have hge : ls.length ≤ u.length := List.getElem?_eq_none_iff.mp hn
    have hu2 : toks = u := by
      have := congrArg List.length hz2
      simp at this
      have : z2.length = 0 := by omega
      rw [List.length_eq_zero_iff.mp this, List.append_nil] at hz2
      exact hz2
    have htok : tok.types = some [tokenEnd] := by
      rw [hu2] at hget
      simp at hget
      rw [← hget]; exact he0
    rw [List.take_of_length_le hge] at hisU
    obtain ⟨ts, hd⟩ := tokens_of_units (schema_has hsp) hsyn (w := u) (hisU.imp fun t l hx s => (hx s).mpr)
    obtain ⟨tr, rfl⟩ := single_tree hd
    exact e6 htok ⟨tr, hd⟩

end

/-! ### The complaint -/

/-- The call fails at a beginning of the text that is not yet wrong: with an exception because of something unsuitable in it, or without any defined
behaviour because of something faulty in it. -/
def StopsBefore (w : List Nat) (e : Fail) : Prop :=
  ∃ pre post, lexemes w = pre ++ post ∧ pre ≠ [] ∧ (∃ more, SchemaSyntax (pre ++ more)) ∧
    ((e = .throws ∧ Unsuitable pre) ∨ (e = .ub ∧ Faulty pre))

theorem line_of_unit (pre : List Lexeme) (e : Lexeme) :
    (textOf (pre ++ [e])).count newline + 1 = lineNumber (textOf pre) + if e = .char 10 then 1 else 0 := by
  rw [textOf_append, List.count_append]
  unfold lineNumber
  have : (textOf [e]).count newline = if e = .char 10 then 1 else 0 := by
    cases e with
    | delimiters => decide
    | char c =>
      by_cases hc : c = 10
      · subst hc; rfl
      · rw [if_neg (by simp [hc])]
        simp [textOf, Lexeme.text, newline, List.count_singleton, hc]
  rw [this]
  show _ = List.count newline (textOf pre) + 1 + _
  omega

theorem schema_complaint {σ : Type} {E : SchemaEnv} (hE : E.Ok) (ho : E.orders.Ok (schemaGrammar (E.specials.map (·.2)))) {kids : Nat}
    {rd : σ → Nat → σ × InBuf.ReadRes} {src : σ} {w : List Nat} (hw : w.length < 24000) (hb : AllBytes w) (hrd : Delivers rd src 24000 w)
    (hk : Fit kids (lexemes w)) :
    ∃ n res, (∀ fuel steps, n ≤ fuel → n ≤ steps → ({ E with fuel := fuel, steps := steps } : SchemaEnv).complaint kids rd src = res) ∧
      ((SchemaSyntax (lexemes w) ∧ res = .ok none) ∨
       (¬ SchemaSyntax (lexemes w) ∧ ((∃ e, res = .error e ∧ StopsBefore w e) ∨ ∃ m, res = .ok (some m) ∧ MessageFor SchemaSyntax SchemaExpected w m))) := by
  obtain ⟨L, hlex, hL⟩ := schemaLexer_ok hE.specials hE.addr
  have hsc := hE.specials
  have hsp := perm_names hsc
  obtain ⟨n1, tb, hgen, hclear⟩ := schema_table hsc hL (o := E.orders) (fun ks i h => (ho.sets ks i).mp h)
  unfold SchemaEnv.complaint
  simp only [hlex, SchemaEnv.rules]
  generalize hR : ([] : List (Nat × Regex)) = rules
  generalize hS : E.specials = sc at *
  obtain ⟨src', b1, hread, hready⟩ := first_read (mem := E.mem) (nid := E.nextId) (N := 48000) hw (by decide) hrd L
  have hat : AtUnit L w 0 {} b1 := ⟨0, Nat.zero_le _, hready, (nlCount_zero _).symm, rfl, rfl⟩
  have hstep := atUnit_step hsc hL hb
  obtain ⟨toks, t1, t2⟩ := scanToks_units hsc hL hb (lexemes w) {} b1 0 hready (Nat.zero_le _) rfl
  obtain ⟨ends0, z1, z2, z3⟩ := t2 1
  obtain ⟨e0, rfl⟩ : ∃ e0, ends0 = [e0] := List.length_eq_one_iff.mp z2
  have he0 : e0.types = some [tokenEnd] := z3 e0 (by simp)
  have hlen := t1.length_eq
  have hunits := same_units hsc hL t1
  have hcl : ∀ x ∈ toks, (schemaGrammar (sc.map (·.2))).Clear tb x := by
    intro x hx
    obtain ⟨l, _, h3⟩ := forall₂_mem_left t1 hx
    exact hclear x l h3.2.2 h3.1
  have hends : ∀ k, ∃ more, more.length = k ∧ L.scanToks ((lexemes w).length + (k + 1)) {} b1 = toks ++ e0 :: more := by
    intro k
    obtain ⟨ends, e1, e2, e3⟩ := t2 (k + 1)
    obtain ⟨more, hm⟩ := scanToks_prefix L ((lexemes w).length + 1) k {} b1
    rw [z1, Nat.add_assoc, Nat.add_comm 1 k, e1, List.append_assoc, List.append_cancel_left_eq] at hm
    refine ⟨more, ?_, by rw [e1, ← hm]; rfl⟩
    rw [← hm] at e2
    simpa using e2
  have hfin : b1.finished = true := hready.view.finished
  have hsameRun : ∀ (k : Nat) (s : PState), stopFrom L (schemaGrammar (sc.map (·.2))) tb (schemaResets (schemaGrammar (sc.map (·.2)))) (schemaHasRule (sc.map (·.2)))
        rd (k + 1) s src {} (InBuf.init E.mem 48000 E.nextId).reset
      = stopFrom L (schemaGrammar (sc.map (·.2))) tb (schemaResets (schemaGrammar (sc.map (·.2)))) (schemaHasRule (sc.map (·.2))) rd (k + 1) s src' {} b1 := by
    generalize schemaGrammar (sc.map (·.2)) = g
    intro k s
    rw [stopFrom, stopFrom, hread, readIfSafe_fin hfin]
  have hrun : ∀ (k : Nat) (s : PState) (more : List Token), L.scanToks ((lexemes w).length + (k + 1)) {} b1 = toks ++ e0 :: more →
      SameStop L (AtUnit L w) b1.mem ((lexemes w).length + (k + 1))
        (stopFrom L (schemaGrammar (sc.map (·.2))) tb (schemaResets (schemaGrammar (sc.map (·.2)))) (schemaHasRule (sc.map (·.2)))
          rd (k + 1) s src {} (InBuf.init E.mem 48000 E.nextId).reset)
        ((schemaGrammar (sc.map (·.2))).stopLoop tb (schemaResets (schemaGrammar (sc.map (·.2)))) (k + 1) s (toks ++ e0 :: more)) := by
    intro k s more hm
    rw [hsameRun, ← hm]
    exact stopFrom_toks (AtUnit L w) hstep (k + 1) _ 0 s src' {} b1 hat (Nat.le_add_left _ _)
  have hsame := same_units hsc hL t1
  by_cases hd : ∃ tree, Derivation (schemaGrammar (sc.map (·.2))).decls
      ((schemaGrammar (sc.map (·.2))).IsTok (reserved.map (·.1) ++ schemaTerminals (sc.map (·.2)))) ["Schema"] [tree] toks
  · have hprime : ∀ d ∈ schemaProductions schemaSpecials, "$START_PRIME" ∉ d.2 := by decide +kernel
    have hsyn : SchemaSyntax (lexemes w) := by
      obtain ⟨tree, d1⟩ := hd
      exact derives_of_tree (prods := schemaProductions schemaSpecials) (schema_decl hsp) hprime d1 (by decide) hsame
    refine ⟨n1 + (6 * toks.length + 2), _, fun fuel steps hf hst => ?_, .inl ⟨hsyn, rfl⟩⟩
    rw [hgen fuel (by omega)]
    simp only
    obtain ⟨k, rfl⟩ : ∃ k, steps = k + 1 := ⟨steps - 1, by omega⟩
    obtain ⟨more, _, hm⟩ := hends k
    have e3 := hrun k { states := [tb.root], matched := [], next := none, kids := kids } more hm
    rcases schema_decides hsp ho (hgen n1 (Nat.le_refl _)) hcl he0 more hunits hk with ⟨tree, kids', _, hp⟩ | ⟨h, _⟩
    · have hp := hp (k + 1) (by omega)
      unfold Grammar.parse at hp
      rw [stopLoop_parse] at hp
      generalize (schemaGrammar (sc.map (·.2))).stopLoop tb (schemaResets (schemaGrammar (sc.map (·.2)))) (k + 1)
        { states := [tb.root], matched := [], next := none, kids := kids } (toks ++ e0 :: more) = r at hp e3
      generalize stopFrom L (schemaGrammar (sc.map (·.2))) tb (schemaResets (schemaGrammar (sc.map (·.2)))) (schemaHasRule (sc.map (·.2)))
          rd (k + 1) { states := [tb.root], matched := [], next := none, kids := kids } src {} (InBuf.init E.mem 48000 E.nextId).reset = r' at e3
      cases r with
      | error e => cases hp
      | ok r =>
        cases r with
        | rejected _ _ _ => cases hp
        | accepted _ _ _ =>
          cases r' with
          | error e => exact e3.elim
          | ok r' =>
            cases r' with
            | rejected _ _ _ _ => exact e3.elim
            | accepted _ _ _ => rfl
    · exact absurd hd h
  · have hno : ¬ SchemaSyntax (lexemes w) := by
      intro hsyn
      obtain ⟨ts, hder⟩ := tree_of_derives (schema_has hsp) hsyn hsame
      obtain ⟨tr, rfl⟩ := single_tree hder
      exact hd ⟨tr, hder⟩
    -- where the parse stops
    obtain ⟨s, tok, rest, hstop⟩ : ∃ s tok rest, (schemaGrammar (sc.map (·.2))).stop tb (schemaResets (schemaGrammar (sc.map (·.2)))) (6 * toks.length + 2) kids
        (toks ++ [e0]) = .ok (.rejected s tok rest) := by
      rcases schema_decides hsp ho (hgen n1 (Nat.le_refl _)) hcl he0 [] hunits hk with ⟨tree, _, h, _⟩ | ⟨_, hp⟩
      · exact absurd ⟨tree, h⟩ hd
      · refine throws_rejected (schema_decent hsp) ho (hgen n1 (Nat.le_refl _)) (fun x hx => ?_) ⟨e0, by simp, he0⟩ (hp _ (Nat.le_refl _))
        rcases List.mem_append.mp hx with hx | hx
        · exact (hcl x hx).typed
        · rw [List.mem_singleton.mp hx]
          refine ⟨[tokenEnd], he0, fun ty hty => ?_⟩
          rw [List.mem_singleton.mp hty]
          obtain ⟨sid, t, S⟩ := sound_names (schema_decent hsp).build (schema_decent hsp).prime (schema_decent hsp).sep (schema_decent hsp).primeT
            (schema_decent hsp).productive (schema_decent hsp).size ho (hgen n1 (Nat.le_refl _))
          exact S.finT
    obtain ⟨i, r1, r2, r3, ⟨q, qs, acts, r4, r5, r5'⟩, ⟨ns, n2, n3, n4⟩, r6, r7, r8⟩ := schema_rejected hsc hL ho (hgen n1 (Nat.le_refl _)) hclear
      (t1.imp fun _ _ h => ⟨h.1, h.2.2⟩) he0 hstop
    obtain ⟨names, hnames, hlisted⟩ := expectedText_names rules (schemaGrammar (sc.map (·.2))) acts
    have hlisted : ∀ n ∈ names, SchemaExpected ((lexemes w).take i) n := by
      intro n hn
      obtain ⟨j, a, h1, h2, rfl⟩ := hlisted n hn
      rw [← hR]
      exact r5' j a h1 h2
    -- the call stops there, too
    have hstopped : ∀ k, 6 * toks.length + 2 ≤ k → ∃ st b, stopFrom L (schemaGrammar (sc.map (·.2))) tb (schemaResets (schemaGrammar (sc.map (·.2))))
          (schemaHasRule (sc.map (·.2))) rd (k + 1) { states := [tb.root], matched := [], next := none, kids := kids } src {}
          (InBuf.init E.mem 48000 E.nextId).reset = .ok (.rejected s tok st b) ∧ b.mem = b1.mem ∧ AtUnit L w (i + 1) st b := by
      intro k hk
      obtain ⟨more, hml, hm⟩ := hends k
      have e3 := hrun k { states := [tb.root], matched := [], next := none, kids := kids } more hm
      have h1 := stopLoop_append more _ _ _ _ _ _ (stopLoop_mono _ _ _ _ hstop (k + 1) (by omega))
      rw [List.append_assoc, List.singleton_append] at h1
      rw [h1] at e3
      generalize stopFrom L (schemaGrammar (sc.map (·.2))) tb (schemaResets (schemaGrammar (sc.map (·.2)))) (schemaHasRule (sc.map (·.2)))
          rd (k + 1) { states := [tb.root], matched := [], next := none, kids := kids } src {} (InBuf.init E.mem 48000 E.nextId).reset = r' at e3
      cases r' with
      | error e => exact e3.elim
      | ok r' =>
        cases r' with
        | accepted _ _ _ => exact e3.elim
        | rejected s' tok' st b =>
          obtain ⟨rfl, rfl, h2, j, n, h3, h4, h5⟩ := e3
          refine ⟨st, b, rfl, h2, ?_⟩
          have hn := (scanToks_nth (AtUnit L w) hstep n j st b h3).1
          rw [← h5, List.length_append] at hn
          rw [show i + 1 = j by omega]
          exact h3
    -- the token
    have htok : UnitTok L w b1.mem i tok := by
      obtain ⟨more, hml, hm⟩ := hends 0
      have hn := (scanToks_nth (AtUnit L w) hstep ((lexemes w).length + (0 + 1)) 0 {} b1 hat).2 i tok (by
        rw [hm, List.length_eq_zero_iff.mp hml]; exact r2)
      obtain ⟨st1, b2, st2, b3, q1, q2, q3⟩ := hn
      obtain ⟨st', b', t, g1, g2, g3, g4⟩ := atUnit_scan hsc hL hb q1
      rw [q3] at g1
      cases g1
      rw [Nat.zero_add, q2] at g4
      exact g4
    have hall : ∀ (k : Nat) (b : InBuf), Tree.nodes.all s.matched ≤ k → b.mem = b1.mem →
        afterLastNewline (tokenText b.mem) k s.matched [] = .ok (lineBefore (textOf ((lexemes w).take i))) := by
      intro k b hk hmem
      have h := afterLastNewline_spec (tokenText b.mem) k s.matched [] ((lexemes w).take i) hk (by
        rw [r3, hmem]
        exact (List.forall₂_take i t1).imp fun _ _ h => h.2.1)
      rw [List.append_nil] at h
      exact h
    have hbefore : ∀ e, Tree.eval.evals (schemaRuleOf (sc.map (·.2))) (tokenText b1.mem) s.matched.reverse 0 = .error e → StopsBefore w e := by
      intro e hev
      refine ⟨(lexemes w).take i, (lexemes w).drop i, (List.take_append_drop _ _).symm, fun h0 => ?_, r6, ?_⟩
      · have hnil : toks.take i = [] := List.length_eq_zero_iff.mp (by
          have := congrArg List.length h0
          rw [List.length_take] at this ⊢
          rw [hlen]
          exact this)
        obtain ⟨v, hv⟩ := (evals_empty hsp (text := tokenText b1.mem) n2 n3 hnil).2 0
        rw [hv] at hev
        cases hev
      · rcases evals_tame _ _ _ _ e hev with h | h
        · subst h
          exact .inl ⟨rfl, stack_throws hsp (List.forall₂_take i hsame) n2 n3 hev⟩
        · subst h
          exact .inr ⟨rfl, stack_fault hsp (List.forall₂_take i hsame) n2 n3 n4 hev⟩
    cases hev : Tree.eval.evals (schemaRuleOf (sc.map (·.2))) (tokenText b1.mem) s.matched.reverse 0 with
    | error e =>
      refine ⟨n1 + (6 * toks.length + 3), .error e, fun fuel steps hf hst => ?_, .inr ⟨hno, .inl ⟨e, rfl, hbefore e hev⟩⟩⟩
      rw [hgen fuel (by omega)]
      simp only
      obtain ⟨k, rfl⟩ : ∃ k, steps = k + 1 := ⟨steps - 1, by omega⟩
      obtain ⟨st, b, hs1, hs2, hs3⟩ := hstopped k (by omega)
      rw [hs1]
      simp only [hs2, hev]
    | ok v =>
      have finish : ∀ m N, (∀ k st b, N ≤ k → b.mem = b1.mem → AtUnit L w (i + 1) st b →
          reportError L rules (schemaGrammar (sc.map (·.2))) tb k s tok st b = .ok m) →
          ∀ fuel steps, n1 + (6 * toks.length + 3) + N ≤ fuel → n1 + (6 * toks.length + 3) + N ≤ steps →
          (match (schemaGrammar (sc.map (·.2))).generate E.orders fuel with
            | .error e => .error e
            | .ok tb =>
              match stopFrom L (schemaGrammar (sc.map (·.2))) tb (schemaResets (schemaGrammar (sc.map (·.2)))) (schemaHasRule (sc.map (·.2))) rd steps
                  { states := [tb.root], matched := [], next := none, kids := kids } src {} (InBuf.init E.mem 48000 E.nextId).reset with
              | .error e => .error e
              | .ok (.accepted _ _ _) => .ok none
              | .ok (.rejected s tok st b) =>
                match Tree.eval.evals (schemaRuleOf (sc.map (·.2))) (tokenText b.mem) s.matched.reverse 0 with
                | .error e => .error e
                | .ok _ =>
                  match reportError L rules (schemaGrammar (sc.map (·.2))) tb steps s tok st b with
                  | .error e => .error e
                  | .ok m => .ok (some m) : Except Fail (Option (List Nat))) = .ok (some m) := by
        intro m N h fuel steps hf hst
        rw [hgen fuel (by omega)]
        simp only
        obtain ⟨k, rfl⟩ : ∃ k, steps = k + 1 := ⟨steps - 1, by omega⟩
        obtain ⟨st, b, hs1, hs2, hs3⟩ := hstopped k (by omega)
        rw [hs1]
        simp only [hs2, hev, h (k + 1) st b (by omega) hs2 hs3]
      cases hi : (lexemes w)[i]? with
      | some l =>
        obtain ⟨u1, u2, u3, u4⟩ := htok.unit l hi
        have hil : i < (lexemes w).length := (List.getElem?_eq_some_iff.mp hi).1
        have hsplit : lexemes w = (lexemes w).take i ++ l :: (lexemes w).drop (i + 1) := by
          have : l = (lexemes w)[i] := by rw [List.getElem?_eq_getElem hil] at hi; exact (Option.some.inj hi).symm
          rw [this, ← List.drop_eq_getElem_cons hil, List.take_append_drop]
        have htk : (lexemes w).take (i + 1) = (lexemes w).take i ++ [l] := by rw [List.take_add_one, hi]; rfl
        rw [htk] at u4
        have hline := line_of_unit ((lexemes w).take i) l
        rw [← u4] at hline
        have hrest : ∀ k st b, (lexemes w).length + 1 ≤ k → b.mem = b1.mem → AtUnit L w (i + 1) st b →
            restOfLine L k tok st b = .ok (restShown l.text (textOf ((lexemes w).drop (i + 1))) ++ [10]) := by
          intro k st b hk hmem hat'
          unfold restOfLine
          rw [unit_isEnd hsc hL hb u3 u1]
          simp only
          rw [hmem, u2, ends_has]
          unfold restShown
          by_cases he : l.ends = true
          · rw [if_pos he, if_pos]
            · rfl
            · rcases ends_text.mp he with e | e <;> rw [e] <;> rfl
          · rw [if_neg he, untilNewline_spec hsc hL hb k (i + 1) st b [] hat' (by omega), if_neg]
            · rfl
            · have hf : ∀ x ∈ l.text, endsLine x = false := ends_free (by simpa using he)
              cases l with
              | char c => simpa [Lexeme.text] using hf c (by simp [Lexeme.text])
              | delimiters => decide
        refine ⟨n1 + (6 * toks.length + 3) + (Tree.nodes.all s.matched + ((lexemes w).length + 1)), _, finish _ _ fun k st b hk hmem hat' => ?_,
          .inr ⟨hno, .inr ⟨_, rfl, .inl ⟨(lexemes w).take i, l, (lexemes w).drop (i + 1), names, ⟨hsplit, r6, r7 l hi⟩, hlisted, rfl⟩⟩⟩⟩
        have a1 := hall k b (by omega) hmem
        have a2 := hrest k st b (by omega) hmem hat'
        have a3 := unit_isEnd hsc hL hb u3 u1
        clear finish hstopped
        generalize schemaGrammar (sc.map (·.2)) = g at hnames ⊢
        have := (reportError_eq a1 a2 a3 r4 r5 hnames).2 (by simp)
        rw [this, hmem, u2, hline]
        simp only [unitMessage, List.append_assoc]
        rfl
      | none =>
        obtain ⟨u1, u2, u3⟩ := htok.fin hi
        have hil : (lexemes w).length ≤ i := List.getElem?_eq_none_iff.mp hi
        have hee : isEnd tok = some true := by unfold isEnd; rw [u1]; rfl
        rw [List.take_of_length_le hil] at r6 hall hlisted
        rw [textOf_lexemes w.length w (Nat.le_refl _)] at hall
        have hline : tok.line + 1 = lineNumber w := by rw [u3]; rfl
        have hrest : ∀ k st b, restOfLine L k tok st b = .ok [10] := by
          intro k st b
          unfold restOfLine
          rw [hee]
        by_cases hlb : lineBefore w = []
        · refine ⟨n1 + (6 * toks.length + 3) + Tree.nodes.all s.matched, _, finish _ _ fun k st b hk hmem hat' => ?_,
            .inr ⟨hno, .inr ⟨_, rfl, .inr ⟨⟨r8 hi, r6⟩, .inl ⟨hlb, rfl⟩⟩⟩⟩⟩
          have a1 := hall k b (by omega) hmem
          clear finish hstopped
          generalize schemaGrammar (sc.map (·.2)) = g at hnames ⊢
          have := (reportError_eq a1 (hrest k st b) hee r4 r5 hnames).1 ⟨rfl, hlb⟩
          rw [this, hmem, u2, hline]
          simp only [emptyMessage, List.append_assoc]
          rfl
        · refine ⟨n1 + (6 * toks.length + 3) + Tree.nodes.all s.matched, _, finish _ _ fun k st b hk hmem hat' => ?_,
            .inr ⟨hno, .inr ⟨_, rfl, .inr ⟨⟨r8 hi, r6⟩, .inr ⟨names, hlb, hlisted, rfl⟩⟩⟩⟩⟩
          have a1 := hall k b (by omega) hmem
          clear finish hstopped
          generalize schemaGrammar (sc.map (·.2)) = g at hnames ⊢
          have := (reportError_eq a1 (hrest k st b) hee r4 r5 hnames).2 (by simp [hlb])
          rw [this, hmem, u2, hline]
          simp only [endMessage, List.append_assoc]
          rfl

end LogSurgeon
