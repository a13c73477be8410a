import Verif.Proofs.LalrCertData
import Verif.Proofs.SchemaText
import Mathlib.Data.List.Basic
/-
The grammar of schema files has a parse table, for every traversal order and every order of the special characters.
-/
namespace LogSurgeon
open Grammar

namespace Grammar

/-- No production is entered twice. -/
theorem build_nodup (terms : List String) (all : List (String × List String)) : (build terms all).decls.Nodup := by
  have hint : ∀ (g : Grammar) n, (g.intern n).1.decls = g.decls := by
    intro g n; unfold intern; split <;> rfl
  have hintAll : ∀ (ns : List String) (g : Grammar), (g.internAll ns).1.decls = g.decls := by
    intro ns
    induction ns with
    | nil => intro g; rfl
    | cons n ns ih => intro g; simp only [internAll, ih, hint]
  have hadd : ∀ (g : Grammar) hd bd, g.decls.Nodup → (g.addProd hd bd).decls.Nodup := by
    intro g hd bd h
    unfold addProd
    simp only
    split
    · rw [hint]; exact h
    · rename_i hm
      simp only [hintAll, hint] at hm ⊢
      refine List.nodup_append.mpr ⟨h, by simp, ?_⟩
      intro a ha b hb e
      rw [List.mem_singleton.mp hb] at e
      exact hm (e ▸ ha)
  have hprod : ∀ (g : Grammar) hd bd, g.decls.Nodup → (g.addProduction hd bd).decls.Nodup := by
    intro g hd bd h
    unfold addProduction
    simp only
    split
    · exact hadd _ _ _ (hadd _ _ _ h)
    · exact hadd _ _ _ h
  have hterm : ∀ (ts : List String) (g : Grammar), g.decls.Nodup → (ts.foldl addTerminal g).decls.Nodup := by
    intro ts
    induction ts with
    | nil => intro g h; exact h
    | cons t ts ih => intro g h; exact ih _ (by simp only [addTerminal, hint]; exact h)
  have hall : ∀ (ds : List (String × List String)) (g : Grammar), g.decls.Nodup → (ds.foldl (fun g d => g.addProduction d.1 d.2) g).decls.Nodup := by
    intro ds
    induction ds with
    | nil => intro g h; exact h
    | cons d ds ih => intro g h; exact ih _ (hprod _ _ _ h)
  exact hall _ _ (hterm _ _ List.nodup_nil)

end Grammar

/-- The productions of the certificate by names. -/
def certDecls : List (String × List String) := (("$START_PRIME", ["Schema"]) :: schemaProductions schemaSpecials).eraseDups

set_option maxRecDepth 100000 in
theorem schemaTables_check : schemaTables.check = true := by decide +kernel

set_option maxRecDepth 100000 in
theorem cert_names :
    schemaTables.prods = certDecls.map (fun d => (certNames.idxOf d.1, d.2.map certNames.idxOf)) ∧
    (∀ d ∈ certDecls, d.1 ∈ certNames ∧ ∀ s ∈ d.2, s ∈ certNames) ∧
    (∀ n ∈ reserved.map (·.1) ++ schemaTerminals schemaSpecials, n ∈ certNames ∧ schemaTables.terms.testBit (certNames.idxOf n) = true) ∧
    certNames.idxOf "$end" = 0 ∧ certDecls.idxOf ("$START_PRIME", ["Schema"]) = 0 := by decide +kernel

theorem mem_certDecls (d : String × List String) : d ∈ certDecls ↔ d = ("$START_PRIME", ["Schema"]) ∨ d ∈ schemaProductions schemaSpecials := by
  unfold certDecls
  rw [List.mem_eraseDups, List.mem_cons]

/-- The number of a symbol in the certificate. -/
noncomputable def certSym (g : Grammar) (a : Nat) : Nat :=
  open Classical in if h : ∃ n, g.symbolId.lookup n = some a then certNames.idxOf h.choose else 0

/-- The number of a production in the certificate. -/
def certPr (g : Grammar) (p : Nat) : Nat := certDecls.idxOf ((g.decls[p]?).getD ("", []))

theorem certSym_eq {g : Grammar} (hinj : ∀ n m id, g.symbolId.lookup n = some id → g.symbolId.lookup m = some id → n = m) {n : String} {a : Nat}
    (h : g.symbolId.lookup n = some a) : certSym g a = certNames.idxOf n := by
  have he : ∃ n, g.symbolId.lookup n = some a := ⟨n, h⟩
  unfold certSym
  rw [dif_pos he, hinj _ _ _ he.choose_spec h]

theorem map_certSym {g : Grammar} (hinj : ∀ n m id, g.symbolId.lookup n = some id → g.symbolId.lookup m = some id → n = m) :
    ∀ {ids : List Nat} {ns : List String}, List.Forall₂ (fun id n => g.symbolId.lookup n = some id) ids ns →
    ids.map (certSym g) = ns.map certNames.idxOf
  | _, _, .nil => rfl
  | _, _, .cons h t => by rw [List.map_cons, List.map_cons, certSym_eq hinj h, map_certSym hinj t]

/-- The grammar looks like that of the certificate. -/
theorem schema_hom {sp : List String} (hsp : sp.Perm schemaSpecials) : ∃ H : Hom (schemaGrammar sp) schemaTables, H.sym = certSym (schemaGrammar sp) := by
  obtain ⟨c1, c2, c3, c4, c5⟩ := cert_names
  obtain ⟨s1, s2, s3, s4, s5, s6, s7⟩ := schema_conditions hsp
  have hB : Grammar.BuildOk (reservedNames ++ schemaTerminals sp) "Schema" (schemaProductions sp) (schemaGrammar sp) :=
    Grammar.build_ok (terms := schemaTerminals sp) (start := "Schema") (bd := ["Comment"]) (ds := (schemaProductions sp).tail) s1
  have hhas : (∀ d ∈ schemaProductions sp, d ∈ (schemaGrammar sp).decls) ∧ HasTerms (reservedNames ++ schemaTerminals sp) (schemaGrammar sp) :=
    ⟨build_has.1, build_has.2.1⟩
  have hnod : (schemaGrammar sp).decls.Nodup := build_nodup _ _
  have hend := schema_end sp
  have hschema : ("Schema", ["Comment"]) ∈ schemaProductions sp := by
    rw [mem_schemaProductions hsp]; decide
  have hmp := mem_schemaProductions hsp
  have hmt := mem_schemaTerminals hsp
  generalize schemaGrammar sp = g at *
  have hinj := hB.names.inj
  have hdecl : ∀ (p : Nat) d, g.decls[p]? = some d → d ∈ certDecls := by
    intro p d hd
    rw [mem_certDecls]
    by_cases hp : p = 1
    · subst hp; rw [hB.prime] at hd; cases hd; exact .inl rfl
    · exact .inr ((hmp d).mp (hB.decls p d hd hp))
  have hlt : ∀ p, p < g.prods.length ↔ p < g.decls.length := by rw [hB.names.prods.length_eq]; intro p; rfl
  have hroot : g.root < g.prods.length := by
    rw [hlt, hB.root]; exact (List.getElem?_eq_some_iff.mp hB.prime).1
  have hterms : ∀ a ∈ g.terminals, ∃ n, n ∈ reserved.map (·.1) ++ schemaTerminals schemaSpecials ∧ g.symbolId.lookup n = some a := by
    intro a ha
    obtain ⟨n, hn, h⟩ := hB.names.terms a ha
    refine ⟨n, ?_, h⟩
    rcases List.mem_append.mp hn with hn | hn
    · exact List.mem_append_left _ hn
    · exact List.mem_append_right _ ((hmt n).mp hn)
  have htok : ∀ n id, n ∈ reservedNames ++ schemaTerminals sp → g.symbolId.lookup n = some id → id ∈ g.terminals := by
    intro n id hn h
    obtain ⟨id', h1, h2⟩ := hhas.2 n hn
    have : id' = id := Option.some.inj (h2.symm.trans h)
    exact this ▸ h1
  have hhd : ∀ n id, (∃ b, (n, b) ∈ schemaProductions sp) → g.symbolId.lookup n = some id → (g.prodsOf id).isEmpty = false := by
    intro n id ⟨b, hb⟩ h
    obtain ⟨i, hi⟩ := List.getElem?_of_mem (hhas.1 _ hb)
    obtain ⟨P, hP, hh, _⟩ := forall₂_getElem? hB.names.prods hi
    have : P.head = id := Option.some.inj (hh.symm.trans h)
    have : i ∈ g.prodsOf id := mem_prodsOf.mpr ⟨P, hP, this⟩
    cases hx : g.prodsOf id with
    | nil => rw [hx] at this; cases this
    | cons => rfl
  refine ⟨⟨certSym g, certPr g, fun a => ∃ n ∈ certNames, g.symbolId.lookup n = some a, ?_, ?_, hroot, ?_, ?_, ?_, ?_, ?_, ?_, ?_, ?_, ?_⟩, rfl⟩
  · intro p P hP
    obtain ⟨d, hd, h1, h2⟩ := hB.names.decl hP
    have hm := hdecl p d hd
    have : certDecls[certPr g p]? = some d := by
      unfold certPr
      rw [hd, Option.getD_some]
      exact List.getElem?_idxOf hm
    rw [c1, List.getElem?_map, this, Option.map_some, certSym_eq hinj h1, map_certSym hinj h2]
  · intro p q hp hq e
    rw [hlt] at hp hq
    have h1 := List.getElem?_eq_getElem hp
    have h2 := List.getElem?_eq_getElem hq
    unfold certPr at e
    rw [h1, h2, Option.getD_some, Option.getD_some, List.idxOf_inj (hdecl p _ h1)] at e
    exact (List.Nodup.getElem_inj_iff hnod).mp e
  · unfold certPr
    rw [hB.root, hB.prime]
    exact c5
  · intro a ha
    obtain ⟨n, hn, h⟩ := hterms a ha
    rw [certSym_eq hinj h]
    exact ⟨(c3 n hn).2, n, (c3 n hn).1, h⟩
  · intro P hP
    obtain ⟨p, hp⟩ := List.getElem?_of_mem hP
    obtain ⟨d, hd, h1, h2⟩ := hB.names.decl hp
    have hm := c2 d (hdecl p d hd)
    refine ⟨⟨_, hm.1, h1⟩, fun s hs => ?_⟩
    obtain ⟨n, hn, hns⟩ := forall₂_mem_left h2 hs
    exact ⟨n, hm.2 n hn, hns⟩
  · rintro a b ⟨n, hn, h1⟩ ⟨m, hm, h2⟩ e
    rw [certSym_eq hinj h1, certSym_eq hinj h2, List.idxOf_inj hn] at e
    subst e
    exact Option.some.inj (h1.symm.trans h2)
  · rw [certSym_eq hinj hend]; exact c4
  · exact htok "$end" _ (List.mem_append_left _ (by decide)) hend
  · rintro a ⟨n, _, h⟩
    exact hB.names.lt n a h
  · intro h
    obtain ⟨n, _, hn⟩ := hterms _ h
    have := hB.names.lt _ _ hn
    omega
  · intro P hP s hs
    obtain ⟨p, hp⟩ := List.getElem?_of_mem hP
    obtain ⟨d, hd, _, h2⟩ := hB.names.decl hp
    obtain ⟨n, hn, hns⟩ := forall₂_mem_left h2 hs
    by_cases h1 : p = 1
    · subst h1
      rw [hB.prime] at hd
      cases hd
      have : n = "Schema" := by simpa using hn
      subst this
      exact .inr (hhd _ _ ⟨_, hschema⟩ hns)
    · cases s5 d (hB.decls p d hd h1) n hn with
      | term ht => exact .inl (by simp only [isToken, List.contains_eq_mem, decide_eq_true_eq]; exact htok _ _ ht hns)
      | prod hb _ => exact .inr (hhd _ _ ⟨_, hb⟩ hns)

def overlap (a b : List Range) : Bool := a.any fun r => b.any fun s => decide (r.1 ≤ s.2) && decide (s.1 ≤ r.2)

set_option maxRecDepth 100000 in
theorem cert_beside : ∀ x ∈ charToks, ∀ y ∈ charToks, x.1 = y.1 ∨ overlap x.2 y.2 = false ∨
    (schemaTables.be (certNames.idxOf x.1)).testBit (certNames.idxOf y.1) = true := by decide +kernel

/-- Two rules for the same text. -/
theorem beside_of {s s' : String} {x x' : Option (List Range)} (h : (s, x) ∈ lexSpec) (h' : (s', x') ∈ lexSpec) {u : List Nat} (hu : RuleText x u)
    (hu' : RuleText x' u) : s = s' ∨ (schemaTables.be (certNames.idxOf s)).testBit (certNames.idxOf s') = true := by
  rcases (mem_lexSpec s x).mp h with ⟨rs, rfl, h1⟩ | ⟨rfl, rfl⟩
  · obtain ⟨c, rfl, r, hr, hc⟩ := hu
    rcases (mem_lexSpec s' x').mp h' with ⟨rs', rfl, h2⟩ | ⟨rfl, rfl⟩
    · obtain ⟨c', e, r', hr', hc'⟩ := hu'
      have e : c' = c := by simpa using e.symm
      subst e
      rcases cert_beside _ h1 _ h2 with e | e | e
      · exact .inl e
      · exfalso
        have : overlap rs rs' = true := by
          unfold overlap
          rw [List.any_eq_true]
          refine ⟨r, hr, ?_⟩
          rw [List.any_eq_true]
          refine ⟨r', hr', ?_⟩
          simp only [Bool.and_eq_true, decide_eq_true_eq]
          omega
        rw [this] at e; cases e
      · exact .inr e
    · have hu' : [c] = delimitersWord := hu'
      exact absurd hu' (by simp [delimitersWord])
  · have hu : u = delimitersWord := hu
    rcases (mem_lexSpec s' x').mp h' with ⟨rs', rfl, h2⟩ | ⟨rfl, rfl⟩
    · obtain ⟨c', e, _⟩ := hu'
      rw [hu] at e
      exact absurd e (by simp [delimitersWord])
    · exact .inl rfl

/-- The parse table of the grammar of schema files, and its use for the units of a text. -/
theorem schema_table {sc : List (Nat × String)} (hsc : sc.Perm schemaSpecialChars) {L : Lexer} (hL : SchemaLexOk L (schemaGrammar (sc.map (·.2))))
    {o : Orders} (ho : ∀ ks i, i ∈ o.sets ks → i < ks.length) :
    ∃ n tb, (∀ fuel, n ≤ fuel → (schemaGrammar (sc.map (·.2))).generate o fuel = .ok tb) ∧
      ∀ (t : Token) (l : Lexeme), AllBytes l.text → t.types = some (L.dfa.idsOn l.text) → (schemaGrammar (sc.map (·.2))).Clear tb t := by
  obtain ⟨H, hH⟩ := schema_hom (perm_names hsc)
  obtain ⟨n, tb, h1, h2⟩ := cert_generate H schemaTables_check ho
  refine ⟨n, tb, h2, fun t l hl ht => ⟨_, ht, types_terminals hsc hL hl, ?_⟩⟩
  intro r hr a ha b hb A B hA hB fa fb
  obtain ⟨a1, a2⟩ := types_terminals hsc hL hl a ha
  obtain ⟨b1, b2⟩ := types_terminals hsc hL hl b hb
  obtain ⟨s, x, p1, p2, p3⟩ := (hL.ids _ hl a).mp ha
  obtain ⟨s', x', q1, q2, q3⟩ := (hL.ids _ hl b).mp hb
  have hinj := fun n m id => @schema_names _ (perm_names hsc) n m id
  by_cases e : s = s'
  · subst e
    have : a = b := Option.some.inj (p2.symm.trans q2)
    subst this
    exact Option.some.inj (hA.symm.trans hB)
  · refine h1 r hr a a1 b b1 a2 b2 ?_ ?_ A B hA hB fa fb
    · rw [hH, certSym_eq hinj p2, certSym_eq hinj q2]
      exact (beside_of p1 q1 p3 q3).resolve_left e
    · rw [hH, certSym_eq hinj p2, certSym_eq hinj q2]
      exact (beside_of q1 p1 q3 p3).resolve_left (fun h => e h.symm)

end LogSurgeon
