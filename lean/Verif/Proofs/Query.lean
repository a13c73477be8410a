import Verif.Model.IntersectClient
import Verif.Spec.Query
import Verif.Props.Reading
import Verif.Props.SchemaText
import Verif.Props.Dfa
import Verif.Proofs.EndToEnd
import Verif.Proofs.Wildcard
namespace LogSurgeon

/-! ### The keyword -/

theorem infix_cons {α : Type} {w : List α} {x : α} {l : List α} (h : w <:+: x :: l) : w <+: x :: l ∨ w <:+: l := by
  rcases List.infix_cons_iff.mp h with h | h
  · exact .inl h
  · exact .inr h

theorem lexemes_noKeyword : ∀ {w : List Nat}, ¬ delimitersWord <:+: w → lexemes w = chars w
  | [], _ => rfl
  | c :: r, h => by
    have : delimitersWord.isPrefixOf (c :: r) = false := by
      rw [Bool.eq_false_iff]
      intro hp
      exact h (List.isPrefixOf_iff_prefix.mp hp).isInfix
    rw [lexemes, lexemesFrom, this]
    simp only [Bool.false_eq_true, if_false]
    show _ :: lexemes r = _
    rw [lexemes_noKeyword fun h' => h (h'.trans (List.suffix_cons _ _).isInfix)]
    rfl

theorem prefix_process : ∀ {u q : List Nat}, 46 ∉ u → u <+: processQuery q → u <+: q
  | [], q, _, _ => List.nil_prefix
  | x :: u, [], _, h => by simp [processQuery] at h
  | x :: u, c :: q, hn, h => by
    rw [List.mem_cons, not_or] at hn
    unfold processQuery at h
    split at h
    · exact absurd (List.cons_prefix_cons.mp h).1.symm hn.1
    · obtain ⟨rfl, h'⟩ := List.cons_prefix_cons.mp h
      exact List.cons_prefix_cons.mpr ⟨rfl, prefix_process hn.2 h'⟩

theorem infix_process : ∀ {q : List Nat}, delimitersWord <:+: processQuery q → delimitersWord <:+: q
  | [], h => h
  | c :: q, h => by
    unfold processQuery at h
    by_cases e : c = 42
    · rw [if_pos e] at h
      rcases infix_cons h with h | h
      · exact absurd (List.cons_prefix_cons.mp h).1 (by decide)
      · rcases infix_cons h with h | h
        · exact absurd ((List.cons_prefix_cons.mp h).1.trans e) (by decide)
        · exact (infix_process h).trans (List.suffix_cons _ _).isInfix
    · rw [if_neg e] at h
      rcases infix_cons h with h | h
      · have : delimitersWord <+: processQuery (c :: q) := by rw [processQuery, if_neg e]; exact h
        exact (prefix_process (by decide) this).isInfix
      · exact (infix_process h).trans (List.suffix_cons _ _).isInfix

theorem keyword_queryText {q : List Nat} (h : delimitersWord <:+: queryText q) : delimitersWord <:+: q := by
  unfold queryText at h
  have step : ∀ {x : Nat} {l : List Nat}, x ≠ 100 → delimitersWord <:+: x :: l → delimitersWord <:+: l := by
    intro x l hx h
    rcases infix_cons h with h | h
    · exact absurd (List.cons_prefix_cons.mp h).1.symm hx
    · exact h
  simp only [List.cons_append, List.nil_append] at h
  exact infix_process (step (by decide) (step (by decide) (step (by decide) (step (by decide) (step (by decide) (step (by decide) (step (by decide) h)))))))

/-! ### The pattern of a query -/

/-- The pattern of one character of a search string. -/
def queryAtom (c : Nat) : Pat := if c = 42 then .star .wild else .lit c

def queryPats (p : Pat) : List Nat → Pat
  | [] => p
  | c :: q => queryPats (.cat p (queryAtom c)) q

/-- The pattern of a search string. -/
def queryPat : List Nat → Pat
  | [] => .wild
  | c :: q => queryPats (queryAtom c) q

theorem process_append : ∀ (a b : List Nat), processQuery (a ++ b) = processQuery a ++ processQuery b
  | [], _ => rfl
  | c :: a, b => by
    simp only [List.cons_append, processQuery, process_append a b]
    split <;> rfl

theorem written_atom {k c : Nat} (hc : Plain c ∨ c = 42) : Written .choice k (processQuery [c]) (queryAtom c) := by
  unfold queryAtom
  simp only [processQuery]
  split
  · rename_i e; subst e
    exact .ofRepeated (.star (w := [46]) .wild)
  · rename_i e
    exact .ofSingle (.ofLiteral (.char (.plain (hc.resolve_right e))))

theorem written_pats {k : Nat} : ∀ {q : List Nat} {w : List Nat} {p : Pat}, Written .seq k w p → (∀ c ∈ q, Plain c ∨ c = 42) →
    Written .seq k (w ++ processQuery q) (queryPats p q)
  | [], w, p, h, _ => by simpa [processQuery, queryPats] using h
  | c :: q, w, p, h, hq => by
    have h1 := Written.cat h (written_atom (k := k + w.length) (hq c (by simp)))
    have := written_pats h1 (q := q) fun x hx => hq x (by simp [hx])
    rw [List.append_assoc, ← process_append] at this
    exact this

theorem written_query {k : Nat} {q : List Nat} (h0 : q ≠ []) (hq : ∀ c ∈ q, Plain c ∨ c = 42) : Written .seq k (processQuery q) (queryPat q) := by
  cases q with
  | nil => exact absurd rfl h0
  | cons c q =>
    have h1 : Written .seq k (processQuery [c]) (queryAtom c) := .ofChoice (written_atom (hq c (by simp)))
    have := written_pats h1 (q := q) fun x hx => hq x (by simp [hx])
    rw [← process_append] at this
    exact this

theorem queryPats_good (P : Pat → Prop) (hcat : ∀ l r, P l → P r → P (.cat l r)) (hatom : ∀ c, P (queryAtom c)) :
    ∀ (q : List Nat) (p : Pat), P p → P (queryPats p q)
  | [], _, h => h
  | c :: q, p, h => queryPats_good P hcat hatom q _ (hcat _ _ h (hatom c))

theorem queryPat_good (q : List Nat) : (queryPat q).Sensible ∧ (queryPat q).ClassesUsable ∧ (queryPat q).NoOpenChoice := by
  have hatom : ∀ c, (queryAtom c).Sensible ∧ (queryAtom c).ClassesUsable ∧ (queryAtom c).NoOpenChoice := by
    intro c
    unfold queryAtom
    split
    · exact ⟨trivial, trivial, trivial⟩
    · exact ⟨trivial, trivial, trivial⟩
  cases q with
  | nil => exact ⟨trivial, trivial, trivial⟩
  | cons c q =>
    exact queryPats_good (fun p => p.Sensible ∧ p.ClassesUsable ∧ p.NoOpenChoice)
      (fun l r h1 h2 => ⟨⟨h1.1, h2.1⟩, ⟨h1.2.1, h2.2.1⟩, ⟨h1.2.2, h2.2.2⟩⟩) hatom q _ (hatom c)

theorem repeat_wild : ∀ {t : List Nat}, AllBytes t → Repeat Pat.wild.Matches t.length t
  | [], _ => .zero
  | c :: t, h => .succ (s := [c]) ⟨c, rfl, by have := h c (by simp); unfold cSizeOfByte at this; unfold cUnicodeMax; omega⟩
      (repeat_wild fun x hx => h x (by simp [hx]))

theorem repeat_wild_length {k : Nat} {t : List Nat} (h : Repeat Pat.wild.Matches k t) : t.length = k := by
  induction h with
  | zero => rfl
  | succ h _ ih => obtain ⟨c, rfl, _⟩ := h; simp [ih]

theorem atom_matches {c : Nat} {q s : List Nat} (hs : AllBytes s) :
    (∃ s1 s2, s = s1 ++ s2 ∧ (queryAtom c).atLeastOne.Matches s1 ∧ Glob 1 q s2) ↔ Glob 1 (c :: q) s := by
  unfold queryAtom
  by_cases e : c = 42
  · rw [if_pos e]; subst e
    constructor
    · rintro ⟨s1, s2, rfl, ⟨k, hk, h1⟩, h2⟩
      exact .star (by rw [repeat_wild_length h1]; exact hk) h2
    · intro h
      cases h with
      | char h => exact absurd rfl h
      | star ht h =>
        rename_i t s2
        exact ⟨t, s2, rfl, ⟨t.length, ht, repeat_wild fun x hx => hs x (by simp [hx])⟩, h⟩
  · rw [if_neg e]
    constructor
    · rintro ⟨s1, s2, rfl, h1, h2⟩
      have h1 : s1 = [c] := h1
      subst h1
      exact .char e h2
    · intro h
      cases h with
      | char _ h => exact ⟨[c], _, rfl, rfl, h⟩
      | star ht h => exact absurd rfl e

theorem pats_matches : ∀ {q : List Nat} {p : Pat} {s : List Nat}, AllBytes s →
    ((queryPats p q).atLeastOne.Matches s ↔ ∃ s1 s2, s = s1 ++ s2 ∧ p.atLeastOne.Matches s1 ∧ Glob 1 q s2)
  | [], p, s, _ => by
    constructor
    · intro h; exact ⟨s, [], by simp, h, .nil⟩
    · rintro ⟨s1, s2, rfl, h1, h2⟩
      cases h2
      rw [List.append_nil]
      exact h1
  | c :: q, p, s, hs => by
    rw [queryPats, pats_matches hs]
    constructor
    · rintro ⟨s1, s2, rfl, ⟨a, b, rfl, h1, h2⟩, h3⟩
      refine ⟨a, b ++ s2, by simp, h1, (atom_matches fun x hx => hs x ?_).mp ⟨b, s2, rfl, h2, h3⟩⟩
      rw [List.append_assoc]; exact List.mem_append_right _ hx
    · rintro ⟨a, r, rfl, h1, h2⟩
      obtain ⟨b, s2, rfl, h3, h4⟩ := (atom_matches fun x hx => hs x (List.mem_append_right _ hx)).mpr h2
      exact ⟨a ++ b, s2, by simp, ⟨a, b, rfl, h1, h3⟩, h4⟩

theorem query_matches {q s : List Nat} (h0 : q ≠ []) (hs : AllBytes s) : (queryPat q).atLeastOne.Matches s ↔ Glob 1 q s := by
  cases q with
  | nil => exact absurd rfl h0
  | cons c q =>
    rw [queryPat, pats_matches hs]
    exact atom_matches hs

/-! ### Numbered lists -/

theorem sorted_ext : ∀ {a b : List Nat}, a.Pairwise (· < ·) → b.Pairwise (· < ·) → (∀ x, x ∈ a ↔ x ∈ b) → a = b
  | [], [], _, _, _ => rfl
  | [], y :: b, _, _, h => absurd ((h y).mpr (by simp)) (by simp)
  | x :: a, [], _, _, h => absurd ((h x).mp (by simp)) (by simp)
  | x :: a, y :: b, ha, hb, h => by
    rw [List.pairwise_cons] at ha hb
    have hxy : x = y := by
      rcases List.mem_cons.mp ((h x).mp (by simp)) with e | e
      · exact e
      · rcases List.mem_cons.mp ((h y).mpr (by simp)) with e' | e'
        · exact e'.symm
        · have := hb.1 _ e
          have := ha.1 _ e'
          omega
    subst hxy
    rw [sorted_ext ha.2 hb.2 fun z => ?_]
    constructor
    · intro hz
      rcases List.mem_cons.mp ((h z).mp (by simp [hz])) with e | e
      · subst e; exact absurd (ha.1 _ hz) (by omega)
      · exact e
    · intro hz
      rcases List.mem_cons.mp ((h z).mpr (by simp [hz])) with e | e
      · subst e; exact absurd (hb.1 _ hz) (by omega)
      · exact e

theorem nodup_ins {x : Nat} : ∀ {l : List Nat}, l.Nodup → x ∉ l → (sortNat.ins x l).Nodup
  | [], _, _ => by simp [sortNat.ins]
  | y :: ys, h, hx => by
    rw [sortNat.ins]
    split
    · exact List.nodup_cons.mpr ⟨hx, h⟩
    · rw [List.mem_cons, not_or] at hx
      rw [List.nodup_cons] at h ⊢
      refine ⟨fun hm => ?_, nodup_ins h.2 hx.2⟩
      rcases (mem_sortNat_ins _).mp hm with e | e
      · exact hx.1 e.symm
      · exact h.1 e

theorem nodup_sortNat : ∀ {l : List Nat}, l.Nodup → (sortNat l).Nodup
  | [], _ => .nil
  | x :: xs, h => by
    rw [List.nodup_cons] at h
    exact nodup_ins (nodup_sortNat h.2) fun hm => h.1 ((mem_sortNat _).mp hm)

theorem sorted_lt : ∀ {l : List Nat}, l.Pairwise (· ≤ ·) → l.Nodup → l.Pairwise (· < ·)
  | [], _, _ => .nil
  | x :: xs, h, hn => by
    rw [List.pairwise_cons] at h
    rw [List.nodup_cons] at hn
    refine List.pairwise_cons.mpr ⟨fun y hy => ?_, sorted_lt h.2 hn.2⟩
    rcases Nat.lt_or_ge x y with hlt | hge
    · exact hlt
    · have := h.1 y hy
      have : x = y := by omega
      subst this
      exact absurd hy hn.1

open Classical in
theorem numbered_filter {α : Type} {P : α → Prop} (f : α → String) : ∀ (l : List α) (types : List Nat), types.Nodup →
    (∀ i, i ∈ types ↔ ∃ v, l[i]? = some v ∧ P v) →
    (sortNat types).map (fun t => (l.map f).getD t "") = (l.filter fun v => decide (P v)).map f := by
  intro l types hn h
  have hidx : ∀ (l : List α) (n : Nat), (l.filter fun v => decide (P v)).map f =
      (((l.zipIdx n).filter fun x => decide (P x.1)).map Prod.snd).map (fun t => (l.map f).getD (t - n) "") := by
    intro l
    induction l with
    | nil => intro n; rfl
    | cons a l ih =>
      intro n
      have hrest : (l.filter fun v => decide (P v)).map f =
          (((l.zipIdx (n + 1)).filter fun x => decide (P x.1)).map Prod.snd).map (fun t => ((a :: l).map f).getD (t - n) "") := by
        rw [ih (n + 1), List.map_map, List.map_map]
        apply List.map_congr_left
        intro x hx
        have hx := (List.mem_filter.mp hx).1
        have := (List.mem_zipIdx hx).1
        simp only [Function.comp_apply]
        rw [show x.2 - n = (x.2 - (n + 1)) + 1 by omega]
        simp
      rw [List.zipIdx_cons, List.filter_cons, List.filter_cons]
      by_cases hp : P a
      · simp only [hp, decide_true, if_true, List.map_cons, hrest]
        simp
      · simp only [hp, decide_false, Bool.false_eq_true, if_false, hrest]
  rw [hidx l 0]
  have hs : sortNat types = ((l.zipIdx 0).filter fun x => decide (P x.1)).map Prod.snd := by
    refine sorted_ext (sorted_lt (sorted_sortNat _) (nodup_sortNat hn)) ?_ fun i => ?_
    · have : ((l.zipIdx 0).map Prod.snd).Pairwise (· < ·) := by
        rw [List.zipIdx_map_snd]
        exact List.pairwise_lt_range'
      exact this.sublist (List.Sublist.map _ (List.filter_sublist))
    · rw [mem_sortNat, h i]
      simp only [List.mem_map, List.mem_filter, decide_eq_true_eq, Prod.exists, exists_eq_right]
      constructor
      · rintro ⟨v, h1, h2⟩
        exact ⟨v, List.mem_zipIdx_iff_getElem?.mpr h1, h2⟩
      · rintro ⟨v, h1, h2⟩
        exact ⟨v, List.mem_zipIdx_iff_getElem?.mp h1, h2⟩
  rw [hs]
  rfl

/-! ### One call of `add_variable` -/

theorem writtenChar_byte {w : List Nat} {c : Nat} (h : WrittenChar w c) : AllBytes w := by
  cases h with
  | plain h => intro x hx; rw [List.mem_singleton.mp hx]; unfold Plain AlphaNum at h; simp at h; show c < 256; omega
  | escaped h =>
    intro x hx
    rcases List.mem_cons.mp hx with rfl | hx
    · decide
    · rw [List.mem_singleton.mp hx]; unfold Special at h; simp at h; show c < 256; omega
  | _ => intro x hx; show x < 256; simp at hx; omega

theorem isName_bytes {n : List Nat} (h : IsName n) : AllBytes n := by
  intro x hx
  have := h.2 x hx
  unfold AlphaNum at this
  show x < 256
  omega

theorem digits_bytes {ds : List Nat} (h : IsNumeral ds) : AllBytes (digitsText ds) := by
  intro x hx
  obtain ⟨d, hd, rfl⟩ := List.mem_map.mp hx
  have := h.2 d hd
  show 48 + d < 256
  omega

theorem allBytes_cons {a : Nat} {b : List Nat} : AllBytes (a :: b) ↔ a < 256 ∧ AllBytes b :=
  ⟨fun h => ⟨h a (by simp), fun x hx => h x (by simp [hx])⟩,
    fun h x hx => (List.mem_cons.mp hx).elim (fun e => e ▸ h.1) (h.2 x)⟩

theorem allBytes_nil : AllBytes [] := fun _ h => by cases h

/-- What is written as a pattern consists of bytes. -/
theorem written_bytes {l : Level} {k : Nat} {w : List Nat} {p : Pat} (h : Written l k w p) : AllBytes w := by
  induction h with
  | char h => exact writtenChar_byte h
  | capture hn _ ih => simp [allBytes_append, allBytes_cons, allBytes_nil, isName_bytes hn, ih]
  | exact _ hn ih => simp [allBytes_append, allBytes_cons, allBytes_nil, digits_bytes hn, ih]
  | range _ hn hm ih => simp [allBytes_append, allBytes_cons, allBytes_nil, digits_bytes hn, digits_bytes hm, ih]
  | _ => simp_all [allBytes_append, allBytes_cons, allBytes_nil]

/-- The text given to `add_variable`. -/
def VarText.decl (v : VarText) : List Nat := v.name ++ 58 :: v.text

/-- One call of `add_variable` with priority -1. -/
theorem add_one {E : SchemaEnv} (hE : E.Ok) (ho : E.orders.Ok (schemaGrammar (E.specials.map (·.2)))) {kids : Nat} {v : VarText} (hv : v.Ok)
    {re : Regex} (hre : v.pat.elab = some re) (hk : kids + 5 * v.decl.length ≤ 10000) (s : SchemaAST) :
    ∃ n kids', kids' ≤ kids + 5 * v.decl.length ∧ ∀ fuel steps, n ≤ fuel → n ≤ steps →
      schemaAddVariable { E with fuel := fuel, steps := steps } kids s v.decl (-1) =
        .ok ({ vars := s.vars ++ [⟨asString v.name, re⟩], delims := s.delims }, kids') := by
  obtain ⟨h1, h2, h3, _⟩ := hv
  have hlen : v.decl.length = v.name.length + 1 + v.text.length := by simp [VarText.decl]; omega
  rw [hlen] at hk ⊢
  obtain ⟨n, kids', k, hle, hkk, _, h⟩ := C17_text_partial hE ho h1 h2 hre (lexemes_noKeyword h3) (written_bytes h2) hk s (pos := -1)
    ⟨by omega, by omega⟩
  refine ⟨n, kids', hle, fun fuel steps f1 f2 => ?_⟩
  rw [VarText.decl, h fuel steps f1 f2, hkk rfl]
  simp

/-- With other bounds for the steps. -/
def SchemaEnv.within (E : SchemaEnv) (fuel steps : Nat) : SchemaEnv := { E with fuel := fuel, steps := steps }

theorem add_all : ∀ {vs : List (SchemaEnv × VarText)} {kids : Nat} {s : SchemaAST} {res : List Regex},
    (∀ v ∈ vs, v.1.Ok ∧ v.1.orders.Ok (schemaGrammar (v.1.specials.map (·.2))) ∧ v.2.Ok) →
    List.Forall₂ (fun v re => v.2.pat.elab = some re) vs res →
    kids + 5 * (vs.map fun v => v.2.decl.length).sum ≤ 10000 →
    ∃ n kids', kids' ≤ kids + 5 * (vs.map fun v => v.2.decl.length).sum ∧ ∀ fuel steps, n ≤ fuel → n ≤ steps →
      addVariables (vs.map fun v => (v.1.within fuel steps, v.2.decl)) kids s =
        .ok ({ vars := s.vars ++ (vs.zip res).map fun x => ⟨asString x.1.2.name, x.2⟩, delims := s.delims }, kids')
  | [], kids, s, _, _, .nil, _ => ⟨0, kids, by simp, fun _ _ _ _ => by simp [addVariables]⟩
  | (E, v) :: vs, kids, s, _, hvs, .cons (l₂ := res) (b := re) h hres, hk => by
    obtain ⟨g1, g2, g3⟩ := hvs (E, v) (by simp)
    simp only [List.map_cons, List.sum_cons] at hk ⊢
    obtain ⟨n1, k1, hle1, e1⟩ := add_one g1 g2 g3 h (kids := kids) (by simp only; omega) s
    simp only at hle1
    obtain ⟨n2, k2, hle2, e2⟩ := add_all (vs := vs) (kids := k1) (s := { vars := s.vars ++ [⟨asString v.name, re⟩], delims := s.delims })
      (fun x hx => hvs x (by simp [hx])) hres (by omega)
    refine ⟨n1 + n2, k2, by omega, fun fuel steps f1 f2 => ?_⟩
    rw [addVariables, SchemaEnv.within, e1 fuel steps (by omega) (by omega)]
    simp only
    rw [e2 fuel steps (by omega) (by omega)]
    simp

theorem numberRules_eq : ∀ (vs : List SchemaVar) (rules : List Rule) (names : List String), numberRules vs rules names =
    (rules ++ (vs.zipIdx names.length).map (fun x => ⟨x.2, x.1.regex⟩), names ++ vs.map (·.name))
  | [], rules, names => by simp [numberRules]
  | v :: vs, rules, names => by
    rw [numberRules, numberRules_eq vs]
    simp

/-! ### The automata -/

theorem automaton {rules : List Rule} {addr : Nat → Nat} (hinj : ∀ a b, addr a = addr b → a = b)
    (h : ∀ r ∈ rules, ∃ p : Pat, p.elab = some r.regex ∧ p.Sensible) : ∃ d, generateDfa rules addr = some d := by
  obtain ⟨n, hn⟩ := buildNfa_total rules fun r hr => by
    obtain ⟨p, h1, h2⟩ := h r hr
    exact (elab_spec p h1 h2).2.2.1
  obtain ⟨d, hd, _⟩ := C10_dfa_equiv_nfa hn hinj
  exact ⟨d, hd⟩

/-- What the automaton of the schema reports. -/
theorem schema_ids {vs : List (VarText × Regex)} {addr : Nat → Nat} (hinj : ∀ a b, addr a = addr b → a = b)
    (hok : ∀ v ∈ vs, v.1.Ok ∧ v.1.pat.elab = some v.2) {d : Dfa} (hd : generateDfa (vs.zipIdx.map fun x => ⟨x.2, x.1.2⟩) addr = some d)
    {s : List Nat} (hs : AllBytes s) (i : Nat) : i ∈ d.idsOn s ↔ ∃ v, vs[i]? = some v ∧ v.1.pat.ReadAs [] s := by
  classical
  have key : ∀ v, vs[i]? = some v → (i ∈ d.idsOn s ↔ v.1.pat.ReadAs [] s) := by
    intro v hv
    obtain ⟨h1, h2⟩ := hok v (List.mem_of_getElem? hv)
    refine C54_dfa hinj hd h2 ?_ ?_ hs
    · exact List.mem_map.mpr ⟨(v, i), List.mem_zipIdx_iff_getElem?.mpr hv, rfl⟩
    · intro r hr hi
      obtain ⟨x, hx, rfl⟩ := List.mem_map.mp hr
      have := List.mem_zipIdx_iff_getElem?.mp hx
      simp only at hi
      rw [hi, hv] at this
      rw [← Option.some.inj this]
  constructor
  · intro hm
    obtain ⟨r, hr, e⟩ := List.mem_map.mp ((C10_ids_complete hinj hd hs).mem_iff.mp hm)
    obtain ⟨x, hx, rfl⟩ := List.mem_map.mp (List.mem_filter.mp hr).1
    have hv := List.mem_zipIdx_iff_getElem?.mp hx
    simp only at e
    rw [e] at hv
    exact ⟨x.1, hv, (key _ hv).mp hm⟩
  · rintro ⟨v, hv, hm⟩
    exact (key v hv).mpr hm

/-- What the automaton of a query reports. -/
theorem query_ids {q : List Nat} (h0 : q ≠ []) {re : Regex} (hre : (queryPat q).elab = some re) {addr : Nat → Nat}
    (hinj : ∀ a b, addr a = addr b → a = b) {d : Dfa} (hd : generateDfa [⟨0, re⟩] addr = some d) {s : List Nat} (hs : AllBytes s) :
    d.idsOn s ≠ [] ↔ Glob 1 q s := by
  classical
  obtain ⟨g1, _, g3⟩ := queryPat_good q
  have key := C08_pattern_to_dfa_partial hinj hd hre (v := 0) (by simp) (by simp) g1 ((elab_open _ hre g1).2 g3) hs
  rw [query_matches h0 hs] at key
  rw [← key]
  constructor
  · intro h
    obtain ⟨x, l, e⟩ := List.exists_cons_of_ne_nil h
    have hx : x ∈ d.idsOn s := by rw [e]; simp
    have := (C10_ids_complete hinj hd hs).mem_iff.mp hx
    obtain ⟨r, hr, e⟩ := List.mem_map.mp this
    have := (List.mem_filter.mp hr).1
    simp only [List.mem_cons, List.not_mem_nil, or_false] at this
    subst this
    simp only at e
    rw [e]; exact hx
  · intro h e
    rw [e] at h
    cases h

open Classical in
/-- One query. -/
theorem query_one {E : QueryEnv} (hE : E.schema.Ok) (ho : E.schema.orders.Ok (schemaGrammar (E.schema.specials.map (·.2))))
    (hinj : ∀ a b, E.addr a = E.addr b → a = b) {vs : List (VarText × Regex)} {addr : Nat → Nat} (hinj1 : ∀ a b, addr a = addr b → a = b)
    (hok : ∀ v ∈ vs, v.1.Ok ∧ v.1.pat.elab = some v.2) {d : Dfa} (hd : generateDfa (vs.zipIdx.map fun x => ⟨x.2, x.1.2⟩) addr = some d)
    {q : List Nat} (hq : IsQuery q) {kids : Nat} (hk : kids + 5 * (queryText q).length ≤ 10000) :
    ∃ n kids', kids' ≤ kids + 5 * (queryText q).length ∧ ∀ fuel steps, n ≤ fuel → n ≤ steps →
      intersectQuery { E with schema := E.schema.within fuel steps } kids (vs.map fun v => asString v.1.name) d q =
        .ok ((vs.filter fun v => decide (v.1.Meets q)).map fun v => asString v.1.name, kids') := by
  obtain ⟨h0, hc, hkey⟩ := hq
  obtain ⟨g1, g2, g3⟩ := queryPat_good q
  obtain ⟨re, hre⟩ := elab_total _ g1 g2
  have hv : VarText.Ok ⟨[115, 101, 97, 114, 99, 104], processQuery q, queryPat q⟩ := by
    refine ⟨⟨by simp, ?_⟩, written_query h0 hc, fun h => hkey (keyword_queryText h), g1, g2⟩
    intro c hc
    simp at hc
    unfold AlphaNum
    omega
  obtain ⟨n, k, hle, h⟩ := add_one hE ho hv hre (kids := kids) hk {}
  obtain ⟨d2, hd2⟩ := automaton (rules := [⟨0, re⟩]) hinj (by
    intro r hr
    simp only [List.mem_cons, List.not_mem_nil, or_false] at hr
    subst hr
    exact ⟨_, hre, g1⟩)
  obtain ⟨types, t1, t2, t3⟩ := C12_intersect_exact hinj1 hinj hd hd2 E.pick
  refine ⟨n, k, hle, fun fuel steps f1 f2 => ?_⟩
  unfold intersectQuery
  have hadd : schemaAddVariable (E.schema.within fuel steps) kids {} (queryText q) (-1) = _ := h fuel steps f1 f2
  rw [hadd]
  simp only [queryRules, List.nil_append, List.map_cons, List.map_nil, hd2, t1]
  rw [numbered_filter (P := fun v : VarText × Regex => v.1.Meets q) (fun v => asString v.1.name) vs types t2]
  intro i
  rw [t3 i]
  constructor
  · rintro ⟨s, hs, h1, h2⟩
    obtain ⟨v, hv, hm⟩ := (schema_ids hinj1 hok hd hs i).mp h1
    exact ⟨v, hv, s, hs, hm, (query_ids h0 hre hinj hd2 hs).mp h2⟩
  · rintro ⟨v, hv, s, hs, hm, hg⟩
    exact ⟨s, hs, (schema_ids hinj1 hok hd hs i).mpr ⟨v, hv, hm⟩, (query_ids h0 hre hinj hd2 hs).mpr hg⟩

open Classical in
theorem query_all {vs : List (VarText × Regex)} {addr : Nat → Nat} (hinj1 : ∀ a b, addr a = addr b → a = b)
    (hok : ∀ v ∈ vs, v.1.Ok ∧ v.1.pat.elab = some v.2) {d : Dfa} (hd : generateDfa (vs.zipIdx.map fun x => ⟨x.2, x.1.2⟩) addr = some d) :
    ∀ {qs : List (QueryEnv × List Nat)} {kids : Nat},
    (∀ q ∈ qs, q.1.schema.Ok ∧ q.1.schema.orders.Ok (schemaGrammar (q.1.schema.specials.map (·.2))) ∧ (∀ a b, q.1.addr a = q.1.addr b → a = b) ∧ IsQuery q.2) →
    kids + 5 * (qs.map fun q => (queryText q.2).length).sum ≤ 10000 →
    ∃ n kids', kids' ≤ kids + 5 * (qs.map fun q => (queryText q.2).length).sum ∧ ∀ fuel steps, n ≤ fuel → n ≤ steps →
      intersectQueries (vs.map fun v => asString v.1.name) d (qs.map fun q => ({ q.1 with schema := q.1.schema.within fuel steps }, q.2)) kids =
        .ok (qs.map fun q => (vs.filter fun v => decide (v.1.Meets q.2)).map fun v => asString v.1.name, kids')
  | [], kids, _, _ => ⟨0, kids, by simp, fun _ _ _ _ => by simp [intersectQueries]⟩
  | (E, q) :: qs, kids, hqs, hk => by
    obtain ⟨g1, g2, g3, g4⟩ := hqs (E, q) (by simp)
    simp only [List.map_cons, List.sum_cons] at hk ⊢
    obtain ⟨n1, k1, hle1, e1⟩ := query_one g1 g2 g3 hinj1 hok hd g4 (kids := kids) (by simp only; omega)
    obtain ⟨n2, k2, hle2, e2⟩ := query_all hinj1 hok hd (qs := qs) (kids := k1) (fun x hx => hqs x (by simp [hx])) (by simp only at hle1; omega)
    refine ⟨n1 + n2, k2, by simp only at hle1; omega, fun fuel steps f1 f2 => ?_⟩
    rw [intersectQueries, e1 fuel steps (by omega) (by omega)]
    simp only
    rw [e2 fuel steps (by omega) (by omega)]

/-- What is answered to a query. -/
theorem program_answers {addr : Nat → Nat} (hinj : ∀ a b, addr a = addr b → a = b) {vs : List (SchemaEnv × VarText)} {qs : List (QueryEnv × List Nat)} {kids : Nat}
    (hvs : ∀ v ∈ vs, v.1.Ok ∧ v.1.orders.Ok (schemaGrammar (v.1.specials.map (·.2))) ∧ v.2.Ok)
    (hqs : ∀ q ∈ qs, q.1.schema.Ok ∧ q.1.schema.orders.Ok (schemaGrammar (q.1.schema.specials.map (·.2))) ∧
      (∀ a b, q.1.addr a = q.1.addr b → a = b) ∧ IsQuery q.2)
    (hk : kids + 5 * ((vs.map fun v => v.2.decl.length).sum + (qs.map fun q => (queryText q.2).length).sum) ≤ 10000) :
    ∃ n kids', ∀ fuel steps, n ≤ fuel → n ≤ steps →
      intersectProgram addr (vs.map fun v => (v.1.within fuel steps, v.2.decl))
          (qs.map fun q => ({ q.1 with schema := q.1.schema.within fuel steps }, q.2)) kids =
        .ok (qs.map fun q => searchAnswers (vs.map (·.2)) q.2, kids') := by
  have hel : ∃ res, List.Forall₂ (fun (v : SchemaEnv × VarText) re => v.2.pat.elab = some re) vs res := by
    clear hk hqs
    induction vs with
    | nil => exact ⟨[], .nil⟩
    | cons v vs ih =>
      obtain ⟨res, h⟩ := ih fun x hx => hvs x (by simp [hx])
      obtain ⟨_, _, h3⟩ := hvs v (by simp)
      obtain ⟨re, hre⟩ := elab_total _ h3.2.2.2.1 h3.2.2.2.2
      exact ⟨re :: res, .cons hre h⟩
  obtain ⟨res, hres⟩ := hel
  obtain ⟨n1, k1, hle, e1⟩ := add_all (kids := kids) (s := {}) hvs hres (by omega)
  have hzip : ∀ x ∈ (vs.zip res).map fun x => (x.1.2, x.2), x.1.Ok ∧ x.1.pat.elab = some x.2 := by
    intro x hx
    obtain ⟨y, hy, rfl⟩ := List.mem_map.mp hx
    exact ⟨(hvs _ (List.of_mem_zip hy).1).2.2, (List.forall₂_iff_zip.mp hres).2 hy⟩
  obtain ⟨d, hd⟩ := automaton (rules := (((vs.zip res).map fun x => (x.1.2, x.2)).zipIdx.map fun x => ⟨x.2, x.1.2⟩)) hinj (by
    intro r hr
    obtain ⟨x, hx, rfl⟩ := List.mem_map.mp hr
    obtain ⟨h1, h2⟩ := hzip x.1 (List.mem_of_getElem? (List.mem_zipIdx_iff_getElem?.mp hx))
    exact ⟨_, h2, h1.2.2.2.1⟩)
  obtain ⟨n2, k2, _, e2⟩ := query_all hinj hzip hd (kids := k1) hqs (by omega)
  refine ⟨n1 + n2, k2, fun fuel steps f1 f2 => ?_⟩
  unfold intersectProgram
  rw [e1 fuel steps (by omega) (by omega)]
  simp only [numberRules_eq, List.nil_append, List.length_nil]
  have hr : (((vs.zip res).map fun x : (SchemaEnv × VarText) × Regex => (⟨asString x.1.2.name, x.2⟩ : SchemaVar)).zipIdx 0).map (fun x => (⟨x.2, x.1.regex⟩ : Rule)) =
      ((vs.zip res).map fun x => (x.1.2, x.2)).zipIdx.map fun x => ⟨x.2, x.1.2⟩ := by
    rw [List.zipIdx_map, List.zipIdx_map, List.map_map, List.map_map]
    rfl
  have hn : ((vs.zip res).map fun x : (SchemaEnv × VarText) × Regex => (⟨asString x.1.2.name, x.2⟩ : SchemaVar)).map (·.name) =
      ((vs.zip res).map fun x => (x.1.2, x.2)).map fun v => asString v.1.name := by
    rw [List.map_map, List.map_map]
    rfl
  rw [hr, hn, hd]
  simp only
  rw [e2 fuel steps (by omega) (by omega)]
  have hfst : ((vs.zip res).map fun x => (x.1.2, x.2)).map (·.1) = vs.map (·.2) := by
    rw [List.map_map]
    have : vs = (vs.zip res).map (·.1) := by
      rw [List.map_fst_zip (Nat.le_of_eq hres.length_eq)]
    conv => rhs; rw [this, List.map_map]
    rfl
  refine congrArg (fun x => Except.ok (x, k2)) (List.map_congr_left fun q _ => ?_)
  unfold searchAnswers
  rw [← hfst]
  simp only [List.filter_map, List.map_map]
  rfl

end LogSurgeon
