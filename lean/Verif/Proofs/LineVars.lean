import Verif.Proofs.LineEvents
import Verif.Spec.LineVars
/-
The tokens of a log are those of its parts in front of and from a newline.
-/
namespace LogSurgeon

variable {s : SchemaAST} {addr : Nat → Nat} {t : ParserTables} {L : Lexer} {T : List Nat}

/-- In front of a newline the same is recognised if the text ends there. -/
theorem cand_front {b : Nat} (hC : s.Compiled addr t L) (hnl : s.IsDelim newline) (hline : s.LineTimestamps)
    (hget : T[b]? = some newline) {sof : Bool} {a e : Nat} (hsa : sof = true ∨ a < b) (hab : a ≤ b) :
    L.Cand (T.take b) sof a e ↔ L.Cand T sof a e := by
  have hb : b < T.length := (List.getElem?_eq_some_iff.mp hget).1
  have hlen : (T.take b).length = b := by rw [List.length_take]; omega
  have hd := (LineLex.of hC hnl hline).delim
  constructor
  · intro h
    have hle := h.2.1
    rw [hlen] at hle
    obtain ⟨h1, h2, h3, h4⟩ := h
    rw [typesOn_take hle] at h3
    refine ⟨h1, by omega, h3, ?_⟩
    rcases Nat.lt_or_ge e b with hlt | hge
    · rw [hlen, List.getElem?_take_of_lt hlt, slice_take hle] at h4
      exact .inr (h4.resolve_left (by omega))
    · obtain rfl : e = b := by omega
      exact .inr (.inl ⟨_, hget, hd⟩)
  · intro h
    have hle := cand_before hC hnl hline hget hsa hab h
    obtain ⟨h1, h2, h3, h4⟩ := h
    refine ⟨h1, by omega, by rw [typesOn_take hle]; exact h3, ?_⟩
    rcases Nat.lt_or_ge e b with hlt | hge
    · rw [List.getElem?_take_of_lt hlt, slice_take hle]
      exact .inr (h4.resolve_left (by omega))
    · exact .inl (by omega)

theorem longest_front {b : Nat} (hC : s.Compiled addr t L) (hnl : s.IsDelim newline) (hline : s.LineTimestamps)
    (hget : T[b]? = some newline) {sof : Bool} {a e : Nat} (hsa : sof = true ∨ a < b) (hab : a ≤ b) (h : L.Longest T sof a e) :
    L.Longest (T.take b) sof a e :=
  ⟨(cand_front hC hnl hline hget hsa hab).mpr h.1, fun e' h' => h.2 e' ((cand_front hC hnl hline hget hsa hab).mp h')⟩

theorem noneIn_front {b : Nat} (hC : s.Compiled addr t L) (hnl : s.IsDelim newline) (hline : s.LineTimestamps)
    (hget : T[b]? = some newline) {p a : Nat} (hab : a ≤ b) (h : L.NoneIn T p a) : L.NoneIn (T.take b) p a :=
  fun x e h1 h2 hc => h x e h1 h2 ((cand_front hC hnl hline hget (.inr (by omega)) (by omega)).mp hc)

/-- A newline is at the beginning of a token. -/
theorem lexSpec_front {b : Nat} (hC : s.Compiled addr t L) (hnl : s.IsDelim newline) (hline : s.LineTimestamps)
    (hget : T[b]? = some newline) {p : Nat} {xs : List PTok} (h : LexSpec L T p xs) : p ≤ b →
    ∃ ys zs, xs = ys ++ zs ∧ LexSpec L (T.take b) p (ys ++ [⟨b, b, [tokenEnd]⟩]) ∧ LexSpec L T b zs := by
  have hb : b < T.length := (List.getElem?_eq_some_iff.mp hget).1
  have hlen : (T.take b).length = b := by rw [List.length_take]; omega
  have hcand := (LineLex.of hC hnl hline).cand hget
  have hd := LexSpec.done (L := L) (s := T.take b)
  rw [hlen] at hd
  induction h with
  | done => intro hp; omega
  | @rest p h1 h2 => intro hp; exact absurd hcand (h2 b _ hp hb)
  | @here p e toks h1 h2 ih =>
    intro hp
    rcases Nat.lt_or_ge p b with hlt | hge
    · have hle := cand_before hC hnl hline hget (.inr hlt) hp h1.1
      obtain ⟨ys, zs, rfl, i1, i2⟩ := ih hle
      refine ⟨⟨p, e, L.typesOn T false p e⟩ :: ys, zs, rfl, ?_, i2⟩
      have := LexSpec.here (longest_front hC hnl hline hget (.inr hlt) hp h1) i1
      rw [typesOn_take hle] at this
      exact this
    · obtain rfl : p = b := by omega
      exact ⟨[], _, rfl, hd, .here h1 h2⟩
  | @later p a e toks h0 h3 h1 h2 ih =>
    intro hp
    have hab : a ≤ b := by
      rcases Nat.lt_or_ge b a with hlt | hge
      · exact absurd hcand (h3 b _ hp hlt)
      · exact hge
    rcases Nat.lt_or_ge a b with hlt | hge
    · have hle := cand_before hC hnl hline hget (.inr hlt) hab h1.1
      obtain ⟨ys, zs, rfl, i1, i2⟩ := ih hle
      refine ⟨⟨p, a, [tokenUncaught]⟩ :: ⟨a, e, L.typesOn T false a e⟩ :: ys, zs, rfl, ?_, i2⟩
      have := LexSpec.later h0 (noneIn_front hC hnl hline hget hab h3) (longest_front hC hnl hline hget (.inr hlt) hab h1) i1
      rw [typesOn_take hle] at this
      exact this
    · obtain rfl : a = b := by omega
      refine ⟨[⟨p, a, [tokenUncaught]⟩], _, rfl, ?_, .here h1 h2⟩
      have := LexSpec.rest (L := L) (s := T.take a) (p := p) (by omega) (by rw [hlen]; exact noneIn_front hC hnl hline hget (Nat.le_refl _) h3)
      rw [hlen] at this
      exact this

theorem hidden_front {b h : Nat} (hget : T[b]? = some newline) (hh : L.Hidden T h) : h ≤ b ∧ L.Hidden (T.take b) h := by
  have hb : b < T.length := (List.getElem?_eq_some_iff.mp hget).1
  obtain ⟨hle, h1, h2, h3, h4⟩ := hidden_take hget hh
  rw [List.take_take, Nat.min_eq_left (by omega)] at h2 h3
  refine ⟨hle, by rw [List.length_take]; omega, ?_, ?_, ?_⟩
  · rw [List.take_take, Nat.min_eq_left hle]; exact h2
  · rw [List.take_take, Nat.min_eq_left hle]; exact h3
  · intro h' l1 l2
    rw [List.length_take] at l2
    have := hh.2.2.2 h' l1 (by omega)
    rw [List.take_take, Nat.min_eq_left (by omega)]
    exact this

theorem noStart_front {b : Nat} (hC : s.Compiled addr t L) (hnl : s.IsDelim newline) (hline : s.LineTimestamps)
    (hget : T[b]? = some newline) (h : L.NoStart T) : L.NoStart (T.take b) := by
  have hb : b < T.length := (List.getElem?_eq_some_iff.mp hget).1
  intro e he
  have hle := he.2.1
  rw [List.length_take] at hle
  rw [List.take_take, Nat.min_eq_left (by omega)]
  exact h e ((cand_front hC hnl hline hget (.inl rfl) (Nat.zero_le _)).mp he)

/-- The same for a whole text. -/
theorem lexExact_front {b : Nat} (hC : s.Compiled addr t L) (hnl : s.IsDelim newline) (hline : s.LineTimestamps)
    (hget : T[b]? = some newline) (hb0 : 0 < b) {xs : List PTok} (h : LexExact L T xs) :
    ∃ ys zs, xs = ys ++ zs ∧ LexExact L (T.take b) (ys ++ [⟨b, b, [tokenEnd]⟩]) ∧ LexSpec L T b zs := by
  have hb : b < T.length := (List.getElem?_eq_some_iff.mp hget).1
  have hlen : (T.take b).length = b := by rw [List.length_take]; omega
  have hcand := (LineLex.of hC hnl hline).cand hget
  cases h with
  | @start e' e toks h1 h2 h3 h4 =>
    have l1 := cand_before hC hnl hline hget (.inl rfl) (Nat.zero_le _) h1
    have l3 := cand_before hC hnl hline hget (.inl rfl) (Nat.zero_le _) h3.1
    obtain ⟨ys, zs, rfl, i1, i2⟩ := lexSpec_front hC hnl hline hget h4 l3
    refine ⟨⟨0, e, L.typesOn T true 0 e⟩ :: ys, zs, rfl, ?_, i2⟩
    have := LexExact.start (s := T.take b) ((cand_front hC hnl hline hget (.inl rfl) (Nat.zero_le _)).mpr h1)
      (by rw [List.take_take, Nat.min_eq_left (by omega)]; exact h2) (longest_front hC hnl hline hget (.inl rfl) (Nat.zero_le _) h3) i1
    rw [typesOn_take (by omega)] at this
    exact this
  | done h1 => subst h1; simp at hb
  | @rest h h1 h2 h3 h4 =>
    exact absurd hcand (h4 b _ (hidden_front hget h2).1 hb)
  | @here e toks h1 h2 h3 h4 =>
    obtain ⟨_, hh⟩ := hidden_front hget h2
    have hn := noStart_front hC hnl hline hget h1
    have hle := cand_before hC hnl hline hget (.inr hb0) (Nat.zero_le _) h3.1
    obtain ⟨ys, zs, rfl, i1, i2⟩ := lexSpec_front hC hnl hline hget h4 hle
    refine ⟨⟨0, e, L.typesOn T false 0 e⟩ :: ys, zs, rfl, ?_, i2⟩
    have := LexExact.here hn hh (longest_front hC hnl hline hget (.inr hb0) (Nat.zero_le _) h3) i1
    rw [typesOn_take hle] at this
    exact this
  | @later h a e toks h1 h2 h3 h4 h5 h6 h7 =>
    obtain ⟨hhb, hh⟩ := hidden_front hget h2
    have hn := noStart_front hC hnl hline hget h1
    have hab : a ≤ b := by
      rcases Nat.lt_or_ge b a with hlt | hge
      · exact absurd hcand (h5 b _ hhb hlt)
      · exact hge
    rcases Nat.lt_or_ge a b with hlt | hge
    · have hle := cand_before hC hnl hline hget (.inr hlt) hab h6.1
      obtain ⟨ys, zs, rfl, i1, i2⟩ := lexSpec_front hC hnl hline hget h7 hle
      refine ⟨⟨0, a, [tokenUncaught]⟩ :: ⟨a, e, L.typesOn T false a e⟩ :: ys, zs, rfl, ?_, i2⟩
      have := LexExact.later hn hh h3 h4 (noneIn_front hC hnl hline hget hab h5) (longest_front hC hnl hline hget (.inr hlt) hab h6) i1
      rw [typesOn_take hle] at this
      exact this
    · obtain rfl : a = b := by omega
      refine ⟨[⟨0, a, [tokenUncaught]⟩], _, rfl, ?_, .here h6 h7⟩
      have := LexExact.rest (L := L) (s := T.take a) hn hh (by omega) (by rw [hlen]; exact noneIn_front hC hnl hline hget (Nat.le_refl _) h5)
      rw [hlen] at this
      exact this

/-- A text beginning with a newline is lexed as any other place. -/
theorem lexExact_newline (hC : s.Compiled addr t L) (hnl : s.IsDelim newline) (hline : s.LineTimestamps) {q : Nat}
    (hq : L.dfa.next 0 cCharStartOfFile = some q) (hget : T[0]? = some newline) {xs : List PTok} (h : LexSpec L T 0 xs) : LexExact L T xs := by
  have hcand := (LineLex.of hC hnl hline).cand hget
  have hb : 0 < T.length := (List.getElem?_eq_some_iff.mp hget).1
  have hmem : ∀ e, 0 < e → newline ∈ T.take e := by
    intro e he
    exact List.mem_of_getElem? (i := 0) (by rw [List.getElem?_take_of_lt he, hget])
  have hns : L.NoStart T := fun e he => hmem e he.1
  have hh : L.Hidden T 0 := by
    refine ⟨Nat.zero_le _, ?_, by simp, fun h' l1 _ => .inl (hmem h' l1)⟩
    rw [List.take_zero, Dfa.run, hq]
    rfl
  generalize h0 : (0 : Nat) = z at h
  cases h with
  | done => omega
  | rest h1 h2 => subst h0; exact absurd hcand (h2 0 _ (Nat.le_refl _) hb)
  | here h1 h2 => subst h0; exact .here hns hh h1 h2
  | later h1 h2 h3 h4 => subst h0; exact absurd hcand (h2 0 _ (Nat.le_refl _) h1)

/-- The tokens of a text with a newline at `b`. -/
theorem toks_join (hC : s.Compiled addr t L) (hnl : s.IsDelim newline) (hline : s.LineTimestamps) {q : Nat}
    (hq : L.dfa.next 0 cCharStartOfFile = some q) (hqa : L.dfa.isAccepting q = false) (hfd : cCharStartOfFile ∉ T) {b : Nat}
    (hget : T[b]? = some newline) (hb0 : 0 < b) :
    ∃ ys zs, (L.toks T true (.sof q)).1 = ys ++ zs ∧ (L.toks (T.take b) true (.sof q)).1 = ys ++ [⟨b, b, [tokenEnd]⟩] ∧
      (L.toks (T.drop b) true (.sof q)).1 = zs.map (PTok.shift b) ∧ ∀ z ∈ zs, b ≤ z.a := by
  have hO := buildLexer_ok hC.ok
  have hL := hO.schemaLike hC.sensible hC.inj hnl
  have hT := hO.typesProper hC.sensible
  have hb : b < T.length := (List.getElem?_eq_some_iff.mp hget).1
  have hex : ∀ U : List Nat, cCharStartOfFile ∉ U → LexExact L U (L.toks U true (.sof q)).1 := fun U hU =>
    pureAll_exact hL hT hU ⟨hq, hqa⟩ (by simp only [Cfg.cov]; omega)
  obtain ⟨ys, zs, h1, h2, h3⟩ := lexExact_front hC hnl hline hget hb0 (hex T hfd)
  have h4 := lexSpec_drop h3 (Nat.le_refl _) (by omega)
  rw [Nat.sub_self] at h4
  have h5 := lexExact_newline hC hnl hline hq (by rw [List.getElem?_drop, Nat.add_zero, hget]) h4
  exact ⟨ys, zs, h1, (hex _ (fun hm => hfd (List.mem_of_mem_take hm))).unique h2, (hex _ (fun hm => hfd (List.mem_of_mem_drop hm))).unique h5,
    lexSpec_pos h3⟩

/-! ### Variables -/

/-- A token as a variable, without newlines in front. -/
def PTok.varText (T : List Nat) (var : Nat) (x : PTok) : List (List Nat) :=
  if x.kind = var ∧ x.kind ≠ tokenEnd then [stripNl (x.text T)] else []

def curVars (T : List Nat) (var : Nat) : Option PEvent → List (List Nat)
  | none => []
  | some e => e.toks.flatMap (PTok.varText T var)

theorem varText_divided {var : Nat} (hvar : var ≠ tokenUncaught) {x : PTok} (h : x.a < x.e) (hs : x.startsNl T = true) :
    x.varText T var = x.nl.varText T var ++ x.rest.varText T var := by
  have h1 : x.nl.varText T var = [] := by
    unfold PTok.varText
    exact if_neg (fun h => hvar h.1.symm)
  have h2 : stripNl (x.text T) = stripNl (x.rest.text T) := by
    have := nl_rest_text (s := T) h
    rw [← this]
    simp only [PTok.startsNl, beq_iff_eq] at hs
    have hlt : x.a < T.length := (List.getElem?_eq_some_iff.mp hs).1
    have : x.nl.text T = [newline] := by
      show slice T x.a (x.a + 1) = _
      rw [slice_cons (Nat.lt_succ_self _) hlt, slice_self]
      obtain ⟨_, h⟩ := List.getElem?_eq_some_iff.mp hs
      rw [h]
    rw [this]
    simp [stripNl]
  rw [h1, List.nil_append]
  unfold PTok.varText
  rw [h2]
  rfl

/-- The variables of the events are those of the tokens. -/
theorem segment_vars {var : Nat} (hvar : var ≠ tokenUncaught) : ∀ (xs : List PTok) (cur : Option PEvent), EndLast xs →
    (∀ x ∈ xs, x.kind = tokenNewlineTimestamp → x.startsNl T = true) →
    (segment T cur xs).flatMap (fun e => e.toks.flatMap (PTok.varText T var)) = curVars T var cur ++ xs.flatMap (PTok.varText T var) := by
  intro xs
  induction xs with
  | nil => intro cur h _; exact h.elim
  | cons x xs ih =>
    intro cur h h6
    cases xs with
    | nil =>
      obtain ⟨h1, h2⟩ := h
      have hx : x.varText T var = [] := by unfold PTok.varText; exact if_neg (fun h => h.2 h1)
      cases cur with
      | none => simp [segment, h1, curVars, hx]
      | some e => simp [segment, h1, curVars, hx]
    | cons y ys =>
      obtain ⟨h1, h2, h3⟩ := h
      have ih := fun cur => ih cur h3 (fun z hz => h6 z (List.mem_cons_of_mem _ hz))
      have hadd : ∀ (e : PEvent) (z : PTok), (e.add z).toks.flatMap (PTok.varText T var) = e.toks.flatMap (PTok.varText T var) ++ z.varText T var := by
        intro e z
        simp [PEvent.add]
      have hstart : ∀ z : PTok, curVars T var (some (.start z)) = z.varText T var := by
        intro z
        simp [curVars, PEvent.start]
      cases cur with
      | none =>
        rw [segment, if_neg h1]
        split
        · rename_i hk
          have hd := varText_divided hvar h2 (h6 x (by simp) hk)
          rw [List.flatMap_cons, ih, List.flatMap_cons (x := x), hd, hstart]
          simp [curVars]
        · rw [ih, List.flatMap_cons, hstart]
          simp [curVars]
      | some e =>
        rw [segment, if_neg h1]
        split
        · rw [List.flatMap_cons, ih, List.flatMap_cons (x := x), hadd]
          simp [curVars]
        · split
          · rename_i hk
            have hd := varText_divided (T := T) hvar h2 (by
              rcases hk with hk | hk
              · exact h6 x (by simp) hk.2
              · exact hk.2)
            rw [List.flatMap_cons, ih, List.flatMap_cons (x := x), hadd, hd, hstart]
            simp [curVars]
          · rw [ih, List.flatMap_cons]
            simp [curVars, hadd]

/-- The variables of a text with a newline at `b`. -/
theorem vars_join (hC : s.Compiled addr t L) (hnl : s.IsDelim newline) (hline : s.LineTimestamps) {q : Nat}
    (hq : L.dfa.next 0 cCharStartOfFile = some q) (hqa : L.dfa.isAccepting q = false) (hfd : cCharStartOfFile ∉ T) {b : Nat}
    (hget : T[b]? = some newline) (hb0 : 0 < b) (var : Nat) :
    (L.toks T true (.sof q)).1.flatMap (PTok.varText T var) =
      (L.toks (T.take b) true (.sof q)).1.flatMap (PTok.varText (T.take b) var) ++
        (L.toks (T.drop b) true (.sof q)).1.flatMap (PTok.varText (T.drop b) var) := by
  obtain ⟨ys, zs, h1, h2, h3, h4⟩ := toks_join hC hnl hline hq hqa hfd hget hb0
  have hb : b < T.length := (List.getElem?_eq_some_iff.mp hget).1
  have hlen : (T.take b).length = b := by rw [List.length_take]; omega
  rw [h1, h2, h3, List.flatMap_append, List.flatMap_append]
  have he : PTok.varText (T.take b) var ⟨b, b, [tokenEnd]⟩ = [] := by unfold PTok.varText; exact if_neg (fun h => h.2 rfl)
  have hy : ys.flatMap (PTok.varText T var) = ys.flatMap (PTok.varText (T.take b) var) := by
    have htl := (whole_facts hC hq hqa (T.take b)).2
    rw [h2] at htl
    have hle : ∀ y ∈ ys, y.e ≤ b := by
      intro y hy
      have := (htl.le.2 y (by simp [hy])).2
      rw [hlen] at this
      exact this
    refine List.flatMap_congr fun y hy => ?_
    unfold PTok.varText PTok.text
    rw [slice_take (hle y hy)]
  have hz : zs.flatMap (PTok.varText T var) = (zs.map (PTok.shift b)).flatMap (PTok.varText (T.drop b) var) := by
    rw [List.flatMap_map]
    refine List.flatMap_congr fun z hz => ?_
    unfold PTok.varText PTok.text PTok.shift
    simp only
    rw [slice_drop (h4 z hz)]
    rfl
  rw [hy, hz]
  simp [he]

/-! ### Pieces -/

theorem pieces_cons : ∀ {T p : List Nat} {ps : List (List Nat)}, newlinePieces T = p :: ps →
    p ≠ [] ∧ ∃ T', T = p ++ T' ∧ newlinePieces T' = ps ∧ (T' ≠ [] → T'.head? = some newline) := by
  intro T
  induction T with
  | nil => intro p ps h; cases h
  | cons c rest ih =>
    intro p ps h
    rw [newlinePieces] at h
    cases hr : newlinePieces rest with
    | nil =>
      rw [hr] at h
      cases h
      have : rest = [] := by
        cases rest with
        | nil => rfl
        | cons d r =>
          rw [newlinePieces] at hr
          split at hr
          · cases hr
          · split at hr <;> cases hr
      subst this
      exact ⟨by simp, [], rfl, rfl, fun h => absurd rfl h⟩
    | cons p' ps' =>
      rw [hr] at h
      obtain ⟨h1, T', h2, h3, h4⟩ := ih hr
      simp only at h
      split at h
      · rename_i hp
        cases h
        refine ⟨by simp, rest, rfl, hr, fun _ => ?_⟩
        rw [h2]
        cases p' with
        | nil => exact absurd rfl h1
        | cons d r => exact hp
      · cases h
        exact ⟨by simp, T', by rw [h2]; rfl, h3, h4⟩

theorem pieces_nil {T : List Nat} (h : newlinePieces T = []) : T = [] := by
  cases T with
  | nil => rfl
  | cons c rest =>
    rw [newlinePieces] at h
    split at h
    · cases h
    · split at h <;> cases h

end LogSurgeon
