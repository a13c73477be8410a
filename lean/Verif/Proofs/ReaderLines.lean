import Verif.Proofs.ReaderAll
import Verif.Proofs.Client
/-
The events of a log fit the buffer of a reader parser if each of them, with the following line, is shorter than half of it.
-/
namespace LogSurgeon
open Ctx

/-- No run of the lexer goes past a newline. -/
theorem LexerOf.newline_dies {s addr t L} (h : LexerOf s addr t L) (hs : s.Sensible) (hinj : ∀ a b, addr a = addr b → a = b)
    (hnl : s.IsDelim newline) (hline : s.LineTimestamps) {c : Nat} {v : List Nat} (hr : (L.dfa.run 0 (c :: v)).isSome) : newline ∉ v := by
  intro hm
  obtain ⟨_, n, re, hk, _, h2⟩ := h.alive hs hinj hr
  have h3 := h2 _ hm
  cases hk with
  | newLine => cases h3
  | first hv hts => have h4 : Regex.possible _ newline = true := h3; rw [hline _ hv hts] at h4; cases h4
  | newLineTs hv hts => have h4 : Regex.possible _ newline = true := h3; rw [hline _ hv hts] at h4; cases h4
  | var hv hts =>
    have := h.rest_delim hv hts h3
    rw [(h.schemaLike hs hinj hnl).nlDelim] at this
    cases this

/-- A run at the root or after some characters. -/
def CurRun (L : Lexer) : Cur → Prop
  | none => True
  | some (q, _, m) => (q = 0 ∧ m = none) ∨ ∃ c v, L.dfa.run 0 (c :: v) = some q

theorem CurRun.enter (L : Lexer) (c i : Nat) : CurRun L (L.enter c i) := by
  unfold Lexer.enter
  cases h : L.dfa.next 0 c with
  | none => trivial
  | some q => exact .inr ⟨c, [], by simp [Dfa.run, h]⟩

theorem CurRun.step {L : Lexer} {q q' a a' c : Nat} {m m' : Option (Nat × List Nat)} (h : CurRun L (some (q, a, m))) (hn : L.dfa.next q c = some q') :
    CurRun L (some (q', a', m')) := by
  right
  rcases h with ⟨rfl, _⟩ | ⟨d, v, h⟩
  · exact ⟨c, [], by simp [Dfa.run, hn]⟩
  · refine ⟨d, v ++ [c], ?_⟩
    rw [← List.cons_append, Dfa.run_append, h]
    simp [Dfa.run, hn]

/-- No run of the lexer goes past a newline. -/
def NlDies (L : Lexer) : Prop := ∀ (c : Nat) (v : List Nat), (L.dfa.run 0 (c :: v)).isSome → newline ∉ v

theorem NlDies.next {L : Lexer} (h : NlDies L) {c q : Nat} {v : List Nat} (hr : L.dfa.run 0 (c :: v) = some q) : L.dfa.next q newline = none := by
  cases hn : L.dfa.next q newline with
  | none => rfl
  | some q' =>
    exfalso
    refine h c (v ++ [newline]) ?_ (by simp)
    rw [← List.cons_append, Dfa.run_append, hr]
    simp [Dfa.run, hn]

theorem find_cand {L : Lexer} (hD : NlDies L) : ∀ (r : List Nat) (i q a : Nat) (m : Nat × List Nat), (∃ c v, L.dfa.run 0 (c :: v) = some q) →
    newline ∈ r → L.find false (some (q, a, some m)) i r ≠ .more := by
  intro r
  induction r with
  | nil => intro _ _ _ _ _ h; cases h
  | cons c r ih =>
    intro i q a m hq hm
    obtain ⟨m', hc⟩ : ∃ m', L.cand q i c (some m) = some m' := by
      unfold Lexer.cand
      split
      · exact ⟨_, rfl⟩
      · exact ⟨m, rfl⟩
    unfold Lexer.find
    rw [hc, if_neg (by simp)]
    by_cases hcn : c = newline
    · subst hcn
      obtain ⟨d, v, hq⟩ := hq
      rw [hD.next hq]
      simp
    · have hr : newline ∈ r := by
        rcases List.mem_cons.mp hm with h | h
        · exact absurd h.symm hcn
        · exact h
      cases hn : L.dfa.next q c with
      | none => simp
      | some q' =>
        simp only
        apply ih _ _ _ _ _ hr
        obtain ⟨d, v, hq⟩ := hq
        refine ⟨d, v ++ [c], ?_⟩
        rw [← List.cons_append, Dfa.run_append, hq]
        simp [Dfa.run, hn]

theorem find_two {L : Lexer} (hL : NlOk L) (hN : L.isDelim newline = true) (hH : L.isHit newline = true) (hD : NlDies L) :
    ∀ (r : List Nat) (i : Nat) (cur : Cur), CurRun L cur → 2 ≤ r.count newline → L.find false cur i r ≠ .more := by
  have henter : ∀ (r : List Nat) (i j : Nat), newline ∈ r → L.find false (L.enter newline i) j r ≠ .more := by
    intro r i j hr
    obtain ⟨q, hq⟩ := Option.isSome_iff_exists.mp (hL.nl hL.delims)
    unfold Lexer.enter
    rw [hq]
    simp only [Option.map_some, hL.delims, beq_self_eq_true, Bool.and_self, if_true]
    exact find_cand hD _ _ _ _ _ ⟨newline, [], by simp [Dfa.run, hq]⟩ hr
  intro r
  induction r with
  | nil => intro _ _ _ h; simp at h
  | cons c r ih =>
    intro i cur hcur hc
    have hr1 : c = newline → newline ∈ r := by
      rintro rfl
      rw [List.count_cons_self] at hc
      exact List.count_pos_iff.mp (by omega)
    have hr2 : c ≠ newline → 2 ≤ r.count newline := by
      intro h
      rwa [List.count_cons_of_ne h] at hc
    have hrest : ∀ j, L.find false (if L.isHit c = true then L.enter c i else none) j r ≠ .more := by
      intro j
      by_cases hcn : c = newline
      · subst hcn
        rw [if_pos hH]
        exact henter _ _ _ (hr1 rfl)
      · apply ih _ _ _ (hr2 hcn)
        split
        · exact CurRun.enter _ _ _
        · trivial
    match cur with
    | none =>
      unfold Lexer.find
      exact hrest _
    | some (q, a, m) =>
      unfold Lexer.find
      by_cases hcond : (c == newline && L.hasDelims && (L.cand q i c m).isNone) = true
      · rw [if_pos hcond]
        have hcn : c = newline := by simp only [Bool.and_eq_true, beq_iff_eq] at hcond; exact hcond.1.1
        subst hcn
        exact henter _ _ _ (hr1 rfl)
      · rw [if_neg hcond]
        cases hn : L.dfa.next q c with
        | some q' =>
          simp only
          have hcn : c ≠ newline := by
            rintro rfl
            rcases hcur with ⟨rfl, rfl⟩ | ⟨d, v, hq⟩
            · apply hcond
              simp [Lexer.cand, hL.delims, hL.root]
            · rw [hD.next hq] at hn; cases hn
          exact ih _ _ (hcur.step hn) (hr2 hcn)
        | none =>
          simp only
          cases hm : L.cand q i c m with
          | some m' => simp
          | none => exact hrest _

/-- Where the tokens of an unfinished text stop, at most one newline follows. -/
theorem stop_newline {L : Lexer} (hL : NlOk L) (hN : L.isDelim newline = true) (hH : L.isHit newline = true) (hD : NlDies L) {s : List Nat}
    {c : Cfg} (hc : CfgOk L s c) (hn : L.nextTok s false c = none) : (s.drop c.cov).count newline ≤ 1 := by
  apply Decidable.byContradiction
  intro hk
  match c, hc with
  | .pend a e ty, _ => simp [Lexer.nextTok] at hn
  | .sof q, ⟨hq, _⟩ =>
    have h1 := find_two hL hN hH hD s 0 (some (q, 0, none)) (.inr ⟨cCharStartOfFile, [], by simp [Dfa.run, hq]⟩) (by simp only [Cfg.cov, List.drop_zero] at hk; omega)
    simp only [Lexer.nextTok, Lexer.look] at hn
    split at hn
    · split at hn <;> cases hn
    · split at hn <;> cases hn
    · rename_i h; exact h1 h
  | .at p, _ =>
    have h1 := find_two hL hN hH hD (s.drop p) p (some (0, p, none)) (.inl ⟨rfl, rfl⟩) (by simp only [Cfg.cov] at hk; omega)
    simp only [Lexer.nextTok, Lexer.look] at hn
    split at hn
    · split at hn <;> cases hn
    · split at hn <;> cases hn
    · rename_i h; exact h1 h

/-! ### Events of a beginning of the tokens -/

theorem segment_append {s : List Nat} (zs : List PTok) : ∀ (ys : List PTok) (cur : Option PEvent), NoEnd ys →
    segment s cur (ys ++ zs) = segment s cur ys ++ segment s (segmentRest s cur ys) zs := by
  intro ys
  induction ys with
  | nil => intro cur _; cases cur <;> simp [segment, segmentRest]
  | cons x ys ih =>
    intro cur h
    have hx := (h x (by simp)).1
    have ih := fun cur => ih cur (fun y hy => h y (by simp [hy]))
    cases cur with
    | none =>
      rw [List.cons_append, segment, segment, segmentRest, if_neg hx, if_neg hx, if_neg hx]
      split <;> simp [ih]
    | some e =>
      rw [List.cons_append, segment, segment, segmentRest, if_neg hx, if_neg hx, if_neg hx]
      split
      · simp [ih]
      · split <;> simp [ih]

theorem segmentRest_text {s : List Nat} : ∀ (ys : List PTok) (cur : Option PEvent), NoEnd ys →
    (segment s cur ys).flatMap (PEvent.text s) ++ curText s (segmentRest s cur ys) = curText s cur ++ ys.flatMap (PTok.text s) := by
  intro ys
  induction ys with
  | nil => intro cur _; cases cur <;> simp [segment, segmentRest]
  | cons x ys ih =>
    intro cur h
    obtain ⟨hx, hlt⟩ := h x (by simp)
    have ih := fun cur => ih cur (fun y hy => h y (by simp [hy]))
    have hsp := nl_rest_text (s := s) hlt
    have hadd : ∀ (e : PEvent) (y : PTok), (e.add y).text s = e.text s ++ y.text s := by intro e y; simp [PEvent.add, PEvent.text]
    cases cur with
    | none =>
      rw [segment, segmentRest, if_neg hx, if_neg hx]
      split
      · rw [List.flatMap_cons, List.append_assoc, ih, List.flatMap_cons, ← hsp]
        simp [curText, PEvent.text, PEvent.start]
      · rw [ih]
        simp [curText, PEvent.text, PEvent.start]
    | some e =>
      rw [segment, segmentRest, if_neg hx, if_neg hx]
      split
      · rw [List.flatMap_cons, List.append_assoc, ih, List.flatMap_cons, hadd]
        simp [curText]
      · split
        · rw [List.flatMap_cons, List.append_assoc, ih, List.flatMap_cons, hadd, ← hsp]
          simp [curText, text_start]
        · rw [ih, List.flatMap_cons]
          simp [curText, hadd]

theorem segment_congr {s t : List Nat} : ∀ (xs : List PTok) (cur : Option PEvent), (∀ x ∈ xs, x.a < s.length) →
    segment s cur xs = segment (s ++ t) cur xs := by
  intro xs
  induction xs with
  | nil => intro cur _; cases cur <;> rfl
  | cons x xs ih =>
    intro cur h
    have hx := h x (by simp)
    have ih := fun cur => ih cur (fun y hy => h y (by simp [hy]))
    have hnl : x.startsNl s = x.startsNl (s ++ t) := by
      unfold PTok.startsNl
      rw [List.getElem?_append_left hx]
    cases cur with
    | none => rw [segment, segment, ih, ih]
    | some e => rw [segment, segment, ih, ih, ih, hnl]

theorem head_text {s : List Nat} : ∀ (xs : List PTok) (e F : PEvent), (segment s (some e) xs).head? = some F → (e.text s).length ≤ (F.text s).length := by
  intro xs
  induction xs with
  | nil => intro e F h; cases h
  | cons x xs ih =>
    intro e F h
    have hadd : ∀ (e : PEvent) (y : PTok), (e.text s).length ≤ ((e.add y).text s).length := by intro e y; simp [PEvent.add, PEvent.text]
    rw [segment] at h
    split at h
    · cases h; exact Nat.le_refl _
    · split at h
      · cases h; exact hadd _ _
      · split at h
        · cases h; exact hadd _ _
        · exact Nat.le_trans (hadd _ x) (ih _ _ h)

/-- The next event is longer than what there was of it, by at least one character. -/
theorem head_longer {s : List Nat} {x : PTok} {xs : List PTok} {cur : Option PEvent} {F : PEvent} (h : (segment s cur (x :: xs)).head? = some F)
    (hx : x.kind ≠ tokenEnd) (hlt : x.a < x.e) (hle : x.e ≤ s.length) : (curText s cur).length + 1 ≤ (F.text s).length := by
  have hlen : ∀ a e : Nat, e ≤ s.length → (slice s a e).length = e - a := by intro a e h; unfold slice; simp; omega
  have h1 : 1 ≤ (x.text s).length := by unfold PTok.text; rw [hlen _ _ hle]; omega
  have h2 : (x.nl.text s).length = 1 := by unfold PTok.text; rw [hlen _ _ (by show x.a + 1 ≤ _; omega)]; show x.a + 1 - x.a = 1; omega
  have hadd : ∀ (e : PEvent) (y : PTok), ((e.add y).text s).length = (e.text s).length + (y.text s).length := by
    intro e y; simp [PEvent.add, PEvent.text]
  cases cur with
  | none =>
    rw [segment, if_neg hx] at h
    split at h
    · cases h
      simp [curText, PEvent.text, h2]
    · have := head_text _ _ _ h
      rw [text_start] at this
      simp only [curText, List.length_nil]; omega
  | some e =>
    rw [segment, if_neg hx] at h
    split at h
    · cases h
      rw [hadd]; simp only [curText]; omega
    · split at h
      · cases h
        rw [hadd, h2]; simp only [curText]; omega
      · have := head_text _ _ _ h
        rw [hadd] at this
        simp only [curText]; omega

theorem firstLine_split : ∀ (l : List Nat), (∃ a b, firstLine l = a ++ [newline] ∧ l = a ++ [newline] ++ b) ∨ (newline ∉ l ∧ firstLine l = l) := by
  intro l
  induction l with
  | nil => right; simp [firstLine]
  | cons c l ih =>
    unfold firstLine
    by_cases hc : c = newline
    · rw [if_pos hc]; left; exact ⟨[], l, by simp [hc], by simp [hc]⟩
    · rw [if_neg hc]
      rcases ih with ⟨a, b, h1, h2⟩ | ⟨h1, h2⟩
      · left; exact ⟨c :: a, b, by simp [h1], by rw [h2]; simp⟩
      · right; exact ⟨by simp [h1, Ne.symm hc], by rw [h2]⟩

theorem count_two {l : List Nat} {p u v : Nat} (hu : l[u]? = some newline) (hv : l[v]? = some newline) (hp : p ≤ u) (huv : u < v) :
    2 ≤ (l.drop p).count newline := by
  have h1 : l.drop p = (l.drop p).take (u - p) ++ l.drop u := by
    have := (List.take_append_drop (u - p) (l.drop p)).symm
    rwa [List.drop_drop, show p + (u - p) = u by omega] at this
  have h2 : l.drop u = newline :: l.drop (u + 1) := by
    have hl : u < l.length := (List.getElem?_eq_some_iff.mp hu).1
    rw [List.drop_eq_getElem_cons hl]
    rw [List.getElem?_eq_getElem hl] at hu
    rw [Option.some.inj hu]
  have h3 : newline ∈ l.drop (u + 1) := by
    apply List.mem_of_getElem? (i := v - (u + 1))
    rw [List.getElem?_drop, show u + 1 + (v - (u + 1)) = v by omega]; exact hv
  rw [h1, h2, List.count_append, List.count_cons_self]
  have := List.count_pos_iff.mpr h3
  omega

theorem tilesTo_text {s : List Nat} : ∀ {xs : List PTok} {p n : Nat}, TilesTo p n xs → xs.flatMap (PTok.text s) = slice s p n ∧ p ≤ n := by
  intro xs
  induction xs with
  | nil => intro p n h; have h : p = n := h; subst h; simp [slice]
  | cons x xs ih =>
    intro p n h
    obtain ⟨b1, b2, b3, b4⟩ := h
    obtain ⟨i1, i2⟩ := ih b4
    rw [List.flatMap_cons, i1, PTok.text, b1, slice_split (by omega) i2]
    exact ⟨rfl, by omega⟩

theorem nl_at {w A y R : List Nat} (h : w = A ++ (y ++ ([newline] ++ R))) : w[A.length + y.length]? = some newline := by
  rw [h, List.getElem?_append_right (by omega), Nat.add_sub_cancel_left, List.getElem?_append_right (Nat.le_refl _)]
  simp

theorem tiles_le {p n : Nat} {xs : List PTok} (h : Tiles p n xs) : ∀ x ∈ xs, x.e ≤ n := fun x hx => (h.le.2 x hx).2

variable {s : SchemaAST} {addr : Nat → Nat} {t : ParserTables} {L : Lexer}

theorem lines_fit (hC : s.Compiled addr t L) (hnl : s.IsDelim newline) (hres : s.NlReserved) (hline : s.LineTimestamps)
    {q : Nat} (hq : L.dfa.next 0 cCharStartOfFile = some q) (hqa : L.dfa.isAccepting q = false) {w : List Nat} {h i : Nat}
    (hi : i < (segment w none (L.toks w true (.sof q)).1).length)
    (hfit : ∀ e, (segment w none (L.toks w true (.sof q)).1)[i]? = some e → (e.text w).length +
      (firstLine (((segment w none (L.toks w true (.sof q)).1)[i + 1]?.map (PEvent.text w)).getD [])).length + 1 < h) :
    w.length < (((segment w none (L.toks w true (.sof q)).1).take i).flatMap (PEvent.text w)).length + h - 1 ∨
      i < (segment (w.take ((((segment w none (L.toks w true (.sof q)).1).take i).flatMap (PEvent.text w)).length + h - 1)) none
        (L.toks (w.take ((((segment w none (L.toks w true (.sof q)).1).take i).flatMap (PEvent.text w)).length + h - 1)) false (.sof q)).1).length := by
  have hO := buildLexer_ok hC.ok
  have hSL := hO.schemaLike hC.sensible hC.inj hnl
  have hL := hO.nlOk hC.sensible hC.inj
  have hT := hO.typesProper hC.sensible
  have hD : NlDies L := fun c v hr => hO.newline_dies hC.sensible hC.inj hnl hline hr
  -- the whole text
  obtain ⟨_, hW⟩ := whole_facts hC hq hqa w
  have hsound := pureAll_sound hL (s := w) (fin := true) (w.length - (Cfg.sof q).cov + 1) (.sof q) ⟨hq, hqa⟩
  have hEnd : EndLast (L.toks w true (.sof q)).1 := endLast_of_tiles (s := w) hT hW hsound
  have htext := segment_text (s := w) (L.toks w true (.sof q)).1 none hEnd
  have hflat : (L.toks w true (.sof q)).1.flatMap (PTok.text w) = w := (Tiles.flat hW).trans rfl
  rw [hflat] at htext
  have hchain := (segment_shape (s := w) (L.toks w true (.sof q)).1 none (fun x hx => nlToks hO hC.sensible hC.inj hres (hsound x hx)) trivial).2
  obtain ⟨E, hE⟩ : ∃ E, E = segment w none (L.toks w true (.sof q)).1 := ⟨_, rfl⟩
  rw [← hE] at hi hfit htext hchain ⊢
  obtain ⟨n, hn⟩ : ∃ n, n = ((E.take i).flatMap (PEvent.text w)).length + h - 1 := ⟨_, rfl⟩
  rw [← hn]
  apply Decidable.byContradiction
  intro hcon
  simp only [not_or, Nat.not_lt] at hcon
  obtain ⟨hnw, hk⟩ := hcon
  have hsplit : ∀ j, j < E.length → ∃ e, E[j]? = some e ∧ E.take (j + 1) = E.take j ++ [e] ∧ E = E.take j ++ e :: E.drop (j + 1) := by
    intro j hj
    refine ⟨E[j], List.getElem?_eq_getElem hj, by simp, ?_⟩
    rw [← List.drop_eq_getElem_cons hj, List.take_append_drop]
  have hw : E.flatMap (PEvent.text w) = w := by simpa [curText] using htext
  obtain ⟨e, he, _, hEe⟩ := hsplit i hi
  have hf := hfit e he
  have hwe : w = (E.take i).flatMap (PEvent.text w) ++ (e.text w ++ (E.drop (i + 1)).flatMap (PEvent.text w)) := by
    conv => lhs; rw [← hw, hEe]
    simp
  have hwl := congrArg List.length hwe
  simp only [List.length_append] at hwl
  -- there is a next event, and its first line has a newline
  have hi1 : i + 1 < E.length := by
    apply Decidable.byContradiction
    intro hc
    rw [List.drop_eq_nil_of_le (by omega), List.flatMap_nil, List.length_nil] at hwl
    omega
  obtain ⟨e', he', _, _⟩ := hsplit (i + 1) hi1
  have hdrop : E.drop (i + 1) = e' :: E.drop (i + 2) := by
    rw [List.drop_eq_getElem_cons hi1]
    rw [List.getElem?_eq_getElem hi1] at he'
    rw [Option.some.inj he']
  have hnext : ∀ j a b, E[j]? = some a → E[j + 1]? = some b → ∃ y, a.text w = y ++ [newline] := by
    intro j a b ha hb
    obtain ⟨hj1, ha⟩ := List.getElem?_eq_some_iff.mp ha
    obtain ⟨hj2, hb⟩ := List.getElem?_eq_some_iff.mp hb
    have := (List.isChain_iff_getElem.mp hchain) j hj2
    rw [ha, hb] at this
    obtain ⟨⟨x, hx, hxt⟩, _⟩ := this
    obtain ⟨ys, hys⟩ := List.getLast?_eq_some_iff.mp hx
    refine ⟨ys.flatMap (PTok.text w), ?_⟩
    unfold PEvent.text
    rw [hys, List.flatMap_append]
    simp [hxt]
  obtain ⟨y, hy⟩ := hnext i e e' he he'
  rw [hdrop, List.flatMap_cons] at hwe hwl
  have hfe : firstLine ((E[i + 1]?.map (PEvent.text w)).getD []) = firstLine (e'.text w) := by rw [he']; rfl
  rw [hfe] at hf
  obtain ⟨u, v, hfl, hsp⟩ : ∃ u v, firstLine (e'.text w) = u ++ [newline] ∧ e'.text w = u ++ [newline] ++ v := by
    rcases firstLine_split (e'.text w) with h1 | ⟨h1, h2⟩
    · exact h1
    · exfalso
      rcases Nat.lt_or_ge (i + 2) E.length with h3 | h3
      · obtain ⟨y', hy'⟩ := hnext (i + 1) e' _ he' (List.getElem?_eq_getElem h3)
        exact h1 (by rw [hy']; simp)
      · rw [h2] at hf
        rw [List.drop_eq_nil_of_le h3, List.flatMap_nil, List.length_append, List.length_nil] at hwl
        omega
  rw [hfl] at hf
  have hylen := congrArg List.length hy
  simp only [List.length_append, List.length_singleton] at hylen hf
  -- two newlines
  have hp1 : (w.take n)[((E.take i).flatMap (PEvent.text w)).length + y.length]? = some newline := by
    rw [List.getElem?_take_of_lt (by omega)]
    refine nl_at (R := e'.text w ++ (E.drop (i + 2)).flatMap (PEvent.text w)) ?_
    rw [hy, List.append_assoc] at hwe
    exact hwe
  have hp2 : (w.take n)[((E.take i).flatMap (PEvent.text w)).length + (e.text w).length + u.length]? = some newline := by
    rw [List.getElem?_take_of_lt (by omega), ← List.length_append]
    refine nl_at (R := v ++ (E.drop (i + 2)).flatMap (PEvent.text w)) ?_
    rw [hsp] at hwe
    refine hwe.trans ?_
    simp only [List.append_assoc]
  -- the beginning
  have hc : CfgOk L (w.take n) (.sof q) := ⟨hq, hqa⟩
  obtain ⟨_, p, hp, hti, c', hc', hcov, hno⟩ := pureAll_unfin_cfg hL hT ((w.take n).length - (Cfg.sof q).cov + 1) (.sof q) hc (by simp [Cfg.cov])
    (by simp only [Cfg.cov]; omega) (fun a e ty h => by cases h)
  have hcount := stop_newline hL hSL.nlDelim (nl_hit hSL) hD hc' hno
  rw [hcov] at hcount
  have hps := pureAll_sound hL (s := w.take n) (fin := false) ((w.take n).length - (Cfg.sof q).cov + 1) _ hc
  obtain ⟨n1, _, n3⟩ := noEnd_of_tiles (s := w.take n) hT hti hps
  obtain ⟨zs, hzs⟩ := (part_facts hC hq hqa (w.take n)).2.2.2 (w.drop n)
  rw [List.take_append_drop] at hzs
  have hti : TilesTo 0 p (L.toks (w.take n) false (.sof q)).1 := hti
  have n1 : NoEnd (L.toks (w.take n) false (.sof q)).1 := n1
  have n3 : ∀ x ∈ (L.toks (w.take n) false (.sof q)).1, x.a < p := n3
  generalize (L.toks (w.take n) false (.sof q)).1 = ys at hti n1 n3 hzs hk
  have hcg := segment_congr (s := w.take n) (t := w.drop n) ys none (fun x hx => by have := n3 x hx; omega)
  rw [List.take_append_drop] at hcg
  rw [hcg] at hk
  have hEs : E = segment w none ys ++ segment w (segmentRest w none ys) zs := by rw [hE, ← hzs, segment_append _ _ _ n1]
  have hrest := segmentRest_text (s := w) ys none n1
  have hpw : p ≤ w.length := by
    rw [List.length_take] at hp; omega
  have hpl : ((segment w none ys).flatMap (PEvent.text w)).length + (curText w (segmentRest w none ys)).length = p := by
    have := congrArg List.length hrest
    rw [(tilesTo_text hti).1] at this
    have h0 : curText w none = [] := rfl
    rw [h0, List.nil_append, List.length_append, slice_length (by omega)] at this
    omega
  -- the event that is not complete
  have hk' : (segment w none ys).length < E.length := by omega
  obtain ⟨F, hF, hF2, _⟩ := hsplit _ hk'
  have hFh : (segment w (segmentRest w none ys) zs).head? = some F := by
    rw [hEs, List.getElem?_append_right (Nat.le_refl _), Nat.sub_self] at hF
    rw [List.head?_eq_getElem?]; exact hF
  cases zs with
  | nil => cases hr : segmentRest w none ys <;> rw [hr] at hFh <;> simp [segment] at hFh
  | cons x zs =>
    by_cases hx : x.kind = tokenEnd
    · have : (segment w (segmentRest w none ys) (x :: zs)).length = 1 := by
        cases segmentRest w none ys <;> simp [segment, hx]
      rw [hEs, List.length_append, this] at hi1
      omega
    · have hxm : x ∈ (L.toks w true (.sof q)).1 := by rw [← hzs]; simp
      obtain ⟨_, hxlt⟩ := tiles_mem hW x hxm
      have hxle : x.e ≤ w.length := by
        rcases hsound x hxm with h1 | h1 | h1
        · exact tiles_le hW x hxm
        · exact tiles_le hW x hxm
        · exact tiles_le hW x hxm
      have hlong := head_longer hFh hx (hxlt hx) hxle
      have hle : ((E.take ((segment w none ys).length + 1)).flatMap (PEvent.text w)).length ≤
          ((E.take (i + 1)).flatMap (PEvent.text w)).length := by
        have : E.take ((segment w none ys).length + 1) <+: E.take (i + 1) := List.take_prefix_take_left (by omega)
        obtain ⟨r, hr⟩ := this
        rw [← hr, List.flatMap_append, List.length_append]; omega
      obtain ⟨e2, he2, hi2, _⟩ := hsplit i hi
      have : e2 = e := by rw [he] at he2; exact (Option.some.inj he2).symm
      subst this
      have hpre : E.take (segment w none ys).length = segment w none ys := by
        conv => lhs; rw [hEs]
        exact List.take_left
      rw [hi2, hF2, hpre, List.flatMap_append, List.flatMap_append, List.length_append, List.length_append] at hle
      simp only [List.flatMap_cons, List.flatMap_nil, List.append_nil] at hle
      have := count_two (p := p) hp1 hp2 (by omega) (by omega)
      omega

/-- Lines that fit are enough. -/
theorem fits_of_lines (hC : s.Compiled addr t L) (hv : s.vars ≠ []) (hnl : s.IsDelim newline) (hres : s.NlReserved) (hline : s.LineTimestamps)
    {pb : BufferParser} (hI : pb.Idle t L) {h : Nat} {w : List Nat} (hfit : pb.LinesFit h w) : pb.Fits h w := by
  obtain ⟨q, hq, hqa, hs⟩ := seenOf_spec hC hv
  have hs := fun fin w => hs hI fin w
  unfold BufferParser.LinesFit at hfit
  unfold BufferParser.Fits
  simp only [hs, List.length_map, seenLength_map, List.getElem?_map] at hfit ⊢
  intro i hi
  refine ⟨fun h0 => ?_, ?_⟩
  · obtain ⟨i, rfl⟩ : ∃ j, i = j + 1 := ⟨i - 1, by omega⟩
    have h1 := (hfit i ((segment w none (L.toks w true (.sof q)).1)[i].seen w) (by rw [List.getElem?_eq_getElem (by omega)]; rfl)).2
    cases hts : ((segment w none (L.toks w true (.sof q)).1)[i].seen w).ts with
    | false => exact .inl (h1 hts hi)
    | true =>
      refine .inr ⟨(segment w none (L.toks w true (.sof q)).1)[i].seen w, ?_, hts⟩
      rw [Nat.add_sub_cancel, List.getElem?_eq_getElem (by omega)]; rfl
  · refine lines_fit hC hnl hres hline hq hqa hi (fun e he => ?_)
    have h1 := (hfit i (e.seen w) (by rw [he]; rfl)).1
    cases hn : (segment w none (L.toks w true (.sof q)).1)[i + 1]? with
    | none => rw [hn] at h1; exact h1
    | some e' => rw [hn] at h1; exact h1

theorem firstLine_length (l : List Nat) : (firstLine l).length ≤ l.length := by
  rcases firstLine_split l with ⟨u, v, h1, h2⟩ | ⟨_, h⟩
  · rw [h1, h2]; simp only [List.length_append]; omega
  · rw [h]

/-- A text shorter than half of the buffer fits. -/
theorem events_fit_short (hC : s.Compiled addr t L) (hres : s.NlReserved) {q : Nat} (hq : L.dfa.next 0 cCharStartOfFile = some q)
    (hqa : L.dfa.isAccepting q = false) {w : List Nat} {h : Nat} (hlt : w.length + 1 < h) :
    EventsFit h w (segment w none (L.toks w true (.sof q)).1) := by
  have hO := buildLexer_ok hC.ok
  have hL := hO.nlOk hC.sensible hC.inj
  have hT := hO.typesProper hC.sensible
  obtain ⟨_, hW⟩ := whole_facts hC hq hqa w
  have hsound := pureAll_sound hL (s := w) (fin := true) (w.length - (Cfg.sof q).cov + 1) (.sof q) ⟨hq, hqa⟩
  have hEnd : EndLast (L.toks w true (.sof q)).1 := endLast_of_tiles (s := w) hT hW hsound
  have htext := segment_text (s := w) (L.toks w true (.sof q)).1 none hEnd
  have hflat : (L.toks w true (.sof q)).1.flatMap (PTok.text w) = w := (Tiles.flat hW).trans rfl
  rw [hflat] at htext
  have hchain := (segment_shape (s := w) (L.toks w true (.sof q)).1 none (fun x hx => nlToks hO hC.sensible hC.inj hres (hsound x hx)) trivial).2
  generalize segment w none (L.toks w true (.sof q)).1 = E at htext hchain ⊢
  have hw : E.flatMap (PEvent.text w) = w := by simpa [curText] using htext
  have hle : ∀ j, ((E.take j).flatMap (PEvent.text w)).length ≤ w.length := by
    intro j
    have := congrArg List.length hw
    rw [← List.take_append_drop j E, List.flatMap_append, List.length_append] at this
    omega
  intro i e he
  obtain ⟨hi, hie⟩ := List.getElem?_eq_some_iff.mp he
  have h1 : ((E.take (i + 1)).flatMap (PEvent.text w)).length = ((E.take i).flatMap (PEvent.text w)).length + (e.text w).length := by
    have : E.take (i + 1) = E.take i ++ [e] := by rw [← hie]; simp
    rw [this, List.flatMap_append, List.length_append]; simp
  refine ⟨?_, fun _ hi1 => ?_⟩
  · cases hn : E[i + 1]? with
    | none =>
      have := hle (i + 1)
      simp only [Option.map_none, Option.getD_none, firstLine, List.length_nil]
      omega
    | some e' =>
      obtain ⟨hj, hje⟩ := List.getElem?_eq_some_iff.mp hn
      have h2 : ((E.take (i + 1 + 1)).flatMap (PEvent.text w)).length = ((E.take (i + 1)).flatMap (PEvent.text w)).length + (e'.text w).length := by
        have : E.take (i + 1 + 1) = E.take (i + 1) ++ [e'] := by rw [← hje]; simp
        rw [this, List.flatMap_append, List.length_append]; simp
      have h3 := hle (i + 1 + 1)
      have h4 := firstLine_length (e'.text w)
      simp only [Option.map_some, Option.getD_some]
      omega
  · have hc := (List.isChain_iff_getElem.mp hchain) i hi1
    obtain ⟨⟨x, hx, hxt⟩, _⟩ := hc
    rw [hie] at hx
    have h2 : 0 < (e.text w).length := by
      obtain ⟨ys, hys⟩ := List.getLast?_eq_some_iff.mp hx
      unfold PEvent.text
      rw [hys, List.flatMap_append, List.length_append]
      simp [hxt]
    have := hle (i + 1)
    rw [Nat.mod_eq_of_lt (by omega)]
    omega

end LogSurgeon
