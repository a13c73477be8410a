import Verif.Proofs.Coacc
import Verif.Proofs.EndToEnd
/-
The division of a text by a schema: what could begin with a prefix of the text is what the automaton can still read.
-/
namespace LogSurgeon

/-! ### Every pattern written in a schema has an instance -/

theorem group_fertile {n : List Tag} {w ng : Bool} {rs : List Range} (hok : (Regex.group n w ng rs).ClassesOk) {c : Nat}
    (hc : c < cSizeOfByte) (hne : c ≠ cCharStartOfFile) (h : (Regex.group n w ng rs).possible c = true) : (Regex.group n w ng rs).Fertile := by
  refine ⟨c, hc, hne, (inRanges_groupRanges ng rs c (by simp only [cSizeOfByte, cUnicodeMax] at *; omega) hok).mpr ?_⟩
  rw [possible_group] at h
  exact h

theorem elab_fertile {ds : List Nat} (hds : ∀ d ∈ ds, d < 128 ∨ d = cCharStartOfFile) (p : Pat) : ∀ {r : Regex}, p.elab = some r → p.Sensible →
    p.ClassesUsable → p.Ascii → r.Fertile ∧ (r.removeDelims ds).Fertile := by
  have h80 : (128 : Nat) < cSizeOfByte ∧ (128 : Nat) ≠ cCharStartOfFile := by decide
  have low : ∀ {c : Nat}, c < 128 → c < cSizeOfByte ∧ c ≠ cCharStartOfFile := by
    intro c hc; simp only [cSizeOfByte, cCharStartOfFile]; omega
  induction p with
  | lit a => intro r h _ _ ha; cases h; exact ⟨low ha, low ha⟩
  | cls ng items =>
    intro r h hs hc ha
    have hok := (elab_spec _ h hs).2.1
    simp only [Pat.elab, Option.map_eq_some_iff] at h
    obtain ⟨rs, h, rfl⟩ := h
    refine ⟨?_, ?_⟩
    all_goals
      show (Regex.group [] false ng rs).Fertile
      cases ng with
      | true =>
        refine group_fertile hok h80.1 h80.2 ((items_possible h true 128).mpr ?_)
        simp only [if_true]
        refine ⟨by decide, fun i hi hh => ?_⟩
        have := ha.1 i hi
        cases i with
        | lit a => simp only [ClassItem.Has, ClassItem.Ascii] at *; omega
        | range lo hi => simp only [ClassItem.Has, ClassItem.Ascii] at *; omega
        | digit => simp only [ClassItem.Has] at hh; omega
        | space => simp only [ClassItem.Has] at hh; omega
      | false =>
        obtain ⟨i, hi⟩ := List.exists_mem_of_ne_nil _ (ha.2 rfl)
        have h1 := ha.1 i hi
        have h2 := hc i hi
        have : ∃ c < 128, i.Has c := by
          cases i with
          | lit a => exact ⟨a, h1, rfl⟩
          | range lo hi => exact ⟨lo, h1.1, Nat.le_refl _, Nat.le_of_lt h2⟩
          | digit => exact ⟨48, by decide, by decide, by decide⟩
          | space => exact ⟨32, by decide, .inl rfl⟩
        obtain ⟨c, h3, h4⟩ := this
        exact group_fertile hok (low h3).1 (low h3).2 ((items_possible h false c).mpr ⟨i, hi, h4⟩)
  | digit =>
    intro r h _ _ _; cases h
    have : (Regex.group [] false false [(48, 57)]).Fertile := group_fertile (c := 48) (fun h => by cases h) (by decide) (by decide) (by decide)
    exact ⟨this, this⟩
  | wild =>
    intro r h _ _ _; cases h
    have h1 : (Regex.group [] true false [(0, cUnicodeMax)]).Fertile :=
      group_fertile (c := 48) (fun h => by cases h) (by decide) (by decide) (by decide)
    refine ⟨h1, ?_⟩
    simp only [Regex.removeDelims, Bool.not_true, Bool.false_eq_true, if_false]
    split
    · exact h1
    · rename_i hne
      have hne : ds ≠ [] := by simpa using hne
      refine group_fertile (c := 128) (fun h => by cases h) h80.1 h80.2 ?_
      rw [possible_group]
      simp only [Bool.false_eq_true, if_false]
      refine (wildcardRanges_spec hne (fun d hd => ?_) 128).mpr ⟨by decide, fun h => ?_⟩
      · have := hds d hd; simp only [cCharStartOfFile, cUnicodeMax] at *; omega
      · have := hds _ h; simp only [cCharStartOfFile] at this; omega
  | space =>
    intro r h _ _ _; cases h
    have : (Regex.group [] false false [(32, 32), (9, 9), (13, 13), (10, 10), (11, 11), (12, 12)]).Fertile :=
      group_fertile (c := 32) (fun h => by cases h) (by decide) (by decide) (by decide)
    exact ⟨this, this⟩
  | cat l r ihl ihr =>
    intro x h hs hc ha
    simp only [Pat.elab, Option.bind_eq_some_iff, Option.map_eq_some_iff] at h
    obtain ⟨a, h1, b, h2, rfl⟩ := h
    have hl := ihl h1 hs.1 hc.1 ha.1
    have hr := ihr h2 hs.2 hc.2 ha.2
    exact ⟨⟨hl.1, hr.1⟩, ⟨hl.2, hr.2⟩⟩
  | or l r ihl ihr =>
    intro x h hs hc ha
    simp only [Pat.elab, Option.bind_eq_some_iff, Option.map_eq_some_iff] at h
    obtain ⟨a, h1, b, h2, rfl⟩ := h
    have hl := ihl h1 hs.1 hc.1 ha.1
    have hr := ihr h2 hs.2 hc.2 ha.2
    simp only [Regex.mkOr, Regex.removeDelims, removeDelims_setNegTags, Regex.Fertile, fertile_setNegTags]
    exact ⟨⟨.inr hl.1, hr.1⟩, ⟨.inr hl.2, hr.2⟩⟩
  | star p ih =>
    intro x h hs hc ha
    simp only [Pat.elab, Option.map_eq_some_iff] at h
    obtain ⟨a, h1, rfl⟩ := h
    have := ih h1 hs hc ha
    simp only [starRule, Regex.mkOr, Regex.mkEmpty, Regex.mkMult, Regex.removeDelims, removeDelims_setNegTags, Regex.Fertile, fertile_setNegTags]
    exact ⟨⟨.inl ⟨_, rfl⟩, this.1⟩, ⟨.inl ⟨_, rfl⟩, this.2⟩⟩
  | plus p ih =>
    intro x h hs hc ha
    simp only [Pat.elab, Option.map_eq_some_iff] at h
    obtain ⟨a, h1, rfl⟩ := h
    have := ih h1 hs hc ha
    exact this
  | exact p n ih =>
    intro x h hs hc ha
    simp only [Pat.elab, Option.bind_eq_some_iff, Option.map_eq_some_iff] at h
    obtain ⟨a, h1, k, _, rfl⟩ := h
    have := ih h1 hs.2.2 hc ha
    exact this
  | range p n m ih =>
    intro x h hs hc ha
    simp only [Pat.elab, Option.bind_eq_some_iff, Option.map_eq_some_iff] at h
    obtain ⟨a, h1, k, _, j, _, rfl⟩ := h
    have := ih h1 hs.2.2.2.2 hc ha
    unfold rangeRule
    split
    · simp only [Regex.mkOr, Regex.mkEmpty, Regex.mkMult, Regex.removeDelims, removeDelims_setNegTags, Regex.Fertile, fertile_setNegTags]
      exact ⟨⟨.inl ⟨_, rfl⟩, this.1⟩, ⟨.inl ⟨_, rfl⟩, this.2⟩⟩
    · exact this
  | capture p t ih =>
    intro x h hs hc ha
    simp only [Pat.elab, Option.map_eq_some_iff] at h
    obtain ⟨a, h1, rfl⟩ := h
    have := ih h1 hs hc ha
    exact this

/-! ### What the automaton can read after the start of the file -/

theorem bytesOf_notMem {x : List Label} {c : Nat} (h : Label.byte c ∉ x) : c ∉ bytesOf x := by
  induction x with
  | nil => simp [bytesOf]
  | cons l x ih =>
    simp only [List.mem_cons, not_or] at h
    cases l with
    | byte b => simp only [bytesOf, List.mem_cons, not_or]; exact ⟨fun e => h.1 (by rw [e]), ih h.2⟩
    | _ => exact ih h.2

theorem LexerOf.opens {s addr t L} (h : LexerOf s addr t L) (hinj : ∀ a b, addr a = addr b → a = b)
    (hE : ∀ r ∈ t.rules, Ends r.regex.addToNfa) {u : List Nat} (hne : u ≠ []) (hu : AllBytes u) :
    (L.dfa.run 0 u).isSome ↔ ∃ v, AllBytes v ∧ cCharStartOfFile ∉ v ∧ L.dfa.idsOn (u ++ v) ≠ [] := by
  constructor
  · intro hr
    obtain ⟨n, hn, h2, h3⟩ := h.nfa hinj
    have : ¬ ∀ y, ¬ n.ReachBy u y := by
      intro hc
      rw [(h2 _ hu).mpr hc] at hr; cases hr
    simp only [not_forall, Classical.not_not] at this
    obtain ⟨y, w, hp, hw⟩ := this
    obtain ⟨x, hx, r, hr', hl⟩ := buildNfa_coacc hn hE hp (by rintro rfl; exact hne hw.symm)
    have hb := ruleLang_bytes _ _ hl
    rw [bytesOf_append, hw] at hb
    have hid := (h3 (u ++ bytesOf x) r.id hb).mpr ⟨r, hr', (acceptsAlone_iff hn hr' _).mpr ⟨w ++ x, hl, by rw [bytesOf_append, hw]⟩, rfl⟩
    exact ⟨bytesOf x, fun c hc => hb c (by simp [hc]), bytesOf_notMem hx, List.ne_nil_of_mem hid⟩
  · rintro ⟨v, _, _, hi⟩
    unfold Dfa.idsOn at hi
    rw [run_append] at hi
    cases hr : L.dfa.run 0 u with
    | none => rw [hr] at hi; exact absurd rfl hi
    | some q => rfl

namespace SchemaText

variable {s : SchemaText} {a : SchemaAST}

theorem Hidden.unique {text : List Nat} {h h' : Nat} (H : s.Hidden text h) (H' : s.Hidden text h') : h = h' := by
  rcases Nat.lt_trichotomy h h' with e | e | e
  · rcases H.2.2.2 h' e H'.1 with g | g
    · exact absurd g H'.2.2.1
    · exact absurd H'.2.1 g
  · exact e
  · rcases H'.2.2.2 h e H.1 with g | g
    · exact absurd g H.2.2.1
    · exact absurd H.2.1 g

theorem Division.unique {text : List Nat} {t t' : List Piece} (h : s.Division text t) (h' : s.Division text t') : t = t' := by
  have hlt : ∀ {start : Bool} {a e : Nat}, s.Longest text start a e → a < text.length := by
    intro start a e h
    have := h.1.1; have := h.1.2.1; omega
  cases h with
  | start h1 h1' h2 h3 =>
    cases h' with
    | start _ _ h4 h5 => obtain rfl := h2.unique h4; rw [h3.unique h5]
    | done e => subst e; have := hlt h2; simp at this
    | rest g | here g | later g => exact absurd (g _ h1) h1'
  | done e =>
    subst e
    cases h' with
    | start _ _ h2 => have := hlt h2; simp at this
    | done => rfl
    | rest _ _ h => simp at h
    | here _ _ h2 => have := hlt h2; simp at this
    | later _ _ _ _ _ h2 => have := hlt h2; simp at this
  | rest h1 h2 h3 h4 =>
    cases h' with
    | start g1 g2 _ _ => exact absurd (h1 _ g1) g2
    | done e => subst e; simp at h3
    | rest => rfl
    | here _ g2 g3 g4 => obtain rfl := h2.unique g2; exact absurd g3.1 (h4 _ _ (Nat.le_refl _) h3)
    | later _ g2 _ g3 _ g4 => obtain rfl := h2.unique g2; exact absurd g4.1 (h4 _ _ g3 (hlt g4))
  | here h1 h2 h3 h4 =>
    cases h' with
    | start g1 g2 _ _ => exact absurd (h1 _ g1) g2
    | done e => subst e; have := hlt h3; simp at this
    | rest _ g2 g3 g4 => obtain rfl := h2.unique g2; exact absurd h3.1 (g4 _ _ (Nat.le_refl _) g3)
    | here _ _ g3 g4 => obtain rfl := h3.unique g3; rw [h4.unique g4]
    | later _ g2 g3 _ g4 => obtain rfl := h2.unique g2; exact absurd h3.1 (g4 _ _ (Nat.le_refl _) g3)
  | @later h a e toks h1 h2 h3 h4 h5 h6 h7 =>
    cases h' with
    | start g1 g2 _ _ => exact absurd (h1 _ g1) g2
    | done e => subst e; have := hlt h6; simp at this
    | rest _ g2 _ g3 => obtain rfl := h2.unique g2; exact absurd h6.1 (g3 _ _ h4 (hlt h6))
    | here _ g2 g3 => obtain rfl := h2.unique g2; exact absurd g3.1 (h5 _ _ (Nat.le_refl _) h3)
    | @later h' a' _ _ _ g2 g3 g4 g5 g6 g7 =>
      obtain rfl := h2.unique g2
      have : a = a' := by
        rcases Nat.lt_trichotomy a a' with h | h | h
        · exact absurd h6.1 (g5 _ _ h4 h)
        · exact h
        · exact absurd g6.1 (h5 _ _ g4 h)
      subst this
      obtain rfl := h6.unique g6; rw [h7.unique g7]

/-- A token begins with a delimiter. -/
theorem Cand.delim {text : List Nat} (hnl : 10 ∈ s.delimiters) {x e : Nat} (h : s.Cand text false x e) : ∃ d ∈ s.delimiters, text[x]? = some d := by
  have hat : ∀ {d u}, slice text x e = d :: u → text[x]? = some d := by
    intro d u hs
    unfold slice at hs
    have h0 : ((text.drop x).take (e - x))[0]? = some d := by rw [hs]; rfl
    rw [List.getElem?_take, if_pos (by have := h.1; omega), List.getElem?_drop] at h0
    simpa using h0
  obtain ⟨n, hi⟩ := h.2.2.1
  generalize hb : false = start at hi
  cases hi with
  | newLine h => exact ⟨10, hnl, hat h⟩
  | newLineTimestamp _ h => exact ⟨10, hnl, hat h⟩
  | var _ _ h hd => exact ⟨_, hd, hat h⟩
  | firstTimestamp => cases hb
  | firstVar => cases hb

theorem Instance.bytes {text : List Nat} {e : Nat} {n : String} (h : s.Instance text true 0 e n) : s.Instance (text.take e) true 0 (text.take e).length n := by
  have key : slice (text.take e) 0 (text.take e).length = slice text 0 e := by simp [slice]
  generalize hb : true = start at h
  generalize hz : 0 = z at h
  cases h with
  | newLine | newLineTimestamp | var => cases hb
  | firstTimestamp h1 h2 => exact .firstTimestamp h1 (by rw [key]; exact h2)
  | firstVar h1 h2 h3 => exact .firstVar h1 h2 (by rw [key]; exact h3)

theorem Division.simple {text : List Nat} {ps : List Piece} (hnl : 10 ∈ s.delimiters) (hc : s.StartClear text) (h : s.Division text ps) :
    s.SimpleDivision text ps := by
  have hstart : s.NoStart text → ∀ e, ¬ s.Cand text true 0 e := by
    intro hn e he
    obtain ⟨n, hi⟩ := he.2.2.1
    exact (hc e ⟨[], n, by simp, by simpa using hi.bytes⟩).1 (hn e he)
  have hclear : ∀ h, s.Hidden text h → (∀ e, ¬ s.Cand text true 0 e) → s.NoneIn text 0 h := by
    intro h hh hno x e _ hx hcx
    rcases (hc h hh.2.1).2 with ⟨e, he⟩ | h'
    · exact hno e he
    · obtain ⟨d, hd, hxd⟩ := hcx.delim hnl
      refine h' d ?_ hd
      obtain ⟨hxl, rfl⟩ := List.getElem?_eq_some_iff.mp hxd
      exact List.mem_take_iff_getElem.mpr ⟨x, by omega, rfl⟩
  have glue : ∀ {h a}, s.NoneIn text 0 h → s.NoneIn text h a → s.NoneIn text 0 a := by
    intro h a h1 h2 x e _ hx
    by_cases hxh : x < h
    · exact h1 x e (by omega) hxh
    · exact h2 x e (by omega) hx
  cases h with
  | start _ _ h1 h2 => exact .start h1 h2
  | done h =>
    subst h
    refine .plain (fun e he => ?_) .done
    have h1 := he.1; have h2 := he.2.1; simp at h2; omega
  | rest h1 h2 h3 h4 => exact .plain (hstart h1) (.rest h3 (glue (hclear _ h2 (hstart h1)) h4))
  | here h1 h2 h3 h4 => exact .plain (hstart h1) (.here h3 h4)
  | later h1 h2 h3 h4 h5 h6 h7 => exact .plain (hstart h1) (.later h3 (glue (hclear _ h2 (hstart h1)) h5) h6 h7)

namespace Setting

variable {addr : Nat → Nat} {t : ParserTables} {L : Lexer} {text : List Nat}

/-- Every state leads on. -/
theorem ends (h : Setting s a addr t L text) : ∀ r ∈ t.rules, Ends r.regex.addToNfa := by
  intro r hr
  obtain ⟨n, hk, _⟩ := h.lexer.kind r hr
  have fert : ∀ {v : SchemaVar}, v ∈ a.vars → v.regex.Fertile ∧ (v.regex.removeDelims a.delimBytes).Fertile := by
    intro v hv
    obtain ⟨p, hp, he⟩ := h.builds.pat hv
    have hg := h.good _ hp
    refine elab_fertile (fun d hd => ?_) p he hg.1 hg.2 (h.wf.pats _ hp)
    rcases (h.builds.mem_delimBytes h.wf d).mp hd with rfl | hd
    · exact .inr rfl
    · exact .inl (h.wf.delimiters d hd)
  generalize r.regex = re at hk
  cases hk with
  | newLine => exact ends_ranges [(newline, newline)]
  | first hv _ => exact ends_headed (.inl ⟨_, _, rfl⟩) (fert hv).1
  | newLineTs hv _ => exact ends_headed (.inl ⟨_, _, rfl⟩) (fert hv).1
  | var hv _ => exact ends_headed (.inr ⟨_, _, _, _, rfl⟩) (fert hv).2

theorem opens (h : Setting s a addr t L text) (j : Nat) :
    (L.dfa.run 0 (cCharStartOfFile :: text.take j)).isSome ↔ s.Opens text j := by
  have hb : AllBytes (cCharStartOfFile :: text.take j) := by
    intro c hc
    rcases List.mem_cons.mp hc with rfl | hc
    · decide
    · exact h.bytes c (List.mem_of_mem_take hc)
  rw [h.lexer.opens h.inj h.ends (by simp) hb]
  have key : ∀ v : List Nat, AllBytes v → cCharStartOfFile ∉ v →
      (L.dfa.idsOn (cCharStartOfFile :: text.take j ++ v) ≠ [] ↔ ∃ n, s.Instance (text.take j ++ v) true 0 (text.take j ++ v).length n) := by
    intro v hv hn
    have h' : Setting s a addr t L (text.take j ++ v) := by
      refine ⟨h.builds, h.wf, h.good, h.lexer, h.inj, fun c hc => ?_, fun hc => ?_⟩
      · rcases List.mem_append.mp hc with hc | hc
        · exact h.bytes c (List.mem_of_mem_take hc)
        · exact hv c hc
      · rcases List.mem_append.mp hc with hc | hc
        · exact h.noStart (List.mem_of_mem_take hc)
        · exact hn hc
    rw [← h'.has fun _ => rfl]
    have e : slice (text.take j ++ v) 0 (text.take j ++ v).length = text.take j ++ v := by unfold slice; simp only [List.drop_zero, Nat.sub_zero, List.take_length]
    unfold Lexer.typesOn
    rw [e]
    exact Iff.rfl
  constructor
  · rintro ⟨v, h1, h2, h3⟩
    obtain ⟨n, h4⟩ := (key v h1 h2).mp h3
    exact ⟨v, n, fun c hc => ⟨h1 c hc, fun e => h2 (by rw [e] at hc; exact hc)⟩, h4⟩
  · rintro ⟨v, n, h1, h2⟩
    have h3 : AllBytes v := fun c hc => (h1 c hc).1
    have h4 : cCharStartOfFile ∉ v := fun hc => (h1 _ hc).2 rfl
    exact ⟨v, h3, h4, (key v h3 h4).mpr ⟨n, h2⟩⟩

theorem hidden (h : Setting s a addr t L text) {k : Nat} : L.Hidden text k ↔ s.Hidden text k := by
  unfold Lexer.Hidden SchemaText.Hidden
  simp only [h.opens, ← Bool.not_eq_true]
  exact Iff.rfl

theorem noStartTok (h : Setting s a addr t L text) : L.NoStart text ↔ s.NoStart text := by
  unfold Lexer.NoStart SchemaText.NoStart
  simp only [h.cand (start := true) (x := 0) fun _ => rfl]
  exact Iff.rfl

theorem division (h : Setting s a addr t L text) {xs : List PTok} (hx : LexExact L text xs) :
    ∃ ps, s.Division text ps ∧ List.Forall₂ (Piece.Is s t.getSymbolId text) ps xs := by
  have ff : ∀ {x : Nat}, false = true → x = 0 := fun e => by cases e
  cases hx with
  | start h1 h1' h2 h3 =>
    obtain ⟨ps, h4, h5⟩ := h.pieces h3
    exact ⟨_, .start ((h.cand fun _ => rfl).mp h1) h1' ((h.longest fun _ => rfl).mp h2) h4, .cons ⟨rfl, rfl, h.types fun _ => rfl⟩ h5⟩
  | done h => exact ⟨_, .done h, .cons ⟨rfl, rfl, rfl⟩ .nil⟩
  | rest h1 h2 h3 h4 =>
    exact ⟨_, .rest (h.noStartTok.mp h1) (h.hidden.mp h2) h3 (h.noneIn.mp h4), .cons ⟨rfl, rfl, rfl⟩ (.cons ⟨rfl, rfl, rfl⟩ .nil)⟩
  | here h1 h2 h3 h4 =>
    obtain ⟨ps, h5, h6⟩ := h.pieces h4
    exact ⟨_, .here (h.noStartTok.mp h1) (h.hidden.mp h2) ((h.longest ff).mp h3) h5, .cons ⟨rfl, rfl, h.types ff⟩ h6⟩
  | later h1 h2 h3 h4 h5 h6 h7 =>
    obtain ⟨ps, h8, h9⟩ := h.pieces h7
    exact ⟨_, .later (h.noStartTok.mp h1) (h.hidden.mp h2) h3 h4 (h.noneIn.mp h5) ((h.longest ff).mp h6) h8,
      .cons ⟨rfl, rfl, rfl⟩ (.cons ⟨rfl, rfl, h.types ff⟩ h9)⟩

end Setting

end SchemaText

end LogSurgeon
