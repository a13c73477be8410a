import Verif.Proofs.Longest
import Verif.Proofs.BufferStart
/-
Lexing started again at a timestamp: what follows a newline is lexed as at the start of a file.
-/
namespace LogSurgeon

/-! ### The types after a newline and at the start of the file -/

theorem ruleLang_cat {f g : Regex} {w : List Label} :
    ruleLang (.cat [] f g) w ↔ ∃ u v, w = u ++ v ∧ ruleLang f u ∧ ruleLang g v := by
  have hdef : ruleLang (.cat [] f g) = (Lang.full (Lang.seq ((wrapLang f.negTags f.lang).1.full (wrapLang f.negTags f.lang).2)
      (wrapLang g.negTags g.lang).1) (wrapLang g.negTags g.lang).2) := rfl
  rw [hdef]
  constructor
  · rintro ⟨x, y, rfl, ⟨u, v, rfl, hu, hv⟩, hy⟩
    exact ⟨u, v ++ y, by simp, hu, v, y, rfl, hv, hy⟩
  · rintro ⟨u, _, rfl, hu, v, y, rfl, hv, hy⟩
    exact ⟨u ++ v, y, by simp, ⟨u, v, rfl, hu, hv⟩, hy⟩

theorem star_none {w : List Label} (h : Lang.Star .none w) : w = [] := by
  cases h with
  | nil => rfl
  | cons h _ => exact h.elim

theorem ruleLang_literal {c : Nat} (hc : c < cSizeOfByte) {w : List Label} : ruleLang (.literal [] c) w ↔ w = [.byte c] := by
  have hdef : ruleLang (.literal [] c) = Lang.full (Lang.bytesIn [(c, c)]) .none := rfl
  rw [hdef]
  constructor
  · rintro ⟨x, y, rfl, ⟨d, rfl, _, r, hr, h1, h2⟩, hy⟩
    rw [star_none hy]
    simp only [List.mem_singleton] at hr
    subst hr
    simp only at h1 h2
    rw [show d = c by omega]; rfl
  · rintro rfl
    exact ⟨[.byte c], [], rfl, ⟨c, rfl, hc, (c, c), by simp, Nat.le_refl _, Nat.le_refl _⟩, .nil⟩

theorem ruleLang_delims {l : List Nat} (hl : ∀ d ∈ l, d < cSizeOfByte) {w : List Label} :
    ruleLang (.group [] false false (l.map fun d => (d, d))) w ↔ ∃ d ∈ l, w = [.byte d] := by
  have hdef : ruleLang (.group [] false false (l.map fun d => (d, d))) =
    Lang.full (Regex.lang (.group [] false false (l.map fun d => (d, d)))).1 .none := rfl
  rw [hdef]
  have hg : (Regex.lang (.group [] false false (l.map fun d => (d, d)))).1 =
    Lang.bytesIn (groupRanges false (l.map fun d => (d, d))) := rfl
  rw [hg]
  have hin : ∀ d, d < cSizeOfByte → (InRanges (groupRanges false (l.map fun d => (d, d))) d ↔ d ∈ l) := by
    intro d hd
    rw [inRanges_groupRanges false _ d (by simp only [cSizeOfByte, cUnicodeMax] at *; omega) (fun h => by cases h)]
    exact inRanges_singletons
  constructor
  · rintro ⟨x, y, rfl, ⟨d, rfl, hd, h⟩, hy⟩
    rw [star_none hy]
    exact ⟨d, (hin d hd).mp h, rfl⟩
  · rintro ⟨d, hd, rfl⟩
    exact ⟨[.byte d], [], rfl, ⟨d, rfl, hl d hd, (hin d (hl d hd)).mpr hd⟩, .nil⟩

/-- A rule can match the character followed by the text: the character opens the rule and the rest matches. -/
def Opened (re : Regex) (c : Nat) (w : List Nat) : Prop := ∃ x, ruleLang re x ∧ bytesOf x = c :: w

theorem opened_cat_literal {c d : Nat} (hc : c < cSizeOfByte) {re : Regex} {w : List Nat} :
    Opened (.cat [] (.literal [] c) re) d w ↔ d = c ∧ ∃ y, ruleLang re y ∧ bytesOf y = w := by
  constructor
  · rintro ⟨x, hx, hb⟩
    obtain ⟨u, v, rfl, hu, hv⟩ := ruleLang_cat.mp hx
    rw [ruleLang_literal hc] at hu
    subst hu
    have hb : c :: bytesOf v = d :: w := hb
    cases hb
    exact ⟨rfl, v, hv, rfl⟩
  · rintro ⟨rfl, y, hy, rfl⟩
    exact ⟨.byte d :: y, ruleLang_cat.mpr ⟨[.byte d], y, rfl, (ruleLang_literal hc).mpr rfl, hy⟩, rfl⟩

theorem opened_cat_delims {l : List Nat} (hl : ∀ d ∈ l, d < cSizeOfByte) {d : Nat} {re : Regex} {w : List Nat} :
    Opened (.cat [] (.group [] false false (l.map fun d => (d, d))) re) d w ↔ d ∈ l ∧ ∃ y, ruleLang re y ∧ bytesOf y = w := by
  constructor
  · rintro ⟨x, hx, hb⟩
    obtain ⟨u, v, rfl, hu, hv⟩ := ruleLang_cat.mp hx
    obtain ⟨c, hc, rfl⟩ := (ruleLang_delims hl).mp hu
    have hb : c :: bytesOf v = d :: w := hb
    cases hb
    exact ⟨hc, v, hv, rfl⟩
  · rintro ⟨h, y, hy, rfl⟩
    exact ⟨.byte d :: y, ruleLang_cat.mpr ⟨[.byte d], y, rfl, (ruleLang_delims hl).mpr ⟨d, h, rfl⟩, hy⟩, rfl⟩

/-- The type of a timestamp at the start of the file for that of one after a newline. -/
def atStart (i : Nat) : Nat := if i = tokenNewlineTimestamp then tokenFirstTimestamp else i

open Classical in
/-- If the addresses of the NFA states are in the order of their creation, a text gets the same types after a newline and at the start of
the file, up to the kind of timestamp. -/
theorem LexerOf.afterNl {s addr t L} (h : LexerOf s addr t L) (hmono : ∀ a b, a < b → addr a < addr b)
    (hnl : s.IsDelim newline) (hres : s.Reserved) {w : List Nat} (hb : AllBytes w) (hw : w ≠ []) :
    L.dfa.idsOn (cCharStartOfFile :: w) = (L.dfa.idsOn (newline :: w)).map atStart := by
  have hinj : ∀ a b, addr a = addr b → a = b := by
    intro a b hab
    rcases Nat.lt_trichotomy a b with h1 | h1 | h1
    · have := hmono a b h1; omega
    · exact h1
    · have := hmono b a h1; omega
  have hg := h.gen
  simp only [generateDfa, Option.bind_eq_some_iff] at hg
  obtain ⟨n, hn, hd⟩ := hg
  obtain ⟨d, hd', _, _, _, h4⟩ := dfa_ids_spec hn hinj
  rw [hd] at hd'
  cases hd'
  have hbn : AllBytes (newline :: w) := by
    intro c hc
    rcases List.mem_cons.mp hc with rfl | hc
    · decide
    · exact hb c hc
  have hbs : AllBytes (cCharStartOfFile :: w) := by
    intro c hc
    rcases List.mem_cons.mp hc with rfl | hc
    · decide
    · exact hb c hc
  rw [h4 hmono _ hbn, h4 hmono _ hbs]
  obtain ⟨ds, _, _, _, _, _, hsym, _, h8, _⟩ := addRules_ok h.tables
  have hacc : ∀ r ∈ t.rules, ∀ c, r.AcceptsAlone (c :: w) ↔ Opened r.regex c w :=
    fun r hr c => acceptsAlone_iff hn hr (c :: w)
  have hids : ∀ x i, t.symbolId.lookup x = some i → ((i = tokenFirstTimestamp ↔ x = "firstTimestamp") ∧
      (i = tokenNewlineTimestamp ↔ x = "newLineTimestamp")) := by
    intro x i hx
    have h1 := (hsym.inverse x i).mp hx
    have hF : t.getSymbolId "firstTimestamp" = some 5 := (lookup_eq_some_of_nodup hsym.names).mpr (hsym.reserved _ (by decide))
    have hN : t.getSymbolId "newLineTimestamp" = some 6 := (lookup_eq_some_of_nodup hsym.names).mpr (hsym.reserved _ (by decide))
    have hF' := (hsym.inverse _ _).mp hF
    have hN' := (hsym.inverse _ _).mp hN
    refine ⟨⟨fun hi => ?_, fun hi => ?_⟩, ⟨fun hi => ?_, fun hi => ?_⟩⟩
    · rw [hi] at h1
      exact Option.some.inj (h1.symm.trans hF')
    · subst hi
      exact Option.some.inj (hx.symm.trans hF)
    · rw [hi] at h1
      exact Option.some.inj (h1.symm.trans hN')
    · subst hi
      exact Option.some.inj (hx.symm.trans hN)
  have hfilter : ∀ c, t.rules.filter (fun r => decide (r.AcceptsAlone (c :: w))) =
      t.rules.filter (fun r => decide (Opened r.regex c w)) := by
    intro c
    apply List.filter_congr
    intro r hr
    simp only [decide_eq_decide]
    exact hacc r hr c
  rw [hfilter, hfilter]
  have hdb : ∀ d ∈ s.delimBytes, d < cSizeOfByte := fun d hd => (mem_delimBytes.mp hd).1
  have hnld : newline ∈ s.delimBytes := mem_delimBytes.mpr ⟨by decide, hnl⟩
  have hsofd : cCharStartOfFile ∈ s.delimBytes := mem_delimBytes.mpr ⟨by decide, .inl rfl⟩
  have hsnl : cCharStartOfFile ≠ newline := by decide
  -- the rules of some of the variables
  have key : ∀ (vs : List SchemaVar) (rs : List Rule), (∀ v ∈ vs, v ∈ s.vars) →
      List.Forall₂ (fun nr r => t.symbolId.lookup nr.1 = some r.id ∧ r.regex = nr.2) (vs.flatMap (SchemaVar.rules s.delimBytes)) rs →
      (rs.filter (fun r => decide (Opened r.regex cCharStartOfFile w))).map Rule.id =
        ((rs.filter (fun r => decide (Opened r.regex newline w))).map Rule.id).map atStart := by
    intro vs
    induction vs with
    | nil => intro rs _ h; cases h; rfl
    | cons v vs ih =>
      intro rs hvs h
      rw [List.flatMap_cons] at h
      unfold SchemaVar.rules at h
      split at h
      · simp only [List.cons_append, List.nil_append] at h
        obtain ⟨r1, rs1, ⟨i1, e1⟩, hr1, rfl⟩ := List.forall₂_cons_left_iff.mp h
        obtain ⟨r2, rs2, ⟨i2, e2⟩, hr2, rfl⟩ := List.forall₂_cons_left_iff.mp hr1
        have hi1 := ((hids _ _ i1).1).mpr rfl
        have hi2 := ((hids _ _ i2).2).mpr rfl
        have ih := ih rs2 (fun v hv => hvs v (by simp [hv])) hr2
        have a1 : Opened r1.regex cCharStartOfFile w ↔ ∃ y, ruleLang v.regex y ∧ bytesOf y = w := by
          rw [e1, opened_cat_literal (by decide)]; simp
        have a2 : ¬ Opened r1.regex newline w := by
          rw [e1, opened_cat_literal (by decide)]; exact fun h => hsnl h.1.symm
        have a3 : ¬ Opened r2.regex cCharStartOfFile w := by
          rw [e2, opened_cat_literal (by decide)]; exact fun h => hsnl h.1
        have a4 : Opened r2.regex newline w ↔ ∃ y, ruleLang v.regex y ∧ bytesOf y = w := by
          rw [e2, opened_cat_literal (by decide)]; simp
        by_cases hm : ∃ y, ruleLang v.regex y ∧ bytesOf y = w
        · rw [List.filter_cons_of_pos (by simpa using a1.mpr hm), List.filter_cons_of_neg (by simpa using a3),
            List.filter_cons_of_neg (by simpa using a2), List.filter_cons_of_pos (by simpa using a4.mpr hm)]
          simp only [List.map_cons, ih, hi1, hi2]
          rfl
        · rw [List.filter_cons_of_neg (by simpa using fun h => hm (a1.mp h)), List.filter_cons_of_neg (by simpa using a3),
            List.filter_cons_of_neg (by simpa using a2), List.filter_cons_of_neg (by simpa using fun h => hm (a4.mp h))]
          exact ih
      · rename_i hts
        simp only [List.cons_append, List.nil_append] at h
        obtain ⟨r1, rs1, ⟨i1, e1⟩, hr1, rfl⟩ := List.forall₂_cons_left_iff.mp h
        have ih := ih rs1 (fun v hv => hvs v (by simp [hv])) hr1
        have hr := hres v (hvs v (by simp))
        have hid : atStart r1.id = r1.id := by
          unfold atStart
          rw [if_neg]
          exact fun hi => hr.2.1 (((hids _ _ i1).2).mp hi)
        have a1 : Opened r1.regex cCharStartOfFile w ↔ Opened r1.regex newline w := by
          rw [e1, opened_cat_delims hdb, opened_cat_delims hdb]
          simp [hnld, hsofd]
        by_cases hm : Opened r1.regex newline w
        · rw [List.filter_cons_of_pos (by simpa using a1.mpr hm), List.filter_cons_of_pos (by simpa using hm)]
          simp only [List.map_cons, ih, hid]
        · rw [List.filter_cons_of_neg (by simpa using fun h => hm (a1.mp h)), List.filter_cons_of_neg (by simpa using hm)]
          exact ih
  obtain ⟨r0, rs, ⟨_, e0⟩, hrs, hr0⟩ := List.forall₂_cons_left_iff.mp h8
  rw [hr0]
  have b : ∀ c, ¬ Opened r0.regex c w := by
    rintro c ⟨x, hx, hbx⟩
    rw [e0] at hx
    simp only at hx
    rw [ruleLang_literal (by decide)] at hx
    subst hx
    have hbx : [newline] = c :: w := hbx
    cases hbx
    exact hw rfl
  rw [List.filter_cons_of_neg (by simpa using b _), List.filter_cons_of_neg (by simpa using b _)]
  exact key s.vars rs (fun v h => h) hrs

/-! ### Tokens of the rest of a text -/

/-- The token as seen when the text starts `n` bytes later. -/
def PTok.shift (n : Nat) (x : PTok) : PTok := ⟨x.a - n, x.e - n, x.ty⟩

theorem slice_drop {s : List Nat} {n a e : Nat} (h : n ≤ a) : slice (s.drop n) (a - n) (e - n) = slice s a e := by
  unfold slice
  rw [List.drop_drop, show n + (a - n) = a by omega, show e - n - (a - n) = e - a by omega]

theorem getElem?_drop' {s : List Nat} {n e : Nat} (h : n ≤ e) : (s.drop n)[e - n]? = s[e]? := by
  rw [List.getElem?_drop, show n + (e - n) = e by omega]

variable {L : Lexer} {s : List Nat}

theorem cand_drop {n a e : Nat} (h : n ≤ a) : L.Cand (s.drop n) false (a - n) (e - n) ↔ L.Cand s false a e := by
  unfold Lexer.Cand Lexer.typesOn
  rw [slice_drop h, List.length_drop]
  constructor
  · rintro ⟨h1, h2, h3, h4⟩
    rw [getElem?_drop' (by omega)] at h4
    refine ⟨by omega, by omega, h3, ?_⟩
    rcases h4 with h4 | h4
    · exact .inl (by omega)
    · exact .inr h4
  · rintro ⟨h1, h2, h3, h4⟩
    rw [getElem?_drop' (by omega)]
    refine ⟨by omega, by omega, h3, ?_⟩
    rcases h4 with h4 | h4
    · exact .inl (by omega)
    · exact .inr h4

theorem cand_drop' {n x e : Nat} : L.Cand (s.drop n) false x e ↔ L.Cand s false (n + x) (n + e) := by
  have := cand_drop (L := L) (s := s) (n := n) (a := n + x) (e := n + e) (by omega)
  rwa [Nat.add_sub_cancel_left, Nat.add_sub_cancel_left] at this

theorem longest_drop {n a e : Nat} (h : n ≤ a) (hl : L.Longest s false a e) : L.Longest (s.drop n) false (a - n) (e - n) := by
  refine ⟨(cand_drop h).mpr hl.1, fun e' he' => ?_⟩
  have := hl.2 (n + e') (by rw [show a = n + (a - n) by omega]; exact cand_drop'.mp he')
  omega

theorem noneIn_drop {n p a : Nat} (h : n ≤ p) (hl : L.NoneIn s p a) : L.NoneIn (s.drop n) (p - n) (a - n) := by
  intro x e h1 h2 hc
  exact hl (n + x) (n + e) (by omega) (by omega) (cand_drop'.mp hc)

theorem lexSpec_drop {n p : Nat} {xs : List PTok} (h : LexSpec L s p xs) (hn : n ≤ p) (hp : p ≤ s.length) :
    LexSpec L (s.drop n) (p - n) (xs.map (PTok.shift n)) := by
  have hlen : (s.drop n).length = s.length - n := by simp
  induction h with
  | done =>
    have := LexSpec.done (L := L) (s := s.drop n)
    rw [hlen] at this
    exact this
  | @rest p h1 h2 =>
    have := LexSpec.rest (L := L) (s := s.drop n) (p := p - n) (by omega) (by rw [hlen]; exact noneIn_drop hn h2)
    rw [hlen] at this
    exact this
  | @here p e toks h1 h2 ih =>
    have a1 := h1.1.1
    have a2 := h1.1.2.1
    have := LexSpec.here (longest_drop hn h1) (ih (by omega) (by omega))
    simp only [Lexer.typesOn, slice_drop hn] at this
    exact this
  | @later p a e toks h0 h3 h1 h2 ih =>
    have a1 := h1.1.1
    have a2 := h1.1.2.1
    have hna : n ≤ a := by omega
    have := LexSpec.later (p := p - n) (a := a - n) (by omega) (noneIn_drop hn h3) (longest_drop hna h1) (ih (by omega) (by omega))
    simp only [Lexer.typesOn, slice_drop hna] at this
    exact this

/-- Where a newline+timestamp is found, the longest candidate begins, and lexing goes on after it. -/
theorem lexSpec_at (hT : TypesProper L) {p : Nat} {xs : List PTok} (h : LexSpec L s p xs) : ∀ {ys zs : List PTok} {x : PTok}, xs = ys ++ x :: zs →
    x.kind = tokenNewlineTimestamp → L.Longest s false x.a x.e ∧ x.ty = L.typesOn s false x.a x.e ∧ LexSpec L s x.e zs := by
  have hu : ∀ (a b : Nat), PTok.kind ⟨a, b, [tokenUncaught]⟩ ≠ tokenNewlineTimestamp := by intro a b h; cases h
  have he : ∀ (a b : Nat), PTok.kind ⟨a, b, [tokenEnd]⟩ ≠ tokenNewlineTimestamp := by intro a b h; cases h
  induction h with
  | done =>
    intro ys zs x hx hk
    rcases ys with - | ⟨y, ys⟩
    · cases hx; exact absurd hk (he _ _)
    · simp at hx
  | rest h1 h2 =>
    intro ys zs x hx hk
    rcases ys with - | ⟨y, ys⟩
    · cases hx; exact absurd hk (hu _ _)
    · rcases ys with - | ⟨y', ys⟩
      · cases hx; exact absurd hk (he _ _)
      · simp at hx
  | here h1 h2 ih =>
    intro ys zs x hx hk
    rcases ys with - | ⟨y, ys⟩
    · cases hx; exact ⟨h1, rfl, h2⟩
    · simp only [List.cons_append, List.cons.injEq] at hx
      exact ih hx.2 hk
  | later h0 h3 h1 h2 ih =>
    intro ys zs x hx hk
    rcases ys with - | ⟨y, ys⟩
    · cases hx; exact absurd hk (hu _ _)
    · rcases ys with - | ⟨y', ys⟩
      · cases hx; exact ⟨h1, rfl, h2⟩
      · simp only [List.cons_append, List.cons.injEq] at hx
        exact ih hx.2.2 hk

theorem lexExact_at (hT : TypesProper L) {xs : List PTok} (h : LexExact L s xs) {ys zs : List PTok} {x : PTok} (hx : xs = ys ++ x :: zs)
    (hk : x.kind = tokenNewlineTimestamp) :
    (x.ty = L.typesOn s true 0 x.e ∧ L.Cand s true 0 x.e) ∨
      (L.Longest s false x.a x.e ∧ x.ty = L.typesOn s false x.a x.e ∧ LexSpec L s x.e zs) := by
  have hu : ∀ (a b : Nat), PTok.kind ⟨a, b, [tokenUncaught]⟩ ≠ tokenNewlineTimestamp := by intro a b h; cases h
  have he : ∀ (a b : Nat), PTok.kind ⟨a, b, [tokenEnd]⟩ ≠ tokenNewlineTimestamp := by intro a b h; cases h
  cases h with
  | start h1 h2 h3 h4 =>
    rcases ys with - | ⟨y, ys⟩
    · cases hx; exact .inl ⟨rfl, h3.1⟩
    · simp only [List.cons_append, List.cons.injEq] at hx
      exact .inr (lexSpec_at hT h4 hx.2 hk)
  | done h1 =>
    rcases ys with - | ⟨y, ys⟩
    · cases hx; exact absurd hk (he _ _)
    · simp at hx
  | rest h1 h2 h3 h4 =>
    rcases ys with - | ⟨y, ys⟩
    · cases hx; exact absurd hk (hu _ _)
    · rcases ys with - | ⟨y', ys⟩
      · cases hx; exact absurd hk (he _ _)
      · simp at hx
  | here h1 h2 h3 h4 =>
    rcases ys with - | ⟨y, ys⟩
    · cases hx; exact .inr ⟨h3, rfl, h4⟩
    · simp only [List.cons_append, List.cons.injEq] at hx
      exact .inr (lexSpec_at hT h4 hx.2 hk)
  | later h1 h2 h3 h4 h5 h6 h7 =>
    rcases ys with - | ⟨y, ys⟩
    · cases hx; exact absurd hk (hu _ _)
    · rcases ys with - | ⟨y', ys⟩
      · cases hx; exact .inr ⟨h6, rfl, h7⟩
      · simp only [List.cons_append, List.cons.injEq] at hx
        exact .inr (lexSpec_at hT h7 hx.2.2 hk)

/-- What is matched as newline+timestamp. -/
theorem LexerOf.nlTs {s addr t L} (h : LexerOf s addr t L) (hs : s.Sensible) (hinj : ∀ a b, addr a = addr b → a = b)
    (hres : s.Reserved) {w : List Nat} (hg : tokenNewlineTimestamp ∈ L.dfa.idsOn w) : ∃ v, w = newline :: v ∧ v ≠ [] := by
  obtain ⟨n, re, hk, hid, hlen, c, v, rfl, hf, hr⟩ := h.text_kind hs hinj hg
  have hn := symbol_unique h hid (m := "newLineTimestamp") (by decide)
  subst hn
  generalize hnn : "newLineTimestamp" = nn at hk
  cases hk with
  | newLine => exact absurd hnn (by decide)
  | first _ _ => exact absurd hnn (by decide)
  | var hv _ => exact absurd hnn.symm (hres _ hv).2.1
  | newLineTs hv hts =>
    have hc : c = newline := by simpa [Regex.firstOf, Regex.possible] using hf
    subst hc
    refine ⟨v, rfl, ?_⟩
    rintro rfl
    rcases hlen with ⟨h1, _⟩ | h1
    · cases h1
    · simp at h1

theorem kind_mem {x : PTok} (h : x.ty ≠ []) : x.kind ∈ x.ty := by
  unfold PTok.kind
  cases hl : x.ty with
  | nil => exact absurd hl h
  | cons i l => simp

/-- Lexing again from a timestamp after a newline: the timestamp is recognised as the one at the start of a file, and the tokens after it
are the same. -/
theorem lexExact_restart {s : SchemaAST} {addr t L} (hC : s.Compiled addr t L) (hmono : ∀ a b, a < b → addr a < addr b)
    (hnl : s.IsDelim newline) (hres : s.Reserved) (hline : s.LineTimestamps) {text : List Nat} (hb : AllBytes text)
    {ys zs : List PTok} {x : PTok} (h : LexExact L text (ys ++ x :: zs)) (hk : x.kind = tokenNewlineTimestamp) :
    text[x.a]? = some newline ∧ x.a + 1 < x.e ∧ x.e ≤ text.length ∧
    LexExact L (text.drop (x.a + 1)) (⟨0, x.e - (x.a + 1), x.ty.map atStart⟩ :: zs.map (PTok.shift (x.a + 1))) := by
  have hO := buildLexer_ok hC.ok
  have hT := hO.typesProper hC.sensible
  have hne : cCharStartOfFile ≠ newline := by decide
  rcases lexExact_at hT h rfl hk with ⟨hty, hc⟩ | ⟨hlong, hty, hspec⟩
  · have hmem := kind_mem (x := x) (by rw [hty]; exact hc.2.2.1)
    rw [hk, hty] at hmem
    obtain ⟨v, hv, _⟩ := hO.nlTs hC.sensible hC.inj hres hmem
    simp at hv
    exact absurd hv.1 hne
  · have hmem := kind_mem (x := x) (by rw [hty]; exact hlong.1.2.2.1)
    rw [hk, hty] at hmem
    obtain ⟨v, hv, hvne⟩ := hO.nlTs hC.sensible hC.inj hres hmem
    have hae := hlong.1.1
    have hen := hlong.1.2.1
    simp only [Bool.false_eq_true, if_false, List.nil_append] at hv
    rw [slice_cons hae hen] at hv
    simp only [List.cons.injEq] at hv
    obtain ⟨hv1, hv2⟩ := hv
    have hlt : x.a + 1 < x.e := by
      rcases Nat.lt_or_ge (x.a + 1) x.e with h | h
      · exact h
      · refine absurd ?_ hvne
        rw [← hv2, slice, show x.e - (x.a + 1) = 0 by omega]; rfl
    have hget : text[x.a]? = some newline := by rw [List.getElem?_eq_getElem (by omega), hv1]
    refine ⟨hget, hlt, hen, ?_⟩
    generalize hn : x.a + 1 = n at *
    -- the types after the newline and at the start
    have htypes : ∀ e, n < e → e ≤ text.length → L.typesOn (text.drop n) true 0 (e - n) = (L.typesOn text false x.a e).map atStart := by
      intro e he he'
      unfold Lexer.typesOn
      simp only [if_true, Bool.false_eq_true, if_false, List.nil_append]
      have h1 : slice (text.drop n) 0 (e - n) = slice text n e := by
        have := slice_drop (s := text) (n := n) (a := n) (e := e) (Nat.le_refl _)
        rwa [Nat.sub_self] at this
      rw [h1, slice_cons (a := x.a) (by omega) he', hn, hv1]
      refine hO.afterNl hmono hnl hres ?_ ?_
      · intro c hc
        exact hb c (List.mem_of_mem_drop (List.mem_of_mem_take hc))
      · intro h0
        have h0 : slice text n e = [] := h0
        have := slice_length (s := text) (a := n) (e := e) he'
        rw [h0] at this
        simp only [List.length_nil] at this
        omega
    have hcand : ∀ e, n < e → (L.Cand (text.drop n) true 0 (e - n) ↔ L.Cand text false x.a e) := by
      intro e he
      unfold Lexer.Cand
      rw [List.length_drop, getElem?_drop' (by omega)]
      constructor
      · rintro ⟨h1, h2, h3, h4⟩
        rw [htypes e he (by omega)] at h3
        refine ⟨by omega, by omega, fun h0 => h3 (by rw [h0]; rfl), ?_⟩
        rcases h4 with h4 | h4 | ⟨h4, _⟩
        · exact .inl (by omega)
        · exact .inr (.inl h4)
        · cases h4
      · rintro ⟨h1, h2, h3, h4⟩
        refine ⟨by omega, by omega, ?_, ?_⟩
        · rw [htypes e he (by omega)]
          intro h0
          exact h3 (List.map_eq_nil_iff.mp h0)
        · rcases h4 with h4 | h4 | ⟨_, h4⟩
          · exact .inl (by omega)
          · exact .inr (.inl h4)
          · have := slice_length (s := text) (a := x.a) (e := e) h2
            rw [h4] at this
            simp only [List.length_cons, List.length_nil] at this
            omega
    have hlong' : L.Longest (text.drop n) true 0 (x.e - n) := by
      refine ⟨(hcand x.e hlt).mpr hlong.1, fun e' he' => ?_⟩
      have := he'.1
      have := hlong.2 (n + e') ((hcand (n + e') (by omega)).mp (by rw [Nat.add_sub_cancel_left]; exact he'))
      omega
    have hnonl : newline ∉ (text.drop n).take (x.e - n) := by
      intro hin
      have hal := hlong'.1.alive
      simp only [pre, if_true, slice, List.drop_zero, Nat.sub_zero, List.cons_append, List.nil_append] at hal
      obtain ⟨_, m, re, hkind, hf, hr⟩ := hO.alive hC.sensible hC.inj hal
      have hr := hr newline hin
      cases hkind with
      | newLine => exact absurd hf (by decide)
      | @first v hv' hts =>
        have hr : v.regex.possible newline = true := hr
        rw [hline v hv' hts] at hr
        cases hr
      | newLineTs hv' hts => exact absurd hf (by simp [Regex.firstOf, Regex.possible, cCharStartOfFile, newline])
      | @var v hv' hts =>
        have := hO.rest_delim hv' hts hr
        rw [(hO.delim _).mpr hnl] at this
        cases this
    have := LexExact.start hlong'.1 hnonl hlong' (lexSpec_drop hspec (by omega) hen)
    rw [htypes x.e hlt hen, ← hty] at this
    exact this

end LogSurgeon
