import Verif.Proofs.SchemaLexer
import Verif.Proofs.Lines
/-
The token sequence of a text for the lexer of an accepted schema.
-/
namespace LogSurgeon

theorem LexerOf.nlOk {s addr t L} (h : LexerOf s addr t L) (hs : s.Sensible)
    (hinj : ∀ a b, addr a = addr b → a = b) : NlOk L := by
  obtain ⟨n, hn, _, h3⟩ := h.nfa hinj
  obtain ⟨r, hr, hre, _⟩ := h.rule .newLine
  have hm : r.id ∈ L.dfa.idsOn [newline] := (h3 _ _ (by simp [AllBytes, newline, cSizeOfByte])).mpr
    ⟨r, hr, (acceptsAlone_iff hn hr _).mpr (lang_complete r.regex (by rw [hre]; trivial) _
      (by simp [AllBytes, newline, cSizeOfByte]) (by rw [hre]; rfl)), rfl⟩
  have hne := List.ne_nil_of_mem hm
  obtain ⟨ds, _, _, _, _, h6, _⟩ := addRules_ok h.tables
  refine ⟨⟨?_, fun _ => ?_⟩, by rw [h.hasDelims, h6], hne⟩
  · have := h.idsOn_nil hs hinj (w := []) (by simp) (by simp) (by intro c hc; cases hc)
    simp only [Dfa.idsOn, Dfa.run, Option.map_some, Option.getD_some] at this
    simp [Dfa.isAccepting, this]
  · unfold Dfa.idsOn at hne
    cases hx : L.dfa.next 0 newline with
    | none => simp [Dfa.run, hx] at hne
    | some q => rfl

/-- The text the lexer sees. -/
theorem startOn_view (L : Lexer) (st : LexState) (b : InBuf) (ptr : Nat) {content : List Nat} {size : Nat}
    (h : size ≤ content.length) (fin : Bool) :
    View (L.startOn st b ptr content size fin).2 (content.take size) fin ∧
    PosOk (content.take size) (L.startOn st b ptr content size fin).2 := by
  have hl : (content.take size).length = size := by simp [h]
  refine ⟨View.of hl.symm ?_ rfl ?_ (.inr rfl) (fun _ => ⟨rfl, ?_⟩), (fun h => by cases h)⟩
  · intro i hi
    show ((if ptr = ptr then content else b.mem ptr) : List Nat)[i]? = _
    rw [if_pos rfl, List.getElem?_take_of_lt (by omega)]
  · show _ ≤ size * 2 / 2; omega
  · show _ = size * 2 / 2; omega

theorem startOn_rel {L : Lexer} (st : LexState) (b : InBuf) (ptr : Nat) (content s : List Nat) (size : Nat) (fin : Bool)
    {q : Nat} (hq : L.dfa.next 0 cCharStartOfFile = some q) :
    CfgRel L s (L.startOn st b ptr content size fin).1 (L.startOn st b ptr content size fin).2 (.sof q) :=
  ⟨rfl, hq, rfl, rfl, rfl, rfl, rfl, rfl, rfl⟩

/-- The lexer's calls and the pure description. -/
theorem lexAll_pure {L : Lexer} (hL : NlOk L) (hT : TypesProper L) {q : Nat} (hq : L.dfa.next 0 cCharStartOfFile = some q)
    (hqa : L.dfa.isAccepting q = false) (st : LexState) (b : InBuf) (ptr : Nat) {content : List Nat} {size : Nat}
    (h : size ≤ content.length) (fin : Bool) (k : Nat) :
    (L.lexAll k st b ptr content size fin).2 = (L.pureAll (content.take size) fin k (.sof q)).2 ∧
    List.Forall₂ (TokRel L (content.take size) (L.startOn st b ptr content size fin).2)
      (L.lexAll k st b ptr content size fin).1 (L.pureAll (content.take size) fin k (.sof q)).1 := by
  obtain ⟨hV, hP⟩ := startOn_view L st b ptr h fin
  exact scanAll_pure hL hT k _ _ _ (.sof q) hV hP ⟨hq, hqa⟩ (startOn_rel st b ptr content _ size fin hq) rfl rfl

theorem ranges_of_rel {L : Lexer} {s : List Nat} {b : InBuf} {ts : List Token} {xs : List PTok}
    (h : List.Forall₂ (TokRel L s b) ts xs) : ts.map Token.range = xs.map some := by
  induction h with
  | nil => rfl
  | cons h _ ih =>
    simp only [List.map_cons, ih]
    congr 1
    simp [Token.range, h.types, h.start, h.stop]

/-- The pieces of a tiling are the text. -/
theorem Tiles.flat {s : List Nat} : ∀ {xs : List PTok} {p : Nat}, Tiles p s.length xs →
    xs.flatMap (fun x => slice s x.a x.e) = s.drop p := by
  intro xs
  induction xs with
  | nil => intro p h; exact h.elim
  | cons x xs ih =>
    intro p h
    cases xs with
    | nil =>
      obtain ⟨rfl, rfl⟩ := h
      simp [slice]
    | cons y ys =>
      obtain ⟨h1, h2, h3, h4⟩ := h
      rw [List.flatMap_cons, ih h4, h1]
      unfold slice
      have := List.take_append_drop (x.e - p) (s.drop p)
      rw [List.drop_drop, show p + (x.e - p) = x.e by omega] at this
      exact this

theorem Tiles.le {n : Nat} : ∀ {xs : List PTok} {p : Nat}, Tiles p n xs → p ≤ n ∧ ∀ x ∈ xs, x.a ≤ x.e ∧ x.e ≤ n := by
  intro xs
  induction xs with
  | nil => intro p h; exact h.elim
  | cons x xs ih =>
    intro p h
    cases xs with
    | nil =>
      obtain ⟨rfl, rfl⟩ := h
      refine ⟨Nat.le_refl _, fun y hy => ?_⟩
      simp only [List.mem_singleton] at hy; subst hy
      exact ⟨Nat.le_refl _, Nat.le_refl _⟩
    | cons z zs =>
      obtain ⟨h1, h2, _, h4⟩ := h
      obtain ⟨h5, h6⟩ := ih h4
      refine ⟨by omega, fun y hy => ?_⟩
      rcases List.mem_cons.mp hy with rfl | hy
      · exact ⟨by omega, h5⟩
      · exact h6 y hy

theorem slice_take {s : List Nat} {n a e : Nat} (h : e ≤ n) : slice (s.take n) a e = slice s a e := by
  unfold slice
  rw [List.drop_take, List.take_take]
  congr 1; omega

theorem flatMap_ranges {s : List Nat} : ∀ {ts : List Token} {xs : List PTok}, ts.map Token.range = xs.map some →
    ts.flatMap (fun t => slice s t.startPos t.endPos) = xs.flatMap (fun x => slice s x.a x.e) := by
  intro ts
  induction ts with
  | nil =>
    intro xs h
    cases xs with
    | nil => rfl
    | cons _ _ => simp at h
  | cons u us ih =>
    intro xs h
    cases xs with
    | nil => simp at h
    | cons x xs =>
      simp only [List.map_cons, List.cons.injEq] at h
      rw [List.flatMap_cons, List.flatMap_cons, ih h.2]
      congr 1
      have hx := h.1
      simp only [Token.range, Option.map_eq_some_iff] at hx
      obtain ⟨ty, _, rfl⟩ := hx
      rfl

/-- Never two uncaught strings in a row. -/
def NoUU : List PTok → Prop
  | x :: y :: l => ¬ (x.ty = [tokenUncaught] ∧ y.ty = [tokenUncaught]) ∧ NoUU (y :: l)
  | _ => True

theorem pureAll_head {L : Lexer} {s : List Nat} {fin : Bool} {k a e ty y l}
    (h : (L.pureAll s fin k (.pend a e ty)).1 = y :: l) : y.ty = ty := by
  cases k with
  | zero => cases h
  | succ k =>
    simp only [Lexer.pureAll, Lexer.nextTok] at h
    split at h <;> (cases h; rfl)

theorem pureAll_noUU {L : Lexer} (hL : NlOk L) (hT : TypesProper L) {s : List Nat} {fin : Bool} :
    ∀ (k : Nat) (c : Cfg), CfgOk L s c → NoUU (L.pureAll s fin k c).1 := by
  intro k
  induction k with
  | zero => intro c _; trivial
  | succ k ih =>
    intro c hc
    simp only [Lexer.pureAll]
    cases hn : L.nextTok s fin c with
    | none => trivial
    | some x =>
      obtain ⟨x, c'⟩ := x
      simp only
      split
      · trivial
      · obtain ⟨hc', _, _, _, hx⟩ := nextTok_ok hL hc hn
        have ih := ih c' hc'
        show NoUU (x :: (L.pureAll s fin k c').1)
        revert ih
        cases hp : (L.pureAll s fin k c').1 with
        | nil => intro _; trivial
        | cons y l =>
          intro ih
          refine ⟨?_, ih⟩
          rintro ⟨hu, hyu⟩
          rcases hx with ⟨_, hrec | ⟨_, a, e, ty, rfl⟩⟩ | ⟨rfl, _⟩
          · obtain ⟨sof, _, _, hty⟩ := hrec
            exact types_ne hT (hty ▸ hu)
          · have := pureAll_head hp
            rw [this] at hyu
            rcases hc' with ⟨_, _, sof, _, _, hty⟩ | ⟨_, _, hty⟩
            · simp only at hty
              exact types_ne hT (hty ▸ hyu)
            · rw [hty] at hyu; cases hyu
          · cases hu

/-- Line numbers. -/
theorem line_of_rel {L : Lexer} (hN : NlDelim L) {s : List Nat} {b : InBuf} {t : Token} {x : PTok}
    (h : TokRel L s b t x) (hx : x.a ≤ x.e) (hxe : x.e ≤ s.length) (hnl : x.ty = [tokenUncaught] → NoNl s x.a x.e) :
    t.line = nlCount s x.e := by
  have := h.line hN
  rw [this]
  split
  · rename_i hu
    exact nlCount_eq hx hxe (hnl hu)
  · rfl

end LogSurgeon
