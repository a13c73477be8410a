import Verif.Spec.EndToEnd
import Verif.Proofs.SchemaLexer
import Verif.Proofs.Munch
import Verif.Proofs.Reading
/-
From schema texts to lexers: what the constructor accepts, and the tokens in terms of the schema text.
-/
namespace LogSurgeon

/-! ### Patterns -/

theorem addItems_total (items : List ClassItem) : ∀ rs, (∀ i ∈ items, match i with | .range lo hi => lo < hi | .space => False | _ => True) →
    ∃ rs', addItems rs items = some rs' := by
  induction items with
  | nil => intro rs _; exact ⟨rs, rfl⟩
  | cons i is ih =>
    intro rs h
    have hi := h i (by simp)
    have hr := fun rs => ih rs fun j hj => h j (by simp [hj])
    cases i with
    | lit c => exact hr _
    | range lo hi' =>
      obtain ⟨rs', e⟩ := hr (rs ++ [(lo, hi')])
      exact ⟨rs', by simp only [addItems, addItem]; rw [if_pos hi]; exact e⟩
    | digit => exact hr _
    | space => exact hi.elim

theorem elab_total (p : Pat) (hs : p.Sensible) (hc : p.ClassesUsable) : ∃ r, p.elab = some r := by
  induction p with
  | lit c => exact ⟨_, rfl⟩
  | cls ng items =>
    obtain ⟨rs, h⟩ := addItems_total items [] hc
    exact ⟨_, by rw [Pat.elab, h]; rfl⟩
  | digit => exact ⟨_, rfl⟩
  | wild => exact ⟨_, rfl⟩
  | space => exact ⟨_, rfl⟩
  | cat l r ihl ihr =>
    obtain ⟨a, ha⟩ := ihl hs.1 hc.1
    obtain ⟨b, hb⟩ := ihr hs.2 hc.2
    exact ⟨_, by rw [Pat.elab, ha, hb]; rfl⟩
  | or l r ihl ihr =>
    obtain ⟨a, ha⟩ := ihl hs.1 hc.1
    obtain ⟨b, hb⟩ := ihr hs.2 hc.2
    exact ⟨_, by rw [Pat.elab, ha, hb]; rfl⟩
  | star p ih => obtain ⟨a, ha⟩ := ih hs hc; exact ⟨_, by rw [Pat.elab, ha]; rfl⟩
  | plus p ih => obtain ⟨a, ha⟩ := ih hs hc; exact ⟨_, by rw [Pat.elab, ha]; rfl⟩
  | exact p n ih =>
    obtain ⟨a, ha⟩ := ih hs.2.2 hc
    exact ⟨_, by rw [Pat.elab, ha, repetitionCount_ok hs.1]; rfl⟩
  | range p n m ih =>
    obtain ⟨a, ha⟩ := ih hs.2.2.2.2 hc
    exact ⟨_, by rw [Pat.elab, ha, repetitionCount_ok hs.1, repetitionCount_ok hs.2.1]; rfl⟩
  | capture p t ih => obtain ⟨a, ha⟩ := ih hs hc; exact ⟨_, by rw [Pat.elab, ha]; rfl⟩

theorem possible_setNegTags (r : Regex) (t : List Tag) (c : Nat) : (r.setNegTags t).possible c = r.possible c := by
  cases r <;> rfl

theorem possible_group {n : List Tag} {w ng : Bool} {rs : List Range} {c : Nat} :
    (Regex.group n w ng rs).possible c = true ↔ if ng then c ≤ cUnicodeMax ∧ ¬ InRanges rs c else InRanges rs c := by
  cases ng <;> simp [Regex.possible, InRanges]

theorem items_possible {items : List ClassItem} {rs : List Range} (h : addItems [] items = some rs) (ng : Bool) (c : Nat) :
    (Regex.group [] false ng rs).possible c = true ↔ if ng then c ≤ cUnicodeMax ∧ ∀ i ∈ items, ¬ i.Has c else ∃ i ∈ items, i.Has c := by
  have := (addItems_spec items h (by simp)).2.2 c
  have h0 : ¬ InRanges [] c := by rintro ⟨_, h, _⟩; cases h
  rw [possible_group]
  cases ng
  · simp [this, h0]
  · simp [this, h0]

/-- Under `remove` the wildcards do not count. -/
theorem removed_possible {ds : List Nat} (hne : ds ≠ []) (hm : ∀ d ∈ ds, d ≤ cUnicodeMax) {c : Nat} (hc : c ∈ ds) (p : Pat) :
    ∀ {r : Regex}, p.elab = some r → ((r.removeDelims ds).possible c = true ↔ p.Mentions false c) := by
  induction p with
  | lit a => intro r h; cases h; simp [Regex.removeDelims, Regex.possible, Pat.Mentions]
  | cls ng items =>
    intro r h
    simp only [Pat.elab, Option.map_eq_some_iff] at h
    obtain ⟨rs, h, rfl⟩ := h
    exact items_possible h ng c
  | digit => intro r h; cases h; simp [Regex.removeDelims, Regex.possible, Pat.Mentions]
  | wild =>
    intro r h
    cases h
    have : ds.isEmpty = false := by simpa using hne
    simp only [Regex.removeDelims, Bool.not_true, Bool.false_eq_true, if_false, this, possible_group, wildcardRanges_spec hne hm]
    simp [hc, Pat.Mentions]
  | space => intro r h; cases h; simp [Regex.removeDelims, Regex.possible, Pat.Mentions]; omega
  | cat l r ihl ihr =>
    intro x h
    simp only [Pat.elab, Option.bind_eq_some_iff, Option.map_eq_some_iff] at h
    obtain ⟨a, ha, b, hb, rfl⟩ := h
    simp only [Regex.mkCat, Regex.removeDelims, Regex.possible, Bool.or_eq_true, ihl ha, ihr hb, Pat.Mentions]
  | or l r ihl ihr =>
    intro x h
    simp only [Pat.elab, Option.bind_eq_some_iff, Option.map_eq_some_iff] at h
    obtain ⟨a, ha, b, hb, rfl⟩ := h
    simp only [Regex.mkOr, Regex.removeDelims, removeDelims_setNegTags, possible_setNegTags, Regex.possible, Bool.or_eq_true, ihl ha, ihr hb,
      Pat.Mentions]
  | star p ih =>
    intro x h
    simp only [Pat.elab, Option.map_eq_some_iff] at h
    obtain ⟨a, ha, rfl⟩ := h
    simp only [starRule, Regex.mkOr, Regex.mkEmpty, Regex.mkMult, Regex.removeDelims, removeDelims_setNegTags, possible_setNegTags, Regex.possible,
      Bool.false_or, ih ha, Pat.Mentions]
  | plus p ih =>
    intro x h
    simp only [Pat.elab, Option.map_eq_some_iff] at h
    obtain ⟨a, ha, rfl⟩ := h
    simp only [plusRule, Regex.mkMult, Regex.removeDelims, Regex.possible, ih ha, Pat.Mentions]
  | exact p n ih =>
    intro x h
    simp only [Pat.elab, Option.bind_eq_some_iff, Option.map_eq_some_iff] at h
    obtain ⟨a, ha, k, _, rfl⟩ := h
    simp only [exactRule, Regex.mkMult, Regex.removeDelims, Regex.possible, ih ha, Pat.Mentions]
  | range p n m ih =>
    intro x h
    simp only [Pat.elab, Option.bind_eq_some_iff, Option.map_eq_some_iff] at h
    obtain ⟨a, ha, k, _, j, _, rfl⟩ := h
    unfold rangeRule
    split <;> simp only [Regex.mkOr, Regex.mkEmpty, Regex.mkMult, Regex.removeDelims, removeDelims_setNegTags, possible_setNegTags, Regex.possible,
      Bool.false_or, ih ha, Pat.Mentions]
  | capture p t ih =>
    intro x h
    simp only [Pat.elab, Option.map_eq_some_iff] at h
    obtain ⟨a, ha, rfl⟩ := h
    simp only [Regex.mkCapture, Regex.removeDelims, Regex.possible, ih ha, Pat.Mentions]

theorem elab_possible {c : Nat} (p : Pat) :
    ∀ {r : Regex}, p.elab = some r → (r.possible c = true ↔ p.Mentions true c) := by
  induction p with
  | lit a => intro r h; cases h; simp [Regex.possible, Pat.Mentions]
  | cls ng items =>
    intro r h
    simp only [Pat.elab, Option.map_eq_some_iff] at h
    obtain ⟨rs, h, rfl⟩ := h
    exact items_possible h ng c
  | digit => intro r h; cases h; simp [Regex.possible, Pat.Mentions]
  | wild => intro r h; cases h; simp [Regex.possible, Pat.Mentions]
  | space => intro r h; cases h; simp [Regex.possible, Pat.Mentions]; omega
  | cat l r ihl ihr =>
    intro x h
    simp only [Pat.elab, Option.bind_eq_some_iff, Option.map_eq_some_iff] at h
    obtain ⟨a, ha, b, hb, rfl⟩ := h
    simp only [Regex.mkCat, Regex.possible, Bool.or_eq_true, ihl ha, ihr hb, Pat.Mentions]
  | or l r ihl ihr =>
    intro x h
    simp only [Pat.elab, Option.bind_eq_some_iff, Option.map_eq_some_iff] at h
    obtain ⟨a, ha, b, hb, rfl⟩ := h
    simp only [Regex.mkOr, possible_setNegTags, Regex.possible, Bool.or_eq_true, ihl ha, ihr hb, Pat.Mentions]
  | star p ih =>
    intro x h
    simp only [Pat.elab, Option.map_eq_some_iff] at h
    obtain ⟨a, ha, rfl⟩ := h
    simp only [starRule, Regex.mkOr, Regex.mkEmpty, Regex.mkMult, possible_setNegTags, Regex.possible, Bool.false_or, ih ha, Pat.Mentions]
  | plus p ih =>
    intro x h
    simp only [Pat.elab, Option.map_eq_some_iff] at h
    obtain ⟨a, ha, rfl⟩ := h
    simp only [plusRule, Regex.mkMult, Regex.possible, ih ha, Pat.Mentions]
  | exact p n ih =>
    intro x h
    simp only [Pat.elab, Option.bind_eq_some_iff, Option.map_eq_some_iff] at h
    obtain ⟨a, ha, k, _, rfl⟩ := h
    simp only [exactRule, Regex.mkMult, Regex.possible, ih ha, Pat.Mentions]
  | range p n m ih =>
    intro x h
    simp only [Pat.elab, Option.bind_eq_some_iff, Option.map_eq_some_iff] at h
    obtain ⟨a, ha, k, _, j, _, rfl⟩ := h
    unfold rangeRule
    split <;> simp only [Regex.mkOr, Regex.mkEmpty, Regex.mkMult, possible_setNegTags, Regex.possible, Bool.false_or, ih ha, Pat.Mentions]
  | capture p t ih =>
    intro x h
    simp only [Pat.elab, Option.map_eq_some_iff] at h
    obtain ⟨a, ha, rfl⟩ := h
    simp only [Regex.mkCapture, Regex.possible, ih ha, Pat.Mentions]

theorem loopSafe_setNegTags (r : Regex) (t : List Tag) : (r.setNegTags t).LoopSafe ↔ r.LoopSafe := by
  cases r <;> exact Iff.rfl

/-- `TailLoop` whatever the tags. -/
def Regex.Tail : Regex → Prop
  | .or _ l r => l.Tail ∨ r.Tail
  | .cat _ _ r => r.Tail
  | .mult _ op _ max => max = 0 ∨ op.Tail
  | _ => False

theorem Regex.TailLoop.tail {r : Regex} (h : r.TailLoop) : r.Tail := by
  induction r with
  | or n l r ihl ihr => exact h.2.elim (fun h => .inl (ihl h)) fun h => .inr (ihr h)
  | cat n l r _ ihr => exact ihr h.2
  | mult n op mn mx ih => exact h.2.elim .inl fun h => .inr (ih h)
  | _ => exact h.elim

theorem tail_setNegTags (r : Regex) (t : List Tag) : (r.setNegTags t).Tail ↔ r.Tail := by
  cases r <;> exact Iff.rfl

theorem elab_open (p : Pat) : ∀ {r : Regex}, p.elab = some r → p.Sensible → (r.Tail → p.EndsOpen) ∧ (p.NoOpenChoice → r.LoopSafe) := by
  induction p with
  | lit a => intro r h _; cases h; exact ⟨id, fun _ => trivial⟩
  | cls ng items =>
    intro r h _
    simp only [Pat.elab, Option.map_eq_some_iff] at h
    obtain ⟨rs, h, rfl⟩ := h
    exact ⟨id, fun _ => trivial⟩
  | digit => intro r h _; cases h; exact ⟨id, fun _ => trivial⟩
  | wild => intro r h _; cases h; exact ⟨id, fun _ => trivial⟩
  | space => intro r h _; cases h; exact ⟨id, fun _ => trivial⟩
  | cat l r ihl ihr =>
    intro x h hs
    simp only [Pat.elab, Option.bind_eq_some_iff, Option.map_eq_some_iff] at h
    obtain ⟨a, ha, b, hb, rfl⟩ := h
    exact ⟨(ihr hb hs.2).1, fun hn => ⟨(ihl ha hs.1).2 hn.1, (ihr hb hs.2).2 hn.2⟩⟩
  | or l r ihl ihr =>
    intro x h hs
    simp only [Pat.elab, Option.bind_eq_some_iff, Option.map_eq_some_iff] at h
    obtain ⟨a, ha, b, hb, rfl⟩ := h
    obtain ⟨l1, l2⟩ := ihl ha hs.1
    obtain ⟨r1, r2⟩ := ihr hb hs.2
    refine ⟨?_, fun ⟨h1, h2, h3, h4⟩ => ⟨.inl ⟨fun h => h1 (l1 ((tail_setNegTags _ _).mp h.tail)), fun h => h2 (r1 ((tail_setNegTags _ _).mp h.tail))⟩,
      (loopSafe_setNegTags _ _).mpr (l2 h3), (loopSafe_setNegTags _ _).mpr (r2 h4)⟩⟩
    rintro (h | h)
    · exact .inl (l1 ((tail_setNegTags _ _).mp h))
    · exact .inr (r1 ((tail_setNegTags _ _).mp h))
  | star p ih =>
    intro x h hs
    simp only [Pat.elab, Option.map_eq_some_iff] at h
    obtain ⟨a, ha, rfl⟩ := h
    refine ⟨fun _ => trivial, fun hn => ⟨.inr (.inl ⟨_, rfl⟩), trivial, ?_⟩⟩
    exact (loopSafe_setNegTags _ _).mpr ⟨fun h => by omega, (ih ha hs).2 hn⟩
  | plus p ih =>
    intro x h hs
    simp only [Pat.elab, Option.map_eq_some_iff] at h
    obtain ⟨a, ha, rfl⟩ := h
    exact ⟨fun _ => trivial, fun hn => ⟨fun h => by omega, (ih ha hs).2 hn⟩⟩
  | exact p n ih =>
    intro x h hs
    simp only [Pat.elab, Option.bind_eq_some_iff, Option.map_eq_some_iff] at h
    obtain ⟨a, ha, k, hk, rfl⟩ := h
    rw [repetitionCount_ok hs.1] at hk
    cases hk
    refine ⟨?_, fun hn => ⟨fun h => by have := hs.2.1; omega, (ih ha hs.2.2).2 hn⟩⟩
    rintro (h | h)
    · have := hs.2.1; omega
    · exact (ih ha hs.2.2).1 h
  | range p n m ih =>
    intro x h hs
    simp only [Pat.elab, Option.bind_eq_some_iff, Option.map_eq_some_iff] at h
    obtain ⟨a, ha, k, hk, j, hj, rfl⟩ := h
    rw [repetitionCount_ok hs.1] at hk
    rw [repetitionCount_ok hs.2.1] at hj
    cases hk
    cases hj
    obtain ⟨_, _, h3, h4, h5⟩ := hs
    obtain ⟨i1, i2⟩ := ih ha h5
    unfold rangeRule
    split
    · refine ⟨?_, fun hn => ⟨.inr (.inl ⟨_, rfl⟩), trivial, (loopSafe_setNegTags _ _).mpr ⟨fun h => by omega, i2 hn⟩⟩⟩
      rintro (h | h)
      · exact h.elim
      · rcases (tail_setNegTags _ _).mp h with h | h
        · omega
        · exact i1 h
    · refine ⟨?_, fun hn => ⟨fun h => by omega, i2 hn⟩⟩
      rintro (h | h)
      · omega
      · exact i1 h
  | capture p t ih =>
    intro x h hs
    simp only [Pat.elab, Option.map_eq_some_iff] at h
    obtain ⟨a, ha, rfl⟩ := h
    exact ⟨fun h => h.elim, fun hn => (ih ha hs).2 hn⟩

/-! ### `.` -/

/-- A pattern only sees the characters of the text. -/
theorem dotAs_congr {ds es : List Nat} (p : Pat) : ∀ {u : List Nat}, (∀ c ∈ u, c ∈ ds ↔ c ∈ es) →
    (p.dotAs ds).atLeastOne.Matches u → (p.dotAs es).atLeastOne.Matches u := by
  have rep : ∀ {P Q : List Nat → Prop} {k : Nat} {u : List Nat}, (∀ {v : List Nat}, (∀ c ∈ v, c ∈ ds ↔ c ∈ es) → P v → Q v) →
      (∀ c ∈ u, c ∈ ds ↔ c ∈ es) → Repeat P k u → Repeat Q k u := by
    intro P Q k u ih hu h
    induction h with
    | zero => exact .zero
    | succ h _ ih2 =>
      exact .succ (ih (fun c hc => hu c (List.mem_append_left _ hc)) h) (ih2 fun c hc => hu c (List.mem_append_right _ hc))
  induction p with
  | wild =>
    rintro u hu ⟨c, rfl, h⟩
    refine ⟨c, rfl, ?_⟩
    have := hu c (by simp)
    simp only [if_true, List.mem_map, forall_exists_index, and_imp, forall_apply_eq_imp_iff₂, ClassItem.Has] at h ⊢
    exact ⟨h.1, fun d hd e => h.2 c (this.mpr (e ▸ hd)) rfl⟩
  | cat l r ihl ihr =>
    rintro u hu ⟨x, y, rfl, h1, h2⟩
    exact ⟨x, y, rfl, ihl (fun c hc => hu c (List.mem_append_left _ hc)) h1, ihr (fun c hc => hu c (List.mem_append_right _ hc)) h2⟩
  | or l r ihl ihr => exact fun hu h => h.elim (fun h => .inl (ihl hu h)) fun h => .inr (ihr hu h)
  | star p ih => rintro u hu ⟨k, hk, h⟩; exact ⟨k, hk, rep ih hu h⟩
  | plus p ih => rintro u hu ⟨k, hk, h⟩; exact ⟨k, hk, rep ih hu h⟩
  | exact p n ih => intro u hu h; exact rep ih hu h
  | range p n m ih =>
    intro u hu h
    simp only [Pat.dotAs, Pat.atLeastOne] at h ⊢
    split at h <;> rename_i h0
    · rw [if_pos h0]; obtain ⟨k, h1, h2, h⟩ := h; exact ⟨k, h1, h2, rep ih hu h⟩
    · rw [if_neg h0]; obtain ⟨k, h1, h2, h⟩ := h; exact ⟨k, h1, h2, rep ih hu h⟩
  | capture p t ih => exact fun hu h => ih hu h
  | lit c => exact fun _ h => h
  | cls ng items => exact fun _ h => h
  | digit => exact fun _ h => h
  | space => exact fun _ h => h

/-! ### Schema texts and their ASTs -/

theorem written_lit {l : Level} {k : Nat} {w : List Nat} {p : Pat} (h : Written l k w p) : ∀ c, p = .lit c → c < 128 := by
  induction h with
  | char h =>
    intro c e
    cases e
    cases h with
    | plain h =>
      rcases h with h | h
      · unfold AlphaNum at h; omega
      · simp only [List.mem_cons, List.not_mem_nil, or_false] at h; omega
    | escaped h =>
      unfold Special at h
      simp only [List.mem_cons, List.not_mem_nil, or_false] at h; omega
    | _ => omega
  | parens _ ih => exact ih
  | ofLiteral _ ih => exact ih
  | closed _ ih => exact ih
  | ofSingle _ ih => exact ih
  | ofRepeated _ ih => exact ih
  | ofChoice _ ih => exact ih
  | _ => intro c e; cases e

theorem writtenChars_spec {k : Nat} {w cs : List Nat} (h : WrittenChars k w cs) : cs ≠ [] ∧ ∀ c ∈ cs, c < 128 := by
  induction h with
  | one h => exact ⟨by simp, fun c hc => by simp at hc; subst hc; exact written_lit h _ rfl⟩
  | snoc _ h ih =>
    refine ⟨by simp, fun c hc => ?_⟩
    rcases List.mem_append.mp hc with hc | hc
    · exact ih.2 c hc
    · simp at hc; subst hc; exact written_lit h _ rfl

/-- A character written in a schema. -/
def ClassItem.Ascii : ClassItem → Prop
  | .lit a => a < 128
  | .range lo hi => lo < 128 ∧ hi < 128
  | _ => True

/-- The characters are ASCII; a bracket expression without `^` has an item. -/
def Pat.Ascii : Pat → Prop
  | .lit c => c < 128
  | .cls ng items => (∀ i ∈ items, i.Ascii) ∧ (ng = false → items ≠ [])
  | .cat l r | .or l r => l.Ascii ∧ r.Ascii
  | .star p | .plus p | .exact p _ | .range p _ _ | .capture p _ => p.Ascii
  | _ => True

theorem written_ascii {l : Level} {k : Nat} {w : List Nat} {p : Pat} (h : Written l k w p) : p.Ascii := by
  have one : ∀ {i : ClassItem}, i.Ascii → (Pat.cls false [i]).Ascii := by
    intro i hi; exact ⟨by simpa using hi, by simp⟩
  induction h with
  | char h => exact written_lit (k := 0) (.char h) _ rfl
  | parens _ ih => exact ih
  | capture _ _ ih => exact ih
  | itemChar _ ih => exact one ih
  | itemRange _ _ ih1 ih2 => exact one ⟨ih1, ih2⟩
  | itemDigit => exact one trivial
  | itemSpace => exact one trivial
  | opened _ ih => exact ih
  | openedHat => exact ⟨by simp, by simp⟩
  | more _ _ ih1 ih2 =>
    refine ⟨fun i hi => ?_, by simp⟩
    rcases List.mem_append.mp hi with hi | hi
    · exact ih1.1 i hi
    · exact ih2.1 i hi
  | ofLiteral _ ih => exact ih
  | closed _ ih => exact ih
  | digit => trivial
  | space => trivial
  | wild => trivial
  | star _ ih => exact ih
  | plus _ ih => exact ih
  | exact _ _ ih => exact ih
  | range _ _ _ ih => exact ih
  | ofSingle _ ih => exact ih
  | ofRepeated _ ih => exact ih
  | or _ _ ih1 ih2 => exact ⟨ih1, ih2⟩
  | ofChoice _ ih => exact ih
  | cat _ _ ih1 ih2 => exact ⟨ih1, ih2⟩

/-- What every schema text satisfies. -/
structure SchemaText.Wf (s : SchemaText) : Prop where
  delims : ∀ ds ∈ s.delims, ds ≠ [] ∧ ∀ c ∈ ds, c < 128
  names : ∀ v ∈ s.vars, ∃ n, IsName n ∧ v.1 = asString n
  pats : ∀ v ∈ s.vars, v.2.Ascii

theorem writtenLine_wf {k : Nat} {ls : List Lexeme} {s : SchemaText} (h : WrittenLine k ls s) : s.Wf := by
  cases h with
  | comment _ _ => exact ⟨by simp, by simp, by simp⟩
  | var hn hp =>
    exact ⟨by simp, fun v hv => by simp at hv; subst hv; exact ⟨_, hn, rfl⟩, fun v hv => by simp at hv; subst hv; exact written_ascii hp⟩
  | delims h => exact ⟨fun ds hds => by simp at hds; subst hds; exact writtenChars_spec h, by simp, by simp⟩

theorem writtenFile_wf {k : Nat} {ls : List Lexeme} {s : SchemaText} (h : WrittenFile k ls s) : s.Wf := by
  induction h with
  | first h => exact writtenLine_wf h
  | blank _ _ ih => exact ih
  | line _ _ h ih =>
    have h2 := writtenLine_wf h
    refine ⟨fun ds hds => ?_, fun v hv => ?_, fun v hv => ?_⟩
    · rcases List.mem_append.mp hds with h | h
      · exact ih.delims ds h
      · exact h2.delims ds h
    · rcases List.mem_append.mp hv with h | h
      · exact ih.names v h
      · exact h2.names v h
    · rcases List.mem_append.mp hv with h | h
      · exact ih.pats v h
      · exact h2.pats v h

theorem nameOk_of {n : List Nat} (h : IsName n) : NameOk (asString n) := by
  unfold NameOk asString
  rw [String.toList_ofList]
  intro hm
  obtain ⟨c, hc, he⟩ := List.mem_map.mp hm
  have := h.2 c hc
  have key : ∀ c < 128, Char.ofNat c = '$' → c = 36 := by decide
  unfold AlphaNum at this
  have := key c (by omega) he
  omega

namespace SchemaText

variable {s : SchemaText} {a : SchemaAST}

theorem Builds.exists (hg : ∀ v ∈ s.vars, v.2.Sensible ∧ v.2.ClassesUsable) : ∃ a, s.Builds a := by
  obtain ⟨vars, delims⟩ := s
  suffices h : ∃ l : List SchemaVar, List.Forall₂ (fun (v : String × Pat) x => x.name = v.1 ∧ v.2.elab = some x.regex) vars l by
    obtain ⟨l, h⟩ := h; exact ⟨⟨l, delims⟩, rfl, h⟩
  simp only at hg
  induction vars with
  | nil => exact ⟨[], .nil⟩
  | cons v vs ih =>
    obtain ⟨l, h⟩ := ih fun v hv => hg v (.tail _ hv)
    obtain ⟨h1, h2⟩ := hg v (.head _)
    obtain ⟨r, hr⟩ := elab_total v.2 h1 h2
    exact ⟨⟨v.1, r⟩ :: l, .cons ⟨rfl, hr⟩ h⟩

theorem Builds.var (hb : s.Builds a) {n : String} {p : Pat} (h : (n, p) ∈ s.vars) : ∃ x ∈ a.vars, x.name = n ∧ p.elab = some x.regex := by
  obtain ⟨x, h1, h2, h3⟩ := forall₂_left hb.2 _ h
  exact ⟨x, h1, h2, h3⟩

theorem Builds.pat (hb : s.Builds a) {x : SchemaVar} (h : x ∈ a.vars) : ∃ p, (x.name, p) ∈ s.vars ∧ p.elab = some x.regex := by
  obtain ⟨⟨n, p⟩, h1, h2, h3⟩ := forall₂_right hb.2 _ h
  simp only at h2
  subst h2
  exact ⟨p, h1, h3⟩

theorem Builds.isDelim (hb : s.Builds a) (c : Nat) : a.IsDelim c ↔ c = cCharStartOfFile ∨ c ∈ s.delimiters := by
  unfold SchemaAST.IsDelim delimiters
  rw [hb.1]
  cases s.delims.getLast? <;> simp

theorem Builds.sensible (hb : s.Builds a) (hw : s.Wf) (hg : ∀ v ∈ s.vars, v.2.Sensible) : a.Sensible := by
  intro v hv
  obtain ⟨p, h1, h2⟩ := hb.pat hv
  obtain ⟨n, h3, h4⟩ := hw.names _ h1
  exact ⟨by rw [show v.name = asString n from h4]; exact nameOk_of h3, p, h2, hg _ h1⟩

theorem Wf.delimiters (hw : s.Wf) : ∀ d ∈ s.delimiters, d < 128 := by
  intro d hd
  unfold SchemaText.delimiters at hd
  cases h : s.delims.getLast? with
  | none => rw [h] at hd; cases hd
  | some ds => rw [h] at hd; exact (hw.delims ds (List.mem_of_getLast? h)).2 d hd

theorem Builds.mem_delimBytes (hb : s.Builds a) (hw : s.Wf) (c : Nat) : c ∈ a.delimBytes ↔ c = cCharStartOfFile ∨ c ∈ s.delimiters := by
  rw [LogSurgeon.mem_delimBytes, hb.isDelim]
  refine ⟨And.right, fun h => ⟨?_, h⟩⟩
  rcases h with rfl | h
  · decide
  · have := hw.delimiters c h
    show c < 256
    omega

/-! ### What the constructor accepts -/

theorem addVars_total (ds : List Nat) (vs : List SchemaVar)
    (h : ∀ v ∈ vs, v.name ≠ "timestamp" → ∀ d ∈ ds, (v.regex.removeDelims ds).possible d = false) :
    ∀ t, ∃ t', ParserTables.addVars ds vs t = .ok t' := by
  induction vs with
  | nil => exact fun t => ⟨t, rfl⟩
  | cons v vs ih =>
    intro t
    have hr := ih fun v hv => h v (.tail _ hv)
    unfold ParserTables.addVars ParserTables.addVar
    by_cases hts : v.name = "timestamp"
    · rw [if_pos hts]; exact hr _
    · have : ¬ (ds.any (v.regex.removeDelims ds).possible = true) := by
        simp only [List.any_eq_true, not_exists, not_and, Bool.not_eq_true]
        exact h v (.head _) hts
      rw [if_neg hts]
      simp only [this]
      exact hr _

theorem addAllDelimiters_total (l : List (List Nat)) (h : ∀ ds ∈ l, ds ≠ [] ∧ ∀ d ∈ ds, d < cSizeOfByte) :
    ∀ t, ∃ t', ParserTables.addAllDelimiters l t = some t' := by
  induction l with
  | nil => exact fun t => ⟨t, rfl⟩
  | cons ds l ih =>
    intro t
    obtain ⟨h1, h2⟩ := h ds (.head _)
    have : ¬ ((ds.isEmpty || ds.any fun d => decide (cSizeOfByte ≤ d)) = true) := by
      simp only [Bool.or_eq_true, List.isEmpty_iff, List.any_eq_true, decide_eq_true_eq, not_or, not_exists, not_and, Nat.not_le]
      exact ⟨h1, h2⟩
    unfold ParserTables.addAllDelimiters ParserTables.addDelimiters
    rw [if_neg this]
    exact ih (fun ds hds => h ds (.tail _ hds)) _

theorem Accepted.tables (hb : s.Builds a) (hw : s.Wf) (h : s.Accepted) : ∃ t, ParserTables.addRules a = .ok t := by
  have hd : ∀ ds ∈ a.delims, ds ≠ [] ∧ ∀ d ∈ ds, d < cSizeOfByte := by
    intro ds hds
    rw [hb.1] at hds
    exact ⟨(hw.delims ds hds).1, fun d h => Nat.lt_trans ((hw.delims ds hds).2 d h) (by decide)⟩
  obtain ⟨t0, ht0⟩ := addAllDelimiters_total a.delims hd ParserTables.init
  obtain ⟨_, _, _, a4, _, _⟩ := addAllDelimiters_spec a.delims ht0
  have hl : t0.delimList = a.delimBytes := by
    unfold ParserTables.delimList SchemaAST.delimBytes
    rw [a4]
    cases hgl : a.delims.getLast? with
    | none =>
      rw [List.getLast?_eq_none_iff, hb.1] at hgl
      exact absurd hgl h.1
    | some ds =>
      congr 1
      funext c
      simp [delimTable_eq]
  unfold ParserTables.addRules
  rw [ht0]
  simp only [hl]
  have : a.delimBytes.isEmpty = false := by simpa using delimBytes_ne a
  rw [this]
  refine addVars_total _ _ (fun v hv hts d hd => ?_) _
  obtain ⟨p, h1, h2⟩ := hb.pat hv
  rw [Bool.eq_false_iff]
  intro hp
  refine h.2 _ h1 hts d ?_ ((removed_possible (delimBytes_ne a) (delimBytes_max a) hd p h2).mp hp)
  rcases (hb.mem_delimBytes hw d).mp hd with h | h
  · exact .inr h
  · exact .inl h

theorem accepted_of_tables (hb : s.Builds a) (hw : s.Wf) {t : ParserTables} (h : ParserTables.addRules a = .ok t) : s.Accepted := by
  obtain ⟨ds, h1, _, _, _, _, _, _, _, h9⟩ := addRules_ok h
  refine ⟨?_, ?_⟩
  · intro e
    rw [hb.1, e] at h1
    cases h1
  · rintro ⟨n, p⟩ hv hts d hd hm
    obtain ⟨x, hx, hn, hp⟩ := hb.var hv
    have hd' : d ∈ a.delimBytes := (hb.mem_delimBytes hw d).mpr hd.symm
    have := h9 x hx (by rw [hn]; exact hts) d hd'
    rw [(removed_possible (delimBytes_ne a) (delimBytes_max a) hd' p hp).mpr hm] at this
    cases this

/-! ### Instances -/

/-- The text of a token as the lexer sees it. -/
def seen (text : List Nat) (start : Bool) (x e : Nat) : List Nat := (if start then [cCharStartOfFile] else []) ++ slice text x e

theorem mem_slice_mem {text : List Nat} {x e c : Nat} (h : c ∈ slice text x e) : c ∈ text :=
  List.mem_of_mem_drop (List.mem_of_mem_take h)

theorem takes_instance (hb : s.Builds a) (hw : s.Wf) {text : List Nat} (hbt : AllBytes text) (hfd : cCharStartOfFile ∉ text)
    {start : Bool} {x e : Nat} (hx : start = true → x = 0) {n : String} (h : a.Takes n (seen text start x e)) :
    s.Instance text start x e n := by
  have hfd' : ∀ {c}, c ∈ slice text x e → c ≠ cCharStartOfFile := fun hc e => hfd (e ▸ mem_slice_mem hc)
  have hdot : ∀ {u : List Nat}, (∀ c ∈ u, c ∈ slice text x e) → ∀ c ∈ u, c ∈ a.delimBytes ↔ c ∈ s.delimiters := by
    intro u hu c hc
    rw [hb.mem_delimBytes hw]
    exact ⟨fun h => h.resolve_left (hfd' (hu c hc)), .inr⟩
  have hbs : ∀ {u : List Nat}, (∀ c ∈ u, c ∈ slice text x e) → AllBytes u := fun hu c hc => hbt c (mem_slice_mem (hu c hc))
  have ts : ∀ {v : SchemaVar} {p : Pat} {u : List Nat}, v ∈ a.vars → v.name = "timestamp" → p.elab = some v.regex →
      (∀ c ∈ u, c ∈ slice text x e) → p.ReadAs [] u → ∃ q, ("timestamp", q) ∈ s.vars ∧ q.ReadAs [] u := by
    intro v p u hv hn hp hu hm
    obtain ⟨q, h1, h2⟩ := hb.pat hv
    rw [hn] at h1
    exact ⟨q, h1, readAs_same (by simp) hp h2 (hbs hu) hm⟩
  have var : ∀ {v : SchemaVar} {p : Pat} {u : List Nat}, v ∈ a.vars → p.elab = some v.regex →
      (∀ c ∈ u, c ∈ slice text x e) → p.ReadAs a.delimBytes u → ∃ q, (v.name, q) ∈ s.vars ∧ q.ReadAs s.delimiters u := by
    intro v p u hv hp hu hm
    obtain ⟨q, h1, h2⟩ := hb.pat hv
    exact ⟨q, h1, readAs_congr q (hdot hu) (readAs_same (delimBytes_max a) hp h2 (hbs hu) hm)⟩
  unfold seen at h
  generalize hwd : (if start then [cCharStartOfFile] else []) ++ slice text x e = w at h
  cases start with
  | false =>
    simp only [Bool.false_eq_true, if_false, List.nil_append] at hwd
    cases h with
    | newLine => exact .newLine hwd
    | firstTimestamp => exact absurd rfl (hfd' (by rw [hwd]; simp))
    | newLineTimestamp h1 h2 h3 h5 =>
      obtain ⟨q, h6, h7⟩ := ts h1 h2 h3 (fun c hc => by rw [hwd]; exact .tail _ hc) h5
      exact .newLineTimestamp h6 hwd h7
    | var h1 h2 h3 h5 h6 =>
      obtain ⟨q, h7, h8⟩ := var h1 h3 (fun c hc => by rw [hwd]; exact .tail _ hc) h6
      exact .var h7 h2 hwd (((hb.isDelim _).mp h5).resolve_left (hfd' (by rw [hwd]; simp))) h8
  | true =>
    obtain rfl := hx rfl
    simp only [if_true, List.singleton_append] at hwd
    cases h with
    | newLine => cases hwd
    | firstTimestamp h1 h2 h3 h5 =>
      cases hwd
      obtain ⟨q, h6, h7⟩ := ts h1 h2 h3 (fun c hc => hc) h5
      exact .firstTimestamp h6 h7
    | newLineTimestamp => cases hwd
    | var h1 h2 h3 h5 h6 =>
      cases hwd
      obtain ⟨q, h7, h8⟩ := var h1 h3 (fun c hc => hc) h6
      exact .firstVar h7 h2 h8

theorem instance_takes (hb : s.Builds a) (hw : s.Wf) {text : List Nat} (hfd : cCharStartOfFile ∉ text)
    {start : Bool} {x e : Nat} {n : String} (h : s.Instance text start x e n) : a.Takes n (seen text start x e) ∧ (start = true → x = 0) := by
  have hfd' : ∀ {x e c}, c ∈ slice text x e → c ≠ cCharStartOfFile := fun hc e => hfd (e ▸ mem_slice_mem hc)
  have hdot : ∀ {x e} {u : List Nat}, (∀ c ∈ u, c ∈ slice text x e) → ∀ c ∈ u, c ∈ s.delimiters ↔ c ∈ a.delimBytes := by
    intro x e u hu c hc
    rw [hb.mem_delimBytes hw]
    exact ⟨.inr, fun h => h.resolve_left (hfd' (hu c hc))⟩
  unfold seen
  cases h with
  | newLine h => rw [h]; exact ⟨.newLine, fun h => by cases h⟩
  | newLineTimestamp h1 h2 h3 =>
    obtain ⟨v, g1, g2, g3⟩ := hb.var h1
    rw [h2]
    exact ⟨.newLineTimestamp g1 g2 g3 h3, fun h => by cases h⟩
  | var h1 h2 h3 h4 h5 =>
    obtain ⟨v, g1, g2, g3⟩ := hb.var h1
    have h6 := readAs_congr _ (hdot (x := x) (e := e) (fun c hc => by rw [h3]; exact .tail _ hc)) h5
    rw [h3, ← g2]
    exact ⟨.var g1 (by rw [g2]; exact h2) g3 ((hb.isDelim _).mpr (.inr h4)) h6, fun h => by cases h⟩
  | firstTimestamp h1 h2 =>
    obtain ⟨v, g1, g2, g3⟩ := hb.var h1
    exact ⟨.firstTimestamp g1 g2 g3 h2, fun _ => rfl⟩
  | firstVar h1 h2 h3 =>
    obtain ⟨v, g1, g2, g3⟩ := hb.var h1
    have h6 := readAs_congr _ (hdot (x := 0) (e := e) (fun c hc => hc)) h3
    rw [← g2]
    exact ⟨.var g1 (by rw [g2]; exact h2) g3 (.inl rfl) h6, fun _ => rfl⟩

/-! ### The tokens of a text -/

theorem Longest.unique {s : SchemaText} {text start a e e'} (h : s.Longest text start a e) (h' : s.Longest text start a e') : e = e' :=
  Nat.le_antisymm (h'.2 e h.1) (h.2 e' h'.1)

theorem Pieces.unique {s : SchemaText} {text : List Nat} {p : Nat} {t t' : List Piece} (h : s.Pieces text p t) (h' : s.Pieces text p t') :
    t = t' := by
  induction h generalizing t' with
  | done =>
    cases h' with
    | done => rfl
    | rest h1 h2 => omega
    | here h1 h2 => have := h1.1.1; have := h1.1.2.1; omega
    | later h1 h2 h3 h4 => have := h3.1.1; have := h3.1.2.1; omega
  | rest h1 h2 =>
    cases h' with
    | done => omega
    | rest h3 h4 => rfl
    | here h3 h4 => exact absurd h3.1 (h2 _ _ (Nat.le_refl _) h1)
    | later h3 h4 h5 h6 =>
      exact absurd h5.1 (h2 _ _ (by omega) (by have := h5.1.1; have := h5.1.2.1; omega))
  | @here p e toks h1 h2 ih =>
    have hlt : p < text.length := by have := h1.1.1; have := h1.1.2.1; omega
    cases h' with
    | done => omega
    | rest h3 h4 => exact absurd h1.1 (h4 _ _ (Nat.le_refl _) hlt)
    | here h3 h4 => obtain rfl := h1.unique h3; rw [ih h4]
    | later h3 h4 h5 h6 => exact absurd h1.1 (h4 _ _ (Nat.le_refl _) h3)
  | @later p a e toks h1 h2 h3 h4 ih =>
    have hlt : a < text.length := by have := h3.1.1; have := h3.1.2.1; omega
    cases h' with
    | done => omega
    | rest h5 h6 => exact absurd h3.1 (h6 _ _ (by omega) hlt)
    | here h5 h6 => exact absurd h5.1 (h2 _ _ (Nat.le_refl _) h1)
    | @later _ a' _ _ h5 h6 h7 h8 =>
      have : a = a' := by
        rcases Nat.lt_trichotomy a a' with h | h | h
        · exact absurd h3.1 (h6 _ _ (by omega) h)
        · exact h
        · exact absurd h7.1 (h2 _ _ (by omega) h)
      subst this
      obtain rfl := h3.unique h7; rw [ih h8]

/-- A text and the lexer of a schema text. -/
structure Setting (s : SchemaText) (a : SchemaAST) (addr : Nat → Nat) (t : ParserTables) (L : Lexer) (text : List Nat) : Prop where
  builds : s.Builds a
  wf : s.Wf
  good : s.Good
  lexer : LexerOf a addr t L
  inj : ∀ x y, addr x = addr y → x = y
  bytes : AllBytes text
  noStart : cCharStartOfFile ∉ text

namespace Setting

variable {addr : Nat → Nat} {t : ParserTables} {L : Lexer} {text : List Nat}

theorem sens (h : Setting s a addr t L text) : ∀ v ∈ s.vars, v.2.Sensible := fun v hv => (h.good v hv).1

theorem astSens (h : Setting s a addr t L text) : a.Sensible := h.builds.sensible h.wf h.sens

theorem hasPat (h : Setting s a addr t L text) : ∀ v ∈ a.vars, ∃ p : Pat, p.elab = some v.regex := fun v hv =>
  (h.builds.pat hv).elim fun p hp => ⟨p, hp.2⟩

theorem seenBytes (h : Setting s a addr t L text) (start : Bool) (x e : Nat) : AllBytes (seen text start x e) := by
  intro c hc
  rcases List.mem_append.mp hc with hc | hc
  · cases start
    · cases hc
    · simp at hc; subst hc; decide
  · exact h.bytes c (mem_slice_mem hc)

theorem types (h : Setting s a addr t L text) {start : Bool} {x e : Nat} (hx : start = true → x = 0) (i : Nat) :
    i ∈ L.typesOn text start x e ↔ ∃ n, t.getSymbolId n = some i ∧ s.Instance text start x e n := by
  constructor
  · intro hi
    obtain ⟨n, h1, h2⟩ := h.lexer.takes_sound h.hasPat h.inj (h.seenBytes start x e) hi
    exact ⟨n, h1, takes_instance h.builds h.wf h.bytes h.noStart hx h2⟩
  · rintro ⟨n, h1, h2⟩
    obtain ⟨i', h3, h4⟩ := h.lexer.takes_complete h.inj (h.seenBytes start x e)
      (instance_takes h.builds h.wf h.noStart h2).1
    rw [h1] at h3
    cases h3
    exact h4

theorem has (h : Setting s a addr t L text) {start : Bool} {x e : Nat} (hx : start = true → x = 0) :
    L.typesOn text start x e ≠ [] ↔ ∃ n, s.Instance text start x e n := by
  constructor
  · intro hne
    obtain ⟨i, hi⟩ := List.exists_mem_of_ne_nil _ hne
    obtain ⟨n, _, h2⟩ := (h.types hx i).mp hi
    exact ⟨n, h2⟩
  · rintro ⟨n, h2⟩
    obtain ⟨i', h3, h4⟩ := h.lexer.takes_complete h.inj (h.seenBytes start x e)
      (instance_takes h.builds h.wf h.noStart h2).1
    exact List.ne_nil_of_mem ((h.types hx i').mpr ⟨n, h3, h2⟩)

theorem delim (h : Setting s a addr t L text) {c : Nat} (hc : c ∈ text) : L.isDelim c = true ↔ c ∈ s.delimiters := by
  rw [h.lexer.delim, h.builds.isDelim]
  exact ⟨fun e => e.resolve_left fun e => h.noStart (e ▸ hc), .inr⟩

theorem cand (h : Setting s a addr t L text) {start : Bool} {x e : Nat} (hx : start = true → x = 0) :
    L.Cand text start x e ↔ s.Cand text start x e := by
  unfold Lexer.Cand SchemaText.Cand
  rw [h.has hx]
  refine and_congr_right fun _ => and_congr_right fun _ => and_congr_right fun _ => or_congr_right (or_congr_left ?_)
  constructor
  · rintro ⟨c, h1, h2⟩
    exact ⟨c, (h.delim (List.mem_of_getElem? h1)).mp h2, h1⟩
  · rintro ⟨c, h1, h2⟩
    exact ⟨c, h2, (h.delim (List.mem_of_getElem? h2)).mpr h1⟩

theorem longest (h : Setting s a addr t L text) {start : Bool} {x e : Nat} (hx : start = true → x = 0) :
    L.Longest text start x e ↔ s.Longest text start x e := by
  unfold Lexer.Longest SchemaText.Longest
  simp only [h.cand hx]

theorem noneIn (h : Setting s a addr t L text) {p x : Nat} : L.NoneIn text p x ↔ s.NoneIn text p x := by
  have hc := fun x e => h.cand (start := false) (x := x) (e := e) (fun e => by cases e)
  exact ⟨fun hn x e h1 h2 hx => hn x e h1 h2 ((hc x e).mpr hx), fun hn x e h1 h2 hx => hn x e h1 h2 ((hc x e).mp hx)⟩

theorem pieces (h : Setting s a addr t L text) {p : Nat} {xs : List PTok} (hx : LexSpec L text p xs) :
    ∃ ps, s.Pieces text p ps ∧ List.Forall₂ (Piece.Is s t.getSymbolId text) ps xs := by
  have ff : ∀ {x : Nat}, false = true → x = 0 := fun e => by cases e
  induction hx with
  | done => exact ⟨_, .done, .cons ⟨rfl, rfl, rfl⟩ .nil⟩
  | rest h1 h2 => exact ⟨_, .rest h1 (h.noneIn.mp h2), .cons ⟨rfl, rfl, rfl⟩ (.cons ⟨rfl, rfl, rfl⟩ .nil)⟩
  | here h1 _ ih =>
    obtain ⟨ps, h3, h4⟩ := ih
    exact ⟨_, .here ((h.longest ff).mp h1) h3, .cons ⟨rfl, rfl, h.types ff⟩ h4⟩
  | later h1 h2 h3 _ ih =>
    obtain ⟨ps, h4, h5⟩ := ih
    exact ⟨_, .later h1 (h.noneIn.mp h2) ((h.longest ff).mp h3) h4, .cons ⟨rfl, rfl, rfl⟩ (.cons ⟨rfl, rfl, h.types ff⟩ h5)⟩

end Setting

end SchemaText

end LogSurgeon
