import Verif.Spec.Reading
import Verif.Proofs.RegexLang
import Verif.Proofs.Pattern
import Verif.Proofs.Wildcard
import Verif.Proofs.SchemaLexer
/-
The language of the NFA of a schema regex is its reading (`Spec/Reading.lean`).
-/
namespace LogSurgeon

/-- The texts of the words of a language. -/
def Lang.text (a : Lang) (s : List Nat) : Prop := ∃ w, a w ∧ bytesOf w = s

theorem text_seq {a b : Lang} {s : List Nat} : (Lang.seq a b).text s ↔ ∃ u v, s = u ++ v ∧ a.text u ∧ b.text v := by
  constructor
  · rintro ⟨w, ⟨x, y, rfl, hx, hy⟩, rfl⟩
    exact ⟨_, _, bytesOf_append x y, ⟨x, hx, rfl⟩, ⟨y, hy, rfl⟩⟩
  · rintro ⟨u, v, rfl, ⟨x, hx, rfl⟩, ⟨y, hy, rfl⟩⟩
    exact ⟨x ++ y, ⟨x, y, rfl, hx, hy⟩, bytesOf_append x y⟩

theorem text_star {b : Lang} {s : List Nat} : (Lang.Star b).text s ↔ ∃ k, Repeat b.text k s := by
  constructor
  · rintro ⟨w, hw, rfl⟩
    induction hw with
    | nil => exact ⟨0, .zero⟩
    | @cons x y hx _ ih =>
      obtain ⟨k, hk⟩ := ih
      exact ⟨k + 1, by rw [bytesOf_append]; exact .succ ⟨x, hx, rfl⟩ hk⟩
  · rintro ⟨k, hk⟩
    induction hk with
    | zero => exact ⟨[], .nil, rfl⟩
    | succ h _ ih =>
      obtain ⟨x, hx, rfl⟩ := h
      obtain ⟨y, hy, rfl⟩ := ih
      exact ⟨x ++ y, .cons hx hy, bytesOf_append x y⟩

theorem text_pow {a : Lang} : ∀ {k : Nat} {s : List Nat}, (Lang.pow a k).text s ↔ Repeat a.text k s := by
  intro k
  induction k with
  | zero =>
    intro s
    constructor
    · rintro ⟨w, rfl, rfl⟩; exact .zero
    · intro h; cases h; exact ⟨[], rfl, rfl⟩
  | succ k ih =>
    intro s
    show (Lang.seq a (Lang.pow a k)).text s ↔ _
    rw [text_seq]
    constructor
    · rintro ⟨u, v, rfl, hu, hv⟩; exact .succ hu (ih.mp hv)
    · intro h
      cases h with
      | succ h1 h2 => exact ⟨_, _, rfl, h1, ih.mpr h2⟩

theorem text_full {a b : Lang} {s : List Nat} : (a.full b).text s ↔ ∃ u v k, s = u ++ v ∧ a.text u ∧ Repeat b.text k v := by
  unfold Lang.full
  rw [text_seq]
  constructor
  · rintro ⟨u, v, rfl, h1, h2⟩
    obtain ⟨k, hk⟩ := text_star.mp h2
    exact ⟨u, v, k, rfl, h1, hk⟩
  · rintro ⟨u, v, k, rfl, h1, h2⟩
    exact ⟨u, v, rfl, h1, text_star.mpr ⟨k, h2⟩⟩

/-- The pair of languages reads as the reading, on byte strings. -/
def Says (L : Lang × Lang) (R : Reading) : Prop :=
  (∀ s, L.1.text s ↔ AllBytes s ∧ R.once s) ∧ ∀ s, L.2.text s ↔ AllBytes s ∧ R.again s

theorem allBytes_append {u v : List Nat} : AllBytes (u ++ v) ↔ AllBytes u ∧ AllBytes v := by
  unfold AllBytes
  constructor
  · intro h
    exact ⟨fun c hc => h c (List.mem_append_left _ hc), fun c hc => h c (List.mem_append_right _ hc)⟩
  · rintro ⟨h1, h2⟩ c hc
    rcases List.mem_append.mp hc with hc | hc
    · exact h1 c hc
    · exact h2 c hc

theorem repeat_bytes {P : List Nat → Prop} {k : Nat} {s : List Nat} :
    Repeat (fun s => AllBytes s ∧ P s) k s ↔ AllBytes s ∧ Repeat P k s := by
  constructor
  · intro h
    induction h with
    | zero => exact ⟨by intro c hc; simp at hc, .zero⟩
    | succ h1 _ ih => exact ⟨allBytes_append.mpr ⟨h1.1, ih.1⟩, .succ h1.2 ih.2⟩
  · rintro ⟨hb, h⟩
    induction h with
    | zero => exact .zero
    | succ h1 _ ih =>
      obtain ⟨b1, b2⟩ := allBytes_append.mp hb
      exact .succ ⟨b1, h1⟩ (ih b2)

theorem Says.whole {L : Lang × Lang} {R : Reading} (h : Says L R) (s : List Nat) : (L.1.full L.2).text s ↔ AllBytes s ∧ R.whole s := by
  rw [text_full]
  have h2 : ∀ k v, Repeat L.2.text k v ↔ AllBytes v ∧ Repeat R.again k v := fun k v => by
    rw [repeat_congr h.2, repeat_bytes]
  constructor
  · rintro ⟨u, v, k, rfl, hu, hv⟩
    obtain ⟨b1, u1⟩ := (h.1 u).mp hu
    obtain ⟨b2, v1⟩ := (h2 k v).mp hv
    exact ⟨allBytes_append.mpr ⟨b1, b2⟩, u, v, k, rfl, u1, v1⟩
  · rintro ⟨hb, u, v, k, rfl, u1, v1⟩
    obtain ⟨b1, b2⟩ := allBytes_append.mp hb
    exact ⟨u, v, k, rfl, (h.1 u).mpr ⟨b1, u1⟩, (h2 k v).mpr ⟨b2, v1⟩⟩

theorem text_none (s : List Nat) : Lang.none.text s ↔ False := ⟨fun ⟨_, h, _⟩ => h, False.elim⟩

theorem Says.wrap {L : Lang × Lang} {R : Reading} (h : Says L R) (neg : List Tag) :
    Says (wrapLang neg L) (if neg = [] then R else R.closed) := by
  unfold wrapLang
  by_cases hn : neg = []
  · subst hn; simpa using h
  · have : neg.isEmpty = false := by simpa using hn
    simp only [this, hn, if_false, Bool.false_eq_true]
    refine ⟨fun s => ?_, fun s => ?_⟩
    · show (Lang.seq _ _).text s ↔ AllBytes s ∧ R.whole s
      rw [text_seq, ← h.whole]
      constructor
      · rintro ⟨u, v, rfl, hu, w, rfl, rfl⟩
        simpa [bytesOf] using hu
      · intro hs
        exact ⟨s, [], by simp, hs, [.negTags neg], rfl, rfl⟩
    · rw [text_none]; simp [Reading.closed]

theorem Says.one {rs : List Range} {P : Nat → Prop} (h : ∀ c < cSizeOfByte, InRanges rs c ↔ P c) : Says (.bytesIn rs, .none) (.one P) := by
  refine ⟨fun s => ?_, fun s => by rw [text_none]; simp [Reading.one]⟩
  constructor
  · rintro ⟨w, ⟨c, rfl, hc, hr⟩, rfl⟩
    exact ⟨by intro d hd; simp [bytesOf] at hd; subst hd; exact hc, c, rfl, (h c hc).mp hr⟩
  · rintro ⟨hb, c, rfl, hc⟩
    have hcb : c < cSizeOfByte := hb c (by simp)
    exact ⟨[.byte c], ⟨c, rfl, hcb, (h c hcb).mpr hc⟩, rfl⟩

theorem Says.andThen {L M : Lang × Lang} {R S : Reading} (h : Says L R) (h' : Says M S) :
    Says (Lang.seq (L.1.full L.2) M.1, M.2) (R.andThen S) := by
  refine ⟨fun s => ?_, h'.2⟩
  show (Lang.seq _ _).text s ↔ _
  rw [text_seq]
  constructor
  · rintro ⟨u, v, rfl, hu, hv⟩
    obtain ⟨b1, u1⟩ := (h.whole u).mp hu
    obtain ⟨b2, v1⟩ := (h'.1 v).mp hv
    exact ⟨allBytes_append.mpr ⟨b1, b2⟩, u, v, rfl, u1, v1⟩
  · rintro ⟨hb, u, v, rfl, u1, v1⟩
    obtain ⟨b1, b2⟩ := allBytes_append.mp hb
    exact ⟨u, v, rfl, (h.whole u).mpr ⟨b1, u1⟩, (h'.1 v).mpr ⟨b2, v1⟩⟩

theorem text_union {a b : Lang} {s : List Nat} : (a.union b).text s ↔ a.text s ∨ b.text s := by
  constructor
  · rintro ⟨w, h | h, rfl⟩
    · exact .inl ⟨w, h, rfl⟩
    · exact .inr ⟨w, h, rfl⟩
  · rintro (⟨w, h, rfl⟩ | ⟨w, h, rfl⟩)
    · exact ⟨w, .inl h, rfl⟩
    · exact ⟨w, .inr h, rfl⟩

theorem Says.either {L M : Lang × Lang} {R S : Reading} (h : Says L R) (h' : Says M S) :
    Says (L.1.union M.1, L.2.union M.2) (R.either S) := by
  refine ⟨fun s => ?_, fun s => ?_⟩
  · show (Lang.union _ _).text s ↔ _
    rw [text_union, h.1, h'.1]; simp only [Reading.either]; exact and_or_left.symm
  · show (Lang.union _ _).text s ↔ _
    rw [text_union, h.2, h'.2]; simp only [Reading.either]; exact and_or_left.symm

theorem Says.repeated {L : Lang × Lang} {R : Reading} (h : Says L R) (lo hi : Nat) :
    Says (Lang.multEnter L.1 L.2 lo hi, Lang.multLoop L.1 L.2 hi) (R.repeated lo hi) := by
  have hp : ∀ k u, (Lang.pow (L.1.full L.2) k).text u ↔ AllBytes u ∧ Repeat R.whole k u := fun k u => by
    rw [text_pow, repeat_congr h.whole, repeat_bytes]
  refine ⟨fun s => ?_, fun s => ?_⟩
  · constructor
    · rintro ⟨w, ⟨h0, rfl⟩ | ⟨j, h1, h2, x, y, rfl, hx, hy⟩, rfl⟩
      · exact ⟨by intro c hc; simp [bytesOf] at hc, .inl ⟨h0, rfl⟩⟩
      · obtain ⟨b1, u1⟩ := (hp j _).mp ⟨x, hx, rfl⟩
        obtain ⟨b2, v1⟩ := (h.1 _).mp ⟨y, hy, rfl⟩
        rw [bytesOf_append]
        exact ⟨allBytes_append.mpr ⟨b1, b2⟩, .inr ⟨j, _, _, h1, h2, rfl, u1, v1⟩⟩
    · rintro ⟨hb, ⟨h0, rfl⟩ | ⟨j, u, v, h1, h2, rfl, u1, v1⟩⟩
      · exact ⟨[.eps], .inl ⟨h0, rfl⟩, rfl⟩
      · obtain ⟨b1, b2⟩ := allBytes_append.mp hb
        obtain ⟨x, hx, rfl⟩ := (hp j u).mpr ⟨b1, u1⟩
        obtain ⟨y, hy, rfl⟩ := (h.1 v).mpr ⟨b2, v1⟩
        exact ⟨x ++ y, .inr ⟨j, h1, h2, x, y, rfl, hx, hy⟩, bytesOf_append x y⟩
  · constructor
    · rintro ⟨w, hw | ⟨h0, hw⟩, rfl⟩
      · obtain ⟨b, a⟩ := (h.2 _).mp ⟨w, hw, rfl⟩
        exact ⟨b, .inl a⟩
      · obtain ⟨b, a⟩ := (h.1 _).mp ⟨w, hw, rfl⟩
        exact ⟨b, .inr ⟨h0, a⟩⟩
    · rintro ⟨b, a | ⟨h0, a⟩⟩
      · obtain ⟨w, hw, rfl⟩ := (h.2 s).mpr ⟨b, a⟩
        exact ⟨w, .inl hw, rfl⟩
      · obtain ⟨w, hw, rfl⟩ := (h.1 s).mpr ⟨b, a⟩
        exact ⟨w, .inr ⟨h0, hw⟩, rfl⟩

theorem Says.capture {L : Lang × Lang} {R : Reading} (h : Says L R) (t : Tag) :
    Says (Lang.seq (fun w => w = [.openTag t]) (Lang.seq (L.1.full L.2) (fun w => w = [.closeTag t])), .none) R.closed := by
  refine ⟨fun s => ?_, fun s => by rw [text_none]; simp [Reading.closed]⟩
  show (Lang.seq _ _).text s ↔ AllBytes s ∧ R.whole s
  rw [text_seq, ← h.whole]
  constructor
  · rintro ⟨u, v, rfl, ⟨_, rfl, rfl⟩, hv⟩
    obtain ⟨x, y, rfl, hx, _, rfl, rfl⟩ := text_seq.mp hv
    simpa [bytesOf] using hx
  · intro hs
    exact ⟨[], s, rfl, ⟨[.openTag t], rfl, rfl⟩, text_seq.mpr ⟨s, [], by simp, hs, [.closeTag t], rfl, rfl⟩⟩

theorem lang_setNegTags (r : Regex) (t : List Tag) : (r.setNegTags t).lang = r.lang := by cases r <;> rfl
theorem negTags_setNegTags (r : Regex) (t : List Tag) : (r.setNegTags t).negTags = t := by cases r <;> rfl
theorem negTags_removeDelims (ds : List Nat) (r : Regex) : (r.removeDelims ds).negTags = r.negTags := by
  cases r with
  | group n w g rs =>
    simp only [Regex.removeDelims]
    split
    · rfl
    · split <;> rfl
  | _ => rfl
theorem posTags_setNegTags (r : Regex) (t : List Tag) : (r.setNegTags t).positiveTags = r.positiveTags := by cases r <;> rfl

theorem removeDelims_nil (r : Regex) : r.removeDelims [] = r := by
  induction r with
  | group n w g rs => simp [Regex.removeDelims]
  | or n l r ihl ihr => simp [Regex.removeDelims, ihl, ihr]
  | cat n l r ihl ihr => simp [Regex.removeDelims, ihl, ihr]
  | mult n o a b ih => simp [Regex.removeDelims, ih]
  | capture n i t ih => simp [Regex.removeDelims, ih]
  | _ => rfl

theorem repetitionCount_written {n : List Nat} {k : Nat} (h : repetitionCount n = some k) : k = written n := by
  unfold repetitionCount at h
  split at h
  · cases h
  · rw [sum_digits] at h; exact (Option.some.inj h).symm

/-- `r*` and `r{0,m}` are an empty alternative and a repetition. -/
theorem Says.orEmpty {r : Regex} {R : Reading} (h : Says r.lang R) (hn : r.negTags = []) (t : List Tag) :
    Says (Regex.or [] (.empty t) r).lang R := by
  have hw : wrapLang r.negTags r.lang = r.lang := by rw [hn]; rfl
  have he : ∀ s, (wrapLang t (Lang.none, Lang.none)).1.text s ↔ False := fun s => by
    refine ⟨?_, False.elim⟩
    rintro ⟨w, hw, _⟩
    unfold wrapLang at hw
    split at hw
    · exact hw
    · obtain ⟨_, _, _, ⟨_, _, _, h, _⟩, _⟩ := hw; exact h
  have he' : ∀ s, (wrapLang t (Lang.none, Lang.none)).2.text s ↔ False := fun s => by
    refine ⟨?_, False.elim⟩
    rintro ⟨w, hw, _⟩
    unfold wrapLang at hw
    split at hw <;> exact hw
  refine ⟨fun s => ?_, fun s => ?_⟩
  · show (Lang.union _ (wrapLang r.negTags r.lang).1).text s ↔ _
    rw [text_union, hw]
    have := he s
    simp only [Regex.lang, Regex.negTags] at *
    rw [this, false_or, h.1]
  · show (Lang.union _ (wrapLang r.negTags r.lang).2).text s ↔ _
    rw [text_union, hw]
    have := he' s
    simp only [Regex.lang, Regex.negTags] at *
    rw [this, false_or, h.2]

theorem lt_unicode {c : Nat} (h : c < cSizeOfByte) : c ≤ cUnicodeMax := by
  simp only [cSizeOfByte, cUnicodeMax] at *; omega

theorem elab_says {ds : List Nat} (hds : ∀ d ∈ ds, d ≤ cUnicodeMax) (p : Pat) : ∀ {r : Regex}, p.elab = some r →
    r.negTags = [] ∧ (r.positiveTags = [] ↔ p.hasCapture = false) ∧ Says (r.removeDelims ds).lang (p.reading fun c => c ∉ ds) := by
  induction p with
  | lit a =>
    intro r h; cases h
    refine ⟨rfl, by simp [Regex.positiveTags, Pat.hasCapture], Says.one fun c _ => ?_⟩
    simp only [InRanges, List.mem_singleton, exists_eq_left]; omega
  | cls ng items =>
    intro r h
    simp only [Pat.elab, Option.map_eq_some_iff] at h
    obtain ⟨rs, h1, rfl⟩ := h
    obtain ⟨ha, hb, hc⟩ := addItems_spec items h1 (by simp)
    have hc' : ∀ c, InRanges rs c ↔ ∃ i ∈ items, i.Has c := fun c => by
      rw [hc]; simp [InRanges]
    refine ⟨rfl, by simp [Regex.positiveTags, Pat.hasCapture], ?_⟩
    cases ng with
    | false =>
      refine Says.one fun c hcb => ?_
      rw [inRanges_groupRanges _ _ _ (lt_unicode hcb) (by simp)]
      simp [ClassMatches, hc']
    | true =>
      refine Says.one fun c hcb => ?_
      by_cases he : items = []
      · subst he
        have : rs = [] := by simp [addItems] at h1; exact h1
        subst this
        simp [groupRanges, sortRanges, merge, complement, complementLoop, InRanges]
      · have hne : rs ≠ [] := by
          intro hr; subst hr
          simp at hb
          exact he (List.length_eq_zero_iff.mp hb.symm)
        rw [inRanges_groupRanges _ _ _ (lt_unicode hcb) (fun _ => ⟨hne, ha⟩)]
        simp only [ClassMatches, if_true, hc', not_exists, not_and]
        constructor
        · rintro ⟨_, h⟩; exact ⟨he, h⟩
        · rintro ⟨_, h⟩; exact ⟨lt_unicode hcb, h⟩
  | digit =>
    intro r h; cases h
    refine ⟨rfl, by simp [Regex.positiveTags, Pat.hasCapture], Says.one fun c hcb => ?_⟩
    rw [inRanges_groupRanges _ _ _ (lt_unicode hcb) (by simp)]
    simp [ClassMatches, InRanges]
  | wild =>
    intro r h; cases h
    refine ⟨rfl, by simp [Regex.positiveTags, Pat.hasCapture], ?_⟩
    by_cases hne : ds = []
    · subst hne
      refine Says.one fun c hcb => ?_
      rw [inRanges_groupRanges _ _ _ (lt_unicode hcb) (by simp)]
      have := lt_unicode hcb
      simp [ClassMatches, InRanges, this]
    · have : ds.isEmpty = false := by simpa using hne
      simp only [Regex.removeDelims, Bool.not_true, Bool.false_eq_true, if_false, this]
      refine Says.one fun c hcb => ?_
      rw [inRanges_groupRanges _ _ _ (lt_unicode hcb) (by simp)]
      have hu := lt_unicode hcb
      simp [ClassMatches, wildcardRanges_spec hne hds, hu]
  | space =>
    intro r h; cases h
    refine ⟨rfl, by simp [Regex.positiveTags, Pat.hasCapture], Says.one fun c hcb => ?_⟩
    rw [inRanges_groupRanges _ _ _ (lt_unicode hcb) (by simp)]
    simp only [ClassMatches, InRanges, Bool.false_eq_true, if_false, List.mem_cons, List.not_mem_nil, or_false, exists_eq_or_imp, exists_eq_left]
    omega
  | cat l r ihl ihr =>
    intro x h
    simp only [Pat.elab, Option.bind_eq_some_iff, Option.map_eq_some_iff] at h
    obtain ⟨a, ha, b, hb, rfl⟩ := h
    obtain ⟨a1, a2, a3⟩ := ihl ha
    obtain ⟨b1, b2, b3⟩ := ihr hb
    refine ⟨rfl, by simp [Regex.mkCat, Regex.positiveTags, Pat.hasCapture, a2, b2], ?_⟩
    have a4 := a3.wrap (a.removeDelims ds).negTags
    have b4 := b3.wrap (b.removeDelims ds).negTags
    rw [negTags_removeDelims, a1, if_pos rfl] at a4
    rw [negTags_removeDelims, b1, if_pos rfl] at b4
    have := a4.andThen b4
    simp only [Regex.mkCat, Regex.removeDelims, Regex.lang, negTags_removeDelims, a1, b1]
    exact this
  | or l r ihl ihr =>
    intro x h
    simp only [Pat.elab, Option.bind_eq_some_iff, Option.map_eq_some_iff] at h
    obtain ⟨a, ha, b, hb, rfl⟩ := h
    obtain ⟨a1, a2, a3⟩ := ihl ha
    obtain ⟨b1, b2, b3⟩ := ihr hb
    refine ⟨rfl, by simp [Regex.mkOr, Regex.positiveTags, posTags_setNegTags, Pat.hasCapture, a2, b2], ?_⟩
    have a4 := a3.wrap b.positiveTags
    have b4 := b3.wrap a.positiveTags
    have := a4.either b4
    simp only [Regex.mkOr, Regex.removeDelims, Regex.lang, removeDelims_setNegTags, negTags_setNegTags, lang_setNegTags]
    have e1 : (if b.positiveTags = [] then l.reading (fun c => c ∉ ds) else (l.reading fun c => c ∉ ds).closed) =
        if r.hasCapture then (l.reading fun c => c ∉ ds).closed else l.reading fun c => c ∉ ds := by
      by_cases hx : b.positiveTags = []
      · rw [if_pos hx, b2.mp hx]; rfl
      · have : r.hasCapture = true := by
          cases hh : r.hasCapture with
          | true => rfl
          | false => exact absurd (b2.mpr hh) hx
        rw [if_neg hx, this, if_pos rfl]
    have e2 : (if a.positiveTags = [] then r.reading (fun c => c ∉ ds) else (r.reading fun c => c ∉ ds).closed) =
        if l.hasCapture then (r.reading fun c => c ∉ ds).closed else r.reading fun c => c ∉ ds := by
      by_cases hx : a.positiveTags = []
      · rw [if_pos hx, a2.mp hx]; rfl
      · have : l.hasCapture = true := by
          cases hh : l.hasCapture with
          | true => rfl
          | false => exact absurd (a2.mpr hh) hx
        rw [if_neg hx, this, if_pos rfl]
    rw [e1, e2] at this
    exact this
  | star p ih =>
    intro x h
    simp only [Pat.elab, Option.map_eq_some_iff] at h
    obtain ⟨a, ha, rfl⟩ := h
    obtain ⟨a1, a2, a3⟩ := ih ha
    refine ⟨rfl, by simp [starRule, Regex.mkOr, Regex.mkEmpty, Regex.mkMult, Regex.positiveTags, posTags_setNegTags, Regex.setNegTags, Pat.hasCapture, a2], ?_⟩
    have a4 := a3.wrap (a.removeDelims ds).negTags
    rw [negTags_removeDelims, a1, if_pos rfl] at a4
    refine Says.orEmpty ?_ rfl _
    have := a4.repeated 1 0
    simp only [Regex.mkMult, Regex.setNegTags, Regex.removeDelims, Regex.lang, negTags_removeDelims, a1]
    exact this
  | plus p ih =>
    intro x h
    simp only [Pat.elab, Option.map_eq_some_iff] at h
    obtain ⟨a, ha, rfl⟩ := h
    obtain ⟨a1, a2, a3⟩ := ih ha
    refine ⟨rfl, by simp [plusRule, Regex.mkMult, Regex.positiveTags, Pat.hasCapture, a2], ?_⟩
    have a4 := a3.wrap (a.removeDelims ds).negTags
    rw [negTags_removeDelims, a1, if_pos rfl] at a4
    have := a4.repeated 1 0
    simp only [plusRule, Regex.mkMult, Regex.removeDelims, Regex.lang, negTags_removeDelims, a1]
    exact this
  | exact p n ih =>
    intro x h
    simp only [Pat.elab, Option.bind_eq_some_iff, Option.map_eq_some_iff] at h
    obtain ⟨a, ha, k, hk, rfl⟩ := h
    have := repetitionCount_written hk
    subst this
    obtain ⟨a1, a2, a3⟩ := ih ha
    refine ⟨rfl, by simp [exactRule, Regex.mkMult, Regex.positiveTags, Pat.hasCapture, a2], ?_⟩
    have a4 := a3.wrap (a.removeDelims ds).negTags
    rw [negTags_removeDelims, a1, if_pos rfl] at a4
    have := a4.repeated (written n) (written n)
    simp only [exactRule, Regex.mkMult, Regex.removeDelims, Regex.lang, negTags_removeDelims, a1]
    exact this
  | range p n m ih =>
    intro x h
    simp only [Pat.elab, Option.bind_eq_some_iff, Option.map_eq_some_iff] at h
    obtain ⟨a, ha, k, hk, j, hj, rfl⟩ := h
    have := repetitionCount_written hk
    subst this
    have := repetitionCount_written hj
    subst this
    obtain ⟨a1, a2, a3⟩ := ih ha
    have a4 := a3.wrap (a.removeDelims ds).negTags
    rw [negTags_removeDelims, a1, if_pos rfl] at a4
    have a5 := a4.repeated (max 1 (written n)) (written m)
    by_cases h0 : written n = 0
    · simp only [rangeRule, h0, if_true]
      refine ⟨rfl, by simp [Regex.mkOr, Regex.mkEmpty, Regex.mkMult, Regex.positiveTags, posTags_setNegTags, Regex.setNegTags, Pat.hasCapture, a2], ?_⟩
      refine Says.orEmpty ?_ rfl _
      rw [h0] at a5
      simp only [Regex.mkMult, Regex.setNegTags, Regex.removeDelims, Regex.lang, negTags_removeDelims, a1, Pat.reading, h0]
      exact a5
    · simp only [rangeRule, h0, if_false]
      refine ⟨rfl, by simp [Regex.mkMult, Regex.positiveTags, Pat.hasCapture, a2], ?_⟩
      have hmax : max 1 (written n) = written n := by omega
      rw [hmax] at a5
      simp only [Regex.mkMult, Regex.removeDelims, Regex.lang, negTags_removeDelims, a1, Pat.reading, hmax]
      exact a5
  | capture p t ih =>
    intro x h
    simp only [Pat.elab, Option.map_eq_some_iff] at h
    obtain ⟨a, ha, rfl⟩ := h
    obtain ⟨a1, a2, a3⟩ := ih ha
    refine ⟨rfl, by simp [Regex.mkCapture, Regex.positiveTags, Pat.hasCapture], ?_⟩
    have a4 := a3.wrap (a.removeDelims ds).negTags
    rw [negTags_removeDelims, a1, if_pos rfl] at a4
    have := a4.capture t
    simp only [Regex.mkCapture, Regex.removeDelims, Regex.lang, negTags_removeDelims, a1]
    exact this

/-- The texts of the words of a rule. -/
theorem rule_reading {ds : List Nat} (hds : ∀ d ∈ ds, d ≤ cUnicodeMax) {p : Pat} {r : Regex} (h : p.elab = some r) (s : List Nat) :
    (ruleLang (r.removeDelims ds)).text s ↔ AllBytes s ∧ p.ReadAs ds s := by
  obtain ⟨a1, _, a3⟩ := elab_says hds p h
  have a4 := a3.wrap (r.removeDelims ds).negTags
  rw [negTags_removeDelims, a1, if_pos rfl] at a4
  have := a4.whole s
  unfold ruleLang
  rw [negTags_removeDelims, a1]
  exact this

theorem rule_reading_plain {p : Pat} {r : Regex} (h : p.elab = some r) (s : List Nat) :
    (ruleLang r).text s ↔ AllBytes s ∧ p.ReadAs [] s := by
  have := rule_reading (ds := []) (by simp) h s
  rwa [removeDelims_nil] at this

theorem kind_takes {s : SchemaAST} (hs : ∀ v ∈ s.vars, ∃ p : Pat, p.elab = some v.regex) {n : String} {re : Regex} (hk : RuleKind s n re)
    {w : List Nat} (h : (ruleLang re).text w) : s.Takes n w := by
  cases hk with
  | newLine =>
    obtain ⟨x, ⟨y, z, rfl, ⟨c, rfl, _, r, hr, h1, h2⟩, hz⟩, rfl⟩ := h
    have := Lang.star_none hz
    subst this
    simp only [List.mem_singleton] at hr
    subst hr
    have : c = newline := by simp only at h1 h2; omega
    subst this
    exact .newLine
  | @first v hv hts =>
    obtain ⟨p, hp⟩ := hs _ hv
    obtain ⟨x, ⟨y, z, rfl, ⟨a, b, rfl, ha, hb⟩, hz⟩, rfl⟩ := h
    have hl : (ruleLang (.literal [] cCharStartOfFile)) a := ha
    obtain ⟨a1, a2, rfl, ⟨c, rfl, _, r, hr, h1, h2⟩, ha2⟩ := hl
    have := Lang.star_none ha2
    subst this
    simp only [List.mem_singleton] at hr
    subst hr
    have : c = cCharStartOfFile := by simp only at h1 h2; omega
    subst this
    have := ((rule_reading_plain hp _).mp ⟨b ++ z, ⟨b, z, rfl, hb, hz⟩, rfl⟩).2
    simpa [bytesOf, bytesOf_append] using SchemaAST.Takes.firstTimestamp hv hts hp this
  | @newLineTs v hv hts =>
    obtain ⟨p, hp⟩ := hs _ hv
    obtain ⟨x, ⟨y, z, rfl, ⟨a, b, rfl, ha, hb⟩, hz⟩, rfl⟩ := h
    have hl : (ruleLang (.literal [] newline)) a := ha
    obtain ⟨a1, a2, rfl, ⟨c, rfl, _, r, hr, h1, h2⟩, ha2⟩ := hl
    have := Lang.star_none ha2
    subst this
    simp only [List.mem_singleton] at hr
    subst hr
    have : c = newline := by simp only at h1 h2; omega
    subst this
    have := ((rule_reading_plain hp _).mp ⟨b ++ z, ⟨b, z, rfl, hb, hz⟩, rfl⟩).2
    simpa [bytesOf, bytesOf_append] using SchemaAST.Takes.newLineTimestamp hv hts hp this
  | @var v hv hts =>
    obtain ⟨p, hp⟩ := hs _ hv
    obtain ⟨x, ⟨y, z, rfl, ⟨a, b, rfl, ha, hb⟩, hz⟩, rfl⟩ := h
    have hl : (ruleLang (.group [] false false (s.delimBytes.map fun d => (d, d)))) a := ha
    obtain ⟨a1, a2, rfl, ⟨c, rfl, hc, hr⟩, ha2⟩ := hl
    have := Lang.star_none ha2
    subst this
    have hd := (mem_delimBytes.mp (inRanges_singletons.mp
      ((inRanges_groupRanges false _ c (lt_unicode hc) (by simp)).mp hr))).2
    have := ((rule_reading (delimBytes_max s) hp _).mp ⟨b ++ z, ⟨b, z, rfl, hb, hz⟩, rfl⟩).2
    simpa [bytesOf, bytesOf_append] using SchemaAST.Takes.var hv hts hp hd this

theorem takes_kind {s : SchemaAST} {n : String} {w : List Nat} (hb : AllBytes w) (h : s.Takes n w) :
    ∃ re, RuleKind s n re ∧ (ruleLang re).text w := by
  have lit : ∀ {c : Nat} {r : Regex} {u : List Nat}, c < cSizeOfByte → (ruleLang r).text u → (ruleLang (.cat [] (.literal [] c) r)).text (c :: u) := by
    rintro c r _ hc ⟨x, ⟨b, z, rfl, hb, hz⟩, rfl⟩
    refine ⟨[.byte c] ++ (b ++ z), ⟨[.byte c] ++ b, z, by simp, ⟨[.byte c], b, rfl, ⟨[.byte c], [], by simp, ?_, .nil⟩, hb⟩, hz⟩, by simp [bytesOf]⟩
    exact ⟨c, rfl, hc, (c, c), by simp, Nat.le_refl _, Nat.le_refl _⟩
  have tail : ∀ {c : Nat} {u : List Nat}, AllBytes (c :: u) → AllBytes u := fun h d hd => h d (.tail _ hd)
  cases h with
  | newLine =>
    exact ⟨_, .newLine, [.byte newline], ⟨[.byte newline], [], by simp, ⟨newline, rfl, by decide, (newline, newline), by simp, by simp⟩, .nil⟩, rfl⟩
  | firstTimestamp hv hts hp hu =>
    exact ⟨_, .first hv hts, lit (by decide) ((rule_reading_plain hp _).mpr ⟨tail hb, hu⟩)⟩
  | newLineTimestamp hv hts hp hu =>
    exact ⟨_, .newLineTs hv hts, lit (by decide) ((rule_reading_plain hp _).mpr ⟨tail hb, hu⟩)⟩
  | @var v p d u hv hts hp hd hu =>
    refine ⟨_, .var hv hts, ?_⟩
    obtain ⟨x, ⟨b, z, rfl, hb', hz⟩, hxe⟩ := (rule_reading (delimBytes_max s) hp _).mpr ⟨tail hb, hu⟩
    have hd' : d < cSizeOfByte := hb d (.head _)
    refine ⟨[.byte d] ++ (b ++ z), ⟨[.byte d] ++ b, z, by simp, ⟨[.byte d], b, rfl, ⟨[.byte d], [], by simp, ?_, .nil⟩, hb'⟩, hz⟩, by simp [bytesOf, hxe]⟩
    exact ⟨d, rfl, hd', (inRanges_groupRanges false _ d (lt_unicode hd') (by simp)).mpr
      (inRanges_singletons.mpr (mem_delimBytes.mpr ⟨hd', hd⟩))⟩

theorem LexerOf.takes_sound {s addr t L} (h : LexerOf s addr t L) (hs : ∀ v ∈ s.vars, ∃ p : Pat, p.elab = some v.regex)
    (hinj : ∀ a b, addr a = addr b → a = b) {id : Nat} {w : List Nat} (hb : AllBytes w) (hg : id ∈ L.dfa.idsOn w) :
    ∃ n, t.getSymbolId n = some id ∧ s.Takes n w := by
  obtain ⟨m, hm, _, h3⟩ := h.nfa hinj
  obtain ⟨r, hr, ha, rfl⟩ := (h3 w id hb).mp hg
  obtain ⟨n, hk, hn⟩ := h.kind r hr
  exact ⟨n, hn, kind_takes hs hk ((acceptsAlone_iff hm hr w).mp ha)⟩

theorem LexerOf.takes_complete {s addr t L} (h : LexerOf s addr t L)
    (hinj : ∀ a b, addr a = addr b → a = b) {n : String} {w : List Nat} (hb : AllBytes w) (hg : s.Takes n w) :
    ∃ id, t.getSymbolId n = some id ∧ id ∈ L.dfa.idsOn w := by
  obtain ⟨m, hm, _, h3⟩ := h.nfa hinj
  obtain ⟨re, hk, ht⟩ := takes_kind hb hg
  obtain ⟨r, hr, hre, hn⟩ := h.rule hk
  exact ⟨r.id, hn, (h3 w _ hb).mpr ⟨r, hr, (acceptsAlone_iff hm hr w).mpr (by rw [hre]; exact ht), rfl⟩⟩

/-- Two patterns with the same AST are read alike. -/
theorem readAs_same {ds : List Nat} (hds : ∀ d ∈ ds, d ≤ cUnicodeMax) {p q : Pat} {r : Regex} (hp : p.elab = some r) (hq : q.elab = some r)
    {u : List Nat} (hb : AllBytes u) (h : p.ReadAs ds u) : q.ReadAs ds u :=
  ((rule_reading hds hq u).mp ((rule_reading hds hp u).mpr ⟨hb, h⟩)).2

/-- Only the characters of the text matter. -/
theorem reading_congr {P Q : Nat → Prop} (p : Pat) : ∀ {u : List Nat}, (∀ c ∈ u, P c → Q c) →
    ((p.reading P).once u → (p.reading Q).once u) ∧ ((p.reading P).again u → (p.reading Q).again u) := by
  have rep : ∀ {A B : List Nat → Prop} {k : Nat} {u : List Nat}, (∀ {v : List Nat}, (∀ c ∈ v, P c → Q c) → A v → B v) →
      (∀ c ∈ u, P c → Q c) → Repeat A k u → Repeat B k u := by
    intro A B k u ih hu h
    induction h with
    | zero => exact .zero
    | succ h _ ih2 =>
      exact .succ (ih (fun c hc => hu c (List.mem_append_left _ hc)) h) (ih2 fun c hc => hu c (List.mem_append_right _ hc))
  have whole : ∀ {R S : Reading}, (∀ {u : List Nat}, (∀ c ∈ u, P c → Q c) → (R.once u → S.once u) ∧ (R.again u → S.again u)) →
      ∀ {u : List Nat}, (∀ c ∈ u, P c → Q c) → R.whole u → S.whole u := by
    rintro R S h _ hu ⟨x, y, k, rfl, h1, h2⟩
    exact ⟨x, y, k, rfl, (h fun c hc => hu c (List.mem_append_left _ hc)).1 h1,
      rep (fun hv => (h hv).2) (fun c hc => hu c (List.mem_append_right _ hc)) h2⟩
  have closed : ∀ {R S : Reading}, (∀ {u : List Nat}, (∀ c ∈ u, P c → Q c) → (R.once u → S.once u) ∧ (R.again u → S.again u)) →
      ∀ {u : List Nat}, (∀ c ∈ u, P c → Q c) → (R.closed.once u → S.closed.once u) ∧ (R.closed.again u → S.closed.again u) :=
    fun h _ hu => ⟨whole h hu, id⟩
  have repeated : ∀ {R S : Reading} (lo hi : Nat), (∀ {u : List Nat}, (∀ c ∈ u, P c → Q c) → (R.once u → S.once u) ∧ (R.again u → S.again u)) →
      ∀ {u : List Nat}, (∀ c ∈ u, P c → Q c) →
        ((R.repeated lo hi).once u → (S.repeated lo hi).once u) ∧ ((R.repeated lo hi).again u → (S.repeated lo hi).again u) := by
    intro R S lo hi h u hu
    refine ⟨?_, ?_⟩
    · rintro (h0 | ⟨k, x, y, h1, h2, rfl, h3, h4⟩)
      · exact .inl h0
      · exact .inr ⟨k, x, y, h1, h2, rfl, rep (whole h) (fun c hc => hu c (List.mem_append_left _ hc)) h3,
          (h fun c hc => hu c (List.mem_append_right _ hc)).1 h4⟩
    · rintro (h0 | ⟨h1, h2⟩)
      · exact .inl ((h hu).2 h0)
      · exact .inr ⟨h1, (h hu).1 h2⟩
  induction p with
  | lit a => exact fun _ => ⟨id, id⟩
  | cls ng items => intro u _; cases ng <;> exact ⟨id, id⟩
  | digit => exact fun _ => ⟨id, id⟩
  | space => exact fun _ => ⟨id, id⟩
  | wild =>
    intro u hu
    refine ⟨?_, id⟩
    rintro ⟨c, rfl, h⟩
    exact ⟨c, rfl, hu c (by simp) h⟩
  | cat l r ihl ihr =>
    intro u hu
    refine ⟨?_, (ihr hu).2⟩
    rintro ⟨x, y, rfl, h1, h2⟩
    exact ⟨x, y, rfl, whole ihl (fun c hc => hu c (List.mem_append_left _ hc)) h1, (ihr fun c hc => hu c (List.mem_append_right _ hc)).1 h2⟩
  | or l r ihl ihr =>
    intro u hu
    have e1 : ∀ {u : List Nat}, (∀ c ∈ u, P c → Q c) →
        ((if r.hasCapture then (l.reading P).closed else l.reading P).once u → (if r.hasCapture then (l.reading Q).closed else l.reading Q).once u) ∧
        ((if r.hasCapture then (l.reading P).closed else l.reading P).again u → (if r.hasCapture then (l.reading Q).closed else l.reading Q).again u) := by
      intro u hu
      split
      · exact closed ihl hu
      · exact ihl hu
    have e2 : ∀ {u : List Nat}, (∀ c ∈ u, P c → Q c) →
        ((if l.hasCapture then (r.reading P).closed else r.reading P).once u → (if l.hasCapture then (r.reading Q).closed else r.reading Q).once u) ∧
        ((if l.hasCapture then (r.reading P).closed else r.reading P).again u → (if l.hasCapture then (r.reading Q).closed else r.reading Q).again u) := by
      intro u hu
      split
      · exact closed ihr hu
      · exact ihr hu
    exact ⟨fun h => h.elim (fun h => .inl ((e1 hu).1 h)) fun h => .inr ((e2 hu).1 h),
      fun h => h.elim (fun h => .inl ((e1 hu).2 h)) fun h => .inr ((e2 hu).2 h)⟩
  | star p ih => exact repeated 1 0 ih
  | plus p ih => exact repeated 1 0 ih
  | exact p n ih => exact repeated _ _ ih
  | range p n m ih => exact repeated _ _ ih
  | capture p t ih => exact closed ih

theorem readAs_congr {ds es : List Nat} (p : Pat) {u : List Nat} (hu : ∀ c ∈ u, c ∈ ds ↔ c ∈ es) (h : p.ReadAs ds u) : p.ReadAs es u := by
  obtain ⟨x, y, k, rfl, h1, h2⟩ := h
  have hx : ∀ c ∈ x, c ∉ ds → c ∉ es := fun c hc hn he => hn ((hu c (List.mem_append_left _ hc)).mpr he)
  have hy : ∀ c ∈ y, c ∉ ds → c ∉ es := fun c hc hn he => hn ((hu c (List.mem_append_right _ hc)).mpr he)
  refine ⟨x, y, k, rfl, (reading_congr p hx).1 h1, ?_⟩
  clear hu hx h1
  induction h2 with
  | zero => exact .zero
  | succ h _ ih =>
    exact .succ ((reading_congr p fun c hc => hy c (List.mem_append_left _ hc)).2 h) (ih fun c hc => hy c (List.mem_append_right _ hc))

/-! ### The textbook meaning -/

theorem readAs_textbook {p : Pat} {r : Regex} (hp : p.elab = some r) (hs : p.Sensible) (hl : r.LoopSafe) {u : List Nat} (hb : AllBytes u) :
    p.ReadAs [] u ↔ p.atLeastOne.Matches u := by
  obtain ⟨h1, h2, _, _, _, h6⟩ := elab_spec p hp hs
  constructor
  · intro h
    obtain ⟨w, hw, rfl⟩ := (rule_reading_plain hp u).mpr ⟨hb, h⟩
    exact (h6 _).mp (lang_sound r hl h1 h2 w hw)
  · intro h
    obtain ⟨w, hw, hbw⟩ := lang_complete r h2 u hb ((h6 u).mpr h)
    exact ((rule_reading_plain hp u).mp ⟨w, hw, hbw⟩).2

theorem readAs_textbook_dot {ds : List Nat} (hne : ds ≠ []) (hds : ∀ d ∈ ds, d ≤ cUnicodeMax) {p : Pat} {r : Regex} (hp : p.elab = some r)
    (hs : p.Sensible) (hl : r.LoopSafe) {u : List Nat} (hb : AllBytes u) : p.ReadAs ds u ↔ (p.dotAs ds).atLeastOne.Matches u := by
  obtain ⟨h1, h2, _, _, _, _⟩ := elab_spec p hp hs
  obtain ⟨a1, r2, a3, a4⟩ := removeDelims_spec hne hds p hp hs
  have h6 := (elab_spec _ a3 a1).2.2.2.2.2
  have c := removeDelims_classesOk ds r (elab_shape p hp hs).1 h2
  constructor
  · intro h
    obtain ⟨w, hw, rfl⟩ := (rule_reading hds hp u).mpr ⟨hb, h⟩
    exact (h6 _).mp ((a4 _ _).mp (lang_sound _ (removeDelims_loopSafe ds r hl) (removeDelims_boundsOk ds r h1) c w hw))
  · intro h
    obtain ⟨w, hw, hbw⟩ := lang_complete _ c u hb ((a4 _ _).mpr ((h6 u).mpr h))
    exact ((rule_reading hds hp u).mp ⟨w, hw, hbw⟩).2

end LogSurgeon
