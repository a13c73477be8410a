import Verif.Proofs.NfaLang
import Verif.Proofs.Ranges
/- From label languages to the textbook meaning of the regex. -/
namespace LogSurgeon

theorem bytesOf_negTags (ts : List Tag) : bytesOf [.negTags ts] = [] := rfl

/-! #### Completeness -/

theorem full_wrap_of_full {r : Regex} {w} (h : (r.lang.1.full r.lang.2) w) :
    ∃ w', ruleLang r w' ∧ bytesOf w' = bytesOf w := by
  unfold ruleLang wrapLang
  by_cases hn : r.negTags.isEmpty
  · exact ⟨w, by simpa [hn] using h, rfl⟩
  · refine ⟨w ++ [.negTags r.negTags], ?_, by simp [bytesOf_append, bytesOf_negTags]⟩
    simp only [hn]
    exact ⟨_, [], by simp, ⟨w, _, rfl, h, rfl⟩, .nil⟩

theorem bytesIn_iff {rs : List Range} {w} :
    Lang.bytesIn rs w ↔ ∃ c, w = [.byte c] ∧ c < cSizeOfByte ∧ InRanges rs c := Iff.rfl

theorem full_of_fst {a b : Lang} {w} (h : a w) : (a.full b) w := ⟨w, [], by simp, h, .nil⟩

/-- A word of `F^k` (`F` a full copy), `k ≥ 1`: `F^(k-1) · a · b*`. -/
theorem pow_full_split {a b : Lang} {k w} (h : Lang.pow (a.full b) (k + 1) w) :
    ∃ x y, w = x ++ y ∧ Lang.seq (Lang.pow (a.full b) k) a x ∧ Lang.Star b y := by
  obtain ⟨x, y, rfl, h1, u, v, rfl, hu, hv⟩ := Lang.pow_succ_inv h
  exact ⟨x ++ u, v, by simp, ⟨x, u, rfl, h1, hu⟩, hv⟩

theorem pow_add_split {a : Lang} : ∀ (j k : Nat) {w}, Lang.pow a (j + k) w →
    ∃ x y, w = x ++ y ∧ Lang.pow a j x ∧ Lang.pow a k y := by
  intro j
  induction j with
  | zero => intro k w h; exact ⟨[], w, rfl, rfl, by simpa using h⟩
  | succ j ih =>
    intro k w h
    rw [Nat.add_right_comm] at h
    obtain ⟨x, y, rfl, h1, h2⟩ := h
    obtain ⟨u, v, rfl, h3, h4⟩ := ih k h2
    exact ⟨x ++ u, v, by simp, ⟨x, u, rfl, h1, h3⟩, h4⟩

theorem star_union_of_pow {a b : Lang} : ∀ (k : Nat) {w}, Lang.pow (a.full b) k w →
    Lang.Star (Lang.multLoop a b 0) w := by
  intro k
  induction k with
  | zero => intro w h; cases h; exact .nil
  | succ k ih =>
    rintro w ⟨x, y, rfl, ⟨u, v, rfl, hu, hv⟩, hy⟩
    have h1 : Lang.Star (Lang.multLoop a b 0) u := .single (.inr ⟨rfl, hu⟩)
    have h2 : Lang.Star (Lang.multLoop a b 0) v := hv.mono fun _ h => .inl h
    exact (h1.append h2).append (ih hy)

/-- `k` copies are recognised by a repetition when `k` is within bounds. -/
theorem mult_full_of_pow {a b : Lang} {mn mx k : Nat} {w} (hk : mn ≤ k) (hk' : mx = 0 ∨ k ≤ mx)
    (h : Lang.pow (a.full b) k w) :
    ∃ w', ((Lang.multEnter a b mn mx).full (Lang.multLoop a b mx)) w' ∧ bytesOf w' = bytesOf w := by
  by_cases hm : mx = 0
  · subst hm
    by_cases hn : mn = 0
    · subst hn
      exact ⟨[.eps] ++ w, ⟨[.eps], w, rfl, .inl ⟨rfl, rfl⟩, star_union_of_pow k h⟩, rfl⟩
    · obtain ⟨j, rfl⟩ : ∃ j, k = (mn - 1 + 1) + j := ⟨k - mn, by omega⟩
      obtain ⟨x, y, rfl, hx, hy⟩ := pow_add_split _ _ h
      obtain ⟨u, v, rfl, hu, hv⟩ := pow_full_split hx
      refine ⟨_, ⟨u, v ++ y, by simp, .inr ⟨mn - 1, by omega, by omega, hu⟩, ?_⟩, rfl⟩
      exact (hv.mono fun _ h => .inl h).append (star_union_of_pow _ hy)
  · rcases hk' with h' | hk'
    · exact absurd h' hm
    · cases k with
      | zero =>
        have : mn = 0 := by omega
        subst this; cases h
        exact ⟨[.eps], full_of_fst (.inl ⟨rfl, rfl⟩), rfl⟩
      | succ k =>
        obtain ⟨u, v, rfl, hu, hv⟩ := pow_full_split h
        exact ⟨_, ⟨u, v, rfl, .inr ⟨k, hk, .inr hk', hu⟩, hv.mono fun _ h => .inl h⟩, rfl⟩

theorem repeat_pow {P : List Nat → Prop} {F : Lang}
    (hP : ∀ s, AllBytes s → P s → ∃ w, F w ∧ bytesOf w = s) {k s} (h : Repeat P k s) (hs : AllBytes s) :
    ∃ w, Lang.pow F k w ∧ bytesOf w = s := by
  induction h with
  | zero => exact ⟨[], rfl, rfl⟩
  | succ h1 _ ih =>
    obtain ⟨x, hx, rfl⟩ := hP _ (fun c hc => hs c (List.mem_append_left _ hc)) h1
    obtain ⟨y, hy, rfl⟩ := ih (fun c hc => hs c (List.mem_append_right _ hc))
    exact ⟨x ++ y, ⟨x, y, rfl, hx, hy⟩, bytesOf_append _ _⟩

/-- Every byte string matched by an expression without empty alternatives is recognised. -/
theorem lang_complete (r : Regex) : r.ClassesOk → ∀ s, AllBytes s → MatchesWith False r s →
    ∃ w, ruleLang r w ∧ bytesOf w = s := by
  induction r with
  | empty n => intro _ s _ hm; exact hm.1.elim
  | literal n c =>
    intro _ s hs hm
    simp only [MatchesWith] at hm; subst hm
    obtain ⟨w, h1, h2⟩ := full_wrap_of_full (r := .literal n c) (w := [.byte c])
      (full_of_fst ⟨c, rfl, hs c (by simp), (c, c), by simp, Nat.le_refl _, Nat.le_refl _⟩)
    exact ⟨w, h1, h2⟩
  | integer n d => intro _ s _ hm; exact hm.elim
  | group n wc ng rs =>
    intro hok s hs hm
    obtain ⟨c, rfl, hc⟩ := hm
    have hcb : c < cSizeOfByte := hs c (by simp)
    have hcu : c ≤ cUnicodeMax := by simp only [cSizeOfByte, cUnicodeMax] at *; omega
    obtain ⟨w, h1, h2⟩ := full_wrap_of_full (r := .group n wc ng rs) (w := [.byte c])
      (full_of_fst ⟨c, rfl, hcb, (inRanges_groupRanges ng rs c hcu hok).mpr hc⟩)
    exact ⟨w, h1, h2⟩
  | or n l r ihl ihr =>
    intro hok s hs hm
    rcases hm with hm | hm
    · obtain ⟨w, ⟨x, y, rfl, hx, hy⟩, rfl⟩ := ihl hok.1 s hs hm
      exact full_wrap_of_full (r := .or n l r) ⟨x, y, rfl, .inl hx, hy.mono fun _ h => .inl h⟩
    · obtain ⟨w, ⟨x, y, rfl, hx, hy⟩, rfl⟩ := ihr hok.2 s hs hm
      exact full_wrap_of_full (r := .or n l r) ⟨x, y, rfl, .inr hx, hy.mono fun _ h => .inr h⟩
  | cat n l r ihl ihr =>
    intro hok s hs hm
    obtain ⟨s1, s2, rfl, h1, h2⟩ := hm
    obtain ⟨w1, hw1, rfl⟩ := ihl hok.1 s1 (fun c hc => hs c (List.mem_append_left _ hc)) h1
    obtain ⟨w2, ⟨x, y, rfl, hx, hy⟩, rfl⟩ := ihr hok.2 s2 (fun c hc => hs c (List.mem_append_right _ hc)) h2
    rw [← bytesOf_append]
    refine full_wrap_of_full (r := .cat n l r) ⟨w1 ++ x, y, by simp, ⟨w1, x, rfl, hw1, hx⟩, hy⟩
  | mult n o mn mx ih =>
    intro hok s hs hm
    obtain ⟨k, hk, hk', hrep⟩ := hm
    obtain ⟨w, hw, rfl⟩ := repeat_pow (fun s h1 h2 => ih hok s h1 h2) hrep hs
    obtain ⟨w', hw', hb⟩ := mult_full_of_pow hk hk' hw
    rw [← hb]
    exact full_wrap_of_full (r := .mult n o mn mx) hw'
  | capture n i t ih =>
    intro hok s hs hm
    obtain ⟨w, hw, rfl⟩ := ih hok s hs hm
    obtain ⟨w', h1, h2⟩ := full_wrap_of_full (r := .capture n i t) (w := [.openTag t] ++ (w ++ [.closeTag t]))
      (full_of_fst ⟨_, _, rfl, rfl, _, _, rfl, hw, rfl⟩)
    exact ⟨w', h1, by rw [h2]; simp [bytesOf, bytesOf_append]⟩

/-! #### Soundness -/

theorem wrap_snd_none {r : Regex} (h : ∀ w, r.negTags = [] → ¬ r.lang.2 w) (w) :
    ¬ (wrapLang r.negTags r.lang).2 w := by
  unfold wrapLang
  by_cases hn : r.negTags = []
  · simp only [hn, List.isEmpty_nil, if_true]; exact h w hn
  · have : r.negTags.isEmpty = false := by simpa using hn
    simp [this, Lang.none]

theorem no_loop (r : Regex) (h : ¬ r.TailLoop) : ∀ w, ¬ (wrapLang r.negTags r.lang).2 w := by
  induction r with
  | empty n => exact wrap_snd_none (r := .empty n) (fun w _ h => h)
  | literal n c => exact wrap_snd_none (r := .literal n c) (fun w _ h => h)
  | integer n d => exact wrap_snd_none (r := .integer n d) (fun w _ h => h)
  | group n wc ng rs => exact wrap_snd_none (r := .group n wc ng rs) (fun w _ h => h)
  | or n l r ihl ihr =>
    refine wrap_snd_none (r := .or n l r) (fun w hn hw => ?_)
    simp only [Regex.negTags] at hn
    simp only [Regex.TailLoop, hn, true_and, not_or] at h
    rcases hw with hw | hw
    · exact ihl h.1 w hw
    · exact ihr h.2 w hw
  | cat n l r ihl ihr =>
    refine wrap_snd_none (r := .cat n l r) (fun w hn hw => ?_)
    simp only [Regex.negTags] at hn
    simp only [Regex.TailLoop, hn, true_and] at h
    exact ihr h w hw
  | mult n o mn mx ih =>
    refine wrap_snd_none (r := .mult n o mn mx) (fun w hn hw => ?_)
    simp only [Regex.negTags] at hn
    simp only [Regex.TailLoop, hn, true_and, not_or] at h
    rcases hw with hw | ⟨h0, _⟩
    · exact ih h.2 w hw
    · exact h.1 h0
  | capture n i t ih => exact wrap_snd_none (r := .capture n i t) (fun w _ h => h)

theorem full_of_wrap {r : Regex} {w} (h : ruleLang r w) :
    ∃ w', (r.lang.1.full r.lang.2) w' ∧ bytesOf w' = bytesOf w := by
  unfold ruleLang wrapLang at h
  by_cases hn : r.negTags.isEmpty
  · exact ⟨w, by simpa [hn] using h, rfl⟩
  · simp only [hn] at h
    obtain ⟨x, y, rfl, ⟨u, v, rfl, hu, rfl⟩, hy⟩ := h
    have := Lang.star_none hy
    subst this
    exact ⟨u, hu, by simp [bytesOf_append, bytesOf_negTags]⟩

theorem repeat_of_pow {P : List Nat → Prop} {F : Lang} (hP : ∀ w, F w → P (bytesOf w)) :
    ∀ {k w}, Lang.pow F k w → Repeat P k (bytesOf w) := by
  intro k
  induction k with
  | zero => intro w h; cases h; exact .zero
  | succ k ih =>
    rintro w ⟨x, y, rfl, hx, hy⟩
    rw [bytesOf_append]; exact .succ (hP x hx) (ih hy)

theorem Repeat.append {P : List Nat → Prop} {j k s t} (h : Repeat P j s) (h' : Repeat P k t) :
    Repeat P (j + k) (s ++ t) := by
  induction h with
  | zero => simpa using h'
  | succ h1 _ ih => rw [List.append_assoc, Nat.add_right_comm]; exact .succ h1 ih

/-- Words of `a (a ∪ b)*` are sequences of full copies. -/
theorem star_mult_split {a b : Lang} {w} (h : Lang.Star (Lang.multLoop a b 0) w) :
    ∃ x y, w = x ++ y ∧ Lang.Star b x ∧ ∃ k, Lang.pow (a.full b) k y := by
  induction h with
  | nil => exact ⟨[], [], rfl, .nil, 0, rfl⟩
  | @cons x y hx _ ih =>
    obtain ⟨u, v, rfl, hu, k, hv⟩ := ih
    rcases hx with hx | ⟨_, hx⟩
    · exact ⟨x ++ u, v, by simp, .cons hx hu, k, hv⟩
    · exact ⟨[], x ++ (u ++ v), rfl, .nil, k + 1, x ++ u, v, by simp, ⟨x, u, rfl, hx, hu⟩, hv⟩

theorem star_eq_nil {b : Lang} (h : ∀ w, ¬ b w) {w} (hw : Lang.Star b w) : w = [] := by
  cases hw with
  | nil => rfl
  | cons h1 _ => exact absurd h1 (h _)

theorem lang_sound (r : Regex) : r.LoopSafe → r.BoundsOk → r.ClassesOk → ∀ w, ruleLang r w →
    MatchesWith False r (bytesOf w) := by
  induction r with
  | empty n =>
    intro _ _ _ w hw
    obtain ⟨w', ⟨x, y, rfl, hx, hy⟩, hb⟩ := full_of_wrap hw
    exact hx.elim
  | literal n c =>
    intro _ _ _ w hw
    obtain ⟨w', ⟨x, y, rfl, hx, hy⟩, hb⟩ := full_of_wrap hw
    have := star_eq_nil (fun w h => h) hy
    subst this
    obtain ⟨c', rfl, _, r, hr, h1, h2⟩ := hx
    simp at hr; subst hr
    simp only at h1 h2
    have : c' = c := by omega
    subst this
    simp only [List.append_nil] at hb
    rw [← hb]; rfl
  | integer n d =>
    intro _ _ _ w hw
    obtain ⟨w', ⟨x, y, rfl, hx, hy⟩, hb⟩ := full_of_wrap hw
    exact hx.elim
  | group n wc ng rs =>
    intro _ _ hok w hw
    obtain ⟨w', ⟨x, y, rfl, hx, hy⟩, hb⟩ := full_of_wrap hw
    have := star_eq_nil (fun w h => h) hy
    subst this
    obtain ⟨c, rfl, hc, hr⟩ := hx
    have hcu : c ≤ cUnicodeMax := by simp only [cSizeOfByte, cUnicodeMax] at *; omega
    simp only [List.append_nil] at hb
    rw [← hb]
    exact ⟨c, rfl, (inRanges_groupRanges ng rs c hcu hok).mp hr⟩
  | or n l r ihl ihr =>
    intro hls hbo hok w hw
    obtain ⟨w', ⟨x, y, rfl, hx, hy⟩, hb⟩ := full_of_wrap hw
    rw [← hb]
    obtain ⟨hsafe, hl, hr⟩ := hls
    have key : (ruleLang l (x ++ y)) ∨ (ruleLang r (x ++ y)) := by
      rcases hx with hx | hx
      · left
        refine ⟨x, y, rfl, hx, ?_⟩
        refine hy.mono fun z hz => ?_
        rcases hz with hz | hz
        · exact hz
        · exfalso
          rcases hsafe with ⟨_, h2⟩ | ⟨m, rfl⟩ | ⟨m, rfl⟩
          · exact no_loop r h2 z hz
          · unfold wrapLang at hx
            split at hx
            · exact hx
            · obtain ⟨_, _, _, ⟨_, _, _, h, _⟩, _⟩ := hx; exact h
          · exact no_loop _ (by simp [Regex.TailLoop]) z hz
      · right
        refine ⟨x, y, rfl, hx, ?_⟩
        refine hy.mono fun z hz => ?_
        rcases hz with hz | hz
        · exfalso
          rcases hsafe with ⟨h2, _⟩ | ⟨m, rfl⟩ | ⟨m, rfl⟩
          · exact no_loop l h2 z hz
          · exact no_loop _ (by simp [Regex.TailLoop]) z hz
          · unfold wrapLang at hx
            split at hx
            · exact hx
            · obtain ⟨_, _, _, ⟨_, _, _, h, _⟩, _⟩ := hx; exact h
        · exact hz
    rcases key with h | h
    · exact .inl (ihl hl hbo.1 hok.1 _ h)
    · exact .inr (ihr hr hbo.2 hok.2 _ h)
  | cat n l r ihl ihr =>
    intro hls hbo hok w hw
    obtain ⟨w', ⟨x, y, rfl, ⟨u, v, rfl, hu, hv⟩, hy⟩, hb⟩ := full_of_wrap hw
    rw [← hb, List.append_assoc, bytesOf_append]
    exact ⟨_, _, rfl, ihl hls.1 hbo.1 hok.1 _ hu, ihr hls.2 hbo.2 hok.2 _ ⟨v, y, rfl, hv, hy⟩⟩
  | mult n o mn mx ih =>
    intro hls hbo hok w hw
    obtain ⟨w', ⟨x, y, rfl, hx, hy⟩, hb⟩ := full_of_wrap hw
    rw [← hb]
    have ih' : ∀ w, ruleLang o w → MatchesWith False o (bytesOf w) := ih hls.2 hbo.2 hok
    have hpow : ∀ {k w}, Lang.pow (ruleLang o) k w → Repeat (MatchesWith False o) k (bytesOf w) :=
      fun h => repeat_of_pow ih' h
    rcases hx with ⟨rfl, rfl⟩ | ⟨j, hj1, hj2, u, v, rfl, hu, hv⟩
    · have hno := no_loop o (hls.1 rfl)
      rw [bytesOf_append]
      by_cases hm : mx = 0
      · subst hm
        obtain ⟨z, t, rfl, hz, k, ht⟩ := star_mult_split hy
        have := star_eq_nil hno hz
        subst this
        exact ⟨k, by omega, .inl rfl, by simpa [bytesOf] using hpow ht⟩
      · have : y = [] := star_eq_nil (fun w h => by
          rcases h with h | ⟨h, _⟩
          · exact hno w h
          · exact hm h) hy
        subst this
        exact ⟨0, by omega, .inr (by omega), .zero⟩
    · by_cases hm : mx = 0
      · subst hm
        obtain ⟨z, t, rfl, hz, k, ht⟩ := star_mult_split hy
        have h1 : Lang.pow (ruleLang o) (j + 1) (u ++ (v ++ z)) :=
          Lang.pow_succ' hu ⟨v, z, rfl, hv, hz⟩
        have h2 := (hpow h1).append (hpow ht)
        rw [← bytesOf_append] at h2
        exact ⟨j + 1 + k, by omega, .inl rfl, by simpa using h2⟩
      · have hs : Lang.Star (wrapLang o.negTags o.lang).2 y := hy.mono fun w h => by
          rcases h with h | ⟨h, _⟩
          · exact h
          · exact absurd h hm
        have h1 : Lang.pow (ruleLang o) (j + 1) (u ++ (v ++ y)) :=
          Lang.pow_succ' hu ⟨v, y, rfl, hv, hs⟩
        have hle : mn ≤ mx := by rcases hbo.1 with h | h; exact absurd h hm; exact h
        exact ⟨j + 1, hj1, .inr (by omega), by simpa using hpow h1⟩
  | capture n i t ih =>
    intro hls hbo hok w hw
    obtain ⟨w', ⟨x, y, rfl, ⟨_, _, rfl, rfl, u, _, rfl, hu, rfl⟩, hy⟩, hb⟩ := full_of_wrap hw
    have := star_eq_nil (fun w h => h) hy
    subst this
    rw [← hb]
    have := ih hls hbo hok u hu
    simpa [bytesOf, bytesOf_append, MatchesWith] using this

theorem repeat_mono {P Q : List Nat → Prop} (h : ∀ s, P s → Q s) {k s} (hr : Repeat P k s) :
    Repeat Q k s := by
  induction hr with
  | zero => exact .zero
  | succ h1 _ ih => exact .succ (h _ h1) ih

theorem matchesWith_mono {e e' : Prop} (he : e → e') (r : Regex) :
    ∀ s, MatchesWith e r s → MatchesWith e' r s := by
  induction r with
  | empty n => intro s h; exact ⟨he h.1, h.2⟩
  | literal n c => intro s h; exact h
  | integer n d => intro s h; exact h
  | group n wc ng rs => intro s h; exact h
  | or n l r ihl ihr => intro s h; exact h.imp (ihl s) (ihr s)
  | cat n l r ihl ihr =>
    rintro s ⟨a, b, h, h1, h2⟩; exact ⟨a, b, h, ihl _ h1, ihr _ h2⟩
  | mult n o mn mx ih =>
    rintro s ⟨k, h1, h2, h3⟩; exact ⟨k, h1, h2, repeat_mono ih h3⟩
  | capture n i t ih => intro s h; exact ih s h

theorem matchesWith_noEmpty {e e' : Prop} (r : Regex) (hr : r.NoEmpty) :
    ∀ s, MatchesWith e r s → MatchesWith e' r s := by
  induction r with
  | empty n => exact hr.elim
  | literal n c => intro s h; exact h
  | integer n d => intro s h; exact h
  | group n wc ng rs => intro s h; exact h
  | or n l r ihl ihr => intro s h; exact h.imp (ihl hr.1 s) (ihr hr.2 s)
  | cat n l r ihl ihr =>
    rintro s ⟨a, b, h, h1, h2⟩; exact ⟨a, b, h, ihl hr.1 _ h1, ihr hr.2 _ h2⟩
  | mult n o mn mx ih =>
    rintro s ⟨k, h1, h2, h3⟩; exact ⟨k, h1, h2, repeat_mono (ih hr) h3⟩
  | capture n i t ih => intro s h; exact ih hr s h

/-- Everything recognised consists of bytes. -/
theorem ruleLang_bytes (r : Regex) : ∀ w, ruleLang r w → AllBytes (bytesOf w) := by
  have key : ∀ r : Regex, (∀ w, (wrapLang r.negTags r.lang).1 w → AllBytes (bytesOf w)) ∧
      (∀ w, (wrapLang r.negTags r.lang).2 w → AllBytes (bytesOf w)) := by
    have happ : ∀ x y, AllBytes (bytesOf x) → AllBytes (bytesOf y) → AllBytes (bytesOf (x ++ y)) := by
      intro x y hx hy c hc
      rw [bytesOf_append] at hc
      rcases List.mem_append.mp hc with h | h
      · exact hx c h
      · exact hy c h
    have hstar : ∀ b : Lang, (∀ w, b w → AllBytes (bytesOf w)) → ∀ w, Lang.Star b w → AllBytes (bytesOf w) := by
      intro b hb w hw
      induction hw with
      | nil => intro c hc; cases hc
      | cons h _ ih => exact happ _ _ (hb _ h) ih
    have hseq : ∀ a b : Lang, (∀ w, a w → AllBytes (bytesOf w)) → (∀ w, b w → AllBytes (bytesOf w)) →
        ∀ w, Lang.seq a b w → AllBytes (bytesOf w) := by
      rintro a b ha hb w ⟨x, y, rfl, hx, hy⟩
      exact happ _ _ (ha x hx) (hb y hy)
    have hfull : ∀ a b : Lang, (∀ w, a w → AllBytes (bytesOf w)) → (∀ w, b w → AllBytes (bytesOf w)) →
        ∀ w, Lang.full a b w → AllBytes (bytesOf w) := fun a b ha hb => hseq _ _ ha (hstar b hb)
    have hwrap : ∀ r : Regex, (∀ w, r.lang.1 w → AllBytes (bytesOf w)) →
        (∀ w, r.lang.2 w → AllBytes (bytesOf w)) →
        (∀ w, (wrapLang r.negTags r.lang).1 w → AllBytes (bytesOf w)) ∧
        (∀ w, (wrapLang r.negTags r.lang).2 w → AllBytes (bytesOf w)) := by
      intro r h1 h2
      unfold wrapLang
      by_cases hn : r.negTags.isEmpty
      · simp only [hn, if_true]; exact ⟨h1, h2⟩
      · simp only [hn]
        refine ⟨hseq _ _ (hfull _ _ h1 h2) ?_, fun w h => h.elim⟩
        rintro w rfl c hc; cases hc
    intro r
    induction r with
    | empty n => exact hwrap (.empty n) (fun w h => h.elim) (fun w h => h.elim)
    | literal n c =>
      refine hwrap (.literal n c) ?_ (fun w h => h.elim)
      rintro w ⟨c, rfl, hc, _⟩ d hd
      simp [bytesOf] at hd; subst hd; exact hc
    | integer n d => exact hwrap (.integer n d) (fun w h => h.elim) (fun w h => h.elim)
    | group n wc ng rs =>
      refine hwrap (.group n wc ng rs) ?_ (fun w h => h.elim)
      rintro w ⟨c, rfl, hc, _⟩ d hd
      simp [bytesOf] at hd; subst hd; exact hc
    | or n l r ihl ihr =>
      exact hwrap (.or n l r) (fun w h => h.elim (ihl.1 w) (ihr.1 w)) (fun w h => h.elim (ihl.2 w) (ihr.2 w))
    | cat n l r ihl ihr =>
      exact hwrap (.cat n l r) (hseq _ _ (hfull _ _ ihl.1 ihl.2) ihr.1) ihr.2
    | mult n o mn mx ih =>
      refine hwrap (.mult n o mn mx) ?_ ?_
      · have hp : ∀ k w, Lang.pow ((wrapLang o.negTags o.lang).1.full (wrapLang o.negTags o.lang).2) k w →
            AllBytes (bytesOf w) := by
          intro k
          induction k with
          | zero => intro w h; cases h; intro c hc; cases hc
          | succ k ihk => exact hseq _ _ (hfull _ _ ih.1 ih.2) ihk
        rintro w (⟨_, rfl⟩ | ⟨j, _, _, h⟩)
        · intro c hc; cases hc
        · exact hseq _ _ (hp j) ih.1 w h
      · rintro w (h | ⟨_, h⟩)
        · exact ih.2 w h
        · exact ih.1 w h
    | capture n i t ih =>
      refine hwrap (.capture n i t) (hseq _ _ ?_ (hseq _ _ (hfull _ _ ih.1 ih.2) ?_)) (fun w h => h.elim)
      · rintro w rfl c hc; cases hc
      · rintro w rfl c hc; cases hc
  intro w
  rintro ⟨x, y, rfl, hx, hy⟩
  intro c hc
  rw [bytesOf_append] at hc
  rcases List.mem_append.mp hc with h | h
  · exact (key r).1 x hx c h
  · clear hc
    induction hy with
    | nil => cases h
    | cons h1 _ ih =>
      rw [bytesOf_append] at h
      rcases List.mem_append.mp h with h | h
      · exact (key r).2 _ h1 c h
      · exact ih h

theorem Regex.NoEmpty.noInteger {r : Regex} (h : r.NoEmpty) : r.NoInteger := by
  induction r with
  | integer n d => exact h.elim
  | or n l r ihl ihr => exact ⟨ihl h.1, ihr h.2⟩
  | cat n l r ihl ihr => exact ⟨ihl h.1, ihr h.2⟩
  | mult n o a b ih => exact ih h
  | capture n i t ih => exact ih h
  | _ => trivial

end LogSurgeon
