import Verif.Proofs.ReaderParse
import Verif.Proofs.BufferStart
import Verif.Spec.Reader
import Verif.Proofs.Kept
/-
The loop of a client of `ReaderParser`, while the buffer does not have to grow.
-/
namespace LogSurgeon
open Ctx

/-! ### Metadata -/

/-- The loop over the tokens of an event, from index `j` on; `ch` gives the first characters of the tokens. -/
theorem metaLoop_gen {e : PEvent} {m : Mem} {ch : Nat → Nat} {nv : Nat} (B : Nat) :
    ∀ (n j : Nat) (v : EventView) (nl : Nat), (∀ (i : Nat) (x : PTok), e.toks[i]? = some x →
        (v.out.get (off e + i)).type0 = .ok x.kind ∧ x.kind < nv ∧ (v.out.get (off e + i)).getDelimiter m = some [ch i]) →
      v.numVars = nv → j + n = e.toks.length → (nl = 0 ∨ nl < off e + j) →
      ∃ occ nl', LogParser.metaLoop m (List.range' (off e + j) n) v nl = .ok ({ v with occ := occ }, nl') ∧
        (∀ id, occ id = v.occ id ++ (List.range' (off e + j) n).filter
          fun i => (e.toks[i - off e]?.map PTok.kind) == some id) ∧
        ((0 < nl' ∧ nl' + 1 < B) ↔ (0 < nl ∧ nl + 1 < B) ∨ (nl = 0 ∧ ∃ (i : Nat) (x : PTok), off e + j ≤ i ∧ 0 < i ∧ i + 1 < B ∧
          e.toks[i - off e]? = some x ∧ ch (i - off e) = newline)) := by
  intro n
  induction n with
  | zero =>
    intro j v nl _ _ hj hnl
    refine ⟨v.occ, nl, rfl, fun id => by simp, ?_⟩
    constructor
    · exact .inl
    · rintro (h | ⟨h, i, x, h1, h2, h3, h4, h5⟩)
      · exact h
      · rw [List.getElem?_eq_none (by omega)] at h4; cases h4
  | succ n ih =>
    intro j v nl hO hv hj hnl
    obtain ⟨x, hx⟩ : ∃ x, e.toks[j]? = some x := ⟨_, List.getElem?_eq_getElem (by omega)⟩
    obtain ⟨ht, hg, hd⟩ := hO j x hx
    rw [List.range'_succ]
    unfold LogParser.metaLoop
    rw [ht]
    simp only
    rw [hd]
    unfold EventView.addToken
    rw [if_pos (by rw [hv]; exact hg)]
    simp only
    have hcN : ch j = newline ↔ ([ch j] == [newline]) = true := by simp
    obtain ⟨occ, nl', h1, h2, h3⟩ := ih (j + 1) ({ v with occ := fun i => if i = x.kind then v.occ i ++ [off e + j] else v.occ i })
      (if ([ch j] == [newline] && nl == 0) = true then off e + j else nl) hO hv (by omega)
      (by split <;> omega)
    refine ⟨occ, nl', h1, fun id => ?_, ?_⟩
    · rw [h2]
      rw [show off e + (j + 1) = off e + j + 1 by omega]
      simp only [List.filter_cons, show off e + j - off e = j by omega, hx, Option.map_some, beq_iff_eq, Option.some.injEq]
      by_cases hk : id = x.kind
      · subst hk
        rw [if_pos rfl, if_pos rfl, List.append_assoc]; rfl
      · rw [if_neg hk, if_neg (fun h => hk h.symm)]
    · rw [h3]
      by_cases hN : ch j = newline
      · by_cases h0 : nl = 0
        · rw [if_pos (by rw [hcN.mp hN]; simp [h0])]
          subst h0
          constructor
          · rintro (⟨a1, a2⟩ | ⟨a1, i, y, a2, a3, a4, a5, a6⟩)
            · exact .inr ⟨rfl, off e + j, x, Nat.le_refl _, a1, a2, by rw [show off e + j - off e = j by omega]; exact hx,
                by rw [show off e + j - off e = j by omega]; exact hN⟩
            · exact .inr ⟨rfl, i, y, by omega, a3, a4, a5, a6⟩
          · rintro (⟨a1, a2⟩ | ⟨a1, i, y, a2, a3, a4, a5, a6⟩)
            · omega
            · by_cases hz : off e + j = 0
              · right
                refine ⟨hz, i, y, ?_, a3, a4, a5, a6⟩
                omega
              · left; omega
        · rw [if_neg (by simp [h0])]
          constructor
          · rintro (a | ⟨a, _⟩)
            · exact .inl a
            · exact absurd a h0
          · rintro (a | ⟨a, _⟩)
            · exact .inl a
            · exact absurd a h0
      · rw [if_neg (by
          intro h
          rw [Bool.and_eq_true] at h
          exact hN (hcN.mpr h.1))]
        apply or_congr Iff.rfl
        apply and_congr_right
        intro _
        constructor
        · rintro ⟨i, y, a2, a3, a4, a5, a6⟩
          exact ⟨i, y, by omega, a3, a4, a5, a6⟩
        · rintro ⟨i, y, a2, a3, a4, a5, a6⟩
          refine ⟨i, y, ?_, a3, a4, a5, a6⟩
          rcases Nat.eq_or_lt_of_le a2 with h | h
          · subst h
            rw [show off e + j - off e = j by omega] at a6
            exact absurd a6 hN
          · omega

/-- The logtype of a token; an exception if the type has no name. -/
def PTok.logtypeE (s : List Nat) (names : Nat → Option String) (x : PTok) : Except Fail (List Nat) :=
  if x.kind = tokenUncaught then .ok (x.text s)
  else
    match names x.kind with
    | none => .error .throws
    | some _ => .ok (x.logtype s names)

def logtypesE (s : List Nat) (names : Nat → Option String) : List PTok → Except Fail (List Nat)
  | [] => .ok []
  | x :: xs =>
    match x.logtypeE s names with
    | .error e => .error e
    | .ok a =>
      match logtypesE s names xs with
      | .error e => .error e
      | .ok b => .ok (a ++ b)

/-- The tokens of the logtype have a text unless they are static text. -/
def PEvent.LogOk (e : PEvent) : Prop := ∀ x ∈ (if e.ts then e.toks.tail else e.toks), x.kind = tokenUncaught ∨ x.a < x.e

theorem CTok.valid {b : InBuf} {R : List Nat} {a lo rHat k : Nat} (hb : BufInv b R a lo rHat k) {t : Token} {x : PTok}
    (h : CTok b.size b.active t x k lo R.length) : t.Valid b.mem := by
  have hh := hb.half
  have hS : 0 < b.size := by omega
  have hst := hb.stor
  have hsi := h.start.eq
  have hsl : t.startPos < b.size := by rw [hsi]; exact Nat.mod_lt _ hS
  have hse : t.endPos ≤ b.size := by
    rcases h.stop with h4 | h4
    · have : t.endPos < b.size := by rw [h4.eq]; exact Nat.mod_lt _ hS
      omega
    · omega
  refine ⟨⟨by rw [h.size]; exact hse, by rw [h.buf]; omega⟩, fun _ => ⟨by rw [h.size]; exact hsl, by rw [h.size, h.buf]; omega⟩, fun _ => .inl h.wrap⟩

theorem PEvent.LogOk.at {e : PEvent} (h : e.LogOk) {i : Nat} {x : PTok} (hx : e.toks[i]? = some x) (hi : 0 < off e + i) :
    x.kind = tokenUncaught ∨ x.a < x.e := by
  apply h
  cases hts : e.ts with
  | false => exact List.mem_of_getElem? hx
  | true =>
    have ho : off e = 0 := by simp [off, hts]
    obtain ⟨i, rfl⟩ : ∃ j, i = j + 1 := ⟨i - 1, by omega⟩
    exact List.mem_of_getElem? (i := i) (by simpa using hx)

/-- The contribution of a token to the logtype. -/
theorem logtypeToken_of {m : Mem} {names : Nat → Option String} {tk : Token} {x : PTok} {w : List Nat}
    (hty : tk.type0 = .ok x.kind) (htxt : (tk.toStringView m).map (·.1) = some (x.text w))
    (hd : x.kind ≠ tokenUncaught → tk.getDelimiter m = some ((x.text w).take 1)) :
    EventView.logtypeToken m names tk = x.logtypeE w names := by
  unfold EventView.logtypeToken PTok.logtypeE
  rw [hty]
  simp only
  by_cases hu : x.kind = tokenUncaught
  · rw [if_pos hu, if_pos hu]
    cases h : tk.toStringView m with
    | none => rw [h] at htxt; cases htxt
    | some y =>
      rw [h] at htxt
      simp only [Option.map_some, Option.some.injEq] at htxt
      simp only [htxt]
  · rw [if_neg hu, if_neg hu, hd hu]
    unfold PTok.logtype
    rw [if_neg hu]
    by_cases hk : x.kind = tokenNewline
    · rw [if_neg (by simp [hk]), if_pos hk]
      cases hn : names x.kind with
      | none => rfl
      | some n => simp [EventView.nameBytes]
    · rw [if_pos (Ne.symm hk), if_neg hk]
      cases hn : names x.kind with
      | none => rfl
      | some n => simp [EventView.nameBytes]

open Classical in
/-- What an event shows. -/
noncomputable def PEvent.seen (s : List Nat) (e : PEvent) : Seen where
  ts := e.ts
  timestamp := if e.ts then e.toks.head?.map fun x => (some (x.text s), some x.ty) else none
  tokens := e.toks.map fun x => (some (x.text s), some x.ty)
  text := some (e.text s)
  multiline := decide (e.multiline s)
  vars := fun id => (e.toks.filter fun x => x.kind == id).map fun x => (some (x.text s), some x.ty)
  logtype := fun names => logtypesE s names (if e.ts then e.toks.tail else e.toks)
  kept := e.kept s

/-- A view shows an event when its tokens do, and the metadata are right. -/
theorem seen_of {v : EventView} {e : PEvent} {m : Mem} {w : List Nat} (hts : v.out.hasTimestamp = e.ts)
    (hpos : v.out.pos = off e + e.toks.length)
    (htok : ∀ (i : Nat) (x : PTok), e.toks[i]? = some x → (v.out.get (off e + i)).shown m = (some (x.text w), some x.ty))
    (hml : v.multiline = true ↔ e.multiline w)
    (hocc : ∀ id, v.occ id = (List.range' (off e) e.toks.length).filter fun i => (e.toks[i - off e]?.map PTok.kind) == some id)
    (hne : e.ts = true → ∃ x, e.toks.head? = some x)
    (hlog : ∀ (i : Nat) (x : PTok), e.toks[i]? = some x → 0 < off e + i → ∀ names,
      EventView.logtypeToken m names (v.out.get (off e + i)) = x.logtypeE w names)
    (hval : ∀ (i : Nat) (x : PTok), e.toks[i]? = some x → (v.out.get (off e + i)).Valid m ∧ x.ty ≠ [] ∧ x.kind < v.numVars) :
    v.seen m = e.seen w := by
  have htoks : v.tokens.map (Token.shown m) = e.toks.map fun x => (some (x.text w), some x.ty) := by
    have hf : v.first = off e := by unfold EventView.first off; rw [hts]
    unfold EventView.tokens
    rw [hf, hpos, Nat.add_sub_cancel_left]
    apply List.ext_getElem?
    intro i
    simp only [List.getElem?_map]
    rcases Nat.lt_or_ge i e.toks.length with hi | hi
    · rw [List.getElem?_range' (by omega), List.getElem?_eq_getElem hi]
      simp only [Option.map_some, Nat.one_mul, Option.some.injEq]
      exact htok i _ (List.getElem?_eq_getElem hi)
    · rw [List.getElem?_eq_none (by simp; omega), List.getElem?_eq_none hi]; rfl
  have htext : v.toString m = some (e.text w) := by
    unfold EventView.toString PEvent.text
    generalize v.tokens = ts at htoks
    generalize e.toks = xs at htoks
    induction ts generalizing xs with
    | nil =>
      cases xs with
      | nil => rfl
      | cons x xs => simp at htoks
    | cons t ts ih =>
      cases xs with
      | nil => simp at htoks
      | cons x xs =>
        simp only [List.map_cons, List.cons.injEq] at htoks
        have h1 := congrArg Prod.fst htoks.1
        unfold EventView.texts
        rw [ih xs htoks.2]
        simp only [Token.shown] at h1
        cases hv : t.toStringView m with
        | none => rw [hv] at h1; simp at h1
        | some y =>
          rw [hv] at h1
          simp only [Option.map_some, Option.some.injEq] at h1
          simp [h1]
  have hmem : ∀ t ∈ v.tokens, ∃ (i : Nat) (x : PTok), e.toks[i]? = some x ∧ v.out.get (off e + i) = t := by
    have hf : v.first = off e := by unfold EventView.first off; rw [hts]
    unfold EventView.tokens
    rw [hf, hpos, Nat.add_sub_cancel_left]
    intro t ht
    obtain ⟨i, hi, rfl⟩ := List.mem_map.mp ht
    rw [List.mem_range'_1] at hi
    refine ⟨i - off e, _, List.getElem?_eq_getElem (by omega), ?_⟩
    rw [Nat.add_sub_cancel' hi.1]
  have hkept : v.kept m = e.kept w := by
    refine kept_spec hts hpos (fun i x hx => ⟨congrArg Prod.snd (htok i x hx), (hval i x hx).2.1⟩) hml htext hocc ?_ ?_
    · intro t ht
      obtain ⟨i, x, hx, rfl⟩ := hmem t ht
      exact (hval i x hx).1
    · intro t ht
      obtain ⟨i, x, hx, rfl⟩ := hmem t ht
      obtain ⟨_, g2, g3⟩ := hval i x hx
      have := congrArg Prod.snd (htok i x hx)
      simp only [Token.shown] at this
      unfold PTok.kind at g3
      cases hl : x.ty with
      | nil => exact absurd hl g2
      | cons a l => rw [hl] at g3 this; exact ⟨a, l, this, g3⟩
  unfold EventView.seen PEvent.seen
  rw [hts, htoks, htext, hkept]
  congr 1
  · unfold EventView.getTimestamp
    rw [hts]
    cases ht : e.ts with
    | false => rfl
    | true =>
      have hoff : off e = 0 := by simp [off, ht]
      obtain ⟨x, hx⟩ := hne ht
      have := htok 0 x (by rw [← hx]; exact List.head?_eq_getElem?.symm)
      rw [hoff] at this
      simp only [if_true, Option.map_some, hx]
      rw [this]
  · rw [Bool.eq_iff_iff, hml]; simp
  · funext id
    rw [hocc]
    have := filter_pos (fun x : PTok => x.kind == id) v.out.get (fun x : PTok => (some (x.text w), some x.ty)) (Token.shown m) (off e) e.toks
      e.toks.length 0 (by omega) (fun i x hx => htok i x hx)
    rw [List.drop_zero] at this
    rw [← this]
    congr 1
    apply List.filter_congr
    intro i _
    cases e.toks[i - off e]? with
    | none => rfl
    | some x => simp
  · funext names
    have key : ∀ (l : List PTok) (b : Nat), (∀ (i : Nat) (x : PTok), l[i]? = some x →
        EventView.logtypeToken m names (v.out.get (b + i)) = x.logtypeE w names) →
        EventView.logtypeLoop m names ((List.range' b l.length).map v.out.get) = logtypesE w names l := by
      intro l
      induction l with
      | nil => intro b _; rfl
      | cons x l ih =>
        intro b hl
        have h0 := hl 0 x rfl
        rw [Nat.add_zero] at h0
        have h1 := ih (b + 1) (fun i y hy => by
          have := hl (i + 1) y (by simpa using hy)
          rw [show b + 1 + i = b + (i + 1) by omega]; exact this)
        rw [List.length_cons, List.range'_succ, List.map_cons, EventView.logtypeLoop, h0, h1]
        rfl
    unfold EventView.getLogtype
    cases hts' : e.ts with
    | false =>
      have ho : off e = 1 := by simp [off, hts']
      rw [ho] at hlog hpos
      rw [hpos, show 1 + e.toks.length - 1 = e.toks.length by omega]
      exact key e.toks 1 fun i x hx => hlog i x hx (by omega) names
    | true =>
      have ho : off e = 0 := by simp [off, hts']
      rw [ho] at hlog hpos
      rw [hpos]
      have := key e.toks.tail 1 fun i x hx => by
        have := hlog (i + 1) x (by simpa using hx) (by omega) names
        rw [show 1 + i = 0 + (i + 1) by omega]; exact this
      rw [List.length_tail] at this
      rw [Nat.zero_add]
      exact this

/-- Metadata of an event whose tokens are in the circular buffer. -/
theorem metadata_circ {X : Ctx} {S act k lo : Nat} {R : List Nat} {p : LogParser} {e : PEvent} {b : InBuf} {a rHat : Nat}
    (hb : BufInv b R a lo rHat k) (hbS : b.size = S) (hba : b.active = act) (hm : p.input.mem = b.mem) (hpre : R <+: X.s)
    (hO : COut X S act k lo R.length p.view.out e)
    (hv : p.view.numVars = X.numVars) (hocc : p.view.occ = fun _ => []) (hml : p.view.multiline = false)
    (hne : e.ts = true → ∃ x, e.toks.head? = some x) (hlog : e.LogOk) :
    ∃ v, p.generateMetadata = .ok { p with view := v } ∧ v.seen p.input.mem = e.seen X.s ∧ v.numVars = p.view.numVars ∧ v.out = p.view.out := by
  have hchar : ∀ (i : Nat) (x : PTok), e.toks[i]? = some x → ∃ ch, (p.view.out.get (off e + i)).getDelimiter p.input.mem = some [ch] ∧
      (0 < i → X.s[x.a]? = some ch) := by
    intro i x hx
    have ht := hO.toks i x hx
    rw [← hbS, ← hba] at ht
    obtain ⟨ch, _, h2, h3⟩ := ht.char hb
    rw [hm]
    refine ⟨ch, h2, fun hi => ?_⟩
    have hlt := hO.inner i x hi hx
    have := h3 hlt
    obtain ⟨t, ht⟩ := hpre
    rw [← ht, List.getElem?_append_left hlt]; exact this
  obtain ⟨ch, hch⟩ : ∃ ch : Nat → Nat, ∀ (i : Nat) (x : PTok), e.toks[i]? = some x →
      (p.view.out.get (off e + i)).getDelimiter p.input.mem = some [ch i] ∧ (0 < i → X.s[x.a]? = some (ch i)) := by
    refine ⟨fun i => (((p.view.out.get (off e + i)).getDelimiter p.input.mem).getD []).headD 0, fun i x hx => ?_⟩
    obtain ⟨c, h1, h2⟩ := hchar i x hx
    simp only [h1]
    exact ⟨rfl, h2⟩
  unfold LogParser.generateMetadata
  have hoff : (if p.view.out.hasTimestamp = true then 0 else 1) = off e + 0 := by rw [hO.ts]; rfl
  have hn : p.view.out.pos - (off e + 0) = e.toks.length := by rw [hO.pos]; omega
  obtain ⟨occ, nl', h1, h2, h3⟩ := metaLoop_gen (ch := ch) (m := p.input.mem) (nv := X.numVars) p.view.out.pos e.toks.length 0 p.view 0
    (fun i x hx => ⟨(hO.toks i x hx).type0 (hO.good x (List.mem_of_getElem? hx)).types, (hO.good x (List.mem_of_getElem? hx)).kind, (hch i x hx).1⟩)
    hv (by omega) (.inl rfl)
  rw [hoff]
  simp only [hn]
  rw [h1]
  have key : (p.view.out.hasTimestamp = true ∧ 0 < nl' ∧ nl' + 1 < p.view.out.pos) ↔ e.multiline X.s := by
    rw [h3, hO.ts]
    constructor
    · rintro ⟨a1, ⟨a2, _⟩ | ⟨_, i, x, a2, a3, a4, a5, a6⟩⟩
      · omega
      · have ho : off e = 0 := by simp [off, a1]
        rw [ho, Nat.sub_zero] at a5
        rw [ho, Nat.sub_zero] at a6
        refine ⟨a1, i, x, a3, ?_, a5, ?_⟩
        · have := hO.pos; omega
        · unfold PTok.startsNl
          rw [(hch i x a5).2 a3, a6]; rfl
    · rintro ⟨a1, i, x, a3, a4, a5, a6⟩
      have ho : off e = 0 := by simp [off, a1]
      refine ⟨a1, .inr ⟨rfl, i, x, by omega, a3, ?_, by rw [ho]; exact a5, ?_⟩⟩
      · have := hO.pos; omega
      · unfold PTok.startsNl at a6
        rw [(hch i x a5).2 a3] at a6
        rw [ho]
        simpa using a6
  refine ⟨_, rfl, ?_, ?_, ?_⟩
  · apply seen_of
    · split <;> exact hO.ts
    · split <;> exact hO.pos
    · intro i x hx
      have ht := hO.toks i x hx
      have ht' : CTok b.size b.active (p.view.out.get (off e + i)) x k lo R.length := by rw [hbS, hba]; exact ht
      have htx := ht'.text hb
      have hle := ht.stop_le
      have hsl : slice R x.a x.e = x.text X.s := by
        obtain ⟨t, ht⟩ := hpre
        have := slice_take (s := X.s) (n := R.length) (a := x.a) hle
        rw [← ht, List.take_left] at this
        rw [← ht]; exact this
      have : (p.view.out.get (off e + i)).shown p.input.mem = (some (x.text X.s), some x.ty) := by
        unfold Token.shown
        rw [hm, htx, ht.types, hsl]
      split <;> exact this
    · rw [← key]
      simp only [Bool.and_eq_true, decide_eq_true_eq]
      split
      · rename_i h; simpa [and_assoc] using h
      · rename_i h
        constructor
        · intro h'
          rw [hml] at h'; cases h'
        · intro h'; exact absurd (by simpa [and_assoc] using h') h
    · intro id
      have := h2 id
      rw [hocc] at this
      simp only [List.nil_append, Nat.add_zero] at this
      split <;> exact this
    · exact hne
    · intro i x hx hi names
      have hg := hO.good x (List.mem_of_getElem? hx)
      have ht := hO.toks i x hx
      have ht' : CTok b.size b.active (p.view.out.get (off e + i)) x k lo R.length := by rw [hbS, hba]; exact ht
      have hle := ht.stop_le
      have hsl : slice R x.a x.e = x.text X.s := by
        obtain ⟨t, ht⟩ := hpre
        have := slice_take (s := X.s) (n := R.length) (a := x.a) hle
        rw [← ht, List.take_left] at this
        rw [← ht]; exact this
      have : EventView.logtypeToken p.input.mem names (p.view.out.get (off e + i)) = x.logtypeE X.s names := by
        refine logtypeToken_of (ht.type0 hg.types) (by rw [hm, ht'.text hb, hsl]) fun hu => ?_
        have hlt : x.a < x.e := (hlog.at hx hi).resolve_left hu
        obtain ⟨c, _, h2, h3⟩ := ht'.char hb
        have h3 := h3 (by omega)
        rw [hm, h2, ← hsl, slice_cons (by omega) (by omega)]
        simp only [List.take_succ_cons, List.take_zero, Option.some.injEq]
        rw [List.getElem?_eq_getElem (by omega)] at h3
        simpa using h3.symm
      split <;> exact this
    · intro i x hx
      have hg := hO.good x (List.mem_of_getElem? hx)
      have ht := hO.toks i x hx
      have ht' : CTok b.size b.active (p.view.out.get (off e + i)) x k lo R.length := by rw [hbS, hba]; exact ht
      have h4 : (p.view.out.get (off e + i)).Valid p.input.mem := by rw [hm]; exact ht'.valid hb
      refine ⟨?_, hg.types, ?_⟩
      · split <;> exact h4
      · have := hg.kind
        split <;> (show x.kind < p.view.numVars; rw [hv]; exact this)
  · split <;> rfl
  · split <;> rfl

/-! ### An event and its place in the text -/

theorem EvStep.facts {L : Lexer} (hL : NlOk L) (hT : TypesProper L) {s : List Nat} {fin : Bool} {cur : Option PEvent} {c c' : Cfg}
    {e : PEvent} {ca : Option PTok} (h : EvStep L s fin cur c e ca c') (hc : CfgOk L s c) (hcl : c.cov ≤ s.length) :
    (c.cov < c'.cov ∧ CfgOk L s c' ∧ c'.cov ≤ s.length) ∧ (ca = none → e.ts = false) ∧ (∀ x, ca = some x → x.e = c'.cov ∧ x.a ≤ x.e) ∧
    ∀ q, q ≤ c.cov → curText s cur = slice s q c.cov → e.text s = slice s q (startOf c' ca) ∧ q ≤ startOf c' ca := by
  have nlr : ∀ {x : PTok} {c c1 : Cfg}, c.cov = x.a → x.a < x.e → x.e = c1.cov → x.e ≤ s.length → ∀ q, q ≤ c.cov →
      ∀ t, t = slice s q c.cov → t ++ x.nl.text s = slice s q (x.a + 1) := by
    intro x c c1 h1 h2 h3 h4 q hq t ht
    rw [ht, h1]
    exact slice_split (by omega) (by show x.a ≤ x.a + 1; omega)
  induction h with
  | @firstNl c c' x hn he hk =>
    obtain ⟨h1, h2, h3, h4, h5, h6⟩ := toks_step hL hT hc hcl hn he
    refine ⟨⟨by omega, h2, h3⟩, (fun h => by cases h), fun y hy => ?_, fun q hq ht => ?_⟩
    · cases hy; exact ⟨h5, by show x.a + 1 ≤ x.e; omega⟩
    · have := nlr h6 h4 h5 (by omega) q hq [] ht
      refine ⟨?_, by show q ≤ x.a + 1; omega⟩
      show _ = slice s q (x.a + 1)
      simpa [PEvent.text] using this
  | @first c c1 c' x e ca hn he hk _ ih =>
    obtain ⟨h1, h2, h3, h4, h5, h6⟩ := toks_step hL hT hc hcl hn he
    obtain ⟨i1, i2, i3, i4⟩ := ih h2 h3
    refine ⟨⟨by omega, i1.2⟩, i2, i3, fun q hq ht => ?_⟩
    refine i4 q (by omega) ?_
    have ht : [] = slice s q c.cov := ht
    show (PEvent.start x).text s = _
    rw [text_start, ← h5, ← slice_split (m := c.cov) (by omega) (by omega), ← ht, h6]; rfl
  | @newline c c' x e hn he hA =>
    obtain ⟨h1, h2, h3, h4, h5, h6⟩ := toks_step hL hT hc hcl hn he
    refine ⟨⟨by omega, h2, h3⟩, fun _ => hA.1, (fun y hy => by cases hy), fun q hq ht => ?_⟩
    have ht : e.text s = slice s q c.cov := ht
    rw [text_add, ht]
    refine ⟨?_, by show q ≤ c'.cov; omega⟩
    show _ = slice s q c'.cov
    rw [← slice_split (m := c.cov) hq (show c.cov ≤ c'.cov by omega), ← h5, h6]; rfl
  | @cut c c' x e hn he hA hB =>
    obtain ⟨h1, h2, h3, h4, h5, h6⟩ := toks_step hL hT hc hcl hn he
    refine ⟨⟨by omega, h2, h3⟩, (fun h => by cases h), fun y hy => ?_, fun q hq ht => ?_⟩
    · cases hy; exact ⟨h5, by show x.a + 1 ≤ x.e; omega⟩
    · rw [text_add]
      exact ⟨nlr h6 h4 h5 (by omega) q hq _ ht, by show q ≤ x.a + 1; omega⟩
  | @more c c1 c' x e e' ca hn he hA hB _ ih =>
    obtain ⟨h1, h2, h3, h4, h5, h6⟩ := toks_step hL hT hc hcl hn he
    obtain ⟨i1, i2, i3, i4⟩ := ih h2 h3
    refine ⟨⟨by omega, i1.2⟩, i2, i3, fun q hq ht => ?_⟩
    refine i4 q (by omega) ?_
    have ht : e.text s = slice s q c.cov := ht
    show (e.add x).text s = _
    rw [text_add, ht, ← h5, ← slice_split (m := c.cov) hq (show c.cov ≤ x.e by omega), h6]; rfl

/-! ### Reading -/

theorem InWin.mono {S k lo r r' pc pl : Nat} (h : InWin S k lo r pc pl) (hr : r ≤ r') : InWin S k lo r' pc pl :=
  ⟨h.eq, h.lo_le, Nat.le_trans h.le hr⟩

theorem SimSt0.mono {sc sl : LexState} {S k lo r r' : Nat} (h : SimSt0 sc sl S k lo r) (hr : r ≤ r') : SimSt0 sc sl S k lo r' :=
  ⟨h.eq, fun x => (h.last x).mono hr, fun x => (h.start x).mono hr, fun x => (h.mtch x).mono hr⟩

theorem CTok.mono {S act k lo r r' : Nat} {t : Token} {x : PTok} (h : CTok S act t x k lo r) (hr : r ≤ r') : CTok S act t x k lo r' := by
  refine ⟨h.start.mono hr, ?_, h.le, h.buf, h.size, h.types, h.wrap⟩
  rcases h.stop with h | ⟨h1, h2, h3, h4⟩
  · exact .inl (h.mono hr)
  · exact .inr ⟨h1, h2, h3, by omega⟩

theorem CCarry.mono {X : Ctx} {S act k lo r r' : Nat} {p p' : LogParser} {ca : Option PTok} (h : CCarry X S act k lo r p ca) (hr : r ≤ r')
    (h1 : p'.hasStart = p.hasStart) (h2 : p'.startTok = p.startTok) : CCarry X S act k lo r' p' ca := by
  cases ca with
  | none => exact h1.trans h
  | some x =>
    obtain ⟨a1, a2, a3, a4⟩ := h
    exact ⟨h1.trans a1, h2 ▸ a2.mono hr, a3, a4⟩

/-- Between two calls. -/
structure RRel (X : Ctx) (h : Nat) (p : LogParser) (R : List Nat) (lo rHat : Nat) (c : Cfg) (carry : Option PTok) : Prop where
  sim : ∃ pl, LSim X p pl R lo rHat 0 ∧ X.LRel pl c
  kept : CCarry X (2 * h) 0 0 lo R.length p carry
  at_ : ∀ x, carry = some x → x.e = c.cov ∧ x.a ≤ x.e
  size : p.input.size = 2 * h
  active : p.input.active = 0
  above : startOf c carry ≤ lo + 1
  empty : R = [] → p.input.lastRead = 0
  cons : p.input.finished = false → (rHat = 0 ∧ p.input.consumedPos = 2 * h - 1 ∧ p.input.lrfh = false) ∨
    (p.input.consumedPos = lo % (2 * h) ∧ lo < rHat)
  numVars : p.view.numVars = X.numVars
  static : 3 ≤ p.view.out.staticSize

/-- A buffer that can not be read into has at least one half of bytes ahead. -/
theorem unsafe_ahead {b : InBuf} {R : List Nat} {a lo rHat h : Nat} (hb : BufInv b R a lo rHat 0) (hS : b.size = 2 * h) (hh : 0 < h)
    (hf : b.finished = false) (hc : b.consumedPos = lo % (2 * h)) (hlt : lo < rHat) (hs : b.readIsSafe = false) : lo + h ≤ rHat := by
  have he := hb.edge
  have hw := hb.window
  rw [hS] at he hw
  rw [Nat.add_zero] at he
  have h2 : 2 * h / 2 = h := by omega
  unfold InBuf.readIsSafe at hs
  rw [if_neg (by simp [hf]), hS, hc, h2] at hs
  refine Decidable.byContradiction fun hn => ?_
  obtain ⟨d, hd⟩ : ∃ d, rHat = lo + d := ⟨rHat - lo, by omega⟩
  have hx := Nat.mod_lt lo (show 0 < 2 * h by omega)
  have hm : rHat % (2 * h) = if lo % (2 * h) + d < 2 * h then lo % (2 * h) + d else lo % (2 * h) + d - 2 * h := by
    rw [hd]
    split
    · rename_i h3; exact mod_add_lt rfl h3
    · rename_i h3
      rw [Nat.add_mod, Nat.mod_eq_of_lt (a := d) (by omega), Nat.mod_eq_sub_mod (by omega), Nat.mod_eq_of_lt (by omega)]
  rw [he, h2] at hm
  cases hb : b.lrfh <;> simp [hb] at hs hm <;> split at hm <;> omega

/-- The state after the read at the beginning of a call. -/
theorem read_step {X : Ctx} (hfin : X.fin = true) {h : Nat} (hh : 2 ≤ h) (hlen : X.s.length % (2 * h) = 0 → X.s = []) {σ : Type} {r : Reader σ} {rest : σ → List Nat}
    (hr : r.Full rest) {src : σ} {p : LogParser} {R : List Nat} {lo rHat : Nat} {c : Cfg} {carry : Option PTok}
    (hR : RRel X h p R lo rHat c carry) (hsrc : rest src = X.s.drop R.length) :
    ∃ R' rHat', (p.readIntoInput r src).2.2 = true ∧ rest (p.readIntoInput r src).1 = X.s.drop R'.length ∧
      (∃ b, (p.readIntoInput r src).2.1 = { p with input := b }) ∧
      (∃ pl, LSim X (p.readIntoInput r src).2.1 pl R' lo rHat' 0 ∧ X.LRel pl c) ∧
      CCarry X (2 * h) 0 0 lo R'.length (p.readIntoInput r src).2.1 carry ∧
      (p.readIntoInput r src).2.1.input.size = 2 * h ∧ (p.readIntoInput r src).2.1.input.active = 0 ∧
      (R' = [] → (p.readIntoInput r src).2.1.input.lastRead = 0) ∧
      ((p.readIntoInput r src).2.1.input.finished = false → lo + h ≤ rHat') := by
  obtain ⟨pl, hS, hL⟩ := hR.sim
  have hI := hS.sim.inv
  have hsz := hR.size
  have h2 : p.input.size / 2 = h := by omega
  have hpre := hS.sim.pre
  by_cases hs : p.input.readIsSafe = true
  · have hf : p.input.finished = false := by
      unfold InBuf.readIsSafe at hs
      cases hb : p.input.finished
      · rfl
      · simp [hb] at hs
    have hrl := hI.unfin hf
    have hcons : p.input.consumed = true → False := fun hc => by have := hS.sim.cfin hc; rw [hf] at this; cases this
    have hlo := hI.lo_le
    have hal := hI.a_le
    obtain ⟨q1, q2⟩ := hr src (p.input.size / 2) (by omega)
    rcases hd : r.read src (p.input.size / 2) with ⟨src', res⟩
    have hdef : p.readIntoInput r src = (src', { p with input := (p.input.applyRead res).1 }, (p.input.applyRead res).2) := by
      unfold LogParser.readIntoInput InBuf.readIfSafe
      rw [if_pos hs, hd]
    rw [hd] at q1 q2
    simp only at q1 q2
    rw [hdef]
    by_cases hre : rest src = []
    · rw [if_pos hre] at q2
      subst q2
      have hRs : R = X.s := by
        obtain ⟨t, ht⟩ := hpre
        rw [← ht, List.drop_left] at hsrc
        rw [hre] at hsrc
        rw [← ht, ← hsrc, List.append_nil]
      refine ⟨R, rHat, rfl, ?_, ⟨_, rfl⟩, ⟨pl, ⟨hS.lexer, ⟨hI.read_eof hs, hS.sim.view, hpre, fun _ => ⟨hRs.symm, hfin, ?_⟩,
        hS.sim.cons, fun _ => rfl⟩, hS.st⟩, hL⟩, hR.kept.mono (Nat.le_refl _) rfl rfl, hsz, hR.active, hR.empty, (fun h => by cases h)⟩
      · simp only; rw [q1, hre, hRs]; simp
      · show p.input.lastRead < p.input.size
        have h3 := hI.last
        have h4 := hI.last_le
        rw [Nat.add_zero] at h3
        refine Decidable.byContradiction fun hn => ?_
        have h5 : p.input.lastRead = p.input.size := by omega
        rw [h5, Nat.mod_self, hsz, hRs] at h3
        have := hR.empty (hRs.trans (hlen h3))
        omega
    · rw [if_neg hre, h2] at q2
      subst q2
      rw [h2] at q1
      have hne : (rest src).take h ≠ [] := by
        intro h0
        rw [List.take_eq_nil_iff] at h0
        rcases h0 with h0 | h0
        · omega
        · exact hre h0
      have hB := hI.read_bytes hs hne (by rw [h2]; simp)
      have hsR : X.s = R ++ rest src := by
        obtain ⟨t, ht⟩ := hpre
        rw [← ht, List.drop_left] at hsrc
        rw [hsrc, ht]
      have hpre' : R ++ (rest src).take h <+: X.s := by
        rw [hsR]
        exact List.prefix_append_right_inj R |>.mpr (List.take_prefix _ _)
      have hmono : R.length ≤ (R ++ (rest src).take h).length := by simp
      refine ⟨R ++ (rest src).take h, rHat + p.input.size / 2, rfl, ?_, ⟨_, rfl⟩, ⟨pl, ⟨hS.lexer, ⟨hB, hS.sim.view, hpre', fun hfi => ⟨?_, hfin, ?_⟩,
        hS.sim.cons, fun hc => (hcons hc).elim⟩, hS.st.mono hmono⟩, hL⟩, hR.kept.mono hmono rfl rfl, hsz, hR.active, ?_, ?_⟩
      · simp only
        rw [q1]
        rw [hsR, List.length_append, List.drop_append, Nat.add_sub_cancel_left, List.length_take,
          List.drop_eq_nil_of_le (as := R) (Nat.le_add_right _ _), List.nil_append]
        rcases Nat.le_total h (rest src).length with h5 | h5
        · rw [Nat.min_eq_left h5]
        · rw [Nat.min_eq_right h5, List.drop_eq_nil_of_le h5, List.drop_eq_nil_of_le (Nat.le_refl _)]
      · have hfi : (p.input.finished || decide (((rest src).take h).length < p.input.size / 2)) = true := hfi
        rw [hf, h2] at hfi
        simp at hfi
        rw [hsR, List.take_of_length_le (by omega)]
      · have hfi : (p.input.finished || decide (((rest src).take h).length < p.input.size / 2)) = true := hfi
        rw [hf, h2] at hfi
        simp at hfi
        exact hB.short (by rw [List.length_append, List.length_take]; omega)
      · intro h0
        exact absurd (List.append_eq_nil_iff.mp h0).2 hne
      · intro _
        have := hI.r_le
        omega
  · have hdef : p.readIntoInput r src = (src, p, true) := by
      unfold LogParser.readIntoInput InBuf.readIfSafe
      rw [if_neg hs]
    rw [hdef]
    refine ⟨R, rHat, rfl, hsrc, ⟨p.input, rfl⟩, ⟨pl, hS, hL⟩, hR.kept, hsz, hR.active, hR.empty, fun hf => ?_⟩
    have hf : p.input.finished = false := hf
    rcases hR.cons hf with ⟨h1, h3, h4⟩ | ⟨h1, h3⟩
    · exfalso
      apply hs
      unfold InBuf.readIsSafe
      rw [if_neg (by simp [hf]), h3, h4, hsz]
      simp; omega
    · exact unsafe_ahead hI hsz (by omega) hf h1 h3 (by simpa using hs)

/-! ### One call -/

/-- The parser can be used for another input. -/
structure PReady (X : Ctx) (h : Nat) (p : LogParser) : Prop where
  lexer : p.lexer = X.L
  numVars : p.view.numVars = X.numVars
  static : 3 ≤ p.view.out.staticSize
  hasStart : p.hasStart = false
  stat : p.input.staticSize = 2 * h
  size : p.input.size = 2 * h
  storage : (p.input.mem 0).length = 2 * h
  fresh : 0 < p.input.nextId

theorem start_toks (ca : Option PTok) : ∀ e, ca.map PEvent.start = some e → e.toks ≠ [] := by
  intro e h
  cases ca with
  | none => cases h
  | some x => cases h; simp [PEvent.start]

theorem call_step {X : Ctx} (hX : X.Ok) (hfin : X.fin = true) {h : Nat} (hh : 2 ≤ h) (hlen : X.s.length % (2 * h) = 0 → X.s = [])
    {σ : Type} {r : Reader σ} {rest : σ → List Nat} (hr : r.Full rest) {P : ReaderParser σ} {R : List Nat} {lo rHat : Nat} {c : Cfg}
    {carry : Option PTok} (hR : RRel X h P.lp R lo rHat c carry) (hst : P.lp.input.staticSize = 2 * h) (hsrc : rest P.src = X.s.drop R.length)
    (hfit : X.s.length < startOf c carry + h - 1 ∨ (CfgOk X.L (X.s.take (startOf c carry + h - 1)) c ∧
      c.cov ≤ (X.s.take (startOf c carry + h - 1)).length ∧
      segment (X.s.take (startOf c carry + h - 1)) (carry.map PEvent.start) (X.L.toks (X.s.take (startOf c carry + h - 1)) false c).1 ≠ []))
    (hnext : ∀ e ca c', EvStep X.L X.s X.fin (carry.map PEvent.start) c e ca c' → e.ts = false → startOf c' ca % h ≠ 0)
    (hlog : ∀ e ∈ segment X.s (carry.map PEvent.start) (X.L.toks X.s X.fin c).1, e.LogOk) (j : Nat) :
    (P.parseNextEvent r (j + 1)).2 = .ok () ∧
    ((∃ e ca c' R' lo' rHat', EvStep X.L X.s X.fin (carry.map PEvent.start) c e ca c' ∧
        (P.parseNextEvent r (j + 1)).1.lp.view.seen (P.parseNextEvent r (j + 1)).1.lp.input.mem = e.seen X.s ∧
        (P.parseNextEvent r (j + 1)).1.done = P.done ∧ RRel X h (P.parseNextEvent r (j + 1)).1.lp R' lo' rHat' c' ca ∧
        rest (P.parseNextEvent r (j + 1)).1.src = X.s.drop R'.length ∧ (P.parseNextEvent r (j + 1)).1.lp.input.staticSize = 2 * h) ∨
     (∃ e, EvLast X.L X.s X.fin (carry.map PEvent.start) c e ∧
        (P.parseNextEvent r (j + 1)).1.lp.view.seen (P.parseNextEvent r (j + 1)).1.lp.input.mem = e.seen X.s ∧
        (P.parseNextEvent r (j + 1)).1.done = true ∧ PReady X h (P.parseNextEvent r (j + 1)).1.lp)) := by
  obtain ⟨q0, hq0⟩ : ∃ q : LogParser, q = { P.lp with view := P.lp.view.reset } := ⟨_, rfl⟩
  have hR0 : RRel X h q0 R lo rHat c carry := by
    obtain ⟨pl, hS, hL⟩ := hR.sim
    subst hq0
    exact ⟨⟨pl, hS.view rfl rfl rfl, hL⟩, hR.kept.mono (Nat.le_refl _) rfl rfl, hR.at_, hR.size, hR.active, hR.above, hR.empty, hR.cons,
      hR.numVars, hR.static⟩
  obtain ⟨R', rHat', a1, a2, ⟨b, a3⟩, ⟨pl, hS, hL⟩, a4, a5, a6, a7, a8⟩ := read_step hfin hh hlen hr hR0 hsrc
  obtain ⟨src', q1, ok, hread⟩ : ∃ src' q1 ok, LogParser.readIntoInput r P.src q0 = (src', q1, ok) := ⟨_, _, _, rfl⟩
  have hstat : q1.input.staticSize = 2 * h := by
    have : ∀ res, (q0.input.applyRead res).1.staticSize = q0.input.staticSize := by
      intro res; cases res <;> rfl
    have h1 : q1.input.staticSize = q0.input.staticSize := by
      have h2 : q1 = (LogParser.readIntoInput r P.src q0).2.1 := by rw [hread]
      rw [h2]
      unfold LogParser.readIntoInput InBuf.readIfSafe
      by_cases hs : q0.input.readIsSafe = true
      · rw [if_pos hs]; exact this _
      · rw [if_neg hs]
    rw [h1, hq0]; exact hst
  rw [hread] at a1 a2 a3 hS a4 a5 a6 a7 a8
  simp only at a1 a2 a3 hS a4 a5 a6 a7 a8
  subst a1
  have hview : q1.view = P.lp.view.reset := by rw [a3, hq0]
  have hpos : q1.view.out.pos = 0 := by rw [hview]; rfl
  have hts : q1.view.out.hasTimestamp = false := by rw [hview]; rfl
  have hsize : 3 ≤ q1.view.out.size := by rw [hview]; exact hR.static
  have hO := parse_circ hX hfin hS hL (by rw [a5, a6]; exact a4) hpos hts hsize
  have hdef : P.parseNextEvent r (j + 1) = match q1.parseAndGenerate with
      | (lp, .ok a) => ({ P with src := src', lp := lp, done := P.done || a == .compressAndFinish }, .ok ())
      | (lp, .error .oob) =>
        match lp.increaseCapacity.readIntoInput r src' with
        | (src, lp, true) => ReaderParser.eventLoop r j { P with lp := lp, src := src }
        | (src, lp, false) => ({ P with lp := lp, src := src }, .error .error)
      | (lp, .error e) => ({ P with lp := lp, src := src' }, .error e) := by
    unfold ReaderParser.parseNextEvent
    rw [← hq0, hread]
    rfl
  have hI := hS.sim.inv
  unfold COutcome at hO
  rw [a5, a6] at hO
  rcases hO with ⟨_, o2, o3⟩ | ⟨hF, hsb, hO⟩
  · -- the buffer can not run out
    exfalso
    have h1 := a8 o2
    have h2 := hI.unfin o2
    have h3 := hS.sim.pre.length_le
    have h4 := hR.above
    rcases hfit with h5 | ⟨h5, h6, h7⟩
    · omega
    · refine h7 (o3 _ ?_ h5 h6)
      obtain ⟨t, ht⟩ := hS.sim.pre
      rw [← ht, List.take_append_of_le_length (by omega)]
      exact List.take_prefix _ _
  · obtain ⟨lp, act, hlp⟩ : ∃ lp act, q1.parse = (lp, act) := ⟨_, _, rfl⟩
    rw [hlp] at hF hsb hO
    simp only at hF hsb hO
    have hocc : lp.view.occ = fun _ => [] := by rw [hF.occ, hview]; rfl
    have hml : lp.view.multiline = false := by rw [hF.multiline, hview]; rfl
    have hnv : lp.view.numVars = X.numVars := by rw [hF.numVars, hview]; exact hR.numVars
    have hmem : lp.input.mem = q1.input.mem := by obtain ⟨_, _, _, h⟩ := hsb; rw [h]
    have hstt : 3 ≤ lp.view.out.staticSize := by rw [hF.static, hview]; exact hR.static
    obtain ⟨pl0, hS0, hL0⟩ := hR.sim
    have hok := hL0.ok
    have hcov := hL0.cov
    rcases hO with ⟨rfl, e, ca, c', pl', n, o1, o2, o3, o4, o5, o6, o7, ⟨o8, o9⟩, o10⟩ | ⟨rfl, o1, e, o2, o3⟩
    · have hseg := EvStep.segment hX.nl hX.types o1 hok hcov
      have hne := segment_nonempty (s := X.s) _ _ (start_toks carry) e (by rw [hseg]; simp)
      obtain ⟨v, m1, m2, m3, m4⟩ := metadata_circ hI a5 a6 hmem hS.sim.pre o2 hnv hocc hml hne (hlog e (by rw [hseg]; simp))
      obtain ⟨⟨f1, _, _⟩, f2, f3, _⟩ := EvStep.facts hX.nl hX.types o1 hok hcov
      have hgen : q1.parseAndGenerate = ({ lp with view := v }, .ok .compress) := by
        unfold LogParser.parseAndGenerate
        rw [hlp]
        simp only [m1]
      rw [hdef, hgen]
      refine ⟨rfl, .inl ⟨e, ca, c', R', n, rHat', o1, m2, by simp, ⟨⟨pl', o3.view rfl rfl rfl, o4⟩, ?_, f3, ?_, ?_, o7, ?_, ?_, ?_, ?_⟩, a2, ?_⟩⟩
      · exact o5.mono (Nat.le_refl _) rfl rfl
      · obtain ⟨_, _, _, h⟩ := hsb; rw [h]; exact a5
      · obtain ⟨_, _, _, h⟩ := hsb; rw [h]; exact a6
      · intro h0; obtain ⟨_, _, _, h⟩ := hsb; rw [h]; exact a7 h0
      · intro hf
        right
        have hf1 : q1.input.finished = false := by obtain ⟨_, _, _, h⟩ := hsb; rw [h] at hf; exact hf
        have hrl := hI.unfin hf1
        have hcr := cov_le_read o3 o4
        refine ⟨by rw [← Nat.add_zero n]; exact o10, ?_⟩
        cases ca with
        | none =>
          have h1 := hnext e none c' o1 (f2 rfl)
          have hed := hI.edge
          rw [a5, Nat.add_zero] at hed
          have hmod : rHat' % h = 0 := by
            have : rHat' % (2 * h) % h = rHat' % h := Nat.mod_mod_of_dvd _ ⟨2, by omega⟩
            rw [← this, hed]
            split
            · rw [show 2 * h / 2 = h by omega, Nat.mod_self]
            · simp
          refine Decidable.byContradiction fun hn => ?_
          simp only [startOf] at h1 o7 o8
          have : c'.cov = rHat' := by omega
          rw [this] at h1
          exact h1 hmod
        | some x =>
          obtain ⟨h1, h2⟩ := f3 x rfl
          have := o9 (by simp)
          simp only [startOf] at this
          omega
      · exact m3.trans hnv
      · show 3 ≤ v.out.staticSize; rw [m4]; exact hstt
      · obtain ⟨_, _, _, h⟩ := hsb; show lp.input.staticSize = _; rw [h]; exact hstat
    · have hseg := o2.segment hX.nl hX.types hok hcov
      have hne := segment_nonempty (s := X.s) _ _ (start_toks carry) e (by rw [hseg]; simp)
      obtain ⟨v, m1, m2, m3, m4⟩ := metadata_circ hI a5 a6 hmem hS.sim.pre o3 hnv hocc hml hne (hlog e (by rw [hseg]; simp))
      have hgen : q1.parseAndGenerate = ({ lp with view := v }, .ok .compressAndFinish) := by
        unfold LogParser.parseAndGenerate
        rw [hlp]
        simp only [m1]
      rw [hdef, hgen]
      refine ⟨rfl, .inr ⟨e, o2, m2, by simp, ⟨?_, ?_, ?_, o1, ?_, ?_, ?_, ?_⟩⟩⟩
      · exact hF.lexer.trans hS.lexer
      · exact m3.trans hnv
      · show 3 ≤ v.out.staticSize; rw [m4]; exact hstt
      · obtain ⟨_, _, _, h⟩ := hsb; show lp.input.staticSize = _; rw [h]; exact hstat
      · obtain ⟨_, _, _, h⟩ := hsb; show lp.input.size = _; rw [h]; exact a5
      · show (lp.input.mem 0).length = _
        rw [hmem]
        have := hI.stor
        rw [a5, a6] at this; exact this
      · obtain ⟨_, _, _, h⟩ := hsb; show 0 < lp.input.nextId; rw [h]
        have := hI.fresh
        rw [a6] at this; exact this

/-! ### All calls -/

/-- A complete text has an event from every configuration on. -/
theorem segment_fin {L : Lexer} (hL : NlOk L) (hT : TypesProper L) {s : List Nat} : ∀ (n : Nat) (c : Cfg) (cur : Option PEvent), CfgOk L s c →
    c.cov ≤ s.length → s.length - c.cov < n → segment s cur (L.toks s true c).1 ≠ [] := by
  intro n
  induction n with
  | zero => intro c cur _ _ h; omega
  | succ n ih =>
    intro c cur hc hcl hn
    cases hx : L.nextTok s true c with
    | none =>
      obtain ⟨y, hy⟩ := nextTok_fin (L := L) (s := s) (c := c)
      rw [hx] at hy; cases hy
    | some y =>
      obtain ⟨x, c1⟩ := y
      by_cases he : x.ty = [tokenEnd]
      · rw [toks_end hL hT hc hcl hx he]
        cases cur <;> simp [segment, kind_of_end he]
      · by_cases hk : x.kind = tokenEnd
        · have := toks_eq (fin := true) hL hT hc hcl
          rw [hx] at this
          simp only at this
          rw [if_neg he] at this
          rw [this]
          cases cur <;> simp [segment, hk]
        · obtain ⟨h1, h2, h3, h4, h5, h6⟩ := toks_step hL hT hc hcl hx hk
          rw [h1]
          have := fun cur => ih c1 cur h2 h3 (by omega)
          cases cur with
          | none =>
            simp only [segment]
            rw [if_neg hk]
            split
            · simp
            · exact this _
          | some e =>
            simp only [segment]
            rw [if_neg hk]
            split
            · simp
            · split
              · simp
              · exact this _

/-- How the events of a beginning of the text continue from configuration `c`, after `i` events. -/
def Restr (L : Lexer) (w : List Nat) (q i : Nat) (c : Cfg) (cur : Option PEvent) : Prop :=
  ∀ V, V <+: w → (segment V none (L.toks V false (.sof q)).1).length ≤ i ∨ (CfgOk L V c ∧ c.cov ≤ V.length ∧
    (segment V none (L.toks V false (.sof q)).1).length = i + (segment V cur (L.toks V false c).1).length)

/-- The condition of `BufferParser.Fits`, for the events as ranges. -/
def FitsE (L : Lexer) (w : List Nat) (q h : Nat) (E : List PEvent) : Prop :=
  ∀ i, i < E.length → (0 < i → ((E.take i).flatMap (PEvent.text w)).length % h ≠ 0 ∨ ∃ e, E[i - 1]? = some e ∧ e.ts = true) ∧
    (w.length < ((E.take i).flatMap (PEvent.text w)).length + h - 1 ∨
      i < (segment (w.take (((E.take i).flatMap (PEvent.text w)).length + h - 1)) none
        (L.toks (w.take (((E.take i).flatMap (PEvent.text w)).length + h - 1)) false (.sof q)).1).length)

theorem parseAll_reader {X : Ctx} (hX : X.Ok) (hfin : X.fin = true) {h : Nat} (hh : 2 ≤ h) (hlen : X.s.length % (2 * h) = 0 → X.s = [])
    {σ : Type} {r : Reader σ} {rest : σ → List Nat} (hr : r.Full rest) {q : Nat} {E : List PEvent} (hF : FitsE X.L X.s q h E)
    (hlog : ∀ e ∈ E, e.LogOk) (j : Nat) :
    ∀ (k : Nat) (P : ReaderParser σ) (pre : List PEvent) (R : List Nat) (lo rHat : Nat) (c : Cfg) (carry : Option PTok),
      RRel X h P.lp R lo rHat c carry → P.lp.input.staticSize = 2 * h → rest P.src = X.s.drop R.length → P.done = false →
      E = pre ++ segment X.s (carry.map PEvent.start) (X.L.toks X.s X.fin c).1 →
      startOf c carry = (pre.flatMap (PEvent.text X.s)).length → Restr X.L X.s q pre.length c (carry.map PEvent.start) →
      X.s.length - c.cov < k →
      (P.parseAll r (j + 1) k).status = none ∧
      (P.parseAll r (j + 1) k).events = (segment X.s (carry.map PEvent.start) (X.L.toks X.s X.fin c).1).map (PEvent.seen X.s) ∧
      PReady X h (P.parseAll r (j + 1) k).parser.lp := by
  intro k
  induction k with
  | zero => intro P pre R lo rHat c carry _ _ _ _ _ _ _ hk; omega
  | succ k ih =>
    intro P pre R lo rHat c carry hR hst hsrc hdone hE hstart hres hk
    obtain ⟨pl0, hS0, hL0⟩ := hR.sim
    have hok := hL0.ok
    have hcov := hL0.cov
    have hfin1 : ∀ c cur, CfgOk X.L X.s c → c.cov ≤ X.s.length → segment X.s cur (X.L.toks X.s X.fin c).1 ≠ [] := by
      intro c cur h1 h2
      rw [hfin]; exact segment_fin hX.nl hX.types _ c cur h1 h2 (Nat.lt_succ_self _)
    have hat : startOf c carry ≤ c.cov ∧ curText X.s (carry.map PEvent.start) = slice X.s (startOf c carry) c.cov := by
      cases carry with
      | none => exact ⟨Nat.le_refl _, by simp [curText, startOf, slice]⟩
      | some x =>
        obtain ⟨h1, h2⟩ := hR.at_ x rfl
        refine ⟨by show x.a ≤ _; omega, ?_⟩
        show (PEvent.start x).text X.s = _
        rw [text_start, ← h1]; rfl
    have hi : pre.length < E.length := by
      have := List.length_pos_iff.mpr (hfin1 c (carry.map PEvent.start) hok hcov)
      rw [hE, List.length_append]; omega
    have htake : E.take pre.length = pre := by rw [hE, List.take_left]
    obtain ⟨hA, hB⟩ := hF pre.length hi
    rw [htake, ← hstart] at hB
    -- one more event
    have hstep : ∀ e ca c', EvStep X.L X.s X.fin (carry.map PEvent.start) c e ca c' →
        startOf c' ca = ((pre ++ [e]).flatMap (PEvent.text X.s)).length ∧
        E = (pre ++ [e]) ++ segment X.s (ca.map PEvent.start) (X.L.toks X.s X.fin c').1 := by
      intro e ca c' hev
      obtain ⟨⟨f1, f2, f3⟩, f4, f5, f6⟩ := EvStep.facts hX.nl hX.types hev hok hcov
      obtain ⟨g1, g2⟩ := f6 _ hat.1 hat.2
      have hle : startOf c' ca ≤ X.s.length := by
        cases ca with
        | none => exact f3
        | some x => obtain ⟨k1, k2⟩ := f5 x rfl; show x.a ≤ _; omega
      refine ⟨?_, ?_⟩
      · rw [List.flatMap_append, List.length_append, ← hstart]
        simp only [List.flatMap_cons, List.flatMap_nil, List.append_nil, g1]
        unfold slice
        simp; omega
      · rw [hE, EvStep.segment hX.nl hX.types hev hok hcov]; simp
    have hcall := call_step hX hfin hh hlen hr hR hst hsrc (by
        rcases hB with hB | hB
        · exact .inl hB
        · right
          rcases hres _ (List.take_prefix (startOf c carry + h - 1) X.s) with h1 | ⟨h1, h2, h3⟩
          · omega
          · refine ⟨h1, h2, fun h0 => ?_⟩
            rw [h0] at h3
            simp at h3
            omega) (by
        intro e ca c' hev hts
        obtain ⟨k1, k2⟩ := hstep e ca c' hev
        obtain ⟨⟨f1, f2, f3⟩, _⟩ := EvStep.facts hX.nl hX.types hev hok hcov
        have h2 : pre.length + 1 < E.length := by
          have := List.length_pos_iff.mpr (hfin1 c' (ca.map PEvent.start) f2 f3)
          rw [k2]; simp only [List.length_append, List.length_singleton]; omega
        have h3 : E.take (pre.length + 1) = pre ++ [e] := by
          rw [k2, List.take_append_of_le_length (by simp), List.take_of_length_le (by simp)]
        have := (hF (pre.length + 1) h2).1 (by omega)
        rw [h3, ← k1] at this
        rcases this with h4 | ⟨e', h4, h5⟩
        · exact h4
        · exfalso
          rw [k2, Nat.add_sub_cancel, List.append_assoc, List.getElem?_append_right (Nat.le_refl _)] at h4
          simp at h4
          rw [h4] at hts
          rw [hts] at h5; cases h5) (fun e he => hlog e (by rw [hE]; exact List.mem_append_right _ he)) j
    unfold ReaderParser.parseAll
    generalize P.parseNextEvent r (j + 1) = res at hcall
    obtain ⟨P', o⟩ := res
    simp only at hcall ⊢
    obtain ⟨rfl, hcall⟩ := hcall
    rcases hcall with ⟨e, ca, c', R', lo', rHat', c1, c2, c3, c4, c5, c6⟩ | ⟨e, c1, c2, c3, c4⟩
    · simp only
      have hd : P'.done = false := c3.trans hdone
      rw [if_neg (by simp [hd])]
      obtain ⟨k1, k2⟩ := hstep e ca c' c1
      obtain ⟨⟨f1, f2, f3⟩, _⟩ := EvStep.facts hX.nl hX.types c1 hok hcov
      have hres' : Restr X.L X.s q (pre ++ [e]).length c' (ca.map PEvent.start) := by
        intro V hV
        rw [List.length_append, List.length_singleton]
        rcases hres V hV with h1 | ⟨h1, h2, h3⟩
        · left; omega
        · rcases EvStep.restrict hX.nl hX.types hV c1 h1 h2 with h4 | ⟨h4, h5, h6⟩
          · left; rw [h4] at h3; simp at h3; omega
          · right
            refine ⟨h4, h5, ?_⟩
            rw [h6] at h3
            rw [h3, List.length_cons]; omega
      obtain ⟨i1, i2, i3⟩ := ih P' (pre ++ [e]) R' lo' rHat' c' ca c4 c6 c5 hd k2 k1 hres' (by omega)
      refine ⟨i1, ?_, i3⟩
      simp only
      rw [i2, c2, EvStep.segment hX.nl hX.types c1 hok hcov, List.map_cons]
    · simp only
      rw [if_pos c3]
      refine ⟨rfl, ?_, c4⟩
      simp only
      rw [c2, EvLast.segment hX.nl hX.types c1 hok hcov]; rfl

/-! ### A whole run -/

theorem evOut_seen {X : Ctx} (hX : X.Ok) {o : EventOut} {e : PEvent} (h : X.EvOut o e) (hne : e.ts = true → ∃ x, e.toks.head? = some x)
    (hlog : e.LogOk) {m : Mem}
    (hm : m X.ptr = X.content) : o.view.seen m = e.seen X.s := by
  have htx : ∀ (i : Nat) (x : PTok), e.toks[i]? = some x → (o.view.out.get (off e + i)).shown m = (some (x.text X.s), some x.ty) := ?_
  · refine seen_of h.ev.out.ts h.ev.out.pos htx h.ev.multiline h.ev.occ hne (fun i x hx hi names => ?_) (fun i x hx => ?_)
    rotate_left
    · have ht := h.ev.out.toks i x hx
      have hg := h.ev.out.good x (List.mem_of_getElem? hx)
      have hst := hg.stop
      have hsz := hX.size_le
      have hle := hg.le
      refine ⟨⟨⟨?_, ?_⟩, fun hw => ?_, fun hw => ?_⟩, hg.types, by rw [h.ev.numVars]; exact hg.kind⟩
      · rw [ht.stop, ht.size]; omega
      · rw [ht.stop, ht.buf, hm]; omega
      · rw [ht.stop, ht.start] at hw; omega
      · rw [ht.stop, ht.start] at hw; omega
    have ht := h.ev.out.toks i x hx
    have hg := h.ev.out.good x (List.mem_of_getElem? hx)
    have hst := hg.stop
    have hsz := hX.size_le
    refine logtypeToken_of ?_ (congrArg Prod.fst (htx i x hx)) fun hu => ?_
    · unfold Token.type0 PTok.kind
      rw [ht.types]
      cases hl : x.ty with
      | nil => exact absurd hl hg.types
      | cons a l => rfl
    · have hlt : x.a < x.e := (hlog.at hx hi).resolve_left hu
      rw [Token.getDelimiter, ht.start, ht.buf, hm, readRange_ok (by omega) (by omega)]
      unfold PTok.text Ctx.s
      rw [slice_take hst]
      unfold slice
      rw [List.take_take, Nat.min_eq_left (by omega), Nat.add_sub_cancel_left]
  intro i x hx
  have ht := h.ev.out.toks i x hx
  have hg := h.ev.out.good x (List.mem_of_getElem? hx)
  have hle := hg.le
  have hst := hg.stop
  have := hX.size_le
  unfold Token.shown Token.toStringView readRange
  rw [ht.start, ht.stop, ht.buf, hm, if_pos hle, show x.a + (x.e - x.a) = x.e by omega, if_pos (by omega), ht.types]
  simp only [Option.map_some, Ctx.s, PTok.text]
  rw [slice_take hst]
  rfl

variable {s : SchemaAST} {addr : Nat → Nat} {t : ParserTables} {L : Lexer}

/-- What the buffer parser shows of a text. -/
theorem seenOf_spec (hC : s.Compiled addr t L) (hv : s.vars ≠ []) : ∃ q, L.dfa.next 0 cCharStartOfFile = some q ∧
    L.dfa.isAccepting q = false ∧ ∀ {p : BufferParser} (_ : p.Idle t L) (fin : Bool) (w : List Nat),
      p.seenOf w fin = (segment w none (L.toks w fin (.sof q)).1).map (PEvent.seen w) := by
  obtain ⟨q, hq, hqa, hspec⟩ := parseBuffer_spec hC hv
  refine ⟨q, hq, hqa, ?_⟩
  intro p hI fin w
  have hX := ctx_ok hC fin 1 (content := w ++ [0]) (size := w.length) (by simp) (by simp)
  have hB := hspec hI fin 1 (content := w ++ [0]) (size := w.length) (by simp) (by simp) (k := w.length + 1) (by omega)
  have hw : (w ++ [0]).take w.length = w := by simp
  have hE := hB.events
  rw [hw] at hE
  have hne := segment_nonempty (s := w) (L.toks w fin (.sof q)).1 none (fun e h => by cases h)
  have hlog : ∀ e ∈ segment w none (L.toks w fin (.sof q)).1, e.LogOk := logtype_nonempty hC hq hqa fin w
  unfold BufferParser.seenOf
  generalize (p.parseBuffer (w.length + 1) 1 (w ++ [0]) w.length fin).events = os at hE
  generalize segment w none (L.toks w fin (.sof q)).1 = es at hE hne hlog
  induction hE with
  | nil => rfl
  | @cons o e os es h1 _ ih =>
    rw [List.map_cons, List.map_cons, ih (fun e he => hne e (by simp [he])) (fun e he => hlog e (by simp [he])),
      evOut_seen hX h1 (hne e (by simp)) (hlog e (by simp)) (m := fun _ => w ++ [0]) rfl]
    show PEvent.seen ((w ++ [0]).take w.length) e :: _ = _
    rw [hw]

theorem seenLength_map (w : List Nat) (E : List PEvent) (i : Nat) :
    seenLength (E.map (PEvent.seen w)) i = ((E.take i).flatMap (PEvent.text w)).length := by
  unfold seenLength
  rw [← List.map_take, List.map_map, List.length_flatMap]
  rfl

theorem Reader.fits_of (hC : s.Compiled addr t L) {q : Nat} {pb : BufferParser} {h : Nat} {w : List Nat}
    (hs : ∀ (fin : Bool) (w : List Nat), pb.seenOf w fin = (segment w none (L.toks w fin (.sof q)).1).map (PEvent.seen w))
    (hfit : pb.Fits h w) : FitsE L w q h (segment w none (L.toks w true (.sof q)).1) := by
  intro i hi
  unfold BufferParser.Fits at hfit
  simp only [hs, List.length_map, seenLength_map] at hfit
  obtain ⟨h1, h2⟩ := hfit i hi
  refine ⟨fun h0 => ?_, h2⟩
  rcases h1 h0 with h3 | ⟨x, h3, h4⟩
  · exact .inl h3
  · right
    rw [List.getElem?_map] at h3
    cases he : (segment w none (L.toks w true (.sof q)).1)[i - 1]? with
    | none => rw [he] at h3; simp at h3
    | some e =>
      rw [he] at h3
      simp only [Option.map_some, Option.some.injEq] at h3
      exact ⟨e, rfl, by rw [← h4, ← h3]; rfl⟩

/-- The state after `reset_and_set_reader`. -/
theorem rrel_reset (hC : s.Compiled addr t L) {σ : Type} {P : ReaderParser σ} {h : Nat} (hh : 2 ≤ h) (hI : P.Idle t L h) {q : Nat}
    (hq : L.dfa.next 0 cCharStartOfFile = some q) (hqa : L.dfa.isAccepting q = false) (w : List Nat) (src : σ) :
    RRel ⟨L, true, 1, w ++ [0], w.length, t.idSymbol.length⟩ h (P.resetAndSetReader src).lp [] 0 0 (.sof q) none := by
  obtain ⟨i1, i2, i3, i4, i5, i6, i7⟩ := hI
  have hX := ctx_ok hC true 1 (content := w ++ [0]) (size := w.length) (by simp) (by simp)
  have hIb : ({ lp := P.lp } : BufferParser).Idle t L := ⟨i1, i2, i3, i4⟩
  have hB := brel_reset hC hIb hq hqa true 1 (w ++ [0]) w.length
  have hL := hB.setup hX
  have hlex : (P.resetAndSetReader src).lp.lex = L.prependStartOfFile {} P.lp.input.reset := by
    show P.lp.lexer.prependStartOfFile (Lexer.reset P.lp.lex) P.lp.input.reset = _
    rw [i1]; rfl
  have hlex' : (Ctx.setup ⟨L, true, 1, w ++ [0], w.length, t.idSymbol.length⟩ ({ lp := P.lp } : BufferParser).reset 0).lex =
      L.prependStartOfFile {} P.lp.input.reset := by
    show P.lp.lexer.prependStartOfFile (Lexer.reset P.lp.lex) P.lp.input.reset = _
    rw [i1]; rfl
  have hinv : BufInv P.lp.input.reset [] 0 0 0 0 := BufInv.reset _ (by omega) i5 (by rw [i6, i5]) i7
  have hz : InWin P.lp.input.reset.size 0 0 0 0 0 := ⟨by simp, Nat.le_refl _, Nat.le_refl _⟩
  refine ⟨⟨Ctx.setup ⟨L, true, 1, w ++ [0], w.length, t.idSymbol.length⟩ ({ lp := P.lp } : BufferParser).reset 0, ⟨i1, ⟨hinv, hL.input.view, List.nil_prefix, (fun h => by cases h), rfl, (fun h => by cases h)⟩, ?_⟩, hL⟩, i4, (fun x hx => by cases hx),
    i5, rfl, by simp [startOf, Cfg.cov], fun _ => rfl, fun _ => .inl ⟨rfl, ?_, rfl⟩, i2, i3⟩
  · rw [hlex, hlex']
    exact ⟨rfl, fun _ => hz, fun _ => hz, (fun h => by cases h)⟩
  · show P.lp.input.staticSize - 1 = _
    rw [i5]

/-- A run over a text whose events fit the buffer. -/
theorem parseReader_spec (hC : s.Compiled addr t L) (hv : s.vars ≠ []) {h : Nat} (hh : 2 ≤ h) {σ : Type} {r : Reader σ} {rest : σ → List Nat}
    (hr : r.Full rest) {P : ReaderParser σ} (hI : P.Idle t L h) {pb : BufferParser} (hIb : pb.Idle t L) (src : σ)
    (hlen : (rest src).length % (2 * h) = 0 → rest src = []) (hfit : pb.Fits h (rest src)) {j k : Nat} (hj : 0 < j) (hk : (rest src).length < k) :
    (P.parseReader r j k src).status = none ∧ (P.parseReader r j k src).events = pb.seenOf (rest src) true ∧
    (P.parseReader r j k src).parser.lp.input.size = 2 * h ∧ (P.parseReader r j k src).parser.Idle t L h := by
  obtain ⟨q, hq, hqa, hs⟩ := seenOf_spec hC hv
  obtain ⟨j, rfl⟩ : ∃ i, j = i + 1 := ⟨j - 1, by omega⟩
  have hX := ctx_ok hC true 1 (content := rest src ++ [0]) (size := (rest src).length) (by simp) (by simp)
  have hw : Ctx.s ⟨L, true, 1, rest src ++ [0], (rest src).length, t.idSymbol.length⟩ = rest src := by simp [Ctx.s]
  have hF := Reader.fits_of hC (hs hIb) hfit
  have hres : Restr L (rest src) q 0 (.sof q) none := by
    intro V _
    right
    exact ⟨⟨hq, hqa⟩, Nat.zero_le _, by simp⟩
  have := parseAll_reader hX rfl hh (by rw [hw]; exact hlen) hr (q := q) (E := segment (rest src) none (L.toks (rest src) true (.sof q)).1)
    (by rw [hw]; exact hF) (logtype_nonempty hC hq hqa true (rest src)) j k (P.resetAndSetReader src) [] [] 0 0 (.sof q) none (rrel_reset hC hh hI hq hqa (rest src) src) hI.size
    (by rw [hw]; rfl) rfl (by rw [hw]; rfl) rfl (by rw [hw]; exact hres) (by rw [hw]; simp only [Cfg.cov]; omega)
  rw [hw] at this
  obtain ⟨h1, h2, h3⟩ := this
  refine ⟨h1, ?_, h3.size, ⟨h3.lexer, h3.numVars, h3.static, h3.hasStart, h3.stat, h3.storage, h3.fresh⟩⟩
  rw [hs hIb]
  exact h2

end LogSurgeon
