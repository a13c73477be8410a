import Verif.Model.LogEvent
import Verif.Proofs.OutBuf
import Verif.Proofs.Token
import Verif.Spec.LogEvent
import Mathlib.Data.List.Forall2
/-
Copying a log event.
-/
namespace LogSurgeon
namespace EventView

theorem writeChars_spec : ∀ (s buf : List Nat) (pos : Nat), pos + s.length ≤ buf.length →
    writeChars buf pos s = some (buf.take pos ++ s ++ buf.drop (pos + s.length), pos + s.length) := by
  intro s
  induction s with
  | nil => intro buf pos _; simp [writeChars]
  | cons c cs ih =>
    intro buf pos h
    simp only [List.length_cons] at h
    rw [writeChars, if_pos (by omega), ih _ _ (by simp; omega)]
    congr 1
    congr 1
    · rw [List.take_add_one, List.take_set_of_le (by omega)]
      rw [List.drop_set_of_lt (by omega)]
      have : (buf.set pos c)[pos]? = some c := List.getElem?_set_self (by omega)
      rw [this]
      simp [Nat.add_assoc, Nat.add_comm 1]
    · simp; omega

/-- The state of the copying loop: the tokens copied so far, with their texts. -/
structure Copied (newPtr bufSize : Nat) (ts : List Token) (txts : List (List Nat)) (buf : List Nat) (pos : Nat) (o0 o : OutBuf) :
    Prop where
  len : buf.length = bufSize
  text : buf.take pos = txts.flatten
  posLe : pos ≤ bufSize
  count : o.pos = ts.length
  room : o.pos < o.size
  hasTs : o.hasTimestamp = o0.hasTimestamp
  delims : o.hasDelims = o0.hasDelims
  toks : ∀ (i : Nat) (t : Token) (x : List Nat), ts[i]? = some t → txts[i]? = some x →
    (o.get i).startPos = ((txts.take i).flatten).length ∧ (o.get i).endPos = (o.get i).startPos + x.length ∧
    (o.get i).buf = newPtr ∧ (o.get i).types = t.types ∧ (o.get i).wrap = [] ∧ (o.get i).bufSize = bufSize

theorem copyLoop_spec {m : Mem} {newPtr bufSize : Nat} {o0 : OutBuf} : ∀ (ts : List Token) (txts : List (List Nat))
    (done : List Token) (dtx : List (List Nat)) (buf : List Nat) (pos : Nat) (o : OutBuf),
    List.Forall₂ (fun t x => (t.toStringView m).map (·.1) = some x) ts txts → done.length = dtx.length →
    pos + txts.flatten.length = bufSize → Copied newPtr bufSize done dtx buf pos o0 o →
    ∃ buf' o', copyLoop m newPtr bufSize ts buf pos o = .ok (buf', o') ∧
      Copied newPtr bufSize (done ++ ts) (dtx ++ txts) buf' bufSize o0 o' := by
  intro ts
  induction ts with
  | nil =>
    intro txts done dtx buf pos o h hl hsz hc
    cases h
    simp only [List.flatten_nil, List.length_nil, Nat.add_zero] at hsz
    subst hsz
    exact ⟨buf, o, rfl, by simpa using hc⟩
  | cons t ts ih =>
    intro txts done dtx buf pos o h hl hsz hc
    cases h with
    | cons h1 h2 =>
      rename_i x txts
      rw [copyLoop]
      simp only [List.flatten_cons, List.length_append] at hsz
      cases hv : t.toStringView m with
      | none => rw [hv] at h1; cases h1
      | some sv =>
        obtain ⟨s, t'⟩ := sv
        rw [hv] at h1
        simp only [Option.map_some, Option.some.injEq] at h1
        subst h1
        simp only
        rw [writeChars_spec _ _ _ (by rw [hc.len]; omega)]
        simp only
        obtain ⟨o1, e1, e2, e3, e4, e5, e6, e7⟩ := OutBuf.setToken_some (o := o) (i := o.pos)
          { startPos := pos, endPos := pos + s.length, buf := newPtr, bufSize := bufSize, line := 0, types := t.types } hc.room
        have e1' : o.setCurr { startPos := pos, endPos := pos + s.length, buf := newPtr, bufSize := bufSize, line := 0, types := t.types } = some o1 := e1
        rw [e1']
        simp only
        have hroom1 : o1.pos < o1.size := by rw [e5, e6]; exact hc.room
        obtain ⟨a1, a2, a3, a4, a5, a6, a7⟩ := OutBuf.advance_spec hroom1
        have hcat : (done ++ [t]) ++ ts = done ++ t :: ts := by simp
        have hcat2 : (dtx ++ [s]) ++ txts = dtx ++ s :: txts := by simp
        have hpl : (buf.take pos).length = pos := by rw [List.length_take, hc.len]; have := hc.posLe; omega
        have htxl : dtx.flatten.length = pos := by rw [← hc.text]; exact hpl
        rw [← hcat, ← hcat2]
        apply ih txts (done ++ [t]) (dtx ++ [s])
        · exact h2
        · simp [hl]
        · omega
        · refine ⟨?_, ?_, by omega, ?_, ?_, ?_, ?_, ?_⟩
          · simp only [List.length_append, List.length_drop, hpl, hc.len]; omega
          · rw [List.take_append_of_le_length (by simp [hpl])]
            rw [List.take_of_length_le (by simp [hpl])]
            rw [hc.text]; simp
          · rw [a2, e5, hc.count]; simp
          · exact a3
          · rw [a4, e3]; exact hc.hasTs
          · rw [a5, e4]; exact hc.delims
          · intro i t2 x hi hx
            rcases Nat.lt_or_ge i done.length with hlt | hge
            · rw [List.getElem?_append_left hlt] at hi
              rw [List.getElem?_append_left (by omega)] at hx
              have hg : o1.advance.get i = o.get i := by
                rw [a1 i (by rw [e6]; have := hc.room; have := hc.count; omega), e2, if_neg (by have := hc.count; omega)]
              rw [hg, List.take_append_of_le_length (by omega)]
              exact hc.toks i t2 x hi hx
            · have hie : i = done.length := by
                have := (List.getElem?_eq_some_iff.mp hi).1
                simp at this; omega
              subst hie
              simp only [List.getElem?_append_right (Nat.le_refl _), Nat.sub_self, List.getElem?_cons_zero,
                Option.some.injEq] at hi
              rw [hl, List.getElem?_append_right (Nat.le_refl _)] at hx
              simp only [Nat.sub_self, List.getElem?_cons_zero, Option.some.injEq] at hx
              subst hi; subst hx
              have hg : o1.advance.get done.length =
                  { startPos := pos, endPos := pos + s.length, buf := newPtr, bufSize := bufSize, line := 0, types := t.types } := by
                rw [a1 _ (by rw [e6]; have := hc.room; have := hc.count; omega), e2, if_pos hc.count.symm]
              rw [hg, hl, List.take_append_of_le_length (Nat.le_refl _), List.take_length]
              exact ⟨htxl.symm, rfl, rfl, rfl, rfl, rfl⟩

/-- Positions of tokens of a type. -/
theorem copyOcc_spec : ∀ (is : List Nat) (v : EventView), (∀ i ∈ is, ∃ ty tys, (v.out.get i).types = some (ty :: tys) ∧ ty < v.numVars) →
    ∃ c, copyOcc is v = .ok c ∧ c.out = v.out ∧ c.multiline = v.multiline ∧ c.numVars = v.numVars ∧
      ∀ id, c.occ id = v.occ id ++ is.filter fun i => ((v.out.get i).types.bind List.head?) == some id := by
  intro is
  induction is with
  | nil => intro v _; exact ⟨v, rfl, rfl, rfl, rfl, fun id => by simp⟩
  | cons i is ih =>
    intro v h
    obtain ⟨ty, tys, h1, h2⟩ := h i (by simp)
    rw [copyOcc, h1]
    simp only
    rw [addToken, if_pos h2]
    simp only
    obtain ⟨c, g1, g2, g3, g4, g5⟩ := ih { v with occ := fun j => if j = ty then v.occ j ++ [i] else v.occ j }
      (fun j hj => h j (by simp [hj]))
    refine ⟨c, g1, g2, g3, g4, fun id => ?_⟩
    rw [g5 id]
    simp only [List.filter_cons, h1, Option.bind_some, List.head?_cons]
    by_cases hid : id = ty
    · subst hid; simp
    · rw [if_neg hid]
      have : ¬ (some ty == some id) = true := by simp; exact fun h => hid h.symm
      rw [if_neg this]

theorem texts_ok {m : Mem} : ∀ (ts : List Token), (∀ t ∈ ts, t.Valid m) →
    ∃ txts, List.Forall₂ (fun t x => t.Stands m x) ts txts ∧
      List.Forall₂ (fun t x => (t.toStringView m).map (·.1) = some x) ts txts ∧
      (ts.map Token.getLength).sum = txts.flatten.length ∧ texts m ts = some txts.flatten := by
  intro ts
  induction ts with
  | nil => intro _; exact ⟨[], .nil, .nil, rfl, rfl⟩
  | cons t ts ih =>
    intro h
    obtain ⟨txts, h1, h2, h3, h4⟩ := ih (fun t ht => h t (by simp [ht]))
    obtain ⟨x, t', a1, a2, a3, a4, a5, a6⟩ := Token.read_ok (h t (by simp))
    refine ⟨x :: txts, .cons a3 h1, .cons (by rw [a2]; rfl) h2, ?_, ?_⟩
    · simp [h3, Token.length_ok (h t (by simp)) a3]
    · simp [texts, a2, h4]

/-- A token of the copy is a range of the new buffer. -/
theorem copied_seen {m' : Mem} {newPtr bufSize : Nat} {ts : List Token} {txts : List (List Nat)} {buf : List Nat} {o0 o : OutBuf}
    (h : Copied newPtr bufSize ts txts buf bufSize o0 o) (hm : m' newPtr = buf) {i : Nat} {t : Token} {x : List Nat}
    (hi : ts[i]? = some t) (hx : txts[i]? = some x) : (o.get i).toStringView m' = some (x, o.get i) := by
  obtain ⟨h1, h2, h3, h4, h5, h6⟩ := h.toks i t x hi hx
  have hbuf : buf = txts.flatten := by
    have := h.text
    rwa [List.take_of_length_le (Nat.le_of_eq h.len)] at this
  have hsplit : txts.flatten = (txts.take i).flatten ++ x ++ (txts.drop (i + 1)).flatten := by
    obtain ⟨hlt, hx'⟩ := List.getElem?_eq_some_iff.mp hx
    conv_lhs => rw [← List.take_append_drop i txts, List.drop_eq_getElem_cons hlt, hx']
    simp
  have hle : (o.get i).endPos ≤ buf.length := by
    rw [h2, h1, hbuf, hsplit]; simp
  rw [Token.toStringView, if_pos (by omega), h3, hm, readRange_ok (by omega) (by omega)]
  simp only [Option.map_some, Option.some.injEq, Prod.mk.injEq, and_true]
  rw [h2, h1, hbuf, hsplit, slice]
  rw [show (txts.take i).flatten.length + ((txts.take i).flatten.length + x.length - (txts.take i).flatten.length) -
    (txts.take i).flatten.length = x.length by omega]
  simp

theorem copied_delim {m' : Mem} {newPtr bufSize : Nat} {ts : List Token} {txts : List (List Nat)} {buf : List Nat} {o0 o : OutBuf}
    (h : Copied newPtr bufSize ts txts buf bufSize o0 o) (hm : m' newPtr = buf) {i : Nat} {t : Token} {x : List Nat}
    (hi : ts[i]? = some t) (hx : txts[i]? = some x) (hne : x ≠ []) : (o.get i).getDelimiter m' = some (x.take 1) := by
  obtain ⟨h1, h2, h3, h4, h5, h6⟩ := h.toks i t x hi hx
  have hbuf : buf = txts.flatten := by
    have := h.text
    rwa [List.take_of_length_le (Nat.le_of_eq h.len)] at this
  have hsplit : txts.flatten = (txts.take i).flatten ++ x ++ (txts.drop (i + 1)).flatten := by
    obtain ⟨hlt, hx'⟩ := List.getElem?_eq_some_iff.mp hx
    conv_lhs => rw [← List.take_append_drop i txts, List.drop_eq_getElem_cons hlt, hx']
    simp
  have hpos : 0 < x.length := List.length_pos_of_ne_nil hne
  have hle : (o.get i).startPos + 1 ≤ buf.length := by
    rw [h1, hbuf, hsplit]; simp; omega
  rw [Token.getDelimiter, h3, hm, readRange_ok (by omega) hle, h1, hbuf, hsplit, slice, Nat.add_sub_cancel_left]
  cases x with
  | nil => exact absurd rfl hne
  | cons a x => simp

/-- The copy of an event with valid tokens: the tokens are put at the positions from 0 on. -/
theorem deepCopy_full {m : Mem} {v : EventView} {newPtr outStatic : Nat} (hv : ∀ t ∈ v.tokens, t.Valid m)
    (hty : ∀ t ∈ v.tokens, ∃ ty tys, t.types = some (ty :: tys) ∧ ty < v.numVars) (ho : 0 < outStatic)
    (hne : v.toString m ≠ some []) :
    ∃ c buf, v.deepCopy m newPtr outStatic = .ok (c, buf) ∧ c.out.hasTimestamp = v.out.hasTimestamp ∧
      c.multiline = v.multiline ∧ c.out.pos = v.tokens.length ∧ v.toString m = some buf ∧
      (∀ m' : Mem, m' newPtr = buf → ∀ (i : Nat) (t : Token), v.tokens[i]? = some t → (c.out.get i).seen m' = t.seen m) ∧
      (∀ id, c.occ id = (List.range v.tokens.length).filter fun i => (v.tokens[i]?.bind fun t => t.types.bind List.head?) == some id) ∧
      (∀ m' : Mem, m' newPtr = buf → ∀ (i : Nat) (t : Token) (x : List Nat), v.tokens[i]? = some t →
        (t.toStringView m).map (·.1) = some x → x ≠ [] → (c.out.get i).getDelimiter m' = some (x.take 1)) := by
  obtain ⟨txts, h1, h2, h3, h4⟩ := texts_ok v.tokens hv
  have h4' : v.toString m = some txts.flatten := h4
  have hne' : txts.flatten ≠ [] := fun h => hne (by rw [h4', h])
  unfold deepCopy
  simp only
  rw [h3, if_neg (by rw [List.length_eq_zero_iff]; exact hne')]
  obtain ⟨buf, o, e1, e2⟩ := copyLoop_spec (m := m) (newPtr := newPtr) (bufSize := txts.flatten.length)
    (o0 := { OutBuf.init outStatic with hasTimestamp := v.out.hasTimestamp, hasDelims := v.out.hasDelims })
    v.tokens txts [] [] (List.replicate txts.flatten.length 0) 0
    { OutBuf.init outStatic with hasTimestamp := v.out.hasTimestamp, hasDelims := v.out.hasDelims } h2 rfl (by simp)
    ⟨by simp, by simp, by simp, rfl, ho, rfl, rfl, fun i t x hi => by simp at hi⟩
  rw [e1]
  simp only [List.nil_append] at e2
  have htypes : ∀ (i : Nat) (t : Token), v.tokens[i]? = some t → (o.get i).types = t.types := by
    intro i t hi
    obtain ⟨x, hx⟩ : ∃ x, txts[i]? = some x := by
      have := (List.getElem?_eq_some_iff.mp hi).1
      rw [h1.length_eq] at this
      exact ⟨_, List.getElem?_eq_getElem this⟩
    exact (e2.toks i t x hi hx).2.2.2.1
  obtain ⟨c, g1, g2, g3, g4, g5⟩ := copyOcc_spec (List.range o.pos) { out := o, multiline := v.multiline, numVars := v.numVars } (by
    intro i hi
    rw [List.mem_range, e2.count] at hi
    have hi' := List.getElem?_eq_getElem hi
    obtain ⟨ty, tys, a, b⟩ := hty _ (List.getElem_mem hi)
    exact ⟨ty, tys, (htypes i _ hi').trans a, b⟩)
  simp only
  rw [g1]
  refine ⟨c, buf, rfl, by rw [g2]; exact e2.hasTs, g3, by rw [g2]; exact e2.count, ?_, ?_, ?_, ?_⟩
  · rw [h4', ← e2.text, List.take_of_length_le (Nat.le_of_eq e2.len)]
  · intro m' hm i t hi
    obtain ⟨x, hx⟩ : ∃ x, txts[i]? = some x := by
      have := (List.getElem?_eq_some_iff.mp hi).1
      rw [h1.length_eq] at this
      exact ⟨_, List.getElem?_eq_getElem this⟩
    rw [Token.seen, g2, copied_seen e2 hm hi hx, htypes i t hi, Token.seen]
    have : (t.toStringView m).map (·.1) = some x := by
      have := List.forall₂_iff_get.mp h2
      obtain ⟨hi1, hi2⟩ := List.getElem?_eq_some_iff.mp hi
      obtain ⟨hx1, hx2⟩ := List.getElem?_eq_some_iff.mp hx
      have := this.2 i hi1 hx1
      simpa [hi2, hx2] using this
    rw [this]; rfl
  · intro id
    rw [g5 id]
    simp only [List.nil_append]
    rw [e2.count]
    apply List.filter_congr
    intro i hi
    rw [List.mem_range] at hi
    rw [List.getElem?_eq_getElem hi, htypes i _ (List.getElem?_eq_getElem hi)]
    rfl
  · intro m' hm i t x hi htx hx0
    obtain ⟨y, hy⟩ : ∃ y, txts[i]? = some y := by
      have := (List.getElem?_eq_some_iff.mp hi).1
      rw [h1.length_eq] at this
      exact ⟨_, List.getElem?_eq_getElem this⟩
    have hyx : y = x := by
      have := List.forall₂_iff_get.mp h2
      obtain ⟨hi1, hi2⟩ := List.getElem?_eq_some_iff.mp hi
      obtain ⟨hx1, hx2⟩ := List.getElem?_eq_some_iff.mp hy
      have := this.2 i hi1 hx1
      simp only [List.get_eq_getElem, hi2, hx2, htx, Option.some.injEq] at this
      exact this.symm
    subst hyx
    rw [g2]
    exact copied_delim e2 hm hi hy hx0

/-- The copy of an event with valid tokens: the tokens are put at the positions from 0 on. -/
theorem deepCopy_spec {m : Mem} {v : EventView} {newPtr outStatic : Nat} (hv : ∀ t ∈ v.tokens, t.Valid m)
    (hty : ∀ t ∈ v.tokens, ∃ ty tys, t.types = some (ty :: tys) ∧ ty < v.numVars) (ho : 0 < outStatic)
    (hne : v.toString m ≠ some []) :
    ∃ c buf, v.deepCopy m newPtr outStatic = .ok (c, buf) ∧ c.out.hasTimestamp = v.out.hasTimestamp ∧
      c.multiline = v.multiline ∧ c.out.pos = v.tokens.length ∧ v.toString m = some buf ∧
      (∀ m' : Mem, m' newPtr = buf → ∀ (i : Nat) (t : Token), v.tokens[i]? = some t → (c.out.get i).seen m' = t.seen m) ∧
      ∀ id, c.occ id = (List.range v.tokens.length).filter fun i => (v.tokens[i]?.bind fun t => t.types.bind List.head?) == some id := by
  obtain ⟨c, buf, h1, h2, h3, h4, h5, h6, h7, _⟩ := deepCopy_full (newPtr := newPtr) hv hty ho hne
  exact ⟨c, buf, h1, h2, h3, h4, h5, h6, h7⟩

end EventView
end LogSurgeon
