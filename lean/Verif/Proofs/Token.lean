import Verif.Spec.LogEvent
/-
The accessors of a token.
-/
namespace LogSurgeon

theorem slice_length' {s : List Nat} {a e : Nat} (h : e ≤ s.length) : (slice s a e).length = e - a := by
  simp [slice]; omega

theorem readRange_ok {s : List Nat} {a b : Nat} (h1 : a ≤ b) (h2 : b ≤ s.length) : readRange s a b = some (slice s a b) := by
  rw [readRange, if_pos ⟨h1, h2⟩]; rfl

theorem slice_get {s : List Nat} {a e i : Nat} (h : i < e - a) : (slice s a e)[i]? = s[a + i]? := by
  rw [slice, List.getElem?_take_of_lt h, List.getElem?_drop]

namespace Token

theorem Stands.unique {m : Mem} {t : Token} {x y : List Nat} (h : t.Stands m x) (k : t.Stands m y) : x = y := by
  unfold Stands at h k
  split at h
  · rename_i hle; rw [if_pos hle] at k; rw [h, k]
  · rename_i hle; rw [if_neg hle] at k; rw [h, k]

theorem wrapText_ok {m : Mem} {t : Token} (hv : t.Valid m) (hw : t.endPos < t.startPos) :
    t.wrapText m = some (slice (m t.buf) t.startPos t.bufSize ++ slice (m t.buf) 0 t.endPos) := by
  obtain ⟨h1, h2⟩ := hv.wraps hw
  simp [wrapText, readRange_ok (Nat.le_of_lt h1) h2, readRange_ok (Nat.zero_le _) hv.inside.2]

/-- Both readers give the text; the token still stands for it. -/
theorem read_ok {m : Mem} {t : Token} (hv : t.Valid m) : ∃ x t', t.toString m = some (x, t') ∧ t.toStringView m = some (x, t') ∧
    t.Stands m x ∧ t'.Valid m ∧ t'.Stands m x ∧ t' = { t with wrap := t'.wrap } := by
  unfold toString toStringView
  by_cases hle : t.startPos ≤ t.endPos
  · rw [if_pos hle, if_pos hle]
    rw [readRange_ok hle hv.inside.2, readRange_ok (by omega) (by have := hv.inside.2; omega)]
    refine ⟨slice (m t.buf) t.startPos t.endPos, t, rfl, ?_, ?_, hv, ?_, rfl⟩
    · rw [Nat.add_sub_cancel' hle]; rfl
    · rw [Stands, if_pos hle]
    · rw [Stands, if_pos hle]
  · rw [if_neg hle, if_neg hle]
    have hlt : t.endPos < t.startPos := by omega
    by_cases hc : t.wrap.isEmpty
    · rw [if_pos hc, wrapText_ok hv hlt]
      have hst : t.Stands m (slice (m t.buf) t.startPos t.bufSize ++ slice (m t.buf) 0 t.endPos) := by
        rw [Stands, if_neg hle]
      refine ⟨_, _, rfl, rfl, hst, ⟨hv.inside, hv.wraps, fun _ => .inr hst⟩, hst, rfl⟩
    · rw [if_neg hc]
      have hst : t.Stands m t.wrap := by
        rcases hv.cache hlt with h | h
        · rw [h] at hc; simp at hc
        · exact h
      exact ⟨_, _, rfl, rfl, hst, hv, hst, rfl⟩

theorem length_ok {m : Mem} {t : Token} (hv : t.Valid m) {x : List Nat} (h : t.Stands m x) : x.length = t.getLength := by
  unfold Stands at h
  unfold getLength
  split at h
  · rename_i hle
    rw [if_pos hle, h, slice_length' hv.inside.2]
  · rename_i hle
    rw [if_neg hle, h, List.length_append, slice_length' hv.inside.2, slice_length' (hv.wraps (by omega)).2]
    omega

theorem getChar_ok {m : Mem} {t : Token} (hv : t.Valid m) {x : List Nat} (h : t.Stands m x) {i : Nat} (hi : i < x.length)
    (h256 : i < 256) : t.getChar m i = x[i]? := by
  have hlen := length_ok hv h
  unfold Stands at h
  unfold getLength at hlen
  unfold getChar
  simp only [Nat.mod_eq_of_lt h256]
  split at h
  · rename_i hle
    rw [if_pos hle] at hlen
    rw [if_pos (by have := hv.inside.1; omega), h, slice_get (by omega)]
  · rename_i hle
    rw [if_neg hle] at hlen
    obtain ⟨h1, h2⟩ := hv.wraps (by omega)
    have hl : (slice (m t.buf) t.startPos t.bufSize).length = t.bufSize - t.startPos := slice_length' h2
    by_cases hlt : t.startPos + i < t.bufSize
    · rw [if_pos hlt, h, List.getElem?_append_left (by rw [hl]; omega), slice_get (by omega)]
    · rw [if_neg hlt, if_pos ⟨by omega, by omega⟩, h, List.getElem?_append_right (by rw [hl]; omega), hl,
        slice_get (by omega), Nat.zero_add]

theorem getDelimiter_ok {m : Mem} {t : Token} (hv : t.Valid m) {x : List Nat} (h : t.Stands m x) (hne : x ≠ []) :
    t.getDelimiter m = some (x.take 1) := by
  have hlen := length_ok hv h
  have hpos : 0 < x.length := List.length_pos_iff.mpr hne
  have h0 := getChar_ok hv h hpos (by omega)
  have hb : t.startPos + 1 ≤ (m t.buf).length := by
    unfold getLength at hlen
    split at hlen
    · have := hv.inside; omega
    · have := hv.wraps (by omega); omega
  rw [getDelimiter, readRange_ok (by omega) hb, slice, Nat.add_sub_cancel_left, List.take_one, List.take_one, List.head?_drop,
    List.head?_eq_getElem?]
  have : (m t.buf)[t.startPos]? = x[0]? := by
    rw [← h0]
    unfold getChar
    simp only [Nat.zero_mod, Nat.add_zero]
    rw [if_pos]
    unfold getLength at hlen
    split at hlen
    · have := hv.inside; omega
    · have := hv.wraps (by omega); omega
  rw [this]

end Token
end LogSurgeon
