import Verif.Spec.InputStream
import Verif.Spec.Reader
import Verif.Proofs.InBuf
/-
C27: the input buffer delivers the bytes of the reader in order, and overwrites nothing that is still needed.
-/
namespace LogSurgeon

theorem Uses.inv {b : InBuf} {H : Hist} (h : Uses b H) : ∃ rHat k, BufInv b H.bytes H.next H.kept rHat k ∧
    b.finished = H.ended ∧ ∀ i, H.kept ≤ i → H.place i = (i + k) % b.size := by
  induction h with
  | start b h hh hS hm hn => exact ⟨0, 0, BufInv.reset b hh hS hm hn, rfl, fun _ _ => rfl⟩
  | @readBytes b H data _ hs h0 hl ih =>
    obtain ⟨rHat, k, hI, hf, hp⟩ := ih
    refine ⟨_, k, hI.read_bytes hs h0 hl, ?_, hp⟩
    show (b.finished || _) = _
    rw [hf]
  | readEnd _ hs ih =>
    obtain ⟨rHat, k, hI, hf, hp⟩ := ih
    exact ⟨rHat, k, hI.read_eof hs, rfl, hp⟩
  | readError _ hs ih => exact ih
  | @get b H _ ih =>
    obtain ⟨rHat, k, hI, hf, hp⟩ := ih
    by_cases hn : H.next < H.bytes.length
    · rw [hI.getNext_lt hn]
      simp only [if_pos hn]
      exact ⟨rHat, k, hI.adv hn, hf, hp⟩
    · simp only [if_neg hn]
      have hn' : H.next = H.bytes.length := by have := hI.a_le; omega
      cases hF : b.finished with
      | false => rw [hI.getNext_oob hn' hF]; exact ⟨rHat, k, hI, hf, hp⟩
      | true =>
        rcases hI.getNext_end hn' hF with h | ⟨h, _⟩
        · rw [h]; exact ⟨rHat, k, hI.setConsumed true, hf, hp⟩
        · rw [h]; exact ⟨rHat, k, hI, hf, hp⟩
  | @seek b H p _ h1 h2 ih =>
    obtain ⟨rHat, k, hI, hf, hp⟩ := ih
    rw [hp p h1]
    exact ⟨rHat, k, hI.seek h1 h2, hf, hp⟩
  | @consume b H c _ h1 h2 ih =>
    obtain ⟨rHat, k, hI, hf, hp⟩ := ih
    rw [hp c h1]
    exact ⟨rHat, k, hI.consume h1 h2, hf, fun i hi => hp i (Nat.le_trans h1 hi)⟩
  | clear _ ih =>
    obtain ⟨rHat, k, hI, hf, hp⟩ := ih
    exact ⟨rHat, k, hI.setConsumed false, hf, hp⟩
  | @grow b H _ ho ih =>
    obtain ⟨rHat, k, hI, hf, hp⟩ := ih
    have ha : H.next = H.bytes.length ∧ H.bytes.length = rHat := by
      by_cases hn : H.next < H.bytes.length
      · rw [hI.getNext_lt hn] at ho; cases ho
      · have hn' : H.next = H.bytes.length := by have := hI.a_le; omega
        refine ⟨hn', ?_⟩
        cases hF : b.finished with
        | false => exact hI.unfin hF
        | true =>
          rcases hI.getNext_end hn' hF with h | ⟨_, _, h, _⟩
          · rw [h] at ho; cases ho
          · exact h
    refine ⟨rHat, _, hI.grow ha.1 ha.2, hf, fun i hi => ?_⟩
    have hS : 0 < b.size := by have := hI.half; omega
    show (if i ≤ H.bytes.length then _ else _) = (i + BufInv.growK b.size rHat) % (2 * b.size)
    have hw := hI.window
    have hi : H.kept ≤ i := hi
    by_cases h : i ≤ H.bytes.length
    · rw [if_pos h, BufInv.growK_at b.size hS (by omega) (by omega), ha.2]
    · rw [if_neg h, ha.2]
      have h1 := BufInv.growK_at b.size hS (Nat.le_refl rHat) (by omega)
      rw [Nat.sub_self, Nat.sub_zero] at h1
      rw [show i + BufInv.growK b.size rHat = rHat + BufInv.growK b.size rHat + (i - rHat) by omega,
        Nat.add_mod (rHat + BufInv.growK b.size rHat), h1, Nat.add_mod_mod]

/-- Whatever has been done: the next character is the next byte the reader has produced, as long as there is one. -/
theorem C27_next_is_next_byte {b : InBuf} {H : Hist} (h : Uses b H) (hn : H.next < H.bytes.length) :
    b.getNext.2 = .char H.bytes[H.next] := by
  obtain ⟨rHat, k, hI, _⟩ := h.inv
  rw [hI.getNext_lt hn]

/-- When all bytes produced have been delivered and the reader has not ended, the buffer says that it has run out; it never says so
before. -/
theorem C27_out_of_bounds {b : InBuf} {H : Hist} (h : Uses b H) :
    (H.next = H.bytes.length → H.ended = false → b.getNext.2 = .oob) ∧
    (b.getNext.2 = .oob → H.next = H.bytes.length) := by
  obtain ⟨rHat, k, hI, hf, _⟩ := h.inv
  refine ⟨fun hn he => by rw [hI.getNext_oob hn (hf.trans he)], fun ho => ?_⟩
  refine Decidable.byContradiction fun hn => ?_
  have := hI.a_le
  rw [hI.getNext_lt (by omega)] at ho; cases ho

/-- After the reader's end: when all bytes have been delivered, the end is reported, except when the last byte was put into the last
slot of the buffer; then it is reported after the buffer has grown. -/
theorem C27_end_of_input {b : InBuf} {H : Hist} (h : Uses b H) (hn : H.next = H.bytes.length) (he : H.ended = true) :
    (b.getNext.2 = .char cCharEOF ∧ b.getNext.1.consumed = true) ∨
    (b.getNext.2 = .oob ∧ H.place H.bytes.length = 0 ∧ b.increaseCapacity.1.getNext.2 = .char cCharEOF ∧
      b.increaseCapacity.1.getNext.1.consumed = true) := by
  obtain ⟨rHat, k, hI, hf, hp⟩ := h.inv
  rcases hI.getNext_end hn (hf.trans he) with h | ⟨h, h1, h2, h3⟩
  · left; rw [h]; exact ⟨rfl, rfl⟩
  · right
    have hl := hI.lo_le
    have : b.increaseCapacity.1.getNext = ({ b.increaseCapacity.1 with consumed := true }, .char cCharEOF) := by
      unfold InBuf.getNext
      rw [if_pos]
      simp only [InBuf.increaseCapacity, hf, he, Bool.true_and, beq_iff_eq]
      omega
    rw [h, this]
    refine ⟨rfl, ?_, rfl, rfl⟩
    rw [hp _ (by omega), hI.last, h1, Nat.mod_self]

/-- Every byte produced and not declared consumed is in the buffer, at its place: neither reading nor growing loses it. -/
theorem C27_kept_bytes {b : InBuf} {H : Hist} (h : Uses b H) (i : Nat) (h1 : H.kept ≤ i) (h2 : i < H.bytes.length) :
    (b.mem b.active)[H.place i]? = H.bytes[i]? := by
  obtain ⟨rHat, k, hI, _, hp⟩ := h.inv
  rw [hp i h1]; exact hI.content i h1 h2

/-- Different bytes (and the position behind the last one) have different places. -/
theorem C27_places_distinct {b : InBuf} {H : Hist} (h : Uses b H) (i j : Nat) (h1 : H.kept ≤ i) (h2 : i < j)
    (h3 : j ≤ H.bytes.length) : H.place i ≠ H.place j := by
  obtain ⟨rHat, k, hI, _, hp⟩ := h.inv
  rw [hp i h1, hp j (by omega)]
  intro h
  have := hI.window
  have := hI.r_le
  have := mod_inj h (by omega) (by omega)
  omega

theorem runOps_prefix {σ : Type} (r : Reader σ) (hr : r.Good) : ∀ (ops : List InOp) (src : σ) (b : InBuf) (H : Hist), Uses b H →
    (b.consumed = true → H.next = H.bytes.length ∧ b.finished = true) →
    (InBuf.runOps r ops src b).1 <+: H.bytes.drop H.next ++ (InBuf.runOps r ops src b).2 := by
  intro ops
  induction ops with
  | nil => intros; simp [InBuf.runOps]
  | cons op ops ih =>
    intro src b H h hc
    obtain ⟨rHat, k, hI, hf, hpl⟩ := h.inv
    have hale := hI.a_le
    have hlo := hI.lo_le
    cases op with
    | read =>
      unfold InBuf.runOps
      by_cases hs : b.readIsSafe = true
      · have hunf : b.finished = false := by
          unfold InBuf.readIsSafe at hs
          cases hb : b.finished
          · rfl
          · simp [hb] at hs
        have hcf : b.consumed = true → False := fun h => by have := (hc h).2; rw [hunf] at this; cases this
        have hrd : b.readIfSafe r.read src = ((r.read src (b.size / 2)).1, b.applyRead (r.read src (b.size / 2)).2) := by
          unfold InBuf.readIfSafe; rw [if_pos hs]
        rw [if_pos hs, hrd]
        rcases hres : r.read src (b.size / 2) with ⟨src', res⟩
        cases res with
        | eof =>
          have := ih src' _ _ (h.readEnd hs) (fun h => (hcf h).elim)
          exact this
        | failure => exact ih src' _ _ (h.readError hs) hc
        | bytes data =>
          obtain ⟨h0, hl⟩ := hr src (b.size / 2) data hI.half (by rw [hres])
          have := ih src' _ _ (Uses.readBytes data h hs h0 hl) (fun h => (hcf h).elim)
          simp only at this
          rw [List.drop_append_of_le_length hale, List.append_assoc] at this
          exact this
      · have hrd : b.readIfSafe r.read src = (src, b, true) := by
          unfold InBuf.readIfSafe; rw [if_neg hs]
        rw [if_neg hs, hrd]
        exact ih src b H h hc
    | next =>
      unfold InBuf.runOps
      have hg := ih src _ _ h.get
      by_cases hn : H.next < H.bytes.length
      · have hcf : b.consumed = false := by
          cases hb : b.consumed
          · rfl
          · have := (hc hb).1; omega
        rw [if_pos hn] at hg
        simp only [hI.getNext_lt hn] at hg ⊢
        rw [if_neg (by simp [hcf])]
        rw [List.drop_eq_getElem_cons hn, List.cons_append]
        exact List.cons_prefix_cons.mpr ⟨rfl, hg (fun h => by rw [hcf] at h; cases h)⟩
      · rw [if_neg hn] at hg
        have hn' : H.next = H.bytes.length := by omega
        cases hF : b.finished with
        | false =>
          simp only [hI.getNext_oob hn' hF] at hg ⊢
          exact hg (fun h => by have := (hc h).2; rw [hF] at this; cases this)
        | true =>
          rcases hI.getNext_end hn' hF with hx | ⟨hx, _⟩
          · simp only [hx, if_true] at hg ⊢
            exact hg (fun _ => ⟨hn', hF⟩)
          · simp only [hx] at hg ⊢
            exact hg hc
    | consume =>
      unfold InBuf.runOps
      have := ih src _ _ (h.consume H.next hlo (Nat.le_refl _)) hc
      rw [hpl _ hlo, ← hI.pos] at this
      exact this
    | grow =>
      unfold InBuf.runOps
      by_cases ho : b.getNext.2 = .oob
      · rw [if_pos ho]
        have := ih src _ _ (h.grow ho) hc
        exact this
      · rw [if_neg ho]
        exact ih src b H h hc

/-- For a user that only goes forward, whatever the reader and the order of the operations: the characters delivered are a prefix of
the bytes produced (in order, each once, nothing else). -/
theorem C27_delivered_in_order {σ : Type} (r : Reader σ) (hr : r.Good) (ops : List InOp) (src : σ) (b : InBuf) (h : Nat) (hh : 0 < h)
    (hS : b.staticSize = 2 * h) (hm : (b.mem 0).length = b.staticSize) (hn : 0 < b.nextId) :
    (InBuf.runOps r ops src b.reset).1 <+: (InBuf.runOps r ops src b.reset).2 :=
  runOps_prefix r hr ops src _ _ (Uses.start b h hh hS hm hn) (fun h => by cases h)

/-! ### The hypotheses are met -/

theorem textReader_good : textReader.Good := by
  intro w n data hn h
  unfold textReader at h
  simp only at h
  split at h
  · cases h
  · rename_i hw
    simp only [InBuf.ReadRes.bytes.injEq] at h
    subst h
    refine ⟨?_, by simp; omega⟩
    intro h
    rw [List.take_eq_nil_iff] at h
    rcases h with h | h
    · omega
    · exact hw h

theorem chunkReader_good {m : Nat} (hm : 0 < m) : (chunkReader m).Good := by
  intro w n data hn h
  unfold chunkReader at h
  simp only at h
  split at h
  · cases h
  · rename_i hw
    simp only [InBuf.ReadRes.bytes.injEq] at h
    subst h
    refine ⟨?_, by simp; omega⟩
    intro h
    rw [List.take_eq_nil_iff] at h
    rcases h with h | h
    · omega
    · exact hw h

/-- A buffer of four bytes. -/
def tinyBuf : InBuf := InBuf.init (fun _ => [0, 0, 0, 0]) 4 1

/-- A run with a wrap and a growth: seven bytes are delivered. -/
example : InBuf.runOps textReader [.read, .next, .consume, .next, .read, .next, .consume, .next, .next, .grow, .read, .next, .next, .next, .next]
    [1, 2, 3, 4, 5, 6, 7] tinyBuf.reset = ([1, 2, 3, 4, 5, 6, 7], [1, 2, 3, 4, 5, 6, 7]) := by decide +kernel

/-- The history of a wrap: bytes 1 2 in the first half, 3 4 in the second, then 5 6 over the consumed 1 2, with
bytes 3 to 5 delivered and byte 4 consumed. -/
example : ∃ b H, Uses b H ∧ H.bytes = [1, 2, 3, 4, 5, 6] ∧ H.next = 5 ∧ H.kept = 3 ∧ H.next < H.bytes.length := by
  have h0 := Uses.start tinyBuf 2 (by decide) rfl rfl (by decide)
  have h1 := Uses.readBytes [1, 2] h0 (by decide) (by decide) (by decide)
  have h2 := (Uses.consume 1 h1.get (by decide) (by decide)).get
  have h3 := Uses.readBytes [3, 4] h2 (by decide) (by decide) (by decide)
  have h4 := Uses.consume 3 h3.get.get (by decide) (by decide)
  have h5 := (Uses.readBytes [5, 6] h4 (by decide) (by decide) (by decide)).get
  exact ⟨_, _, h5, rfl, rfl, rfl, by decide⟩

end LogSurgeon
