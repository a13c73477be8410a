import Verif.Proofs.LinGap
import Verif.Proofs.SchemaTextComplete
/-
Files of any length.
-/
namespace LogSurgeon
open Grammar

variable {σ τ : Type}

theorem readIfSafe_low (rd : σ → Nat → σ × InBuf.ReadRes) (src : σ) (b : InBuf) :
    (b.readIfSafe rd src).2.1.consumedPos = b.consumedPos ∧ (b.readIfSafe rd src).2.1.size = b.size := by
  unfold InBuf.readIfSafe
  split
  · generalize rd src (b.size / 2) = x
    obtain ⟨s, a⟩ := x
    cases a <;> exact ⟨rfl, rfl⟩
  · exact ⟨rfl, rfl⟩

section
variable {sc : List (Nat × String)} (hsc : sc.Perm schemaSpecialChars) {addr : Nat → Nat} (hinj : ∀ a b, addr a = addr b → a = b)
  {L : Lexer} (hlex : schemaLexer sc addr = .ok L) {w : List Nat} (hb : AllBytes w)
include hsc hinj hlex hb

/-- The two machines side by side. -/
theorem ring_alone {rest : σ → List Nat} (hlen : w.length % 48000 = 0 → w = []) {k0 : Nat} (hfit : Fit k0 (lexemes w)) {Pc : MParser σ} {Pl : MParser τ}
    (hrd : Serves Pc.rd rest) (hLc : Pc.L = L) (hLl : Pl.L = L) (hsp : Pc.specials = Pl.specials) (htb : Pc.tb = Pl.tb) (hPs : Pl.specials = sc.map (·.2))
    {o : Orders} {fuel : Nat} {sid : Nat} {t : LR0}
    (S : Sound (schemaGrammar (sc.map (·.2))) o fuel Pl.tb (schemaTerminals (sc.map (·.2))) "Schema" (("Schema", ["Comment"]) :: (schemaProductions (sc.map (·.2))).tail) sid t) :
    ∀ (k : Nat) (thc : MThread σ) (thl : MThread τ) (R : List Nat) (rHat : Nat) (s : PState) (used : List Token) (us : Nat) (Gc Gl : Statics),
      Ring L 24000 w rest thc thl R (lowOf thl.b) rHat → LinAt sc L t w thl Gl s used us → Gc.kids = Gl.kids →
      RingPhase L 24000 w rest (Pc.alone k (.running thc) Gc).1 (Pl.alone k (.running thl) Gl).1 ∧ (Pc.alone k (.running thc) Gc).2.kids = (Pl.alone k (.running thl) Gl).2.kids
  | 0, thc, thl, R, rHat, s, used, us, Gc, Gl, hR, _, hk => ⟨⟨R, rHat, hR⟩, hk⟩
  | k + 1, thc, thl, R, rHat, s, used, us, Gc, Gl, hR, hl, hk => by
    obtain ⟨L', hlex', hL⟩ := schemaLexer_ok hsc hinj
    cases hlex.symm.trans hlex'
    have hstep := hR.step hsc hinj hlex hb (by omega) hlen hrd hLc hLl hsp htb (by rw [hPs]; exact perm_names hsc) (fun hn => hl.bytes hfit hn) hk
    have hlin := fun th' => hl.step hsc hL hb hLl hPs S (th' := th')
    have ih := ring_alone hlen hfit hrd hLc hLl hsp htb hPs S k
    show RingPhase L 24000 w rest (Pc.alone k (Pc.step thc Gc).1 (Pc.step thc Gc).2).1 (Pl.alone k (Pl.step thl Gl).1 (Pl.step thl Gl).2).1 ∧
      (Pc.alone k (Pc.step thc Gc).1 (Pc.step thc Gc).2).2.kids = (Pl.alone k (Pl.step thl Gl).1 (Pl.step thl Gl).2).2.kids
    generalize Pc.step thc Gc = xc at hstep ⊢
    generalize Pl.step thl Gl = xl at hstep hlin ⊢
    obtain ⟨xc, Gc'⟩ := xc
    obtain ⟨xl, Gl'⟩ := xl
    obtain ⟨h1, h2⟩ := hstep
    simp only at h1 h2 hlin ⊢
    cases xc with
    | running thc' =>
      cases xl with
      | running thl' =>
        obtain ⟨R', rHat', hR'⟩ := h1
        obtain ⟨s', used', us', hl'⟩ := hlin thl' rfl
        exact ih _ _ _ _ _ _ _ _ _ hR' hl' h2
      | done _ => exact h1.elim
      | rejected _ _ => exact h1.elim
      | failed _ => exact h1.elim
    | done a =>
      rw [alone_stopped _ (by simp)]
      cases xl with
      | running thl' => exact h1.elim
      | done _ => rw [alone_stopped _ (by simp)]; exact ⟨h1, h2⟩
      | rejected _ _ => exact h1.elim
      | failed _ => exact h1.elim
    | rejected _ _ =>
      rw [alone_stopped _ (by simp)]
      cases xl with
      | running thl' => exact h1.elim
      | done _ => exact h1.elim
      | rejected _ _ => rw [alone_stopped _ (by simp)]; exact ⟨h1, h2⟩
      | failed _ => exact h1.elim
    | failed _ =>
      rw [alone_stopped _ (by simp)]
      cases xl with
      | running thl' => exact h1.elim
      | done _ => exact h1.elim
      | rejected _ _ => exact h1.elim
      | failed _ => rw [alone_stopped _ (by simp)]; exact ⟨h1, h2⟩
end

/-- The machine that reads the text piece by piece comes to the same as one that has the whole text in a large buffer. -/
theorem machines_agree {E : SchemaEnv} (hE : E.Ok) (ho : E.orders.Ok (schemaGrammar (E.specials.map (·.2)))) (hmem : (E.mem 0).length = 48000) (hnid : 0 < E.nextId)
    {w : List Nat} (hb : AllBytes w) (hlen : w.length % 48000 = 0 → w = []) {k0 : Nat} (hfit : Fit k0 (lexemes w))
    {rd : σ → Nat → σ × InBuf.ReadRes} {rest : σ → List Nat} (hrd : Serves rd rest) {src : σ} (hsrc : rest src = w)
    {rdl : τ → Nat → τ × InBuf.ReadRes} {srcl : τ} {N : Nat} (hN : 2 < N) (hwN : w.length < N / 2) (hdel : Delivers rdl srcl (N / 2) w)
    {Pc : MParser σ} {Pl : MParser τ} (hPc : E.machine rd = .ok Pc) (hPl : E.machine rdl = .ok Pl) (Gc Gl : Statics) (hk : Gc.kids = Gl.kids) (k : Nat) (hk0 : 0 < k) :
    RingPhase Pl.L 24000 w rest (Pc.alone k (E.begin Pc src) Gc).1 (Pl.alone k (Pl.start srcl (InBuf.init E.mem N E.nextId)) Gl).1 ∧
      (Pc.alone k (E.begin Pc src) Gc).2.kids = (Pl.alone k (Pl.start srcl (InBuf.init E.mem N E.nextId)) Gl).2.kids := by
  obtain ⟨p1, p2, p3, p4⟩ := machine_eq hPc
  obtain ⟨q1, q2, q3, q4⟩ := machine_eq hPl
  have hL : Pc.L = Pl.L := by rw [p1] at q1; exact Except.ok.inj q1
  have htb : Pc.tb = Pl.tb := by rw [p2] at q2; exact Except.ok.inj q2
  have hsc := hE.specials
  have hsp := perm_names hsc
  obtain ⟨sid, t, S⟩ := sound_names (schema_decent hsp).build (schema_decent hsp).prime (schema_decent hsp).sep (schema_decent hsp).primeT
    (schema_decent hsp).productive (schema_decent hsp).size ho q2
  obtain ⟨srcl', b1, hread, hready⟩ := first_read (mem := E.mem) (nid := E.nextId) (N := N) hwN hN hdel Pl.L
  have hfin : b1.finished = true := hready.view.finished
  have hlow : lowOf b1 = 0 := by
    have h1 := readIfSafe_low rdl srcl (InBuf.init E.mem N E.nextId).reset
    rw [hread] at h1
    unfold lowOf
    rw [if_pos]
    rw [h1.1, h1.2]; rfl
  have hbeg : Pl.alone k (Pl.start srcl (InBuf.init E.mem N E.nextId)) Gl =
      Pl.alone k (.running ⟨{ states := [Pl.tb.root], matched := [], next := none }, srcl', {}, b1⟩) Gl := by
    obtain ⟨k, rfl⟩ : ∃ n, k = n + 1 := ⟨k - 1, by omega⟩
    rw [MParser.alone, MParser.alone]
    have : Pl.advance (Pl.start srcl (InBuf.init E.mem N E.nextId)) Gl = Pl.advance (.running ⟨{ states := [Pl.tb.root], matched := [], next := none }, srcl', {}, b1⟩) Gl := by
      show MParser.step _ _ _ = MParser.step _ _ _
      unfold MParser.step
      rw [← q4] at hread
      simp only [hread, readIfSafe_fin hfin]
    rw [this]
  rw [hbeg]
  have hpos : b1.pos = 0 := hready.at'.pos
  refine ring_alone hsc hE.addr q1 hb hlen hfit (by rw [p4]; exact hrd) hL rfl (p3.trans q3.symm) htb q3 S k _ _ [] 0
    { states := [Pl.tb.root], matched := [], next := none, kids := Gl.kids } [] 0 Gc Gl ?_ ?_ hk
  · have hI := BufInv.reset (InBuf.init E.mem 48000 E.nextId) (h := 24000) (by omega) rfl hmem hnid
    rw [hlow]
    refine ⟨⟨(by simp only; rw [hpos]; exact hI), hready.view, List.nil_prefix, (fun h => by cases h), ?_, (fun h => by cases h)⟩, rfl, rfl, hsrc, ?_, ?_, fun _ => .inl ⟨rfl, rfl⟩, fun _ => rfl,
      Nat.zero_le _, ?_, .nil, (fun a b h => by cases h), .inl ⟨rfl, rfl⟩⟩
    · show false = b1.consumed
      have h1 : ((InBuf.init E.mem N E.nextId).reset.readIfSafe rdl srcl).2.1.consumed = (InBuf.init E.mem N E.nextId).reset.consumed := by
        unfold InBuf.readIfSafe
        split
        · generalize rdl srcl ((InBuf.init E.mem N E.nextId).reset.size / 2) = x
          obtain ⟨s, a⟩ := x
          cases a <;> rfl
        · rfl
      rw [hread] at h1
      exact h1.symm
    · show Ready Pl.L w {} b1 b1.pos
      rw [hpos]; exact hready
    · refine ⟨rfl, fun _ => ⟨rfl, Nat.le_refl _, Nat.zero_le _⟩, (fun h => ?_), (fun h => by cases h)⟩
      rcases h with h | h <;> cases h
    · show [Pc.tb.root] = [Pl.tb.root]
      rw [htb]
  · refine ⟨⟨0, Nat.zero_le _, hready, (nlCount_zero _).symm, rfl, rfl⟩, ?_, ⟨0, [], by simp only; rw [S.root]⟩, ⟨rfl, rfl, rfl, .nil⟩, (by simp), (fun tok h => by cases h), ?_, ?_⟩
    · refine ⟨⟨[], ?_, .nil⟩⟩
      simp only
      rw [S.root]
      exact .root
    · exact ⟨Nat.le_refl _, (fun j _ h => by simp at h), (fun _ _ _ _ h => by cases h), (fun _ _ _ h => by cases h)⟩
    · show lowOf b1 = _
      rw [hlow]; simp [textOf]

end LogSurgeon
