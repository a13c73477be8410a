import Verif.Proofs.MachineSim
import Verif.Proofs.ErrorSchema
/-
A call of `generate_schema_ast`, step by step, and the function that describes the call as a whole.
-/
namespace LogSurgeon
open Grammar

variable {σ : Type}

theorem alone_full (P : MParser σ) {k : Nat} {x : MPhase σ} {G : Statics} (h : (P.alone k x G).1 = .failed .full) :
    ∀ m, k ≤ m → (P.alone m x G).1 = .failed .full := by
  induction k generalizing x G with
  | zero =>
    intro m _
    change x = _ at h
    subst h
    rw [alone_stopped _ (by simp)]
  | succ k ih =>
    intro m hm
    obtain ⟨m, rfl⟩ : ∃ n, m = n + 1 := ⟨m - 1, by omega⟩
    exact ih h m (by omega)

/-- What a machine has come to that makes the steps of a call of which this is the stop. -/
structure CallEnd (specials : List String) (mem : Mem) (res : Except Fail Stop) (x : MPhase σ) (G : Statics) : Prop where
  done : ∀ a, x = .done a ↔ ∃ t b, res = .ok (.accepted t G.kids b) ∧ schemaOfTree specials (tokenText b.mem) t = .ok a
  kids : ∀ a t k b, res = .ok (.accepted t k b) → schemaOfTree specials (tokenText b.mem) t = .ok a → x = .done a ∧ G.kids = k
  rejected : (∃ th tok, x = .rejected th tok) ↔ ∃ s tok st b vs, res = .ok (.rejected s tok st b) ∧
    Tree.eval.evals (schemaRuleOf specials) (tokenText b.mem) s.matched.reverse 0 = .ok vs
  room : ∀ r, res = .ok r → x ≠ .failed .full
  stopped : ∀ r, res = .ok r → ∀ th, x ≠ .running th

theorem call_end {specials : List String} {m : Mem} {res : Except Fail Stop} {x : MPhase σ} {G : Statics} (h1 : SameEnd specials (tokenText m) res (x, G))
    (hm : ∀ t k b, res = .ok (.accepted t k b) → b.mem = m) (hm' : ∀ s tok st b, res = .ok (.rejected s tok st b) → b.mem = m)
    (hv : ∀ {s : PState} {ms : MStack}, MNear (schemaRuleOf specials) (tokenText m) s ms G →
      ∃ vs, Tree.eval.evals (schemaRuleOf specials) (tokenText m) s.matched.reverse 0 = .ok vs) : CallEnd specials m res x G := by
  cases res with
  | error e =>
    rcases h1 with ⟨e', rfl⟩ | ⟨_, th, rfl⟩ <;>
    exact ⟨fun a => ⟨(by intro h; cases h), (by rintro ⟨_, _, h, _⟩; cases h)⟩, (by intro a t k b h; cases h),
      ⟨(by rintro ⟨_, _, h⟩; cases h), (by rintro ⟨_, _, _, _, _, h, _⟩; cases h)⟩, (by intro r h; cases h), (by intro r h; cases h)⟩
  | ok res =>
    cases res with
    | accepted tr kids b =>
      have hmem := hm _ _ _ rfl
      simp only [SameEnd] at h1
      cases hev : schemaOfTree specials (tokenText m) tr with
      | error e =>
        rw [hev] at h1
        simp only at h1; subst h1
        refine ⟨fun a => ⟨(by intro h; cases h), ?_⟩, ?_, ⟨(by rintro ⟨_, _, h⟩; cases h), (by rintro ⟨_, _, _, _, _, h, _⟩; cases h)⟩, (by intro r _ h; cases h), (by intro r _ th h; cases h)⟩
        · rintro ⟨_, _, h, h'⟩; cases h; rw [hmem, hev] at h'; cases h'
        · intro a t k b' h h'; cases h; rw [hmem, hev] at h'; cases h'
      | ok a =>
        rw [hev] at h1
        obtain ⟨rfl, rfl⟩ := h1
        refine ⟨fun a' => ⟨?_, ?_⟩, ?_, ⟨(by rintro ⟨_, _, h⟩; cases h), (by rintro ⟨_, _, _, _, _, h, _⟩; cases h)⟩, (by intro r _ h; cases h), (by intro r _ th h; cases h)⟩
        · intro h; cases h; exact ⟨tr, b, rfl, by rw [hmem, hev]⟩
        · rintro ⟨_, _, h, h'⟩; cases h; rw [hmem, hev] at h'; cases h'; rfl
        · intro a' t k b' h h'; cases h; rw [hmem, hev] at h'; cases h'; exact ⟨rfl, rfl⟩
    | rejected s tok st b =>
      have hmem := hm' _ _ _ _ rfl
      rcases h1 with ⟨e, hbad, rfl⟩ | ⟨ms, srcx, rfl, hn⟩
      · unfold BadStack at hbad
        refine ⟨fun a => ⟨(by intro h; cases h), (by rintro ⟨_, _, h, _⟩; cases h)⟩, (by intro a t k b h; cases h),
          ⟨(by rintro ⟨_, _, h⟩; cases h), ?_⟩, (by intro r _ h; cases h), (by intro r _ th h; cases h)⟩
        rintro ⟨_, _, _, _, vs, h, h'⟩; cases h; rw [hmem, hbad] at h'; cases h'
      · refine ⟨fun a => ⟨(by intro h; cases h), (by rintro ⟨_, _, h, _⟩; cases h)⟩, (by intro a t k b h; cases h),
          ⟨fun _ => ?_, fun _ => ⟨_, _, rfl⟩⟩, (by intro r _ h; cases h), (by intro r _ th h; cases h)⟩
        obtain ⟨vs, h⟩ := hv hn
        exact ⟨_, _, _, _, vs, rfl, by rw [hmem]; exact h⟩

theorem call_machine {P : MParser σ} {t : LR0} {r start : Nat} (hT : TableOk (schemaGrammar P.specials) t P.tb) (hr : P.tb.root = some r)
    (hR : RootOk (schemaGrammar P.specials) start) (Inv : Nat → LexState → InBuf → Prop)
    (hP : ∀ i st b, Inv i st b → b.finished = true ∧ (∀ c, Inv i st (b.cp c)) ∧ ∃ st' b' t, P.L.scan st b = (st', b', .ok t) ∧ Inv (i + 1) st' b' ∧ b'.mem = b.mem)
    {src src' : σ} {b b1 : InBuf} (hread : b.reset.readIfSafe P.rd src = (src', b1, true)) (hat : Inv 0 {} b1) (k : Nat) (G : Statics) :
    CallEnd P.specials b1.mem (stopFrom P.L (schemaGrammar P.specials) P.tb (schemaResets (schemaGrammar P.specials)) (schemaHasRule P.specials) P.rd k
      { states := [P.tb.root], matched := [], next := none, kids := G.kids } src {} b.reset) (P.alone k (P.start src b) G).1 (P.alone k (P.start src b) G).2 := by
  have hinv : ParseInv (schemaGrammar P.specials) t r [] { states := [P.tb.root], matched := [], next := none, kids := G.kids } := by
    rw [hr]; exact ⟨[], .root, .nil⟩
  have hnear : MNear (schemaRuleOf P.specials) (tokenText b1.mem) { states := [P.tb.root], matched := [], next := none, kids := G.kids }
      { states := [P.tb.root], matched := [], next := none } G := ⟨rfl, rfl, rfl, .nil⟩
  have hfin : b1.finished = true := (hP _ _ _ hat).1
  cases k with
  | zero => exact call_end (res := .error .diverge) (.inr ⟨rfl, _, rfl⟩) (by intro _ _ _ h; cases h) (by intro _ _ _ _ h; cases h) (fun h => ⟨_, h.vals.all⟩)
  | succ k =>
    have hbeg : P.alone (k + 1) (P.start src b) G = P.alone (k + 1) (.running ⟨{ states := [P.tb.root], matched := [], next := none }, src', {}, b1⟩) G := by
      rw [MParser.alone, MParser.alone]
      have : P.advance (P.start src b) G = P.advance (.running ⟨{ states := [P.tb.root], matched := [], next := none }, src', {}, b1⟩) G := by
        show MParser.step _ _ _ = MParser.step _ _ _
        unfold MParser.step
        simp only [hread, readIfSafe_fin hfin]
      rw [this]
    have hsim := alone_sim hT hr hR Inv hP (k + 1) 0 _ _ src' {} b1 G [] hat hinv hnear
    have h2 := stopFrom_toks (g := schemaGrammar P.specials) (tb := P.tb) (resets := schemaResets (schemaGrammar P.specials))
      (hasRule := schemaHasRule P.specials) (rd := P.rd) Inv hP (k + 1) (k + 1) 0
      { states := [P.tb.root], matched := [], next := none, kids := G.kids } src' {} b1 hat (Nat.le_refl _)
    rw [hbeg]
    have hsame : stopFrom P.L (schemaGrammar P.specials) P.tb (schemaResets (schemaGrammar P.specials)) (schemaHasRule P.specials) P.rd (k + 1)
      { states := [P.tb.root], matched := [], next := none, kids := G.kids } src {} b.reset =
      stopFrom P.L (schemaGrammar P.specials) P.tb (schemaResets (schemaGrammar P.specials)) (schemaHasRule P.specials) P.rd (k + 1)
      { states := [P.tb.root], matched := [], next := none, kids := G.kids } src' {} b1 := by
      generalize schemaGrammar P.specials = g
      rw [stopFrom, stopFrom, hread, readIfSafe_fin hfin]
    rw [hsame]
    generalize (schemaGrammar P.specials).stopLoop P.tb (schemaResets (schemaGrammar P.specials)) (k + 1)
      { states := [P.tb.root], matched := [], next := none, kids := G.kids } (P.L.scanToks (k + 1) {} b1) = res2 at h2
    generalize stopFrom P.L (schemaGrammar P.specials) P.tb (schemaResets (schemaGrammar P.specials)) (schemaHasRule P.specials) P.rd (k + 1)
      { states := [P.tb.root], matched := [], next := none, kids := G.kids } src' {} b1 = res at hsim h2
    refine call_end hsim ?_ ?_ (fun h => ⟨_, h.vals.all⟩)
    · intro _ _ _ h
      subst h
      cases res2 with
      | error e => exact h2.elim
      | ok r2 =>
        cases r2 with
        | accepted _ _ _ => exact h2.2.2
        | rejected _ _ _ => exact h2.elim
    · intro _ _ _ _ h
      subst h
      cases res2 with
      | error e => exact h2.elim
      | ok r2 =>
        cases r2 with
        | accepted _ _ _ => exact h2.elim
        | rejected _ _ _ => exact h2.2.2.1

theorem machine_eq {E : SchemaEnv} {rd : σ → Nat → σ × InBuf.ReadRes} {P : MParser σ} (h : E.machine rd = .ok P) :
    schemaLexer E.specials E.addr = .ok P.L ∧ (schemaGrammar (E.specials.map (·.2))).generate E.orders E.fuel = .ok P.tb ∧
    P.specials = E.specials.map (·.2) ∧ P.rd = rd := by
  unfold SchemaEnv.machine at h
  split at h
  · cases h
  · rename_i L hL
    split at h
    · cases h
    · rename_i tb htb
      cases h
      exact ⟨hL, htb, rfl, rfl⟩

/-- How a text is parsed, step by step and as a whole. -/
theorem machine_call_in {E : SchemaEnv} (hE : E.Ok) (ho : E.orders.Ok (schemaGrammar (E.specials.map (·.2))))
    {rd : σ → Nat → σ × InBuf.ReadRes} {src : σ} {w : List Nat} {N : Nat} (hN : 2 < N) (hw : w.length < N / 2) (hb : AllBytes w) (hrd : Delivers rd src (N / 2) w)
    {P : MParser σ} (hP : E.machine rd = .ok P) (G : Statics) (k : Nat) :
    ∃ src' b1, (InBuf.init E.mem N E.nextId).reset.readIfSafe P.rd src = (src', b1, true) ∧ Ready P.L w {} b1 0 ∧
    CallEnd P.specials b1.mem (stopFrom P.L (schemaGrammar P.specials) P.tb (schemaResets (schemaGrammar P.specials)) (schemaHasRule P.specials) P.rd k
      { states := [P.tb.root], matched := [], next := none, kids := G.kids } src {} (InBuf.init E.mem N E.nextId).reset)
      (P.alone k (P.start src (InBuf.init E.mem N E.nextId)) G).1 (P.alone k (P.start src (InBuf.init E.mem N E.nextId)) G).2 := by
  obtain ⟨L, hlex, hL⟩ := schemaLexer_ok hE.specials hE.addr
  obtain ⟨p1, p2, p3, p4⟩ := machine_eq hP
  cases hlex.symm.trans p1
  have hsc := hE.specials
  have hsp := perm_names hsc
  obtain ⟨src', b1, hread, hready⟩ := first_read (mem := E.mem) (nid := E.nextId) (N := N) hw hN hrd P.L
  have hat : AtUnit P.L w 0 {} b1 := ⟨0, Nat.zero_le _, hready, (nlCount_zero _).symm, rfl, rfl⟩
  have hstep := atUnit_step hsc hL hb
  obtain ⟨sid, t, S⟩ := sound_names (schema_decent hsp).build (schema_decent hsp).prime (schema_decent hsp).sep (schema_decent hsp).primeT
    (schema_decent hsp).productive (schema_decent hsp).size ho p2
  rw [← p4] at hread
  rw [← p3] at S
  exact ⟨src', b1, hread, hready, call_machine S.table S.root S.rootOk (AtUnit P.L w) hstep hread hat k G⟩

/-- How a text is parsed, step by step and as a whole. -/
theorem machine_call {E : SchemaEnv} (hE : E.Ok) (ho : E.orders.Ok (schemaGrammar (E.specials.map (·.2))))
    {rd : σ → Nat → σ × InBuf.ReadRes} {src : σ} {w : List Nat} (hw : w.length < 24000) (hb : AllBytes w) (hrd : Delivers rd src 24000 w)
    {P : MParser σ} (hP : E.machine rd = .ok P) (G : Statics) (k : Nat) :
    ∃ src' b1, (InBuf.init E.mem 48000 E.nextId).reset.readIfSafe P.rd src = (src', b1, true) ∧ Ready P.L w {} b1 0 ∧
    CallEnd P.specials b1.mem (stopFrom P.L (schemaGrammar P.specials) P.tb (schemaResets (schemaGrammar P.specials)) (schemaHasRule P.specials) P.rd k
      { states := [P.tb.root], matched := [], next := none, kids := G.kids } src {} (InBuf.init E.mem 48000 E.nextId).reset)
      (P.alone k (E.begin P src) G).1 (P.alone k (E.begin P src) G).2 :=
  machine_call_in hE ho (by decide) hw hb hrd hP G k

/-- The machine, left alone, does what the call does. -/
theorem machine_parse_in {E : SchemaEnv} (hE : E.Ok) (ho : E.orders.Ok (schemaGrammar (E.specials.map (·.2))))
    {rd : σ → Nat → σ × InBuf.ReadRes} {src : σ} {w : List Nat} {N : Nat} (hN : 2 < N) (hw : w.length < N / 2) (hb : AllBytes w) (hrd : Delivers rd src (N / 2) w)
    {P : MParser σ} (hP : E.machine rd = .ok P) (G : Statics) :
    (∀ a k, E.parseIn N G.kids rd src = .ok (a, k) ↔ (P.alone E.steps (P.start src (InBuf.init E.mem N E.nextId)) G).1 = .done a ∧ (P.alone E.steps (P.start src (InBuf.init E.mem N E.nextId)) G).2.kids = k) := by
  obtain ⟨src', b1, _, _, h⟩ := machine_call_in hE ho hN hw hb hrd hP G E.steps
  obtain ⟨p1, p2, p3, p4⟩ := machine_eq hP
  unfold SchemaEnv.parseIn generateSchemaAst
  simp only [p1, p2]
  rw [p3, p4] at h
  generalize P.alone E.steps (P.start src (InBuf.init E.mem N E.nextId)) G = y at h
  obtain ⟨x, G'⟩ := y
  generalize stopFrom P.L (schemaGrammar (E.specials.map (·.2))) P.tb (schemaResets (schemaGrammar (E.specials.map (·.2)))) (schemaHasRule (E.specials.map (·.2))) rd E.steps
      { states := [P.tb.root], matched := [], next := none, kids := G.kids } src {} (InBuf.init E.mem N E.nextId).reset = res at h ⊢
  · intro a k
    constructor
    · intro he
      cases res with
      | error e => cases he
      | ok res =>
        cases res with
        | accepted t kids b =>
          simp only at he
          split at he
          · cases he
          · rename_i a' ha'
            cases he
            exact h.kids _ _ _ _ rfl ha'
        | rejected s tok st b =>
          simp only at he
          split at he
          · cases he
          · split at he <;> cases he
    · rintro ⟨h1, h2⟩
      obtain ⟨t, b, h3, h4⟩ := (h.done a).mp h1
      rw [h3]
      simp only [h4]
      rw [← h2]

/-- The machine, left alone, does what the call does. -/
theorem machine_parse {E : SchemaEnv} (hE : E.Ok) (ho : E.orders.Ok (schemaGrammar (E.specials.map (·.2))))
    {rd : σ → Nat → σ × InBuf.ReadRes} {src : σ} {w : List Nat} (hw : w.length < 24000) (hb : AllBytes w) (hrd : Delivers rd src 24000 w)
    {P : MParser σ} (hP : E.machine rd = .ok P) (G : Statics) :
    (∀ a k, E.parse G.kids rd src = .ok (a, k) ↔ (P.alone E.steps (E.begin P src) G).1 = .done a ∧ (P.alone E.steps (E.begin P src) G).2.kids = k) ∧
    ((∃ m, E.complaint G.kids rd src = .ok (some m)) → ∃ th tok, (P.alone E.steps (E.begin P src) G).1 = .rejected th tok) := by
  obtain ⟨src', b1, _, _, h⟩ := machine_call hE ho hw hb hrd hP G E.steps
  obtain ⟨p1, p2, p3, p4⟩ := machine_eq hP
  unfold SchemaEnv.parse SchemaEnv.parseIn SchemaEnv.complaint generateSchemaAst
  simp only [p1, p2]
  rw [p3, p4] at h
  generalize P.alone E.steps (E.begin P src) G = y at h
  obtain ⟨x, G'⟩ := y
  generalize stopFrom P.L (schemaGrammar (E.specials.map (·.2))) P.tb (schemaResets (schemaGrammar (E.specials.map (·.2)))) (schemaHasRule (E.specials.map (·.2))) rd E.steps
      { states := [P.tb.root], matched := [], next := none, kids := G.kids } src {} (InBuf.init E.mem 48000 E.nextId).reset = res at h ⊢
  constructor
  · intro a k
    constructor
    · intro he
      cases res with
      | error e => cases he
      | ok res =>
        cases res with
        | accepted t kids b =>
          simp only at he
          split at he
          · cases he
          · rename_i a' ha'
            cases he
            exact h.kids _ _ _ _ rfl ha'
        | rejected s tok st b =>
          simp only at he
          split at he
          · cases he
          · split at he <;> cases he
    · rintro ⟨h1, h2⟩
      obtain ⟨t, b, h3, h4⟩ := (h.done a).mp h1
      rw [h3]
      simp only [h4]
      rw [← h2]
  · rintro ⟨m, he⟩
    cases res with
    | error e => cases he
    | ok res =>
      cases res with
      | accepted t kids b => cases he
      | rejected s tok st b =>
        simp only at he
        split at he
        · cases he
        · rename_i vs hvs
          exact h.rejected.mpr ⟨_, _, _, _, vs, rfl, hvs⟩

/-- If there is room for a text in the array, it does not overflow. -/
theorem machine_fit_in {E : SchemaEnv} (hE : E.Ok) (ho : E.orders.Ok (schemaGrammar (E.specials.map (·.2))))
    {rd : σ → Nat → σ × InBuf.ReadRes} {src : σ} {w : List Nat} {N : Nat} (hN : 2 < N) (hw : w.length < N / 2) (hb : AllBytes w) (hrd : Delivers rd src (N / 2) w) :
    ∃ n P, (∀ fuel, n ≤ fuel → ({ E with fuel := fuel } : SchemaEnv).machine rd = .ok P) ∧
      ∀ G : Statics, Fit G.kids (lexemes w) → ∀ k, (P.alone k (P.start src (InBuf.init E.mem N E.nextId)) G).1 ≠ .failed .full ∧
        (6 * (lexemes w).length + 2 ≤ k → ∀ th, (P.alone k (P.start src (InBuf.init E.mem N E.nextId)) G).1 ≠ .running th) := by
  obtain ⟨L, hlex, hL⟩ := schemaLexer_ok hE.specials hE.addr
  have hsc := hE.specials
  have hsp := perm_names hsc
  obtain ⟨n, tb, hgen, hclear⟩ := schema_table hsc hL (o := E.orders) (fun ks i h => (ho.sets ks i).mp h)
  have hPm : ∀ fuel, n ≤ fuel → ({ E with fuel := fuel } : SchemaEnv).machine rd = .ok ⟨L, E.specials.map (·.2), tb, rd⟩ := by
    intro fuel hf
    unfold SchemaEnv.machine
    simp only [hlex, hgen fuel hf]
  refine ⟨n, _, hPm, fun G hk => ?_⟩
  have main : ∀ m, 6 * (lexemes w).length + 2 ≤ m →
      ((⟨L, E.specials.map (·.2), tb, rd⟩ : MParser σ).alone m (MParser.start ⟨L, E.specials.map (·.2), tb, rd⟩ src (InBuf.init E.mem N E.nextId)) G).1 ≠ .failed .full ∧
      ∀ th, ((⟨L, E.specials.map (·.2), tb, rd⟩ : MParser σ).alone m (MParser.start ⟨L, E.specials.map (·.2), tb, rd⟩ src (InBuf.init E.mem N E.nextId)) G).1 ≠ .running th := by
   intro m hm
   obtain ⟨src', b1, hread, hready, h⟩ := machine_call_in (E := { E with fuel := n }) ⟨hE.specials, hE.addr⟩ ho hN hw hb hrd (hPm n (Nat.le_refl _)) G m
   have hat : AtUnit L w 0 {} b1 := ⟨0, Nat.zero_le _, hready, (nlCount_zero _).symm, rfl, rfl⟩
   have hstep := atUnit_step hsc hL hb
   obtain ⟨toks, t1, t2⟩ := scanToks_units hsc hL hb (lexemes w) {} b1 0 hready (Nat.zero_le _) rfl
   have hlen := t1.length_eq
   have hunits := same_units hsc hL t1
   have hcl : ∀ x ∈ toks, (schemaGrammar (E.specials.map (·.2))).Clear tb x := by
     intro x hx
     obtain ⟨l, _, h3⟩ := forall₂_mem_left t1 hx
     exact hclear x l h3.2.2 h3.1
   simp only at h hread
   have hfin : b1.finished = true := hready.view.finished
   have hb1 : (MParser.start ⟨L, E.specials.map (·.2), tb, rd⟩ src (InBuf.init E.mem N E.nextId) : MPhase σ) = MParser.start ⟨L, E.specials.map (·.2), tb, rd⟩ src (InBuf.init ({ E with fuel := n } : SchemaEnv).mem N ({ E with fuel := n } : SchemaEnv).nextId) := rfl
   obtain ⟨ends, e1, e2, e3⟩ := t2 (m + 1)
   obtain ⟨e0, more, rfl⟩ : ∃ e0 more, ends = e0 :: more := by
     cases ends with
     | nil => simp at e2
     | cons a b => exact ⟨_, _, rfl⟩
   have he0 : e0.types = some [tokenEnd] := e3 e0 (by simp)
   have h2 := stopFrom_toks (g := schemaGrammar (E.specials.map (·.2))) (tb := tb) (resets := schemaResets (schemaGrammar (E.specials.map (·.2))))
       (hasRule := schemaHasRule (E.specials.map (·.2))) (rd := rd) (AtUnit L w) hstep m ((lexemes w).length + (m + 1)) 0
       { states := [tb.root], matched := [], next := none, kids := G.kids } src' {} b1 hat (by omega)
   rw [e1] at h2
   have hok : ∃ r, (schemaGrammar (E.specials.map (·.2))).stopLoop tb (schemaResets (schemaGrammar (E.specials.map (·.2)))) m
       { states := [tb.root], matched := [], next := none, kids := G.kids } (toks ++ e0 :: more) = .ok r := by
     rcases schema_decides hsp ho (hgen n (Nat.le_refl _)) hcl he0 more hunits hk with ⟨tree, kids', _, hp⟩ | ⟨_, hp⟩
     · have hp := hp m (by omega)
       unfold Grammar.parse at hp
       rw [stopLoop_parse] at hp
       generalize (schemaGrammar (E.specials.map (·.2))).stopLoop tb (schemaResets (schemaGrammar (E.specials.map (·.2)))) m
         { states := [tb.root], matched := [], next := none, kids := G.kids } (toks ++ e0 :: more) = r at hp
       cases r with
       | error e => cases hp
       | ok r => exact ⟨r, rfl⟩
     · have htyp : ∀ x ∈ toks ++ e0 :: more, Typed (schemaGrammar (E.specials.map (·.2))) x := by
         intro x hx
         rcases List.mem_append.mp hx with hx | hx
         · exact (hcl x hx).typed
         · refine ⟨[tokenEnd], e3 x hx, fun ty hty => ?_⟩
           rw [List.mem_singleton.mp hty]
           obtain ⟨sid, t, S⟩ := sound_names (schema_decent hsp).build (schema_decent hsp).prime (schema_decent hsp).sep (schema_decent hsp).primeT
             (schema_decent hsp).productive (schema_decent hsp).size ho (hgen n (Nat.le_refl _))
           exact S.finT
       have hp := hp m (by omega)
       have hex : ∃ e ∈ toks ++ e0 :: more, e.types = some [tokenEnd] := ⟨e0, by simp, he0⟩
       have hg := hgen n (Nat.le_refl _)
       have hst : ∃ s tok rest, (schemaGrammar (E.specials.map (·.2))).stop tb (schemaResets (schemaGrammar (E.specials.map (·.2)))) m G.kids
           (toks ++ e0 :: more) = .ok (.rejected s tok rest) := throws_rejected (schema_decent hsp) ho hg htyp hex hp
       obtain ⟨s, tok, rest, h⟩ := hst
       unfold Grammar.stop at h
       exact ⟨_, h⟩
   obtain ⟨r, hr⟩ := hok
   rw [hr] at h2
   have hsame : stopFrom L (schemaGrammar (E.specials.map (·.2))) tb (schemaResets (schemaGrammar (E.specials.map (·.2)))) (schemaHasRule (E.specials.map (·.2))) rd m
       { states := [tb.root], matched := [], next := none, kids := G.kids } src {} (InBuf.init E.mem N E.nextId).reset =
       stopFrom L (schemaGrammar (E.specials.map (·.2))) tb (schemaResets (schemaGrammar (E.specials.map (·.2)))) (schemaHasRule (E.specials.map (·.2))) rd m
       { states := [tb.root], matched := [], next := none, kids := G.kids } src' {} b1 := by
     generalize schemaGrammar (E.specials.map (·.2)) = g
     obtain ⟨m, rfl⟩ : ∃ n, m = n + 1 := ⟨m - 1, by omega⟩
     rw [stopFrom, stopFrom, hread, readIfSafe_fin hfin]
   rw [hsame] at h
   generalize stopFrom L (schemaGrammar (E.specials.map (·.2))) tb (schemaResets (schemaGrammar (E.specials.map (·.2)))) (schemaHasRule (E.specials.map (·.2))) rd m
       { states := [tb.root], matched := [], next := none, kids := G.kids } src' {} b1 = res at h h2
   cases res with
   | error e => exact h2.elim
   | ok res => exact ⟨hb1 ▸ h.room res rfl, hb1 ▸ h.stopped res rfl⟩
  intro k
  refine ⟨fun hfull => (main (k + (6 * (lexemes w).length + 2)) (Nat.le_add_left _ _)).1 (alone_full _ hfull _ (Nat.le_add_right _ _)), fun hk => (main k hk).2⟩

/-- If there is room for a text in the array, it does not overflow. -/
theorem machine_fit {E : SchemaEnv} (hE : E.Ok) (ho : E.orders.Ok (schemaGrammar (E.specials.map (·.2))))
    {rd : σ → Nat → σ × InBuf.ReadRes} {src : σ} {w : List Nat} (hw : w.length < 24000) (hb : AllBytes w) (hrd : Delivers rd src 24000 w) :
    ∃ n P, (∀ fuel, n ≤ fuel → ({ E with fuel := fuel } : SchemaEnv).machine rd = .ok P) ∧
      ∀ G : Statics, Fit G.kids (lexemes w) → ∀ k, (P.alone k (E.begin P src) G).1 ≠ .failed .full ∧
        (6 * (lexemes w).length + 2 ≤ k → ∀ th, (P.alone k (E.begin P src) G).1 ≠ .running th) :=
  machine_fit_in hE ho (by decide) hw hb hrd

theorem alone_stays (P : MParser σ) {k : Nat} {x : MPhase σ} {G : Statics} (h : ∀ th, (P.alone k x G).1 ≠ .running th) :
    ∀ m, k ≤ m → P.alone m x G = P.alone k x G := by
  induction k generalizing x G with
  | zero => exact fun m _ => alone_stopped x h m G
  | succ k ih =>
    intro m hm
    obtain ⟨m, rfl⟩ : ∃ n, m = n + 1 := ⟨m - 1, by omega⟩
    exact ih h m (by omega)

end LogSurgeon
