import Verif.Props.SchemaText
import Verif.Proofs.MachineCall
import Verif.Proofs.MachineRoom
/-
C53: the parses of schemas in one process do not influence each other, although all of them keep the children of the nodes in one array.
-/
namespace LogSurgeon

variable {σ : Type}

/-- The same result, or, while there is none, the same buffer, position of the lexer, reader and stacks (but for the places in the array). -/
inductive SamePhase : MPhase σ → MPhase σ → Prop
  | done (a : SchemaAST) : SamePhase (.done a) (.done a)
  | failed (e : MFail) : SamePhase (.failed e) (.failed e)
  | running {th th' : MThread σ} : th.src = th'.src → th.st = th'.st → th.b = th'.b → th.s.states = th'.s.states → th.s.next = th'.s.next →
      SamePhase (.running th) (.running th')
  | rejected {th th' : MThread σ} (tok : Token) : th.src = th'.src → th.st = th'.st → th.b = th'.b → th.s.states = th'.s.states →
      SamePhase (.rejected th tok) (.rejected th' tok)

theorem samePhase_of {x y : MPhase σ} (h : x.erase = y.erase) : SamePhase x y := by
  have key : ∀ {th th' : MThread σ}, th.erase = th'.erase →
      th.src = th'.src ∧ th.st = th'.st ∧ th.b = th'.b ∧ th.s.states = th'.s.states ∧ th.s.next = th'.s.next := by
    intro th th' h
    obtain ⟨⟨q, m, n⟩, src, st, b⟩ := th
    obtain ⟨⟨q', m', n'⟩, src', st', b'⟩ := th'
    simp only [MThread.erase, MStack.erase, MThread.mk.injEq, MStack.mk.injEq] at h
    obtain ⟨⟨h1, _, h3⟩, h4, h5, h6⟩ := h
    exact ⟨h4, h5, h6, h1, h3⟩
  cases x <;> cases y <;> simp only [MPhase.erase, MPhase.running.injEq, MPhase.done.injEq, MPhase.rejected.injEq, MPhase.failed.injEq, reduceCtorEq] at h
  · obtain ⟨h1, h2, h3, h4, h5⟩ := key h; exact .running h1 h2 h3 h4 h5
  · subst h; exact .done _
  · obtain ⟨h1, h2⟩ := h
    subst h2
    obtain ⟨h1, h2, h3, h4, h5⟩ := key h1
    exact .rejected _ h1 h2 h3 h4
  · subst h; exact .failed _

/-- C53: whatever the other parsers of the process are and do, whatever is in the array, and however the steps are interleaved, a parser that has
made a given number of steps has come to the same - unless in one of the two executions the array was full when it wanted to use it. -/
theorem C53_independent {P P' : Nat → MParser σ} {i i' : Nat} (hP : P i = P' i') {x x' : Nat → MPhase σ} (hx : x i = x' i') {is is' : List Nat}
    (hn : is.count i = is'.count i') (G G' : Statics) :
    (runSchedule P is x G).1 i = .failed .full ∨ (runSchedule P' is' x' G').1 i' = .failed .full ∨
      SamePhase ((runSchedule P is x G).1 i) ((runSchedule P' is' x' G').1 i') := by
  rcases schedule_erase P i is x G _ (.inr rfl) with h | h
  · exact .inl h
  · rcases schedule_erase P' i' is' x' G' _ (.inr rfl) with h' | h'
    · exact .inr (.inl h')
    · refine .inr (.inr (samePhase_of ?_))
      rw [h, h', hn, hP, hx]

/-- C53: the array never gets full if there is a free place for each of the steps. -/
theorem C53_room (P : Nat → MParser σ) {is : List Nat} {x : Nat → MPhase σ} {G : Statics} (hx : ∀ j, ∃ src b, x j = (P j).start src b)
    (hroom : G.kids + is.length ≤ 10000) (j : Nat) : (runSchedule P is x G).1 j ≠ .failed .full := by
  refine schedule_room P is.toFinset is x G (fun i hi => List.mem_toFinset.mpr hi) (fun j h => ?_) ?_ j
  · obtain ⟨src, b, e⟩ := hx j
    rw [e] at h
    cases h
  · have : ∑ j ∈ is.toFinset, (x j).stack = 0 := by
      refine Finset.sum_eq_zero fun j _ => ?_
      obtain ⟨src, b, e⟩ := hx j
      rw [e]; rfl
    rw [this]
    exact hroom

/-- C53: a parser that makes all its steps without interruption does what `Model/SchemaParse.lean` says about the call, where the semantic rules
are applied when the parse is over and the array is only counted. -/
theorem C53_call_partial {E : SchemaEnv} (hE : E.Ok) (ho : E.orders.Ok (schemaGrammar (E.specials.map (·.2))))
    {rd : σ → Nat → σ × InBuf.ReadRes} {src : σ} {w : List Nat} (hw : w.length < 24000) (hb : AllBytes w) (hrd : Delivers rd src 24000 w)
    {P : MParser σ} (hP : E.machine rd = .ok P) (G : Statics) :
    (∀ a k, E.parse G.kids rd src = .ok (a, k) ↔ (P.alone E.steps (E.begin P src) G).1 = .done a ∧ (P.alone E.steps (E.begin P src) G).2.kids = k) ∧
    ((∃ m, E.complaint G.kids rd src = .ok (some m)) → ∃ th tok, (P.alone E.steps (E.begin P src) G).1 = .rejected th tok) :=
  machine_parse hE ho hw hb hrd hP G

/-- C53 (partial: texts of less than 24000 bytes that the reader delivers at once; lines that are not too long): under every schedule, after
six steps for each unit of its text a parser has stopped, and it has the AST that the text describes, if it is the text of a schema - unless
the array was full. -/
theorem C53_schedule_partial {E : SchemaEnv} (hE : E.Ok) (ho : E.orders.Ok (schemaGrammar (E.specials.map (·.2))))
    {rd : σ → Nat → σ × InBuf.ReadRes} {src : σ} {w : List Nat} (hw : w.length < 24000) (hb : AllBytes w) (hrd : Delivers rd src 24000 w)
    (hk : Fit 0 (lexemes w)) :
    ∃ n M, (∀ fuel, n ≤ fuel → ({ E with fuel := fuel } : SchemaEnv).machine rd = .ok M) ∧
      ∀ (P : Nat → MParser σ) (i : Nat) (x : Nat → MPhase σ) (is : List Nat) (G : Statics), P i = M → x i = E.begin M src →
        6 * (lexemes w).length + 2 ≤ is.count i → (runSchedule P is x G).1 i ≠ .failed .full →
        (∀ th, (runSchedule P is x G).1 i ≠ .running th) ∧
        (∀ a, (runSchedule P is x G).1 i = .done a ↔ ∃ s, WrittenFile 0 (lexemes w) s ∧ s.Builds a) ∧
        ((∃ m steps, ({ E with fuel := n, steps := steps } : SchemaEnv).complaint 0 rd src = .ok (some m)) →
          ∃ th tok, (runSchedule P is x G).1 i = .rejected th tok) := by
  obtain ⟨n, M, hM, hfit⟩ := machine_fit hE ho hw hb hrd
  refine ⟨n, M, hM, fun P i x is G hPi hxi hsteps hnf => ?_⟩
  have hG0 := hfit ⟨0, G.arr⟩ hk
  have hstop := (hG0 _).2 hsteps
  have heq : ((runSchedule P is x G).1 i).erase = ((M.alone (is.count i) (E.begin M src) ⟨0, G.arr⟩).1).erase := by
    rcases schedule_erase P i is x G _ (.inr rfl) with h | h
    · exact absurd h hnf
    · rcases alone_erase M (is.count i) (E.begin M src) ⟨0, G.arr⟩ _ (.inr rfl) with h' | h'
      · exact absurd h' (hG0 _).1
      · rw [h, h', hPi, hxi]
  generalize (runSchedule P is x G).1 i = y at heq hnf ⊢
  have hres : ∀ fuel, n ≤ fuel → ∀ m a, (∃ k, ({ E with fuel := fuel, steps := m } : SchemaEnv).parse 0 rd src = .ok (a, k)) ↔ (M.alone m (E.begin M src) ⟨0, G.arr⟩).1 = .done a := by
    intro fuel hf m a
    have := (machine_parse (E := { E with fuel := fuel, steps := m }) ⟨hE.specials, hE.addr⟩ ho hw hb hrd (hM _ hf) ⟨0, G.arr⟩).1 a
    constructor
    · rintro ⟨k, h⟩; exact ((this k).mp h).1
    · intro h; exact ⟨_, (this _).mpr ⟨h, rfl⟩⟩
  have hdone : ∀ a, y = .done a ↔ (M.alone (is.count i) (E.begin M src) ⟨0, G.arr⟩).1 = .done a := by
    intro a
    generalize (M.alone (is.count i) (E.begin M src) ⟨0, G.arr⟩).1 = z at heq
    cases samePhase_of heq <;> simp
  refine ⟨fun th h => ?_, fun a => ⟨fun h => ?_, fun ⟨s, h1, h2⟩ => ?_⟩, ?_⟩
  · subst h
    generalize (M.alone (is.count i) (E.begin M src) ⟨0, G.arr⟩).1 = z at heq hstop
    cases z with
    | running th' => exact hstop _ rfl
    | done _ => cases heq
    | rejected _ _ => cases heq
    | failed _ => cases heq
  · obtain ⟨k, hp⟩ := (hres n (Nat.le_refl _) _ a).mpr ((hdone a).mp h)
    exact schema_sound (E := { E with fuel := n, steps := is.count i }) ⟨hE.specials, hE.addr⟩ hw hb hrd hp
  · obtain ⟨n', kids', h⟩ := schema_complete hE ho hw hb hrd hk h1 h2
    rw [hdone, ← alone_stays M hstop (n' + is.count i) (Nat.le_add_left _ _)]
    exact (hres (max n n') (Nat.le_max_left _ _) _ a).mp ⟨kids', h _ _ (Nat.le_max_right _ _) (Nat.le_add_right _ _)⟩
  · rintro ⟨m, steps, h⟩
    obtain ⟨th, tok, h⟩ := (machine_parse (E := { E with fuel := n, steps := steps }) ⟨hE.specials, hE.addr⟩ ho hw hb hrd (hM n (Nat.le_refl _)) ⟨0, G.arr⟩).2 ⟨m, h⟩
    have h : (M.alone steps (E.begin M src) ⟨0, G.arr⟩).1 = .rejected th tok := h
    have h3 : (M.alone (is.count i) (E.begin M src) ⟨0, G.arr⟩).1 = .rejected th tok := by
      have e1 := alone_stays M hstop (steps + is.count i) (Nat.le_add_left _ _)
      have e2 := alone_stays M (k := steps) (x := E.begin M src) (G := ⟨0, G.arr⟩) (by rw [h]; simp) (steps + is.count i) (Nat.le_add_right _ _)
      rw [← e1, e2, h]
    generalize (M.alone (is.count i) (E.begin M src) ⟨0, G.arr⟩).1 = z at heq h3
    subst h3
    cases samePhase_of heq with
    | rejected _ _ _ _ _ => exact ⟨_, _, rfl⟩

/-- The reader of SchemaParser.cpp:86-105 `try_schema_string`. -/
def stringSource (text : List Nat) : Unit → Nat → Unit × InBuf.ReadRes := fun _ n => ((), schemaStringRead text n)

/-- C53 (partial as above): any number of calls of `try_schema_string`, interleaved in any way: if the array has room for all of the steps, each
of the calls that has made its steps has returned the AST its own text describes, if there is one. -/
theorem C53_strings_partial {E : Nat → SchemaEnv} (hE : ∀ i, (E i).Ok) (ho : ∀ i, (E i).orders.Ok (schemaGrammar ((E i).specials.map (·.2))))
    {texts : Nat → List Nat} (hw : ∀ i, (texts i).length < 24000) (hb : ∀ i, AllBytes (texts i)) (hk : ∀ i, Fit 0 (lexemes (texts i))) :
    ∃ (n : Nat → Nat) (M : Nat → MParser Unit), (∀ i fuel, n i ≤ fuel → ({ E i with fuel := fuel } : SchemaEnv).machine (stringSource (texts i)) = .ok (M i)) ∧
      ∀ (is : List Nat) (G : Statics), G.kids + is.length ≤ 10000 → ∀ i, 6 * (lexemes (texts i)).length + 2 ≤ is.count i → ∀ a,
        (runSchedule M is (fun j => (E j).begin (M j) ()) G).1 i = .done a ↔ ∃ s, WrittenFile 0 (lexemes (texts i)) s ∧ s.Builds a := by
  have h := fun i => C53_schedule_partial (hE i) (ho i) (hw i) (hb i) (rd := stringSource (texts i)) (src := ()) (string_delivers (hw i)) (hk i)
  choose n M hM hrun using h
  refine ⟨n, M, hM, fun is G hroom i hi a => ?_⟩
  have hnf := C53_room M (is := is) (x := fun j => (E j).begin (M j) ()) (G := G) (fun j => ⟨(), InBuf.init (E j).mem 48000 (E j).nextId, rfl⟩) hroom i
  exact (hrun i M i (fun j => (E j).begin (M j) ()) is G rfl rfl hi hnf).2.1 a

/-- The conditions can be met: two calls with the text of the example in `Props/SchemaText.lean`, step by step in turn. -/
example : ∃ (M : Nat → MParser Unit) (re : Regex), ∀ G : Statics, G.kids = 0 → ∀ i, i < 2 →
    (runSchedule M ((List.range 600).flatMap fun _ => [0, 1]) (fun j => exEnv.begin (M j) ()) G).1 i = .done { vars := [⟨"v", re⟩], delims := [[32, 10]] } := by
  have h : exPat.elab.isSome = true := by decide
  obtain ⟨re, hre⟩ := Option.isSome_iff_exists.mp h
  obtain ⟨n, M, _, hrun⟩ := C53_strings_partial (E := fun _ => exEnv) (fun _ => exEnv_ok) (fun _ => exEnv_orders) (texts := fun _ => exText)
    (fun _ => by decide) (fun _ => exText_bytes) (fun _ => by decide)
  refine ⟨M, re, fun G hG i hi => (hrun _ G ?_ i ?_ _).mpr ⟨_, exText_written, rfl, .cons ⟨rfl, hre⟩ .nil⟩⟩
  · rw [hG]; decide +kernel
  · have : i = 0 ∨ i = 1 := by omega
    rcases this with rfl | rfl <;> decide +kernel

end LogSurgeon
