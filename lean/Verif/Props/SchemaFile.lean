import Verif.Props.SchemaMachine
import Verif.Proofs.FileParse
import Verif.Proofs.FileAligned
import Verif.Proofs.SchemaRoom
/-
C43, C53: schema files of any length, step by step as the parser works on its buffer of 48000 bytes.
-/
namespace LogSurgeon

variable {σ : Type}

/-- What `try_schema_file` still has to read. -/
def FileReader.left (r : FileReader) : List Nat :=
  match r.file with
  | some f => f.rest
  | none => []

theorem file_serves : Serves schemaFileRead FileReader.left := by
  intro r n hn
  obtain ⟨file⟩ := r
  cases file with
  | none => exact ⟨by simp [schemaFileRead, FileReader.read, FileReader.left], by simp [schemaFileRead, FileReader.read, FileReader.left]⟩
  | some f =>
    constructor
    · show (f.fread n).1.rest = f.rest.drop n
      show f.content.drop (f.pos + (f.rest.take n).length) = (f.content.drop f.pos).drop n
      rw [List.drop_drop, List.length_take]
      rcases Nat.le_total n f.rest.length with h | h
      · rw [Nat.min_eq_left h]
      · rw [Nat.min_eq_right h]
        have : f.rest.length = f.content.length - f.pos := by simp [OpenFile.rest]
        rw [List.drop_eq_nil_of_le (by omega), List.drop_eq_nil_of_le (by omega)]
    · show (if (f.rest.take n).length == 0 then InBuf.ReadRes.eof else .bytes (f.rest.take n)) = if f.rest = [] then .eof else .bytes (f.rest.take n)
      by_cases h : f.rest = []
      · rw [h]; simp
      · rw [if_neg h, if_neg]
        have : 0 < f.rest.length := List.length_pos_iff.mpr h
        simp [h]
        omega

/-- The text a parser reads, piece by piece, from a reader that always gives as many bytes as it can: a parser that has made six steps for each unit
of the text has stopped, and it has the AST the text describes, if there is one; whatever other parsers did in between. -/
theorem served_schedule {E : SchemaEnv} (hE : E.Ok) (ho : E.orders.Ok (schemaGrammar (E.specials.map (·.2)))) (hmem : (E.mem 0).length = 48000) (hnid : 0 < E.nextId)
    {w : List Nat} (hb : AllBytes w) (hlen : w.length % 48000 = 0 → w = []) {rd : σ → Nat → σ × InBuf.ReadRes} {rest : σ → List Nat} (hrd : Serves rd rest) {src : σ} (hsrc : rest src = w) :
    ∃ n M, (∀ fuel, n ≤ fuel → ({ E with fuel := fuel } : SchemaEnv).machine rd = .ok M) ∧
      ∀ G : Statics, Fit G.kids (lexemes w) → ∀ k, 6 * (lexemes w).length + 2 ≤ k →
        (∀ th, (M.alone k (E.begin M src) G).1 ≠ .running th) ∧ (M.alone k (E.begin M src) G).1 ≠ .failed .full ∧
        ∀ a, (M.alone k (E.begin M src) G).1 = .done a ↔ ∃ s, WrittenFile 0 (lexemes w) s ∧ s.Builds a := by
  have hN : 2 < 2 * (w.length + 2) := by omega
  have hw : w.length < 2 * (w.length + 2) / 2 := by omega
  have hdel : Delivers (stringSource w) () (2 * (w.length + 2) / 2) w := by
    unfold Delivers stringSource schemaStringRead
    simp only [Nat.zero_add, List.drop_zero, Nat.sub_zero]
    have e : (if 2 * (w.length + 2) / 2 > w.length then w.length else 2 * (w.length + 2) / 2) = w.length := if_pos (by omega)
    rw [e]
    by_cases h : w = []
    · subst h; rfl
    · rw [if_neg h, if_neg (by simp [h]), List.take_length]
  obtain ⟨n, Ml, hMl, hfitl⟩ := machine_fit_in hE ho hN hw hb hdel
  obtain ⟨p1, p2, p3, p4⟩ := machine_eq (hMl n (Nat.le_refl _))
  have hM : ∀ fuel, n ≤ fuel → ({ E with fuel := fuel } : SchemaEnv).machine rd = .ok (⟨Ml.L, E.specials.map (·.2), Ml.tb, rd⟩ : MParser σ) := by
    intro fuel hf
    obtain ⟨p1, p2, p3, p4⟩ := machine_eq (hMl fuel hf)
    unfold SchemaEnv.machine
    simp only at p1 p2
    simp only [p1, p2]
  refine ⟨n, ⟨Ml.L, E.specials.map (·.2), Ml.tb, rd⟩, hM, fun G hk k hsteps => ?_⟩
  have hagree := machines_agree (E := { E with fuel := n }) ⟨hE.specials, hE.addr⟩ ho hmem hnid hb hlen hk hrd hsrc hN hw hdel (hM n (Nat.le_refl _)) (hMl n (Nat.le_refl _)) G G rfl k (by omega)
  have hG := hfitl G hk k
  have hres : ∀ fuel, n ≤ fuel → ∀ m a, (∃ k, ({ E with fuel := fuel, steps := m } : SchemaEnv).parseIn (2 * (w.length + 2)) G.kids (stringSource w) () = .ok (a, k)) ↔
      (Ml.alone m (Ml.start () (InBuf.init E.mem (2 * (w.length + 2)) E.nextId)) G).1 = .done a := by
    intro fuel hf m a
    have := (machine_parse_in (E := { E with fuel := fuel, steps := m }) ⟨hE.specials, hE.addr⟩ ho hN hw hb hdel (hMl _ hf) G) a
    constructor
    · rintro ⟨k, h⟩; exact ((this k).mp h).1
    · intro h; exact ⟨_, (this _).mpr ⟨h, rfl⟩⟩
  have hdone : ∀ a, (Ml.alone k (Ml.start () (InBuf.init E.mem (2 * (w.length + 2)) E.nextId)) G).1 = .done a ↔ ∃ s, WrittenFile 0 (lexemes w) s ∧ s.Builds a := by
    intro a
    constructor
    · intro h
      obtain ⟨k', hp⟩ := (hres n (Nat.le_refl _) _ a).mpr h
      exact schema_sound_in (E := { E with fuel := n, steps := k }) ⟨hE.specials, hE.addr⟩ hN hw hb hdel hp
    · rintro ⟨s, h1, h2⟩
      obtain ⟨n', kids', _, h⟩ := schema_complete_in hE ho hN hw hb hdel hk h1 h2
      rw [← alone_stays Ml (hG.2 hsteps) (n' + k) (Nat.le_add_left _ _)]
      exact (hres (max n n') (Nat.le_max_left _ _) _ a).mp ⟨kids', h _ _ (Nat.le_max_right _ _) (Nat.le_add_right _ _)⟩
  have hrun := hG.2 hsteps
  have hfull := hG.1
  clear hG hres hfitl
  obtain ⟨h1, _⟩ := hagree
  change RingPhase Ml.L 24000 w rest ((⟨Ml.L, E.specials.map (·.2), Ml.tb, rd⟩ : MParser σ).alone k (E.begin ⟨Ml.L, E.specials.map (·.2), Ml.tb, rd⟩ src) G).1
    (Ml.alone k (Ml.start () (InBuf.init E.mem (2 * (w.length + 2)) E.nextId)) G).1 at h1
  generalize ((⟨Ml.L, E.specials.map (·.2), Ml.tb, rd⟩ : MParser σ).alone k (E.begin ⟨Ml.L, E.specials.map (·.2), Ml.tb, rd⟩ src) G).1 = x at h1 ⊢
  generalize (Ml.alone k (Ml.start () (InBuf.init E.mem (2 * (w.length + 2)) E.nextId)) G).1 = y at h1 hdone hrun hfull
  cases y with
  | running th => exact absurd rfl (hrun th)
  | done a =>
    cases x with
    | done a' =>
      cases h1
      exact ⟨(by simp), (by simp), fun b => by rw [← hdone b]; simp⟩
    | _ => exact h1.elim
  | rejected th tok =>
    cases x with
    | rejected th' tok' => exact ⟨(by simp), (by simp), fun a => ⟨(by intro h; cases h), fun h => by have := (hdone a).mpr h; cases this⟩⟩
    | _ => exact h1.elim
  | failed e =>
    cases x with
    | failed e' =>
      cases h1
      exact ⟨(by simp), (by simpa using hfull), fun a => ⟨(by intro h; cases h), fun h => by have := (hdone a).mpr h; cases this⟩⟩
    | _ => exact h1.elim

/-- C43 (partial: lines are not too long; the length of the file is no multiple of 48000): a schema file of any length is parsed, and the result
is the AST its text describes; if there is none, nothing is returned. -/
theorem C43_file_any_length_partial {E : SchemaEnv} (hE : E.Ok) (ho : E.orders.Ok (schemaGrammar (E.specials.map (·.2)))) (hmem : (E.mem 0).length = 48000) (hnid : 0 < E.nextId)
    {content : List Nat} (hb : AllBytes content) (hlen : content.length % 48000 = 0 → content = []) :
    ∃ n M, (∀ fuel, n ≤ fuel → ({ E with fuel := fuel } : SchemaEnv).machine schemaFileRead = .ok M) ∧
      ∀ G : Statics, Fit G.kids (lexemes content) → ∀ k, 6 * (lexemes content).length + 2 ≤ k →
        (∀ th, (M.alone k (E.begin M (({} : FileReader).tryOpen (some content)).1) G).1 ≠ .running th) ∧
        ∀ a, (M.alone k (E.begin M (({} : FileReader).tryOpen (some content)).1) G).1 = .done a ↔ ∃ s, WrittenFile 0 (lexemes content) s ∧ s.Builds a := by
  obtain ⟨n, M, hM, h⟩ := served_schedule hE ho hmem hnid hb hlen file_serves (src := (({} : FileReader).tryOpen (some content)).1) rfl
  exact ⟨n, M, hM, fun G hf k hk => ⟨(h G hf k hk).1, (h G hf k hk).2.2⟩⟩

/-- C53 (partial as above): the same under every schedule, unless the array is full. -/
theorem C53_file_any_length_partial {E : SchemaEnv} (hE : E.Ok) (ho : E.orders.Ok (schemaGrammar (E.specials.map (·.2)))) (hmem : (E.mem 0).length = 48000) (hnid : 0 < E.nextId)
    {content : List Nat} (hb : AllBytes content) (hlen : content.length % 48000 = 0 → content = []) (hfit : Fit 0 (lexemes content)) :
    ∃ n M, (∀ fuel, n ≤ fuel → ({ E with fuel := fuel } : SchemaEnv).machine schemaFileRead = .ok M) ∧
      ∀ (P : Nat → MParser FileReader) (i : Nat) (x : Nat → MPhase FileReader) (is : List Nat) (G : Statics), P i = M →
        x i = E.begin M (({} : FileReader).tryOpen (some content)).1 → 6 * (lexemes content).length + 2 ≤ is.count i → (runSchedule P is x G).1 i ≠ .failed .full →
        (∀ th, (runSchedule P is x G).1 i ≠ .running th) ∧
        (∀ a, (runSchedule P is x G).1 i = .done a ↔ ∃ s, WrittenFile 0 (lexemes content) s ∧ s.Builds a) := by
  obtain ⟨n, M, hM, h⟩ := served_schedule hE ho hmem hnid hb hlen file_serves (src := (({} : FileReader).tryOpen (some content)).1) rfl
  refine ⟨n, M, hM, fun P i x is G hPi hxi hsteps hnf => ?_⟩
  obtain ⟨h1, h2, h3⟩ := h ⟨0, G.arr⟩ hfit _ hsteps
  have heq : ((runSchedule P is x G).1 i).erase = ((M.alone (is.count i) (E.begin M (({} : FileReader).tryOpen (some content)).1) ⟨0, G.arr⟩).1).erase := by
    rcases schedule_erase P i is x G _ (.inr rfl) with h | h
    · exact absurd h hnf
    · rcases alone_erase M (is.count i) (E.begin M (({} : FileReader).tryOpen (some content)).1) ⟨0, G.arr⟩ _ (.inr rfl) with h' | h'
      · exact absurd h' h2
      · rw [h, h', hPi, hxi]
  generalize (runSchedule P is x G).1 i = y at heq hnf ⊢
  generalize (M.alone (is.count i) (E.begin M (({} : FileReader).tryOpen (some content)).1) ⟨0, G.arr⟩).1 = z at heq h1 h3
  cases samePhase_of heq with
  | done a => exact ⟨(by simp), h3⟩
  | failed e => exact ⟨(by simp), h3⟩
  | running _ _ _ _ _ => exact absurd rfl (h1 _)
  | rejected tok _ _ _ _ => exact ⟨(by simp), fun a => ⟨(by intro h; cases h), fun h => by have := (h3 a).mpr h; cases this⟩⟩

/-! ### Files whose length is a multiple of the size of the buffer -/

/-- A file whose length is a multiple of 48000 is never parsed: no number of steps yields an AST, whatever the file says. -/
theorem aligned_never {E : SchemaEnv} (hE : E.Ok) (ho : E.orders.Ok (schemaGrammar (E.specials.map (·.2))))
    {content : List Nat} (hne : content ≠ []) (hlen : content.length % 48000 = 0) {M : MParser FileReader} (hM : E.machine schemaFileRead = .ok M) (G : Statics) (k : Nat) (a : SchemaAST) :
    (M.alone k (E.begin M (({} : FileReader).tryOpen (some content)).1) G).1 ≠ .done a := by
  obtain ⟨p1, p2, p3, p4⟩ := machine_eq hM
  have hsc := hE.specials
  have hsp := perm_names hsc
  obtain ⟨sid, t, S⟩ := Grammar.sound_names (schema_decent hsp).build (schema_decent hsp).prime (schema_decent hsp).sep (schema_decent hsp).primeT
    (schema_decent hsp).productive (schema_decent hsp).size ho p2
  refine Aligned.alone hsc hE.addr p1 (S := 48000) (rest := FileReader.left) (by omega) (by rw [p4]; exact file_serves) rfl (t := t) (by rw [p3]; exact S.table) k _ G ?_ a
  refine ⟨⟨?_, ?_⟩, rfl, ⟨rfl, ?_, rfl, ?_⟩, ?_, ?_, ?_⟩
  · show (0 : Nat) < 48000; omega
  · intro tys h; cases h
  · show (0 : Nat) < 48000; omega
  · intro h; cases h
  · show (0 : Nat) ≤ 48000; omega
  · intro _
    refine ⟨?_, fun _ => hne⟩
    show (0 + content.length) % 48000 = 0
    rw [Nat.zero_add]; exact hlen
  · intro tok tys h; cases h

/-- `a:b`, `n` more lines `a:b`, and the end of the last line. -/
def sameLines (n : Nat) : List Nat := [97, 58, 98] ++ (List.replicate n [10, 97, 58, 98]).flatten ++ [10]

theorem sameLines_mem {n c : Nat} (h : c ∈ sameLines n) : c = 97 ∨ c = 58 ∨ c = 98 ∨ c = 10 := by
  unfold sameLines at h
  simp only [List.mem_append, List.mem_flatten, List.mem_replicate] at h
  rcases h with (h | ⟨l, ⟨_, rfl⟩, h⟩) | h <;> simp at h <;> tauto

theorem sameLines_length (n : Nat) : (sameLines n).length = 4 * n + 4 := by
  unfold sameLines
  simp [List.length_flatten]
  omega

theorem written_ab (k : Nat) : WrittenLine k (chars [97, 58, 98]) { vars := [("a", .lit 98)] } :=
  WrittenLine.var (k := k) (i := 0) (n := [97]) (w := [98]) ⟨by simp, by simp [AlphaNum]⟩ (.ofChoice (.ofSingle (.ofLiteral (.char (.plain (.inl (by simp [AlphaNum])))))))

theorem sameLines_written : ∀ n, WrittenFile 0 (chars ([97, 58, 98] ++ (List.replicate n [10, 97, 58, 98]).flatten)) { vars := List.replicate (n + 1) ("a", .lit 98) }
  | 0 => .first (written_ab 0)
  | n + 1 => by
    have h := WrittenFile.line (sameLines_written n) (.inl rfl) (written_ab _)
    have e : List.replicate (n + 1) [10, 97, 58, 98] = List.replicate n [10, 97, 58, 98] ++ [[10, 97, 58, 98]] := List.replicate_succ'
    rw [e]
    have e2 : (List.replicate (n + 1 + 1) (("a", Pat.lit 98) : String × Pat)) = List.replicate (n + 1) ("a", .lit 98) ++ [("a", .lit 98)] := List.replicate_succ'
    rw [e2]
    simpa [chars] using h

theorem sameLines_fit : ∀ n, Fit 0 (chars ([97, 58, 98] ++ (List.replicate n [10, 97, 58, 98]).flatten)) ∧
    roomBound 0 (chars ([97, 58, 98] ++ (List.replicate n [10, 97, 58, 98]).flatten)) ≤ 5000
  | 0 => ⟨by decide, by decide⟩
  | n + 1 => by
    obtain ⟨h1, h2⟩ := sameLines_fit n
    obtain ⟨f1, f2⟩ := fit_line (k := 0) (a := chars ([97, 58, 98] ++ (List.replicate n [10, 97, 58, 98]).flatten)) (b := chars [97, 58, 98]) (by decide)
    have e : chars ([97, 58, 98] ++ (List.replicate (n + 1) [10, 97, 58, 98]).flatten) =
        chars ([97, 58, 98] ++ (List.replicate n [10, 97, 58, 98]).flatten) ++ .char 10 :: chars [97, 58, 98] := by
      have e : List.replicate (n + 1) [10, 97, 58, 98] = List.replicate n [10, 97, 58, 98] ++ [[10, 97, 58, 98]] := List.replicate_succ'
      rw [e]
      simp [chars]
    rw [e]
    have hl : (chars [97, 58, 98]).length = 3 := rfl
    refine ⟨f1.mpr ⟨h1, by rw [hl]; omega⟩, ?_⟩
    rw [f2]
    show min _ 5000 ≤ 5000
    omega

/-- The file is a schema file like any other: bytes, `n + 1` variables, lines of three characters. -/
theorem sameLines_good (n : Nat) : AllBytes (sameLines n) ∧ Fit 0 (lexemes (sameLines n)) ∧
    WrittenFile 0 (lexemes (sameLines n)) { vars := List.replicate (n + 1) ("a", .lit 98) } := by
  have hlex : lexemes (sameLines n) = chars ([97, 58, 98] ++ (List.replicate n [10, 97, 58, 98]).flatten) ++ chars [10] := by
    rw [lexemes_chars (fun h => by rcases sameLines_mem h with h | h | h | h <;> cases h)]
    simp [sameLines, chars]
  rw [hlex]
  refine ⟨fun c h => by rcases sameLines_mem h with h | h | h | h <;> (rw [h]; decide), ?_, .blank (sameLines_written n) (.inl rfl)⟩
  obtain ⟨h1, h2⟩ := sameLines_fit n
  refine (fit_line (k := 0) (b := []) (by simp)).1.mpr ⟨h1, ?_⟩
  show _ + 5 * (0 + 2) ≤ 10000
  omega

/-- C43 refuted for files whose length is a multiple of 48000: 12000 lines `a:b` are a schema file with an AST, and none is ever returned; one more
line, and `C43_file_any_length_partial` applies. -/
theorem C43_aligned_refuted : ∃ content : List Nat, AllBytes content ∧ Fit 0 (lexemes content) ∧
    (∃ s a, WrittenFile 0 (lexemes content) s ∧ s.Builds a) ∧
    ∀ (E : SchemaEnv), E.Ok → E.orders.Ok (schemaGrammar (E.specials.map (·.2))) → ∀ M, E.machine schemaFileRead = .ok M →
      ∀ (G : Statics) (k : Nat) (a : SchemaAST), (M.alone k (E.begin M (({} : FileReader).tryOpen (some content)).1) G).1 ≠ .done a := by
  obtain ⟨h1, h2, h3⟩ := sameLines_good 11999
  have hlen := sameLines_length 11999
  obtain ⟨x, hx⟩ : ∃ x, (Pat.lit 98).elab = some x := ⟨_, rfl⟩
  generalize sameLines 11999 = content at h1 h2 h3 hlen
  refine ⟨content, h1, h2, ⟨_, { vars := List.replicate 12000 ⟨"a", x⟩, delims := [] }, h3, rfl, ?_⟩, fun E hE ho M hM G k a => ?_⟩
  · have : ∀ n : Nat, List.Forall₂ (fun (v : String × Pat) (x : SchemaVar) => x.name = v.1 ∧ v.2.elab = some x.regex) (List.replicate n ("a", .lit 98)) (List.replicate n ⟨"a", x⟩) := by
      intro n
      induction n with
      | zero => exact .nil
      | succ n ih => exact .cons ⟨rfl, hx⟩ ih
    exact this 12000
  · refine aligned_never hE ho ?_ (by rw [hlen]) hM G k a
    intro e
    rw [e] at hlen
    simp at hlen

/-- The hypotheses of the theorems above are met by a file that fills the buffer and one line more. -/
example : ∃ E : SchemaEnv, E.Ok ∧ E.orders.Ok (schemaGrammar (E.specials.map (·.2))) ∧ (E.mem 0).length = 48000 ∧ 0 < E.nextId ∧
    ∃ content : List Nat, AllBytes content ∧ 48000 < content.length ∧ (content.length % 48000 = 0 → content = []) ∧ Fit 0 (lexemes content) ∧ ∃ s, WrittenFile 0 (lexemes content) s ∧ s.vars.length = 12001 := by
  refine ⟨{ exEnv with mem := fun _ => List.replicate 48000 0, nextId := 1 }, ⟨exEnv_ok.specials, exEnv_ok.addr⟩, exEnv_orders, List.length_replicate, (by show 0 < 1; omega), ?_⟩
  obtain ⟨h1, h2, h3⟩ := sameLines_good 12000
  have hlen := sameLines_length 12000
  generalize sameLines 12000 = content at h1 h2 h3 hlen
  exact ⟨content, h1, (by omega), (by intro h; omega), h2, _, h3, List.length_replicate⟩

end LogSurgeon
