import Verif.Proofs.SchemaLexemes
import Verif.Proofs.Coacc
import Verif.Proofs.SchemaLexer
import Verif.Proofs.Munch
import Verif.Proofs.ReaderSim
/-
The lexer of the schema parser looks at no more than eleven characters for a token.
-/
namespace LogSurgeon

/-- A check for `Regex.Fertile`. -/
def Regex.fertile : Regex → Bool
  | .literal _ c => decide (c < cSizeOfByte ∧ c ≠ cCharStartOfFile)
  | .group _ _ ng rs => [48, 65, 97].any fun c => (groupRanges ng rs).any fun r => decide (r.1 ≤ c ∧ c ≤ r.2)
  | .cat _ l r => l.fertile && r.fertile
  | _ => false

theorem fertile_of (r : Regex) : r.fertile = true → r.Fertile := by
  induction r with
  | literal neg c => intro h; simpa [Regex.fertile, Regex.Fertile] using h
  | group neg w ng rs =>
    intro h
    simp only [Regex.fertile, List.any_eq_true, decide_eq_true_eq] at h
    obtain ⟨c, hc, r, hr, h1⟩ := h
    refine ⟨c, ?_, ?_, r, hr, h1⟩
    all_goals
      simp only [List.mem_cons, List.not_mem_nil, or_false] at hc
      rcases hc with rfl | rfl | rfl <;> decide
  | cat neg l r ihl ihr =>
    intro h
    simp only [Regex.fertile, Bool.and_eq_true] at h
    exact ⟨ihl h.1, ihr h.2⟩
  | empty _ => intro h; cases h
  | integer _ _ => intro h; cases h
  | or _ _ _ _ _ => intro h; cases h
  | mult _ _ _ _ _ => intro h; cases h
  | capture _ _ _ _ => intro h; cases h

theorem lexDecls_fertile : ∀ d ∈ schemaLexDecls schemaSpecialChars, d.2.fertile = true := by decide +kernel

theorem schemaLexer_dies {sc : List (Nat × String)} (hsc : sc.Perm schemaSpecialChars) {addr : Nat → Nat} (hinj : ∀ a b, addr a = addr b → a = b)
    {L : Lexer} (hlex : schemaLexer sc addr = .ok L) {u : List Nat} (hu : AllBytes u) (hlen : 10 < u.length) : L.dfa.run 0 u = none := by
  obtain ⟨L', hlex', hL⟩ := schemaLexer_ok hsc hinj
  cases hlex.symm.trans hlex'
  unfold schemaLexer at hlex
  split at hlex
  · cases hlex
  rename_i d hd
  cases hlex
  simp only [generateDfa, Option.bind_eq_some_iff] at hd
  obtain ⟨n, hn, hd⟩ := hd
  obtain ⟨d', hd', _, h2, h3, _⟩ := dfa_ids_spec hn hinj
  cases hd.symm.trans hd'
  have hrule : ∀ r ∈ (schemaLexTables sc).rules, Ends r.regex.addToNfa := by
    intro r hr
    obtain ⟨hid, hrules⟩ := addRules_ids (schemaLexDecls sc) ParserTables.init {} rfl
      (Grammar.init_ok (terms := schemaTerminals (sc.map (·.2)))) (fun d hd => by
        refine List.mem_append_right _ ?_
        rw [← lexDecls_names]
        exact List.mem_map_of_mem hd)
    have := (hrules r).mp hr
    rw [show ParserTables.init.rules = [] from rfl, List.mem_nil_iff, false_or] at this
    obtain ⟨x, hx, _, e⟩ := this
    rw [e]
    exact ends_regex _ (fertile_of _ (lexDecls_fertile x ((mem_lexDecls hsc x).mp hx)))
  refine (h2 u hu).mpr fun y ⟨w, hp, hw⟩ => ?_
  obtain ⟨x, hx, r, hr, hl⟩ := buildNfa_coacc hn hrule hp (by rintro rfl; rw [← hw] at hlen; simp [bytesOf] at hlen)
  have hb := ruleLang_bytes _ _ hl
  rw [bytesOf_append, hw] at hb
  have hacc : r.AcceptsAlone (u ++ bytesOf x) := (acceptsAlone_iff hn hr _).mpr ⟨w ++ x, hl, by rw [bytesOf_append, hw]⟩
  have hid : r.id ∈ d.idsOn (u ++ bytesOf x) := by
    rw [(h3 _ hb).mem_iff]
    simp only [List.mem_map, List.mem_filter, decide_eq_true_eq]
    exact ⟨r, ⟨hr, hacc⟩, rfl⟩
  rcases (ids_nonempty hsc hL hb).mp (List.ne_nil_of_mem hid) with ⟨c, h⟩ | h
  · have := congrArg List.length h
    simp at this; omega
  · have := congrArg List.length h
    simp [delimitersWord] at this; omega

theorem find_dies {L : Lexer} (hd : L.hasDelims = false) (fin : Bool) (a : Nat) : ∀ (r : List Nat) (q i : Nat) (m : Option (Nat × List Nat)),
    L.dfa.run q r = none → (L.dfa.isAccepting q = true ∨ m.isSome) → L.find fin (some (q, a, m)) i r ≠ .more
  | [], q, i, m => by intro h; cases h
  | c :: r, q, i, m => by
    intro hrun hm
    have hc : (L.cand q i c m).isSome := by
      unfold Lexer.cand
      rw [hd]
      cases hq : L.dfa.isAccepting q with
      | true => simp
      | false => rw [hq] at hm; simpa using hm
    rw [Lexer.find, if_neg (by simp [hd])]
    rw [Dfa.run] at hrun
    cases hn : L.dfa.next q c with
    | some q' =>
      rw [hn] at hrun
      exact find_dies hd fin a r q' (i + 1) _ hrun (.inr hc)
    | none =>
      simp only
      obtain ⟨x, hx⟩ := Option.isSome_iff_exists.mp hc
      rw [hx]
      simp

/-- With eleven bytes in front of it the lexer does not ask for more. -/
theorem scan_ahead {sc : List (Nat × String)} (hsc : sc.Perm schemaSpecialChars) {addr : Nat → Nat} (hinj : ∀ a b, addr a = addr b → a = b)
    {L : Lexer} (hlex : schemaLexer sc addr = .ok L) {bc bl : InBuf} {R s : List Nat} {fin : Bool} {lo rHat k : Nat} {st st' : LexState}
    (h : Sim bc bl R s fin lo rHat k) (hR : AllBytes R) (hst : SimSt0 st st' bc.size k lo R.length) (hask : st'.asked = false) (hm : st'.isMatch = false)
    (hcons : bl.consumed = false) (hfin : bc.finished = false) (hlen : bl.pos + 10 < R.length) : (L.scan st bc).2.2 ≠ .error .oob := by
  obtain ⟨L', hlex', hL⟩ := schemaLexer_ok hsc hinj
  cases hlex.symm.trans hlex'
  have hroot : L.dfa.ids 0 = [] := by
    have h0 : L.dfa.idsOn [] = L.dfa.ids 0 := rfl
    rw [← h0]
    refine Decidable.byContradiction fun hne => ?_
    rcases (ids_nonempty hsc hL (u := []) (fun c hc => by cases hc)).mp hne with ⟨c, h⟩ | h <;> cases h
  have hLO : LexOk L := ⟨by
    cases ha : L.dfa.isAccepting 0
    · rfl
    · exact absurd hroot (accepting_iff.mp ha), fun h => by simp [hL.delims] at h⟩
  have hnd : ¬ NlDelim L := fun h => by simp [NlDelim, hL.delims] at h
  -- the bytes read so far, lying linearly in a buffer
  obtain ⟨bR, hbR⟩ : ∃ bR : InBuf, bR = { mem := fun _ => R, staticSize := 0, size := 2 * R.length, pos := bl.pos, lastRead := R.length, lrfh := true, consumedPos := 0 } := ⟨_, rfl⟩
  have hV : View bR R false := by
    rw [hbR]
    exact View.of rfl (fun i _ => rfl) rfl (by simp) (.inr rfl) (fun _ => ⟨rfl, by simp⟩)
  have hp : bR.pos = bl.pos := by rw [hbR]
  have hsim : Sim bc bR R R false lo rHat k := by
    refine ⟨?_, hV, List.prefix_refl _, (fun h => by rw [hfin] at h; cases h), ?_, ?_⟩
    · rw [hp]; exact h.inv
    · rw [h.cons, hcons, hbR]
    · intro h'; rw [h.cons, hcons] at h'; cases h'
  have out := scanLoop_find hLO (s := R) (fin := false) (Lexer.scanFuel bR) 0 bR.pos none
    { st' with startPos := bR.pos, matchPos := bR.pos, matchLine := st'.line, typeIds := none } bR bR hV ⟨_, _, rfl⟩ (by omega)
    (by rw [hbR]; unfold Lexer.scanFuel; simp only; omega) rfl hm (fun hc => by rw [hbR] at hc; cases hc) hask
    ⟨fun hn => absurd hn hnd, fun hn => absurd hn hnd, fun hn => absurd hn hnd⟩ (fun hn => absurd hn hnd)
  have hscan : L.scan st' bR = L.scanLoop (Lexer.scanFuel bR) (some 0)
      { st' with startPos := bR.pos, matchPos := bR.pos, matchLine := st'.line, typeIds := none } bR := by
    unfold Lexer.scan
    rw [if_neg (by simp [hask]), if_neg (by simp [hm])]
  rw [← hscan] at out
  have hmore : L.find false (some (0, bR.pos, none)) bR.pos (R.drop bR.pos) ≠ .more := by
    rw [hp]
    have hu : AllBytes (R.drop bl.pos) := fun c hc => hR c (List.mem_of_mem_drop hc)
    have hdead := schemaLexer_dies hsc hinj hlex hu (by simp; omega)
    cases hr : R.drop bl.pos with
    | nil => rw [hr] at hdead; cases hdead
    | cons c r =>
      rw [hr] at hdead hu
      have hone : L.dfa.idsOn [c] ≠ [] := (ids_nonempty hsc hL (u := [c]) (fun x hx => hu x (by simp at hx; simp [hx]))).mpr (.inl ⟨c, rfl⟩)
      unfold Dfa.idsOn at hone
      rw [Dfa.run] at hone hdead
      rw [Lexer.find, if_neg (by simp [hL.delims])]
      cases hn : L.dfa.next 0 c with
      | none => rw [hn] at hone; exact absurd rfl hone
      | some q' =>
        rw [hn] at hone hdead
        exact find_dies hL.delims false _ r q' _ _ hdead (.inl (accepting_iff.mpr hone))
  intro ho
  rcases scan_sim L hsim hst (fun h => by rw [hm] at h; cases h) (fun h => by rw [hbR] at h; cases h) with ⟨_, _, h3⟩ | h3 | ⟨_, _, _, _, _, _, _, _, _, h2, _⟩
  · have h3 := h3 rfl rfl
    obtain ⟨_, out⟩ := out
    cases hf : L.find false (some (0, bR.pos, none)) bR.pos (R.drop bR.pos) with
    | more => exact hmore hf
    | tok a e ty =>
      rw [hf] at out
      simp only at out
      split at out
      · obtain ⟨_, t, l, o, _⟩ := out; rw [h3] at o; cases o
      · obtain ⟨_, t, o, _⟩ := out; rw [h3] at o; cases o
    | nothing =>
      rw [hf] at out
      simp only at out
      split at out
      · obtain ⟨_, t, l, o, _⟩ := out; rw [h3] at o; cases o
      · obtain ⟨_, t, o, _⟩ := out; rw [h3] at o; cases o
  · obtain ⟨_, out⟩ := out
    cases hf : L.find false (some (0, bR.pos, none)) bR.pos (R.drop bR.pos) with
    | more => exact hmore hf
    | tok a e ty =>
      rw [hf] at out
      simp only at out
      split at out
      · obtain ⟨_, t, l, o, _⟩ := out; rw [h3] at o; cases o
      · obtain ⟨_, t, o, _⟩ := out; rw [h3] at o; cases o
    | nothing =>
      rw [hf] at out
      simp only at out
      split at out
      · obtain ⟨_, t, l, o, _⟩ := out; rw [h3] at o; cases o
      · obtain ⟨_, t, o, _⟩ := out; rw [h3] at o; cases o
  · rw [ho] at h2; cases h2

end LogSurgeon
