import Verif.Spec.FileReader
/-!
# C40: the file reader delivers the file
-/
namespace LogSurgeon
open FileReader

open OpenFile

private theorem upTo_prefix (d : Nat) : ∀ l : List Nat, ∃ r, l = (upTo d l).1 ++ r ∧ ((upTo d l).2 = false → r = [])
  | [] => ⟨[], by simp [upTo]⟩
  | c :: cs => by
    obtain ⟨r, h1, h2⟩ := upTo_prefix d cs
    by_cases h : c = d
    · exact ⟨cs, by simp [upTo, h]⟩
    · exact ⟨r, by simp [upTo, h, ← h1], by simpa [upTo, h] using h2⟩

private theorem upTo_nil (d : Nat) (l : List Nat) : (upTo d l).1 = [] ↔ l = [] := by
  cases l with
  | nil => simp [upTo]
  | cons c cs => by_cases h : c = d <;> simp [upTo, h]

private theorem upTo_inner (d : Nat) : ∀ l : List Nat, d ∉ (upTo d l).1.dropLast
  | [] => by simp [upTo]
  | c :: cs => by
    have ih := upTo_inner d cs
    by_cases h : c = d
    · simp [upTo, h]
    · simp only [upTo, h, if_false]
      cases hu : (upTo d cs).1 with
      | nil => simp
      | cons x xs =>
        rw [hu] at ih
        simp only [List.dropLast_cons_cons, List.mem_cons, not_or]
        exact ⟨fun e => h e.symm, ih⟩

private theorem upTo_last (d : Nat) : ∀ l : List Nat, (upTo d l).2 = true → (upTo d l).1.getLast? = some d
  | [] => by simp [upTo]
  | c :: cs => by
    intro hf
    by_cases h : c = d
    · simp [upTo, h]
    · simp only [upTo, h, if_false] at hf ⊢
      have ih := upTo_last d cs hf
      cases hu : (upTo d cs).1 with
      | nil => rw [hu] at ih; simp at ih
      | cons x xs => rw [hu] at ih; simpa using ih

/-- **C40**: whatever a client asks for (blocks of any size and lines with any terminators, in any order), no request fails,
the bytes delivered so far are together the beginning of the file, nothing is lost or repeated, and EndOfFile is answered
only when the whole file has been delivered (and then with no bytes). -/
theorem C40_history (content : List Nat) (ops : List FileOp) (r : FileReader) :
    ∃ r' answers, (r.tryOpen (some content)).1.run ops = some (r', answers) ∧ answers.length = ops.length ∧
      (∃ remaining, (answers.map (·.2)).flatten ++ remaining = content) ∧
      ∀ i : Nat, ∀ a, answers[i]? = some a →
        (a.1 = .success ∨ a.1 = .endOfFile) ∧
        (a.1 = .endOfFile → a.2 = [] ∧ ((answers.take i).map (·.2)).flatten = content) := by
  have key : ∀ (ops : List FileOp) (f : OpenFile), f.pos ≤ f.content.length →
      ∃ r' answers, FileReader.run { file := some f } ops = some (r', answers) ∧ answers.length = ops.length ∧
        (∃ remaining, (answers.map (·.2)).flatten ++ remaining = f.rest) ∧
        ∀ i : Nat, ∀ a, answers[i]? = some a →
          (a.1 = .success ∨ a.1 = .endOfFile) ∧
          (a.1 = .endOfFile → a.2 = [] ∧ ((answers.take i).map (·.2)).flatten = f.rest) := by
    intro ops
    induction ops with
    | nil => intro f _; exact ⟨_, [], rfl, rfl, ⟨f.rest, by simp⟩, by simp⟩
    | cons o os ih =>
      intro f hf
      -- one step
      have step : ∃ (f' : OpenFile) (c : FileCode) (d : List Nat), FileReader.op { file := some f } o = some ({ file := some f' }, c, d) ∧
          f'.pos ≤ f'.content.length ∧ f.rest = d ++ f'.rest ∧ (c = .success ∨ c = .endOfFile) ∧
          (c = .endOfFile → d = [] ∧ f.rest = []) := by
        cases o with
        | read n =>
          refine ⟨_, _, _, rfl, ?_, ?_, ?_, ?_⟩
          · simp only [OpenFile.fread, OpenFile.rest, List.length_take, List.length_drop]; omega
          · simp only [OpenFile.fread, OpenFile.rest, List.length_take, List.length_drop]
            rw [← List.drop_drop]
            conv => lhs; rw [← List.take_append_drop n (List.drop f.pos f.content)]
            congr 1
            by_cases hn : n ≤ f.content.length - f.pos
            · rw [Nat.min_eq_left hn]
            · rw [List.drop_of_length_le (by simp; omega), List.drop_of_length_le (by simp; omega)]
          · show (if _ then FileCode.endOfFile else FileCode.success) = _ ∨ (if _ then FileCode.endOfFile else FileCode.success) = _
            split <;> simp
          · intro h
            have h' : (if ((f.fread n).2.length < n : Bool) && (f.fread n).1.eof && (f.fread n).2.length == 0 then FileCode.endOfFile
                else .success) = .endOfFile := h
            split at h'
            next hc =>
              simp only [Bool.and_eq_true, beq_iff_eq, List.length_eq_zero_iff, decide_eq_true_eq] at hc
              obtain ⟨⟨h1, _⟩, h3⟩ := hc
              refine ⟨h3, ?_⟩
              rw [h3] at h1
              have : f.rest.take n = [] := h3
              rcases List.take_eq_nil_iff.mp this with h | h
              · simp at h1; omega
              · exact h
            next => cases h'
        | line d =>
          obtain ⟨rr, h1, h2⟩ := upTo_prefix d f.rest
          have hlen : (upTo d f.rest).1.length ≤ f.content.length - f.pos := by
            have := congrArg List.length h1
            simp only [List.length_append, OpenFile.rest, List.length_drop] at this ⊢
            omega
          have hdrop : f.content.drop (f.pos + (upTo d f.rest).1.length) = rr := by
            rw [← List.drop_drop]
            have : List.drop f.pos f.content = (upTo d f.rest).1 ++ rr := h1
            rw [this]
            simp
          by_cases he : (upTo d f.rest).1 = []
          · have hr : f.rest = [] := (upTo_nil d _).mp he
            have hfound : (upTo d f.rest).2 = false := by rw [hr]; rfl
            refine ⟨{ f with pos := f.pos + 0, eof := f.eof || !false }, .endOfFile, [], ?_, ?_, ?_, .inr rfl, fun _ => ⟨rfl, hr⟩⟩
            · simp [FileReader.op, tryReadToDelimiter, OpenFile.getdelim, he, hfound]
            · show f.pos + 0 ≤ f.content.length; omega
            · show f.rest = [] ++ f.content.drop (f.pos + 0)
              rfl
          · refine ⟨{ f with pos := f.pos + (upTo d f.rest).1.length, eof := f.eof || !(upTo d f.rest).2 }, .success, (upTo d f.rest).1, ?_, ?_, ?_, .inl rfl, fun h => by cases h⟩
            · simp only [FileReader.op, tryReadToDelimiter, OpenFile.getdelim]
              have : (upTo d f.rest).1.isEmpty = false := by simpa using he
              simp [this]
            · show f.pos + _ ≤ f.content.length; omega
            · show f.rest = _ ++ f.content.drop _
              rw [hdrop]; exact h1
      obtain ⟨f', c, d, hop, hf', hrest, hc, heof⟩ := step
      obtain ⟨r', answers, hrun, hlen, ⟨rem, hrem⟩, hans⟩ := ih f' hf'
      refine ⟨r', (c, d) :: answers, ?_, by simp [hlen], ⟨rem, ?_⟩, ?_⟩
      · simp only [FileReader.run, hop, hrun]
      · simp only [List.map_cons, List.flatten_cons, List.append_assoc, hrem, hrest]
      · intro i a ha
        cases i with
        | zero =>
          simp only [List.getElem?_cons_zero, Option.some.injEq] at ha
          subst ha
          exact ⟨hc, fun h => ⟨(heof h).1, by simpa using (heof h).2.symm⟩⟩
        | succ i =>
          simp only [List.getElem?_cons_succ] at ha
          obtain ⟨h1, h2⟩ := hans i a ha
          refine ⟨h1, fun h => ⟨(h2 h).1, ?_⟩⟩
          simp only [List.take_succ_cons, List.map_cons, List.flatten_cons, (h2 h).2, hrest]
  obtain ⟨r', answers, h1, h2, ⟨rem, h3⟩, h4⟩ := key ops { content := content } (Nat.zero_le _)
  exact ⟨r', answers, h1, h2, ⟨rem, by simpa [OpenFile.rest] using h3⟩, by simpa [OpenFile.rest] using h4⟩

/-- The hypotheses-free theorem above is about non-trivial histories: a mixed one. -/
example : ((FileReader.tryOpen {} (some [97, 10, 98, 99, 10, 100])).1.run [.read 1, .line 10, .line 10, .line 99, .read 5, .line 10]).map (·.2)
    = some [(.success, [97]), (.success, [10]), (.success, [98, 99, 10]), (.success, [100]), (.endOfFile, []), (.endOfFile, [])] := by
  decide

private theorem readLines_spec (d : Nat) (keep : Bool) : ∀ (k : Nat) (f : OpenFile) (line : List Nat),
    f.rest.length < k → ∃ ls, readLines d keep k { file := some f } line = some (ls.map (if keep then id else stripEnd d)) ∧
      IsLines d f.rest ls
  | 0, _, _, h => absurd h (Nat.not_lt_zero _)
  | k + 1, f, line, h => by
    obtain ⟨rr, h1, h2⟩ := upTo_prefix d f.rest
    have hdrop : f.content.drop (f.pos + (upTo d f.rest).1.length) = rr := by
      rw [← List.drop_drop]
      have : List.drop f.pos f.content = (upTo d f.rest).1 ++ rr := h1
      rw [this]
      simp
    by_cases he : (upTo d f.rest).1 = []
    · have hr : f.rest = [] := (upTo_nil d _).mp he
      have hfound : (upTo d f.rest).2 = false := by rw [hr]; rfl
      refine ⟨[], ?_, ⟨hr.symm, by simp, by simp, by simp⟩⟩
      simp only [readLines, tryReadToDelimiter, OpenFile.getdelim, he, hfound]
      simp
    · have hne : (upTo d f.rest).1.isEmpty = false := by simpa using he
      obtain ⟨ls, hls, hL⟩ := readLines_spec d keep k
        { f with pos := f.pos + (upTo d f.rest).1.length, eof := f.eof || !(upTo d f.rest).2 }
        ((if keep then id else stripEnd d) (upTo d f.rest).1) (by
          show (f.content.drop _).length < k
          rw [hdrop]
          have := congrArg List.length h1
          rw [List.length_append] at this
          have hp : 0 < (upTo d f.rest).1.length := List.length_pos_iff.mpr he
          omega)
      have hrest : OpenFile.rest { f with pos := f.pos + (upTo d f.rest).1.length, eof := f.eof || !(upTo d f.rest).2 } = rr := hdrop
      rw [hrest] at hL
      refine ⟨(upTo d f.rest).1 :: ls, ?_, ?_⟩
      · have hval : (if (keep == false && (upTo d f.rest).1.getLast? == some d) = true then (upTo d f.rest).1.dropLast else (upTo d f.rest).1)
            = (if keep then id else stripEnd d) (upTo d f.rest).1 := by
          cases keep <;> simp [stripEnd]
        simp only [readLines, tryReadToDelimiter, OpenFile.getdelim, hne]
        simp only [Bool.false_eq_true, if_false, List.nil_append, beq_self_eq_true, if_true, hval, hls]
        simp
      · refine ⟨by rw [List.flatten_cons, hL.all]; exact h1.symm, ?_, ?_, ?_⟩
        · intro l hl
          rcases List.mem_cons.mp hl with rfl | hl
          · exact he
          · exact hL.nonempty l hl
        · intro l hl
          rcases List.mem_cons.mp hl with rfl | hl
          · exact upTo_inner d _
          · exact hL.inner l hl
        · intro l hl
          cases ls with
          | nil => simp at hl
          | cons x xs =>
            simp only [List.dropLast_cons_cons, List.mem_cons] at hl
            rcases hl with rfl | hl
            · refine upTo_last d _ ?_
              cases hf : (upTo d f.rest).2 with
              | true => rfl
              | false =>
                have := hL.all
                rw [h2 hf] at this
                have hx := hL.nonempty x (by simp)
                simp [hx] at this
            · exact hL.ends l hl

theorem isLines_unique (delim : Nat) : ∀ (a b : List (List Nat)) (c : List Nat), IsLines delim c a → IsLines delim c b → a = b := by
  intro a
  induction a with
  | nil =>
    intro b c ha hb
    cases b with
    | nil => rfl
    | cons x xs =>
      have h1 := ha.all; have h2 := hb.all
      have := hb.nonempty x (by simp)
      subst h1
      simp [this] at h2
  | cons x xs ih =>
    intro b c ha hb
    cases b with
    | nil =>
      have h1 := ha.all; have h2 := hb.all
      have := ha.nonempty x (by simp)
      subst h2
      simp [this] at h1
    | cons y ys =>
      have hx := ha.nonempty x (by simp)
      have hy := hb.nonempty y (by simp)
      have hall : x ++ xs.flatten = y ++ ys.flatten := by
        have h1 := ha.all; have h2 := hb.all
        simp only [List.flatten_cons] at h1 h2
        rw [h1, h2]
      have tl : ∀ (z : List Nat) (zs : List (List Nat)), IsLines delim c (z :: zs) → zs ≠ [] → z.getLast? = some delim := by
        intro z zs hz hne
        cases zs with
        | nil => exact absurd rfl hne
        | cons w ws => exact hz.ends z (by simp)
      have lens : ∀ (z w : List Nat) (zs ws : List (List Nat)), IsLines delim c (z :: zs) → IsLines delim c (w :: ws) →
          z ++ zs.flatten = w ++ ws.flatten → ¬ z.length < w.length := by
        intro z w zs ws hz hw hall hlt
        have hzp : z <+: w := List.prefix_of_prefix_length_le (List.prefix_append z zs.flatten) (hall ▸ List.prefix_append w ws.flatten) (by omega)
        obtain ⟨u, hu⟩ := hzp
        have hune : u ≠ [] := by rintro rfl; simp at hu; subst hu; omega
        have hzne := hz.nonempty z (by simp)
        have hzs : zs ≠ [] := by
          rintro rfl
          have := congrArg List.length hall
          simp at this
          omega
        have hlast := tl z zs hz hzs
        have hmem : delim ∈ z := List.mem_of_getLast? hlast
        have hin := hw.inner w (by simp)
        apply hin
        rw [← hu, List.dropLast_append_of_ne_nil hune]
        exact List.mem_append_left _ hmem
      have hlen : x.length = y.length := by
        have a1 := lens x y xs ys ha hb hall
        have a2 := lens y x ys xs hb ha hall.symm
        omega
      obtain ⟨hxy, hrest⟩ := List.append_inj hall hlen
      subst hxy
      have sub : ∀ zs : List (List Nat), IsLines delim c (x :: zs) → IsLines delim zs.flatten zs := by
        intro zs hz
        refine ⟨rfl, fun l hl => hz.nonempty l (by simp [hl]), fun l hl => hz.inner l (by simp [hl]), fun l hl => ?_⟩
        cases zs with
        | nil => simp at hl
        | cons w ws => exact hz.ends l (by simp [hl])
      rw [ih ys xs.flatten (sub xs ha) (hrest ▸ sub ys hb)]

/-- **C40**: reading line by line until EndOfFile ends, and yields the lines of the file (with `keep_delimiter`), or the
lines without their terminators (without it). -/
theorem C40_lines (content : List Nat) (delim : Nat) (r : FileReader) (line : List Nat) :
    ∃ k ls, IsLines delim content ls ∧
      readLines delim true k (r.tryOpen (some content)).1 line = some ls ∧
      readLines delim false k (r.tryOpen (some content)).1 line = some (ls.map (stripEnd delim)) := by
  obtain ⟨ls, h1, h2⟩ := readLines_spec delim true (content.length + 1) { content := content } line (by simp [OpenFile.rest])
  obtain ⟨ls', h1', h2'⟩ := readLines_spec delim false (content.length + 1) { content := content } line (by simp [OpenFile.rest])
  have hrest : OpenFile.rest { content := content } = content := rfl
  rw [hrest] at h2 h2'
  have := isLines_unique delim ls' ls content h2' h2
  subst this
  exact ⟨content.length + 1, ls', h2, by simpa [tryOpen] using h1, by simpa [tryOpen] using h1'⟩

example : IsLines 10 [97, 10, 10, 98] [[97, 10], [10], [98]] ∧
    readLines 10 false 9 (FileReader.tryOpen {} (some [97, 10, 10, 98])).1 [] = some [[97], [], [98]] :=
  ⟨⟨rfl, by decide, by decide, by decide⟩, by decide⟩

/-- **C40**: with `append` the text read is added after what `str` held, without `append` it replaces it; a missing file is
reported, and reading without an open file is refused. -/
theorem C40_append (content str : List Nat) (delim : Nat) (keep : Bool) (pos : Nat) (eof : Bool) :
    let r : FileReader := { file := some { content := content, pos := pos, eof := eof } }
    ∃ (r' : FileReader) (c : FileCode) (got : List Nat),
      r.tryReadToDelimiter delim keep true str = some (r', c, str ++ got) ∧
      r.tryReadToDelimiter delim keep false str = some (r', c, got) ∧ (c = .endOfFile ↔ content.drop pos = []) := by
  intro r
  have hg : (∃ f', OpenFile.getdelim { content := content, pos := pos, eof := eof } delim = (f', none) ∧ f'.eof = true ∧ content.drop pos = []) ∨
      ∃ f' got, OpenFile.getdelim { content := content, pos := pos, eof := eof } delim = (f', some got) ∧ content.drop pos ≠ [] := by
    by_cases he : (upTo delim (content.drop pos)).1 = []
    · have hr : content.drop pos = [] := (upTo_nil delim _).mp he
      exact .inl ⟨_, by simp only [OpenFile.getdelim, OpenFile.rest, hr, upTo]; rfl, by simp, hr⟩
    · have hne : (upTo delim (content.drop pos)).1.isEmpty = false := by simpa using he
      have hr : content.drop pos ≠ [] := fun h => he ((upTo_nil delim _).mpr h)
      exact .inr ⟨_, _, by simp only [OpenFile.getdelim, OpenFile.rest, hne]; rfl, hr⟩
  rcases hg with ⟨f', hg, hf, hr⟩ | ⟨f', got, hg, hr⟩
  · exact ⟨{ file := some f' }, .endOfFile, [], by simp [r, tryReadToDelimiter, hg, hf], by simp [r, tryReadToDelimiter, hg, hf], by simp [hr]⟩
  · refine ⟨{ file := some f' }, .success, if keep == false && got.getLast? == some delim then got.dropLast else got,
      by simp [r, tryReadToDelimiter, hg], by simp [r, tryReadToDelimiter, hg], ?_⟩
    constructor
    · intro h; cases h
    · intro h; exact absurd h hr

theorem C40_not_open (r : FileReader) (delim n : Nat) (keep append bufNull : Bool) (str : List Nat) :
    (r.tryOpen none).2 = .fileNotFound ∧ ((r.tryOpen none).1.read bufNull n).2 = (.notInit, []) ∧
      (r.tryOpen none).1.tryReadToDelimiter delim keep append str = none := ⟨rfl, rfl, rfl⟩


end LogSurgeon
