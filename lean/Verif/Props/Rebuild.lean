import Verif.Spec.Rebuild
import Verif.Props.LogEvent
import Verif.Props.Schema
import Verif.Spec.SchemaText
import Verif.Proofs.LalrNames
/-
C65: an event from its logtype and its variables.
-/
namespace LogSurgeon

theorem rebuild_skip (n r : List Nat) (vs : List (List Nat)) (h : 62 ∉ n) : rebuildFrom true (n ++ 62 :: r) vs = rebuildFrom false r vs := by
  induction n with
  | nil => simp [rebuildFrom]
  | cons c n ih =>
    have h1 : c ≠ 62 := fun e => h (by simp [e])
    simp only [List.cons_append, rebuildFrom]
    rw [show (c != 62) = true from by simpa using h1]
    exact ih (fun e => h (by simp [e]))

/-- What a token looks like in a logtype. -/
structure PieceOk (text piece : List Nat) (fx : Bool) : Prop where
  fixed : fx = true → piece = text ∧ 60 ∉ text
  other : fx = false → piece = newLineMark ∨ ∃ d n, piece = d :: 60 :: (n ++ [62]) ∧ 60 ∉ n ∧ 62 ∉ n ∧ n ≠ [110, 101, 119, 76, 105, 110, 101]

theorem newLine_prefix {n r : List Nat} (h : 62 ∉ n) (hp : newLineMark.isPrefixOf (60 :: n ++ 62 :: r) = true) : n = [110, 101, 119, 76, 105, 110, 101] := by
  obtain ⟨t, ht⟩ := List.isPrefixOf_iff_prefix.mp hp
  have e : [110, 101, 119, 76, 105, 110, 101] ++ 62 :: t = n ++ 62 :: r := by
    have := ht
    simp only [newLineMark, List.cons_append, List.nil_append, List.cons.injEq, true_and] at this ⊢
    exact this
  rcases List.append_eq_append_iff.mp e with ⟨x, h1, h2⟩ | ⟨x, h1, h2⟩
  · cases x with
    | nil => simpa using h1
    | cons c x =>
      simp only [List.cons_append, List.cons.injEq] at h2
      obtain ⟨rfl, _⟩ := h2
      exact absurd (by rw [h1]; simp) h
  · cases x with
    | nil => simpa using h1.symm
    | cons c x =>
      simp only [List.cons_append, List.cons.injEq] at h2
      obtain ⟨rfl, _⟩ := h2
      have : 62 ∈ ([110, 101, 119, 76, 105, 110, 101] : List Nat) := by rw [h1]; simp
      exact absurd this (by decide)

section
variable {α : Type} {text piece : α → List Nat} {fixed : α → Bool}

theorem startsName_pieces : ∀ {xs : List α}, (∀ x ∈ xs, PieceOk (text x) (piece x) (fixed x)) → startsName (xs.flatMap piece) = false
  | [], _ => rfl
  | x :: xs, h => by
    rw [List.flatMap_cons]
    have hx := h x (by simp)
    cases hf : fixed x with
    | true =>
      obtain ⟨e, hn⟩ := hx.fixed hf
      rw [e]
      cases ht : text x with
      | nil => exact startsName_pieces fun y hy => h y (by simp [hy])
      | cons c r =>
        have : c ≠ 60 := fun e => hn (by rw [ht, e]; simp)
        unfold startsName
        split
        · rename_i h; simp at h; exact absurd h.1 this
        · rfl
    | false =>
      rcases hx.other hf with e | ⟨d, n, e, -, -, -⟩
      · rw [e]; rfl
      · rw [e]
        by_cases hd : d = 60
        · subst hd; rfl
        · unfold startsName
          split
          · rename_i h; simp at h; exact absurd h.1 hd
          · rfl

/-- Static text stays. -/
theorem rebuild_fixed {R : List Nat} (hR : startsName R = false) (vs : List (List Nat)) : ∀ {t : List Nat}, 60 ∉ t →
    rebuildFrom false (t ++ R) vs = t ++ rebuildFrom false R vs
  | [], _ => rfl
  | c :: t, h => by
    have hc : c ≠ 60 := fun e => h (by simp [e])
    have h1 : newLineMark.isPrefixOf (c :: (t ++ R)) = false := by
      simp [newLineMark, List.isPrefixOf, Ne.symm hc]
    have h2 : startsName (t ++ R) = false := by
      cases t with
      | nil => exact hR
      | cons b t =>
        have hb : b ≠ 60 := fun e => h (by simp [e])
        simp only [List.cons_append]
        unfold startsName
        split
        · rename_i h; simp at h; exact absurd h.1 hb
        · rfl
    rw [List.cons_append, List.cons_append, rebuildFrom, h1, h2]
    simp only [Bool.or_self, Bool.false_eq_true, if_false]
    rw [rebuild_fixed hR vs (fun e => h (by simp [e]))]

theorem rebuild_pieces : ∀ {xs : List α}, (∀ x ∈ xs, PieceOk (text x) (piece x) (fixed x)) →
    rebuild (xs.flatMap piece) ((xs.filter fun x => !fixed x).map text) = xs.flatMap text
  | [], _ => rfl
  | x :: xs, h => by
    have ih := rebuild_pieces (xs := xs) fun y hy => h y (by simp [hy])
    have hs := startsName_pieces (xs := xs) fun y hy => h y (by simp [hy])
    unfold rebuild at ih ⊢
    have hx := h x (by simp)
    rw [List.flatMap_cons, List.flatMap_cons]
    cases hf : fixed x with
    | true =>
      obtain ⟨e, hn⟩ := hx.fixed hf
      rw [e, List.filter_cons_of_neg (by simp [hf]), rebuild_fixed hs _ hn, ih]
    | false =>
      rw [List.filter_cons_of_pos (by simp [hf]), List.map_cons]
      rcases hx.other hf with e | ⟨d, n, e, h1, h2, h3⟩
      · rw [e, show newLineMark ++ xs.flatMap piece = 60 :: ([110, 101, 119, 76, 105, 110, 101] ++ 62 :: xs.flatMap piece) from rfl, rebuildFrom]
        rw [show newLineMark.isPrefixOf (60 :: ([110, 101, 119, 76, 105, 110, 101] ++ 62 :: xs.flatMap piece)) = true from by
          simp [newLineMark, List.isPrefixOf]]
        simp only [Bool.true_or, if_true, List.headD_cons, List.tail_cons]
        rw [rebuild_skip _ _ _ (by decide), ih]
      · rw [e, show d :: 60 :: (n ++ [62]) ++ xs.flatMap piece = d :: ((60 :: n) ++ 62 :: xs.flatMap piece) from by simp, rebuildFrom]
        have h4 : startsName ((60 :: n) ++ 62 :: xs.flatMap piece) = true := by
          have h5 : newLineMark.isPrefixOf (60 :: n ++ 62 :: xs.flatMap piece) = false :=
            Bool.eq_false_iff.mpr fun h => h3 (newLine_prefix h2 h)
          cases n with
          | nil => simp [startsName, newLineMark, List.isPrefixOf]
          | cons c n =>
            have hc : c ≠ 60 := fun e => h1 (by simp [e])
            simp only [List.cons_append] at h5 ⊢
            simp [startsName, h5, hc]
        rw [h4]
        simp only [Bool.or_true, if_true, List.headD_cons, List.tail_cons]
        rw [rebuild_skip _ _ _ (by simp [h2]), ih]

end

variable {s : SchemaAST} {addr : Nat → Nat} {t : ParserTables} {L : Lexer}

theorem nameBytes_mark (n : String) : EventView.nameBytes ("<" ++ n ++ ">") = 60 :: (EventView.nameBytes n ++ [62]) := by
  simp [EventView.nameBytes, String.toList_append]

theorem nameBytes_inj {a b : String} (h : EventView.nameBytes a = EventView.nameBytes b) : a = b := by
  unfold EventView.nameBytes at h
  have hi : Function.Injective Char.toNat := fun a b h => Char.toNat_inj.mp h
  have := List.map_injective_iff.mpr hi h
  exact String.toList_inj.mp this

theorem nameBytes_bracket {n : String} (h : '<' ∉ n.toList ∧ '>' ∉ n.toList) : 60 ∉ EventView.nameBytes n ∧ 62 ∉ EventView.nameBytes n := by
  constructor
  · intro hm
    obtain ⟨c, hc, e⟩ := List.mem_map.mp hm
    have : c = '<' := Char.toNat_inj.mp e
    exact h.1 (this ▸ hc)
  · intro hm
    obtain ⟨c, hc, e⟩ := List.mem_map.mp hm
    have : c = '>' := Char.toNat_inj.mp e
    exact h.2 (this ▸ hc)

/-- **C65**: the text of an event is its timestamp (if it has one) followed by what is obtained by putting its variables back into its logtype, if its static
text contains no `<`. -/
theorem C65_rebuild_partial (hC : s.Compiled addr t L) (hv : s.vars ≠ []) (hn : s.NoBracket) {p : BufferParser} (hI : p.Idle t L) (fin : Bool)
    (ptr : Nat) {content : List Nat} {size : Nat} (hsize : size ≤ content.length) (hslack : fin = true → size < content.length)
    {k : Nat} (hk : size < k) {o : EventOut} (ho : o ∈ (p.parseBuffer k ptr content size fin).events) {m : Mem} (hm : m ptr = content) :
    ∃ e lt, o.Shows (content.take size) e ∧ o.view.getLogtype m t.getIdSymbol = .ok lt ∧
      (e.NoBracket (content.take size) →
        o.text = some ((e.toks.take (if e.ts then 1 else 0)).flatMap (·.text (content.take size)) ++ rebuild lt (e.variables (content.take size)))) := by
  obtain ⟨q, hq, hqa, e, he, hO⟩ := buffer_outs hC hv hI fin ptr hsize hslack hk ho
  have hne := logtype_nonempty hC hq hqa fin (content.take size) e he
  have hsh := hO.shows (segment_nonempty _ none (fun e h => by cases h) e he)
  obtain ⟨e', h1, h2⟩ := C24_logtype hC hv hI fin ptr hsize hslack hk ho hm
  obtain rfl : e' = e := by
    have g1 := h1.ts.symm.trans hsh.ts
    have g2 := (List.map_injective_iff.mpr (Option.some_injective _)) (h1.tokens.symm.trans hsh.tokens)
    cases e; cases e'; simp only at g1 g2; rw [g1, g2]
  refine ⟨e', _, hsh, h2, fun hb => ?_⟩
  obtain ⟨b1, ⟨N, b2⟩, b3, b4⟩ := C16_bijection hC.ok
  have hnames : ∀ x ∈ e'.toks, ∃ n, t.getIdSymbol x.kind = some n := by
    intro x hx
    have hlt : x.kind < t.idSymbol.length := (hO.ev.out.good x hx).kind
    obtain ⟨ds, _, _, _, _, _, hsym, _⟩ := addRules_ok (buildLexer_ok hC.ok).tables
    apply lookup_isSome_iff.mpr
    rw [hsym.swap] at hlt ⊢
    rw [List.map_map]
    have h2 := (hsym.ids x.kind).mp (by rw [List.length_map] at hlt; exact hlt)
    exact h2
  have hbody : ∀ x ∈ e'.body, x ∈ e'.toks := by
    intro x hx
    unfold PEvent.body at hx
    split at hx
    · exact List.mem_of_mem_tail hx
    · exact hx
  have hok : ∀ x ∈ e'.body, PieceOk (x.text (content.take size)) (x.logtype (content.take size) t.getIdSymbol) (x.kind == tokenUncaught) := by
    intro x hx
    obtain ⟨n, hname⟩ := hnames x (hbody x hx)
    constructor
    · intro h
      have h : x.kind = tokenUncaught := by simpa using h
      unfold PTok.logtype
      rw [if_pos h]
      exact ⟨rfl, hb x hx h⟩
    · intro h
      have h : x.kind ≠ tokenUncaught := by simpa using h
      unfold PTok.logtype
      rw [if_neg h, hname, Option.getD_some, nameBytes_mark]
      by_cases hk : x.kind = tokenNewline
      · rw [if_pos hk]
        left
        have : t.getIdSymbol tokenNewline = some "newLine" := (b1 _ _).mp (b3 ("newLine", 7) (by simp))
        rw [← hk, hname] at this
        cases this
        decide
      · rw [if_neg hk]
        right
        have hlt := (hne x hx).resolve_left h
        have hd : ∃ d, (x.text (content.take size)).take 1 = [d] := by
          have hlen : 0 < (x.text (content.take size)).length := by
            have h3 := (hO.ev.out.good x (hbody x hx)).stop
            unfold PTok.text slice
            have h3 : x.e ≤ size := h3
            simp only [List.length_take, List.length_drop]
            omega
          match hx : x.text (content.take size), hlen with
          | d :: r, _ => exact ⟨d, rfl⟩
        obtain ⟨d, hd⟩ := hd
        have hplain : '<' ∉ n.toList ∧ '>' ∉ n.toList := by
          rcases (b4 n).mp ⟨x.kind, (b1 _ _).mpr hname⟩ with h | ⟨v, hv, rfl, _⟩
          · simp only [List.mem_cons, List.not_mem_nil, or_false] at h
            rcases h with rfl | rfl | rfl | rfl | rfl | rfl | rfl | rfl <;> decide
          · exact hn v hv
        obtain ⟨p1, p2⟩ := nameBytes_bracket hplain
        refine ⟨d, EventView.nameBytes n, by rw [hd]; rfl, p1, p2, fun h => hk ?_⟩
        have hn' : n = "newLine" := nameBytes_inj (h.trans (by decide))
        have h4 := b3 ("newLine", 7) (by simp)
        have h5 := (b1 _ _).mpr hname
        rw [hn'] at h5
        simp only at h4
        rw [h4] at h5
        exact (Option.some.inj h5).symm
  have hr := rebuild_pieces hok
  rw [hsh.text]
  congr 1
  have hvs : e'.variables (content.take size) = (e'.body.filter fun x => !(x.kind == tokenUncaught)).map (·.text (content.take size)) := rfl
  rw [hvs]
  have hlt : (if e'.ts = true then e'.toks.tail else e'.toks) = e'.body := rfl
  rw [hlt, hr]
  unfold PEvent.text PEvent.body
  cases e'.ts with
  | false => simp only [Bool.false_eq_true, if_false, List.take_zero, List.flatMap_nil, List.nil_append]; rfl
  | true => cases e'.toks <;> simp <;> rfl

/-- **C65**: two events (of any two inputs) with the same timestamp text, the same logtype and the same variables have the same text, if
their static text contains no `<`. -/
theorem C65_determined_partial (hC : s.Compiled addr t L) (hv : s.vars ≠ []) (hn : s.NoBracket) {p p' : BufferParser} (hI : p.Idle t L) (hI' : p'.Idle t L)
    (fin fin' : Bool) (ptr ptr' : Nat) {content content' : List Nat} {size size' : Nat} (hsize : size ≤ content.length)
    (hsize' : size' ≤ content'.length) (hslack : fin = true → size < content.length) (hslack' : fin' = true → size' < content'.length)
    {k k' : Nat} (hk : size < k) (hk' : size' < k') {o o' : EventOut}
    (ho : o ∈ (p.parseBuffer k ptr content size fin).events) (ho' : o' ∈ (p'.parseBuffer k' ptr' content' size' fin').events)
    {m m' : Mem} (hm : m ptr = content) (hm' : m' ptr' = content')
    {e e' : PEvent} (he : o.Shows (content.take size) e) (he' : o'.Shows (content'.take size') e')
    (hb : e.NoBracket (content.take size)) (hb' : e'.NoBracket (content'.take size'))
    (hts : (e.toks.take (if e.ts then 1 else 0)).flatMap (·.text (content.take size)) =
      (e'.toks.take (if e'.ts then 1 else 0)).flatMap (·.text (content'.take size')))
    (hlt : o.view.getLogtype m t.getIdSymbol = o'.view.getLogtype m' t.getIdSymbol)
    (hvars : e.variables (content.take size) = e'.variables (content'.take size')) : o.text = o'.text := by
  have huniq : ∀ {o : EventOut} {txt : List Nat} {a b : PEvent}, o.Shows txt a → o.Shows txt b → a = b := by
    intro o txt a b ha hb
    have g1 := ha.ts.symm.trans hb.ts
    have g2 := (List.map_injective_iff.mpr (Option.some_injective _)) (ha.tokens.symm.trans hb.tokens)
    cases a; cases b; simp only at g1 g2; rw [g1, g2]
  obtain ⟨e1, l1, h1, h2, h3⟩ := C65_rebuild_partial hC hv hn hI fin ptr hsize hslack hk ho hm
  obtain ⟨e2, l2, g1, g2, g3⟩ := C65_rebuild_partial hC hv hn hI' fin' ptr' hsize' hslack' hk' ho' hm'
  cases huniq he h1
  cases huniq he' g1
  rw [h2, g2] at hlt
  cases hlt
  rw [h3 hb, g3 hb', hts, hvars]

/-! ### Static text with brackets -/

/-- The event a view shows. -/
def EventOut.event (o : EventOut) : PEvent := { ts := o.view.out.hasTimestamp, toks := o.view.tokens.filterMap Token.range }

theorem EventOut.Shows.event {o : EventOut} {txt : List Nat} {e : PEvent} (h : o.Shows txt e) : o.event = e := by
  unfold EventOut.event
  have : o.view.tokens.filterMap Token.range = (o.view.tokens.map Token.range).filterMap id := by simp [List.filterMap_map]
  rw [this, h.tokens, h.ts]
  simp [List.filterMap_map]

/-- `T <x> b` -/
def bracketA : List Nat := [84, 32, 60, 120, 62, 32, 98, 0]
/-- `T b <x>` -/
def bracketB : List Nat := [84, 32, 98, 32, 60, 120, 62, 0]

set_option maxRecDepth 100000 in
set_option synthInstance.maxSize 2000 in
/-- **C65, finding**: static text that looks like a placeholder.  The logs `T <x> b` and `T b <x>` (the variable `x` is `b`) have the same timestamp, the same logtype
` <x> <x>` and the same variables; so logtype and variables do not determine the text. -/
theorem C65_refuted : ∃ (s : SchemaAST) (t : ParserTables) (L : Lexer) (p : BufferParser), s.Compiled id t L ∧ s.vars ≠ [] ∧ s.NoBracket ∧ p.Idle t L ∧
    (p.parseBuffer 10 1 bracketA 7 true).events.map (fun o => (logtypeText (fun _ => bracketA) t.getIdSymbol o.view,
      o.event.ts, o.event.variables bracketA, o.text)) = [(some " <x> <x>", true, [[32, 98]], some [84, 32, 60, 120, 62, 32, 98])] ∧
    (p.parseBuffer 10 1 bracketB 7 true).events.map (fun o => (logtypeText (fun _ => bracketB) t.getIdSymbol o.view,
      o.event.ts, o.event.variables bracketB, o.text)) = [(some " <x> <x>", true, [[32, 98]], some [84, 32, 98, 32, 60, 120, 62])] := by
  obtain ⟨t, L, p, h1, h2, h3⟩ := newParser_spec evSchema_sensible (by decide +kernel)
  refine ⟨evSchema, t, L, p, h1, by simp [evSchema], by simp [SchemaAST.NoBracket, evSchema], h3, ?_⟩
  have hn : t.getIdSymbol = namesOf evSchema := by
    funext i
    unfold namesOf
    rw [h1.ok]
  rw [hn]
  have e : (newParser evSchema).map (fun p => ((p.parseBuffer 10 1 bracketA 7 true).events.map (fun o => (logtypeText (fun _ => bracketA) (namesOf evSchema) o.view,
      o.event.ts, o.event.variables bracketA, o.text)), (p.parseBuffer 10 1 bracketB 7 true).events.map (fun o =>
      (logtypeText (fun _ => bracketB) (namesOf evSchema) o.view, o.event.ts, o.event.variables bracketB, o.text)))) =
      some ([(some " <x> <x>", true, [[32, 98]], some [84, 32, 60, 120, 62, 32, 98])],
        [(some " <x> <x>", true, [[32, 98]], some [84, 32, 98, 32, 60, 120, 62])]) := by decide +kernel
  rw [h2] at e
  simp only [Option.map_some, Option.some.injEq, Prod.mk.injEq] at e
  exact e

set_option maxRecDepth 100000 in
/-- The hypotheses of the positive theorem are met by the event `T b\n`, whose logtype is ` <x><newLine>`. -/
example : ∃ t L p, evSchema.Compiled id t L ∧ BufferParser.Idle p t L ∧ evSchema.NoBracket ∧
    (p.parseBuffer 10 1 [84, 32, 98, 10, 0] 4 true).events.map (fun o => (o.event.variables [84, 32, 98, 10],
      rebuild (EventView.nameBytes ((logtypeText (fun _ => [84, 32, 98, 10, 0]) (namesOf evSchema) o.view).getD "")) (o.event.variables [84, 32, 98, 10]))) =
      [([[32, 98], [10]], [32, 98, 10])] ∧
    ∀ o ∈ (p.parseBuffer 10 1 [84, 32, 98, 10, 0] 4 true).events, o.event.NoBracket [84, 32, 98, 10] := by
  obtain ⟨t, L, p, h1, h2, h3⟩ := newParser_spec evSchema_sensible (by decide +kernel)
  have e : (newParser evSchema).map (fun p => ((p.parseBuffer 10 1 [84, 32, 98, 10, 0] 4 true).events.map (fun o => (o.event.variables [84, 32, 98, 10],
      rebuild (EventView.nameBytes ((logtypeText (fun _ => [84, 32, 98, 10, 0]) (namesOf evSchema) o.view).getD "")) (o.event.variables [84, 32, 98, 10]))),
      (p.parseBuffer 10 1 [84, 32, 98, 10, 0] 4 true).events.map (fun o => o.event.body.map (·.kind)))) =
      some ([([[32, 98], [10]], [32, 98, 10])], [[8, 7]]) := by decide +kernel
  rw [h2] at e
  simp only [Option.map_some, Option.some.injEq, Prod.mk.injEq] at e
  refine ⟨t, L, p, h1, h3, by simp [SchemaAST.NoBracket, evSchema], e.1, ?_⟩
  intro o ho x hx hk
  have h4 : o.event.body.map (·.kind) ∈ [[8, 7]] := e.2 ▸ List.mem_map.mpr ⟨o, ho, rfl⟩
  have h5 : x.kind ∈ [8, 7] := (List.mem_singleton.mp h4) ▸ List.mem_map.mpr ⟨x, hx, rfl⟩
  rw [hk] at h5
  exact absurd h5 (by decide)

/-- **C65**: the names in a schema file contain no angle brackets. -/
theorem C65_names {k : Nat} {ls : List Lexeme} {s : SchemaText} {a : SchemaAST} (hf : WrittenFile k ls s) (hb : s.Builds a) : a.NoBracket := by
  have key : ∀ v ∈ s.vars, '<' ∉ v.1.toList ∧ '>' ∉ v.1.toList := by
    have line : ∀ {k : Nat} {l : List Lexeme} {s : SchemaText}, WrittenLine k l s → ∀ v ∈ s.vars, '<' ∉ v.1.toList ∧ '>' ∉ v.1.toList := by
      intro k l s h
      cases h with
      | comment => intro v hv; cases hv
      | delims => intro v hv; cases hv
      | @var i n w p hn hw =>
        intro v hv
        cases List.mem_singleton.mp hv
        have : ∀ c : Nat, AlphaNum c → Char.ofNat c ≠ '<' ∧ Char.ofNat c ≠ '>' := by
          intro c hc
          have hlt : c < 128 := by unfold AlphaNum at hc; omega
          have : ∀ c : Fin 128, (97 ≤ c.1 ∧ c.1 ≤ 122) ∨ (65 ≤ c.1 ∧ c.1 ≤ 90) ∨ (48 ≤ c.1 ∧ c.1 ≤ 57) →
              Char.ofNat c.1 ≠ '<' ∧ Char.ofNat c.1 ≠ '>' := by decide
          exact this ⟨c, hlt⟩ (by unfold AlphaNum at hc; simp only; omega)
        simp only [asString, String.toList_ofList, List.mem_map, not_exists, not_and]
        exact ⟨fun c hc e => (this c (hn.2 c hc)).1 e, fun c hc e => (this c (hn.2 c hc)).2 e⟩
    clear hb
    induction hf with
    | first h => exact line h
    | blank _ _ ih => exact ih
    | line _ _ h ih =>
      intro v hv
      rcases List.mem_append.mp hv with hv | hv
      · exact ih v hv
      · exact line h v hv
  intro v hv
  obtain ⟨x, hx, hxv⟩ := forall₂_mem_right hb.2 hv
  rw [hxv.1]
  exact key x hx

end LogSurgeon
