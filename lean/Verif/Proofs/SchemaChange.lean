import Verif.Spec.SchemaChange
import Verif.Props.EndToEnd
import Verif.Spec.LogEvent
/-
Schemas that agree on a text divide it alike; proofs for Props/SchemaChange.lean.
-/
namespace LogSurgeon

namespace SchemaText
variable {s s' : SchemaText} {text : List Nat}

/-- The two schemas recognise something at the same places in the text. -/
structure AgreeAny (s s' : SchemaText) (text : List Nat) : Prop where
  delims : ∀ d ∈ text, d ∈ s.delimiters ↔ d ∈ s'.delimiters
  inst : ∀ start a e, a < e → e ≤ text.length → ((∃ n, s.Instance text start a e n) ↔ ∃ n, s'.Instance text start a e n)
  opens : ∀ j, s.Opens text j → s'.Opens text j
  opened : ∀ j, 0 < j → s'.Opens text j → s.Opens text j

theorem Agree.any (h : s.Agree s' text) : s.AgreeAny s' text :=
  ⟨h.delims, fun _ _ _ h1 h2 => exists_congr fun n => h.inst _ _ _ n h1 h2, h.opens, h.opened⟩

theorem AgreeAny.cand (h : s.AgreeAny s' text) {start : Bool} {a e : Nat} : s.Cand text start a e ↔ s'.Cand text start a e := by
  unfold Cand
  constructor
  · rintro ⟨h1, h2, h3, h4⟩
    exact ⟨h1, h2, (h.inst _ _ _ h1 h2).mp h3, h4.imp_right (Or.imp_left fun ⟨d, hd, he⟩ => ⟨d, (h.delims d (List.mem_of_getElem? he)).mp hd, he⟩)⟩
  · rintro ⟨h1, h2, h3, h4⟩
    exact ⟨h1, h2, (h.inst _ _ _ h1 h2).mpr h3, h4.imp_right (Or.imp_left fun ⟨d, hd, he⟩ => ⟨d, (h.delims d (List.mem_of_getElem? he)).mpr hd, he⟩)⟩

theorem AgreeAny.longest (h : s.AgreeAny s' text) {start : Bool} {a e : Nat} (H : s.Longest text start a e) : s'.Longest text start a e :=
  ⟨h.cand.mp H.1, fun e' he => H.2 e' (h.cand.mpr he)⟩

theorem AgreeAny.noneIn (h : s.AgreeAny s' text) {p a : Nat} (H : s.NoneIn text p a) : s'.NoneIn text p a :=
  fun x e h1 h2 hc => H x e h1 h2 (h.cand.mpr hc)

theorem AgreeAny.pieces (h : s.AgreeAny s' text) {p : Nat} {ps : List Piece} (H : s.Pieces text p ps) : s'.Pieces text p ps := by
  induction H with
  | done => exact .done
  | rest h1 h2 => exact .rest h1 (h.noneIn h2)
  | here h1 _ ih => exact .here (h.longest h1) ih
  | later h1 h2 h3 _ ih => exact .later h1 (h.noneIn h2) (h.longest h3) ih

theorem AgreeAny.noStart (h : s.AgreeAny s' text) (H : s.NoStart text) : s'.NoStart text := fun e he => H e (h.cand.mpr he)

theorem AgreeAny.hidden (h : s.AgreeAny s' text) {j : Nat} (H : s.Hidden text j) : s'.Hidden text j :=
  ⟨H.1, h.opens j H.2.1, H.2.2.1, fun j' h1 h2 => (H.2.2.2 j' h1 h2).imp_right fun hn ho => hn (h.opened j' (by omega) ho)⟩

theorem AgreeAny.division (h : s.AgreeAny s' text) {ps : List Piece} (H : s.Division text ps) : s'.Division text ps := by
  cases H with
  | start h1 h2 h3 h4 => exact .start (h.cand.mp h1) h2 (h.longest h3) (h.pieces h4)
  | done h1 => exact .done h1
  | rest h1 h2 h3 h4 => exact .rest (h.noStart h1) (h.hidden h2) h3 (h.noneIn h4)
  | here h1 h2 h3 h4 => exact .here (h.noStart h1) (h.hidden h2) (h.longest h3) (h.pieces h4)
  | later h1 h2 h3 h4 h5 h6 h7 => exact .later (h.noStart h1) (h.hidden h2) h3 h4 (h.noneIn h5) (h.longest h6) (h.pieces h7)

theorem Agree.division (h : s.Agree s' text) {ps : List Piece} (H : s.Division text ps) : s'.Division text ps := h.any.division H

/-- A piece that is a token is not empty, inside of the text, and an instance of something. -/
def Piece.Fine (s : SchemaText) (text : List Nat) (q : Piece) : Prop :=
  ∀ start, q.kind = .token start → q.a < q.e ∧ q.e ≤ text.length ∧ ∃ n, s.Instance text start q.a q.e n

theorem Longest.fine {start : Bool} {a e : Nat} (h : s.Longest text start a e) : Piece.Fine s text ⟨a, e, .token start⟩ :=
  fun _ hk => by cases hk; exact ⟨h.1.1, h.1.2.1, h.1.2.2.1⟩

theorem Piece.fine_static {a e : Nat} : Piece.Fine s text ⟨a, e, .static⟩ := fun _ h => by cases h

theorem Piece.fine_finish {a e : Nat} : Piece.Fine s text ⟨a, e, .finish⟩ := fun _ h => by cases h

theorem Pieces.fine {p : Nat} {ps : List Piece} (H : s.Pieces text p ps) : ∀ q ∈ ps, q.Fine s text := by
  induction H with
  | done => exact List.forall_mem_singleton.mpr Piece.fine_finish
  | rest _ _ => exact List.forall_mem_cons.mpr ⟨Piece.fine_static, List.forall_mem_singleton.mpr Piece.fine_finish⟩
  | here h1 _ ih => exact List.forall_mem_cons.mpr ⟨h1.fine, ih⟩
  | later _ _ h3 _ ih => exact List.forall_mem_cons.mpr ⟨Piece.fine_static, List.forall_mem_cons.mpr ⟨h3.fine, ih⟩⟩

theorem Division.fine {ps : List Piece} (H : s.Division text ps) : ∀ q ∈ ps, q.Fine s text := by
  cases H with
  | start _ _ h3 h4 => exact List.forall_mem_cons.mpr ⟨h3.fine, h4.fine⟩
  | done _ => exact List.forall_mem_singleton.mpr Piece.fine_finish
  | rest _ _ _ _ => exact List.forall_mem_cons.mpr ⟨Piece.fine_static, List.forall_mem_singleton.mpr Piece.fine_finish⟩
  | here _ _ h3 h4 => exact List.forall_mem_cons.mpr ⟨h3.fine, h4.fine⟩
  | later _ _ _ _ _ h6 h7 => exact List.forall_mem_cons.mpr ⟨Piece.fine_static, List.forall_mem_cons.mpr ⟨h6.fine, h7.fine⟩⟩

/-- What the two symbol tables have in common. -/
structure Ids (id : String → Option Nat) : Prop where
  inj : ∀ n m i, id n = some i → id m = some i → n = m
  finish : id "$end" = some tokenEnd
  static : id "$UncaughtString" = some tokenUncaught
  first : id "firstTimestamp" = some tokenFirstTimestamp
  later : id "newLineTimestamp" = some tokenNewlineTimestamp
  newLine : id "newLine" = some tokenNewline

/-- A token piece has the kind `n` if it is an instance of `n` and of nothing else. -/
theorem Piece.Is.kind {id : String → Option Nat} (hid : Ids id) {start : Bool} {a e : Nat} {x : PTok} (h : Piece.Is s id text ⟨a, e, .token start⟩ x)
    (hty : x.ty ≠ []) {n : String} (hin : ∀ m, s.Instance text start a e n → s.Instance text start a e m → m = n) :
    id n = some x.kind ↔ ((∃ i, id n = some i) ∧ s.Instance text start a e n) := by
  obtain ⟨_, _, h3⟩ := h
  simp only at h3
  unfold PTok.kind
  constructor
  · intro hk
    refine ⟨⟨_, hk⟩, ?_⟩
    cases hx : x.ty with
    | nil => exact absurd hx hty
    | cons i is =>
      rw [hx] at hk
      obtain ⟨m, hm, hi⟩ := (h3 i).mp (by rw [hx]; exact List.mem_cons_self ..)
      rw [hid.inj _ _ _ hk hm]
      exact hi
  · rintro ⟨⟨i, hi⟩, hinst⟩
    have hmem := (h3 i).mpr ⟨n, hi, hinst⟩
    cases hx : x.ty with
    | nil => rw [hx] at hmem; cases hmem
    | cons j js =>
      obtain ⟨m, hm, hj⟩ := (h3 j).mp (by rw [hx]; exact List.mem_cons_self ..)
      rw [hin m hinst hj] at hm
      exact hm

/-- The same piece, as reported by the two parsers. -/
theorem Agree.alike (h : s.Agree s' text) {id id' : String → Option Nat} (hid : Ids id) (hid' : Ids id')
    (hnames : ∀ n start a e, a < e → e ≤ text.length → s.Instance text start a e n → ((∃ i, id n = some i) ∧ ∃ i, id' n = some i)) {P : String → Prop} (hP : ∀ n, P n → s.Only text n)
    {q : Piece} (hq : q.Fine s text) {x x' : PTok} (hx : q.Is s id text x) (hx' : q.Is s' id' text x') :
    x.Alike P id id' x' := by
  obtain ⟨a, e, kind⟩ := q
  refine ⟨hx.1.trans hx'.1.symm, hx.2.1.trans hx'.2.1.symm, ?_, ?_⟩
  · intro n
    cases kind with
    | static =>
      obtain ⟨_, _, h3⟩ := hx
      obtain ⟨_, _, h3'⟩ := hx'
      simp only at h3 h3'
      rw [h3, h3']
      constructor
      · rintro ⟨i, hi, hm⟩
        rw [List.mem_singleton] at hm; subst hm
        rw [hid.inj _ _ _ hi hid.static]
        exact ⟨_, hid'.static, List.mem_singleton_self _⟩
      · rintro ⟨i, hi, hm⟩
        rw [List.mem_singleton] at hm; subst hm
        rw [hid'.inj _ _ _ hi hid'.static]
        exact ⟨_, hid.static, List.mem_singleton_self _⟩
    | finish =>
      obtain ⟨_, _, h3⟩ := hx
      obtain ⟨_, _, h3'⟩ := hx'
      simp only at h3 h3'
      rw [h3, h3']
      constructor
      · rintro ⟨i, hi, hm⟩
        rw [List.mem_singleton] at hm; subst hm
        rw [hid.inj _ _ _ hi hid.finish]
        exact ⟨_, hid'.finish, List.mem_singleton_self _⟩
      · rintro ⟨i, hi, hm⟩
        rw [List.mem_singleton] at hm; subst hm
        rw [hid'.inj _ _ _ hi hid'.finish]
        exact ⟨_, hid.finish, List.mem_singleton_self _⟩
    | token start =>
      obtain ⟨h1, h2, _⟩ := hq start rfl
      obtain ⟨_, _, h3⟩ := hx
      obtain ⟨_, _, h3'⟩ := hx'
      simp only at h3 h3' h1 h2
      constructor
      · rintro ⟨i, hi, hm⟩
        obtain ⟨m, hm1, hm2⟩ := (h3 i).mp hm
        obtain rfl := hid.inj _ _ _ hi hm1
        obtain ⟨_, i', hi'⟩ := hnames _ _ _ _ h1 h2 hm2
        exact ⟨i', hi', (h3' i').mpr ⟨_, hi', (h.inst _ _ _ _ h1 h2).mp hm2⟩⟩
      · rintro ⟨i, hi, hm⟩
        obtain ⟨m, hm1, hm2⟩ := (h3' i).mp hm
        obtain rfl := hid'.inj _ _ _ hi hm1
        have hm3 := (h.inst _ _ _ _ h1 h2).mpr hm2
        obtain ⟨⟨i', hi'⟩, _⟩ := hnames _ _ _ _ h1 h2 hm3
        exact ⟨i', hi', (h3 i').mpr ⟨_, hi', hm3⟩⟩
  · intro n hn
    cases kind with
    | static =>
      obtain ⟨_, _, h3⟩ := hx
      obtain ⟨_, _, h3'⟩ := hx'
      simp only at h3 h3'
      unfold PTok.kind
      rw [h3, h3']
      constructor
      · intro hk; rw [hid.inj _ _ _ hk hid.static]; exact hid'.static
      · intro hk; rw [hid'.inj _ _ _ hk hid'.static]; exact hid.static
    | finish =>
      obtain ⟨_, _, h3⟩ := hx
      obtain ⟨_, _, h3'⟩ := hx'
      simp only at h3 h3'
      unfold PTok.kind
      rw [h3, h3']
      constructor
      · intro hk; rw [hid.inj _ _ _ hk hid.finish]; exact hid'.finish
      · intro hk; rw [hid'.inj _ _ _ hk hid'.finish]; exact hid.finish
    | token start =>
      obtain ⟨h1, h2, n0, h0⟩ := hq start rfl
      simp only at h1 h2 h0
      have hty : x.ty ≠ [] := by
        obtain ⟨⟨i, hi⟩, _⟩ := hnames _ _ _ _ h1 h2 h0
        exact List.ne_nil_of_mem ((hx.2.2 i).mpr ⟨n0, hi, h0⟩)
      have hty' : x'.ty ≠ [] := by
        obtain ⟨_, i, hi⟩ := hnames _ _ _ _ h1 h2 h0
        exact List.ne_nil_of_mem ((hx'.2.2 i).mpr ⟨n0, hi, (h.inst _ _ _ _ h1 h2).mp h0⟩)
      rw [hx.kind hid hty (fun m => hP n hn start a e m h1 h2),
        hx'.kind hid' hty' (fun m i1 i2 => hP n hn start a e m h1 h2 ((h.inst _ _ _ _ h1 h2).mpr i1) ((h.inst _ _ _ _ h1 h2).mpr i2))]
      constructor
      · rintro ⟨_, hi⟩
        exact ⟨(hnames _ _ _ _ h1 h2 hi).2, (h.inst _ _ _ _ h1 h2).mp hi⟩
      · rintro ⟨_, hi⟩
        have hi := (h.inst _ _ _ _ h1 h2).mpr hi
        exact ⟨(hnames _ _ _ _ h1 h2 hi).1, hi⟩

end SchemaText

/-! ### Events -/

namespace PTok
variable {P : String → Prop} {id id' : String → Option Nat} {x x' : PTok}

theorem Alike.nl (hid : SchemaText.Ids id) (hid' : SchemaText.Ids id') (h : x.Alike P id id' x') : x.nl.Alike P id id' x'.nl := by
  refine ⟨h.first, congrArg (· + 1) h.first, fun n => ?_, fun n hn => ?_⟩
  · simp only [PTok.nl, List.mem_singleton, exists_eq_right]
    exact ⟨fun hi => by rw [hid.inj _ _ _ hi hid.static]; exact hid'.static, fun hi => by rw [hid'.inj _ _ _ hi hid'.static]; exact hid.static⟩
  · simp only [PTok.nl, PTok.kind, List.headD_cons]
    exact ⟨fun hi => by rw [hid.inj _ _ _ hi hid.static]; exact hid'.static, fun hi => by rw [hid'.inj _ _ _ hi hid'.static]; exact hid.static⟩

theorem Alike.rest (h : x.Alike P id id' x') : x.rest.Alike P id id' x'.rest :=
  ⟨congrArg (· + 1) h.first, h.last, h.types, h.kind⟩

theorem Alike.text (h : x.Alike P id id' x') (s : List Nat) : x.text s = x'.text s := by
  unfold PTok.text; rw [h.first, h.last]

theorem Alike.startsNl (h : x.Alike P id id' x') (s : List Nat) : x.startsNl s = x'.startsNl s := by
  unfold PTok.startsNl; rw [h.first]

theorem Alike.kindIs (h : x.Alike P id id' x') {n : String} (hn : P n) {i : Nat} (hi : id n = some i) (hi' : id' n = some i) : x.kind = i ↔ x'.kind = i := by
  have := h.kind n hn
  rw [hi, hi'] at this
  simp only [Option.some.injEq] at this
  exact ⟨fun e => (this.mp e.symm).symm, fun e => (this.mpr e.symm).symm⟩

end PTok

theorem PTok.Alike.logtype {P : String → Prop} {id id' : String → Option Nat} {x x' : PTok} (h : x.Alike P id id' x') (hP : ∀ n, P n)
    (hid : SchemaText.Ids id) (hid' : SchemaText.Ids id') {names names' : Nat → Option String} (hn : ∀ n i, id n = some i ↔ names i = some n)
    (hn' : ∀ n i, id' n = some i ↔ names' i = some n) (s : List Nat) : x.logtype s names = x'.logtype s names' := by
  have k1 := h.kindIs (hP "$UncaughtString") hid.static hid'.static
  have k7 := h.kindIs (hP "newLine") hid.newLine hid'.newLine
  have hk : names x.kind = names' x'.kind := by
    ext n
    rw [← hn, ← hn']
    exact h.kind n (hP n)
  unfold PTok.logtype
  simp only [k1, k7, hk, h.text s]

/-- Alike events, in terms of tokens. -/
structure PEvent.Alike (P : String → Prop) (id id' : String → Option Nat) (e e' : PEvent) : Prop where
  ts : e.ts = e'.ts
  toks : List.Forall₂ (PTok.Alike P id id') e.toks e'.toks

section
variable {P : String → Prop} {id id' : String → Option Nat}

theorem forall₂_snoc {α β : Type} {R : α → β → Prop} {xs : List α} {ys : List β} (h : List.Forall₂ R xs ys) {x : α} {y : β} (hx : R x y) :
    List.Forall₂ R (xs ++ [x]) (ys ++ [y]) := by
  induction h with
  | nil => exact .cons hx .nil
  | cons h1 _ ih => exact .cons h1 ih

theorem PEvent.Alike.add {e e' : PEvent} (h : e.Alike P id id' e') {x x' : PTok} (hx : x.Alike P id id' x') : (e.add x).Alike P id id' (e'.add x') :=
  ⟨h.ts, forall₂_snoc h.toks hx⟩

/-- The conditions under which the division into events is the same. -/
structure Lines (P : String → Prop) (id id' : String → Option Nat) : Prop where
  ids : SchemaText.Ids id
  ids' : SchemaText.Ids id'
  finish : P "$end"
  newLine : P "newLine"
  later : P "newLineTimestamp"
  first : P "firstTimestamp"

variable (H : Lines P id id')
include H

theorem PEvent.Alike.start {x x' : PTok} (hx : x.Alike P id id' x') : (PEvent.start x).Alike P id id' (PEvent.start x') := by
  refine ⟨?_, .cons hx .nil⟩
  have h1 := hx.kindIs H.first H.ids.first H.ids'.first
  have h2 := hx.kindIs H.later H.ids.later H.ids'.later
  rw [Bool.eq_iff_iff]
  simp only [PEvent.start, PTok.isTs, Bool.or_eq_true, beq_iff_eq]
  rw [h1, h2]

theorem segment_alike (s : List Nat) {xs xs' : List PTok} (h : List.Forall₂ (PTok.Alike P id id') xs xs') :
    List.Forall₂ (PEvent.Alike P id id') (segment s none xs) (segment s none xs') ∧
    ∀ e e' : PEvent, e.Alike P id id' e' → List.Forall₂ (PEvent.Alike P id id') (segment s (some e) xs) (segment s (some e') xs') := by
  induction h with
  | nil => exact ⟨.nil, fun _ _ _ => .nil⟩
  | @cons x x' xs xs' hx _ ih =>
    have k0 := hx.kindIs H.finish H.ids.finish H.ids'.finish
    have k6 := hx.kindIs H.later H.ids.later H.ids'.later
    have k7 := hx.kindIs H.newLine H.ids.newLine H.ids'.newLine
    have hr := PEvent.Alike.start H hx.rest
    have hn := hx.nl H.ids H.ids'
    constructor
    · unfold segment
      by_cases h0 : x.kind = tokenEnd
      · rw [if_pos h0, if_pos (k0.mp h0)]
        exact .cons ⟨rfl, .nil⟩ .nil
      · rw [if_neg h0, if_neg (fun h => h0 (k0.mpr h))]
        by_cases h6 : x.kind = tokenNewlineTimestamp
        · rw [if_pos h6, if_pos (k6.mp h6)]
          exact .cons ⟨rfl, .cons hn .nil⟩ (ih.2 _ _ hr)
        · rw [if_neg h6, if_neg (fun h => h6 (k6.mpr h))]
          exact ih.2 _ _ (PEvent.Alike.start H hx)
    · intro e e' he
      unfold segment
      by_cases h0 : x.kind = tokenEnd
      · rw [if_pos h0, if_pos (k0.mp h0)]
        exact .cons he .nil
      · rw [if_neg h0, if_neg (fun h => h0 (k0.mpr h))]
        by_cases h7 : e.ts = false ∧ x.kind = tokenNewline
        · rw [if_pos h7, if_pos (⟨he.ts ▸ h7.1, k7.mp h7.2⟩ : e'.ts = false ∧ x'.kind = tokenNewline)]
          exact .cons (he.add hx) ih.1
        · have h7' : ¬ (e'.ts = false ∧ x'.kind = tokenNewline) := by rw [← he.ts, ← k7]; exact h7
          rw [if_neg h7, if_neg h7']
          by_cases h6 : (e.ts = true ∧ x.kind = tokenNewlineTimestamp) ∨ (e.ts = false ∧ x.startsNl s = true)
          · have h6' : (e'.ts = true ∧ x'.kind = tokenNewlineTimestamp) ∨ (e'.ts = false ∧ x'.startsNl s = true) := by
              rw [← he.ts, ← k6, ← hx.startsNl]; exact h6
            rw [if_pos h6, if_pos h6']
            exact .cons (he.add hn) (ih.2 _ _ hr)
          · have h6' : ¬ ((e'.ts = true ∧ x'.kind = tokenNewlineTimestamp) ∨ (e'.ts = false ∧ x'.startsNl s = true)) := by
              rw [← he.ts, ← k6, ← hx.startsNl]; exact h6
            rw [if_neg h6, if_neg h6']
            exact ih.2 _ _ (he.add hx)

end

theorem alike_text {P : String → Prop} {id id' : String → Option Nat} (s : List Nat) {xs xs' : List PTok} (h : List.Forall₂ (PTok.Alike P id id') xs xs') :
    xs.flatMap (PTok.text s) = xs'.flatMap (PTok.text s) := by
  induction h with
  | nil => rfl
  | cons h1 _ ih => rw [List.flatMap_cons, List.flatMap_cons, ih, h1.text]

theorem alike_get {P : String → Prop} {id id' : String → Option Nat} {xs xs' : List PTok} (h : List.Forall₂ (PTok.Alike P id id') xs xs') (i : Nat) :
    Option.Rel (PTok.Alike P id id') xs[i]? xs'[i]? := by
  induction h generalizing i with
  | nil => exact .none
  | cons h1 _ ih =>
    cases i with
    | zero => exact .some h1
    | succ i => exact ih i

theorem PEvent.Alike.multiline {P : String → Prop} {id id' : String → Option Nat} {s : List Nat} {e e' : PEvent} (h : e.Alike P id id' e') :
    e.multiline s ↔ e'.multiline s := by
  unfold PEvent.multiline
  rw [h.ts]
  refine and_congr_right fun _ => exists_congr fun i => ?_
  have hg := alike_get h.toks i
  have hl := h.toks.length_eq
  constructor
  · rintro ⟨x, h1, h2, h3, h4⟩
    rw [h3] at hg
    cases hx' : e'.toks[i]? with
    | none => rw [hx'] at hg; cases hg
    | some x' =>
      rw [hx'] at hg
      cases hg with
      | some ha => exact ⟨x', h1, hl ▸ h2, rfl, ha.startsNl s ▸ h4⟩
  · rintro ⟨x, h1, h2, h3, h4⟩
    rw [h3] at hg
    cases hx' : e.toks[i]? with
    | none => rw [hx'] at hg; cases hg
    | some x' =>
      rw [hx'] at hg
      cases hg with
      | some ha => exact ⟨x', h1, hl ▸ h2, rfl, (ha.startsNl s).symm ▸ h4⟩

theorem alike_filter {P : String → Prop} {id id' : String → Option Nat} {n : String} {i i' : Nat} (hn : P n) (hi : id n = some i) (hi' : id' n = some i')
    {xs xs' : List PTok} (h : List.Forall₂ (PTok.Alike P id id') xs xs') :
    List.Forall₂ (PTok.Alike P id id') (xs.filter fun x => x.kind == i) (xs'.filter fun x => x.kind == i') := by
  induction h with
  | nil => exact .nil
  | @cons x x' _ _ h1 _ ih =>
    have hk := h1.kind n hn
    rw [hi, hi'] at hk
    simp only [Option.some.injEq] at hk
    simp only [List.filter_cons, beq_iff_eq]
    by_cases hx : x.kind = i
    · rw [if_pos hx, if_pos (hk.mp hx.symm).symm]; exact .cons h1 ih
    · rw [if_neg hx, if_neg (fun h => hx (hk.mpr h.symm).symm)]; exact ih

theorem alike_shows {P : String → Prop} {id id' : String → Option Nat} {s : List Nat} {e e' : PEvent} (h : e.Alike P id id' e') {o o' : EventOut}
    (ho : o.Shows s e) (ho' : o'.Shows s e') : o.Alike P id id' o' := by
  refine ⟨?_, ?_, ?_, ⟨e.toks, e'.toks, ho.tokens, ho'.tokens, h.toks⟩, ?_, ?_⟩
  · rw [ho.text, ho'.text]; exact congrArg some (alike_text s h.toks)
  · rw [ho.ts, ho'.ts, h.ts]
  · rw [Bool.eq_iff_iff, ho.multiline, ho'.multiline]; exact h.multiline
  · rw [ho.timestamp, ho'.timestamp, h.ts]
    cases e'.ts with
    | false => exact .none
    | true =>
      have := alike_get h.toks 0
      simpa [List.head?_eq_getElem?] using this
  · intro n i i' hn hi hi'
    exact ⟨_, _, ho.occ i, ho'.occ i', alike_filter hn hi hi' h.toks⟩

theorem alike_all_shows {P : String → Prop} {id id' : String → Option Nat} {s : List Nat} {es es' : List PEvent} (h : List.Forall₂ (PEvent.Alike P id id') es es') :
    ∀ {os os' : List EventOut}, List.Forall₂ (fun o e => EventOut.Shows o s e) os es → List.Forall₂ (fun o e => EventOut.Shows o s e) os' es' →
      List.Forall₂ (EventOut.Alike P id id') os os' := by
  induction h with
  | nil => intro os os' h1 h2; cases h1; cases h2; exact .nil
  | cons h1 _ ih =>
    intro os os' h2 h3
    cases h2 with
    | cons a1 a2 => cases h3 with | cons b1 b2 => exact .cons (alike_shows h1 a1 b1) (ih a2 b2)

theorem alike_logtypes {P : String → Prop} (hP : ∀ n, P n) {id id' : String → Option Nat} (hid : SchemaText.Ids id) (hid' : SchemaText.Ids id')
    {names names' : Nat → Option String} (hn : ∀ n i, id n = some i ↔ names i = some n) (hn' : ∀ n i, id' n = some i ↔ names' i = some n) (s : List Nat)
    {xs xs' : List PTok} (h : List.Forall₂ (PTok.Alike P id id') xs xs') : xs.flatMap (PTok.logtype s names) = xs'.flatMap (PTok.logtype s names') := by
  induction h with
  | nil => rfl
  | cons h1 _ ih => rw [List.flatMap_cons, List.flatMap_cons, ih, h1.logtype hP hid hid' hn hn']

theorem shows_unique {o : EventOut} {s : List Nat} {e e' : PEvent} (h : o.Shows s e) (h' : o.Shows s e') : e = e' := by
  have g1 := h.ts.symm.trans h'.ts
  have g2 := (List.map_injective_iff.mpr (Option.some_injective _)) (h.tokens.symm.trans h'.tokens)
  cases e; cases e'; simp only at g1 g2; rw [g1, g2]

/-- Of two lists of views that show alike events, the logtypes are the same. -/
theorem alike_all_logtypes {P : String → Prop} (hP : ∀ n, P n) {id id' : String → Option Nat} (hid : SchemaText.Ids id) (hid' : SchemaText.Ids id')
    {names names' : Nat → Option String} (hn : ∀ n i, id n = some i ↔ names i = some n) (hn' : ∀ n i, id' n = some i ↔ names' i = some n) {s : List Nat}
    {f f' : EventOut → Except Fail (List Nat)} {es es' : List PEvent} (h : List.Forall₂ (PEvent.Alike P id id') es es') :
    ∀ {os os' : List EventOut}, List.Forall₂ (fun o e => EventOut.Shows o s e) os es → List.Forall₂ (fun o e => EventOut.Shows o s e) os' es' →
      (∀ o ∈ os, ∃ e, o.Shows s e ∧ f o = .ok ((if e.ts then e.toks.tail else e.toks).flatMap (PTok.logtype s names))) →
      (∀ o ∈ os', ∃ e, o.Shows s e ∧ f' o = .ok ((if e.ts then e.toks.tail else e.toks).flatMap (PTok.logtype s names'))) → os.map f = os'.map f' := by
  induction h with
  | nil => intro os os' h1 h2; cases h1; cases h2; exact fun _ _ => rfl
  | @cons e e' _ _ h1 _ ih =>
    intro os os' h2 h3 h4 h5
    cases h2 with
    | cons a1 a2 =>
      cases h3 with
      | cons b1 b2 =>
        rw [List.forall_mem_cons] at h4 h5
        obtain ⟨⟨e1, g1, g2⟩, g3⟩ := h4
        obtain ⟨⟨e1', g1', g2'⟩, g3'⟩ := h5
        obtain rfl := shows_unique a1 g1
        obtain rfl := shows_unique b1 g1'
        rw [List.map_cons, List.map_cons, ih a2 b2 g3 g3', g2, g2', h1.ts]
        congr 2
        cases e'.ts with
        | false => exact alike_logtypes hP hid hid' hn hn' s h1.toks
        | true =>
          refine alike_logtypes hP hid hid' hn hn' s ?_
          have ht : ∀ {xs xs' : List PTok}, List.Forall₂ (PTok.Alike P id id') xs xs' → List.Forall₂ (PTok.Alike P id id') xs.tail xs'.tail := by
            intro xs xs' h
            cases h with
            | nil => exact .nil
            | cons _ h => exact h
          exact ht h1.toks

end LogSurgeon
