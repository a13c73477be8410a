import Verif.Model.Wide
import Verif.Proofs.Stale
/-
`BufferParser` with 32-bit sizes.
-/
namespace LogSurgeon

variable {s : SchemaAST} {addr : Nat → Nat} {t : ParserTables} {L : Lexer}

namespace Ctx

theorem loopOn_parseAll32 (ptr : Nat) (content : List Nat) (size : Nat) (fin : Bool) : ∀ (k : Nat) (p : BufferParser) (offset : Nat),
    p.parseAll32 k ptr content size offset fin = loopOn (fun p off => p.parseNextEvent32 ptr content size off fin) k p offset := by
  intro k
  induction k with
  | zero => intro p offset; rfl
  | succ k ih =>
    intro p offset
    unfold BufferParser.parseAll32 loopOn
    simp only
    generalize p.parseNextEvent32 ptr content size offset fin = r
    obtain ⟨p', off', r⟩ := r
    cases r with
    | error e => rfl
    | ok u => simp only [ih]

theorem wide_eq : wide = 4294967296 := rfl

/-- Below 2 GiB the product does not overflow. -/
theorem call32_small {p : BufferParser} {ptr : Nat} {content : List Nat} {size offset : Nat} {fin : Bool} {r : Nat}
    (hr : size % wide = r) (hs : r < 2 ^ 31) (ho : offset ≤ r) :
    p.parseNextEvent32 ptr content size offset fin = p.parseNextEvent ptr content r offset fin := by
  have h1 : size % wide * 2 % wide = r * 2 := by
    rw [hr, wide_eq]; exact Nat.mod_eq_of_lt (by omega)
  have h2 : offset % wide = offset := by rw [wide_eq]; exact Nat.mod_eq_of_lt (by omega)
  have h3 : ∀ b : InBuf, b.setStorage32 ptr size offset fin = b.setStorage ptr r offset fin := by
    intro b
    unfold InBuf.setStorage32 InBuf.setStorage
    rw [h1, h2, hr]
  unfold BufferParser.parseNextEvent32 BufferParser.parseNextEvent
  simp only [h3]
  rfl

theorem all32_small {X : Ctx} (hX : X.Ok) {size : Nat} (hr : size % wide = X.size) (hs : X.size < 2 ^ 31) :
    ∀ (k : Nat) (p : BufferParser) (offset : Nat) (c : Cfg) (carry : Option PTok), X.BRel p offset c carry →
    p.parseAll32 k X.ptr X.content size offset X.fin = p.parseAll k X.ptr X.content X.size offset X.fin := by
  intro k
  induction k with
  | zero => intro p offset c carry _; rfl
  | succ k ih =>
    intro p offset c carry h
    have hsp := parseNextEvent_spec hX h
    unfold BufferParser.parseAll32 BufferParser.parseAll
    rw [call32_small hr hs (h.offset hX).2.1]
    generalize p.parseNextEvent X.ptr X.content X.size offset X.fin = r at hsp ⊢
    obtain ⟨p', off', r⟩ := r
    simp only at hsp ⊢
    rcases hsp with ⟨⟨j1, jK⟩, j2, j3, o, j4, j5, j6⟩ | ⟨j1, e', carry', c', j2, jm, j3, ⟨jt, jlt⟩, j4, j5, j6, j7⟩ | ⟨j1, ⟨jd, jK⟩, e', j2, jm, j3, j4⟩
    · subst j1; rfl
    · subst j1
      simp only
      rw [ih p' off' c' carry' j3]
    · subst j1
      simp only
      rw [if_pos jd, if_pos jd]

/-- The log parser after the preparation in `parse_next_event`. -/
def setup32 (X : Ctx) (p : BufferParser) (size offset : Nat) (fin : Bool) : LogParser :=
  { p.lp with view := p.lp.view.reset,
              input := ({ p.lp.input with mem := fun i => if i = X.ptr then X.content else p.lp.input.mem i }).setStorage32
                X.ptr size offset fin }

/-- From 2 GiB on the buffer looks like an unfinished one that is 2 GiB shorter. -/
theorem prepared32 {X : Ctx} (hX : X.Ok) (hfin : X.fin = false) {size : Nat} (hr : size % wide = X.size + 2 ^ 31) (fin : Bool)
    (p : BufferParser) (offset : Nat) (ho : offset ≤ X.size) : ∃ lp, X.Prepared p offset lp ∧
      p.parseNextEvent32 X.ptr X.content size offset fin = callOn lp p.done offset := by
  have hlt : size % wide < wide := Nat.mod_lt _ (by decide)
  rw [hr, wide_eq] at hlt
  have h1 : size % wide * 2 % wide = X.size * 2 := by
    rw [hr, wide_eq]; omega
  have h2 : offset % wide = offset := by rw [wide_eq]; exact Nat.mod_eq_of_lt (by omega)
  have hl := hX.len
  refine ⟨X.setup32 p size offset fin, ⟨rfl, rfl, rfl, rfl, rfl, ?_, h2⟩, rfl⟩
  refine ⟨⟨?_, ?_, ?_, ?_, .inr rfl, fun _ => ⟨rfl, ?_⟩⟩, (fun h => by cases h), rfl, h1, ?_⟩
  · show _ ≤ size % wide; omega
  · intro i hi
    show ((if X.ptr = X.ptr then X.content else p.lp.input.mem X.ptr) : List Nat)[i]? = _
    rw [if_pos rfl, Ctx.s, List.getElem?_take_of_lt (by omega)]
  · show (fin && size % wide == X.s.length) = X.fin
    have : (size % wide == X.s.length) = false := by simp; omega
    rw [this, hfin, Bool.and_false]
  · show _ ≤ size % wide * 2 % wide / 2; omega
  · show _ = size % wide * 2 % wide / 2; omega
  · show (if X.ptr = X.ptr then X.content else p.lp.input.mem X.ptr) = _
    rw [if_pos rfl]

end Ctx
end LogSurgeon
