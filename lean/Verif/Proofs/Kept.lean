import Verif.Props.LogEvent
import Verif.Model.BufferClient
/-
The copies of multiline events.
-/
namespace LogSurgeon
open Ctx

open Classical in
/-- The text of the copy of a multiline event; the copy of an event without text would be refused. -/
noncomputable def PEvent.kept (w : List Nat) (e : PEvent) : Option (Except Fail (Option (List Nat))) :=
  if e.multiline w then some (if e.text w = [] then .error .throws else .ok (some (e.text w))) else none

theorem kept_spec {v : EventView} {e : PEvent} {m : Mem} {w : List Nat} (hts : v.out.hasTimestamp = e.ts)
    (hpos : v.out.pos = off e + e.toks.length)
    (hty : ∀ (i : Nat) (x : PTok), e.toks[i]? = some x → (v.out.get (off e + i)).types = some x.ty ∧ x.ty ≠ [])
    (hml : v.multiline = true ↔ e.multiline w) (htext : v.toString m = some (e.text w))
    (hocc : ∀ id, v.occ id = (List.range' (off e) e.toks.length).filter fun i => (e.toks[i - off e]?.map PTok.kind) == some id)
    (h1 : ∀ t ∈ v.tokens, t.Valid m) (h2 : ∀ t ∈ v.tokens, ∃ ty tys, t.types = some (ty :: tys) ∧ ty < v.numVars) :
    v.kept m = e.kept w := by
  unfold EventView.kept PEvent.kept
  by_cases hm : e.multiline w
  · rw [if_pos (hml.mpr hm), if_pos hm]
    congr 1
    by_cases he : e.text w = []
    · rw [if_pos he]
      obtain ⟨txts, g1, g2, g3, g4⟩ := EventView.texts_ok v.tokens h1
      have g5 : v.toString m = some txts.flatten := g4
      rw [htext, he] at g5
      unfold EventView.deepCopy
      simp only
      rw [g3, if_pos (by rw [← Option.some.inj g5]; rfl)]
    · rw [if_neg he]
      have hts' : e.ts = true := hm.1
      have hoff : off e = 0 := by simp [off, hts']
      rw [hoff, Nat.zero_add] at hpos
      have hpos0 : 0 < v.out.pos := by
        rw [hpos]
        cases hl : e.toks with
        | nil => exact absurd (by rw [PEvent.text, hl]; rfl) he
        | cons => simp
      obtain ⟨c, buf, e1, e2⟩ := C23_copy_partial (newPtr := 0) (outStatic := 48000) h1 h2 (by omega) (fun id => by
        rw [hocc id, hoff, hpos, List.range_eq_range']
        apply List.filter_congr
        intro i hi
        rw [← List.range_eq_range', List.mem_range] at hi
        have hx := List.getElem?_eq_getElem hi
        have ht := hty i _ hx
        rw [hoff, Nat.zero_add] at ht
        rw [ht.1, Nat.sub_zero, hx]
        simp only [Option.map_some, PTok.kind, Option.bind_some]
        cases hl : e.toks[i].ty with
        | nil => exact absurd hl ht.2
        | cons a l => rfl) (by unfold EventView.getTimestamp; rw [hts, hts']; rfl) hpos0
        (by rw [htext]; intro h; exact he (Option.some.inj h))
      rw [e1]
      simp only
      rw [(e2 (fun _ => buf) rfl).1, htext]
  · rw [if_neg (fun h => hm (hml.mp h)), if_neg hm]

end LogSurgeon
