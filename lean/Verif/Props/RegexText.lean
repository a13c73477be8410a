import Verif.Proofs.RegexText
/-
C52: the text `serialize` writes for a pattern identifies the pattern.
-/
namespace LogSurgeon

/-- C52 (partial: patterns whose literals are none of `(`, `)`, `[`, `<` and whose bracket expressions have no bound `]`; `C52_refuted` shows why):
if `serialize` writes the same text for two patterns, then they match the same strings (in the documented reading and in the one of the
library, in which nothing repeats zero times), and have the same captures in the same order. -/
theorem C52_text_identifies_partial {p p' : Pat} {r r' : Regex} (hp : p.Sensible) (hp' : p'.Sensible) (he : p.elab = some r) (he' : p'.elab = some r')
    (hc : p.PlainChars) (hc' : p'.PlainChars) (h : r.serialize = r'.serialize) :
    (∀ w, p.Matches w ↔ p'.Matches w) ∧ (∀ w, p.atLeastOne.Matches w ↔ p'.atLeastOne.Matches w) ∧ p.captureNames = p'.captureNames := by
  obtain ⟨s1, s2, s3, _, s5⟩ := elab_text p he
  obtain ⟨t1, t2, t3, _, t5⟩ := elab_text p' he'
  obtain ⟨_, _, _, _, m1, m2⟩ := elab_spec p he hp
  obtain ⟨_, _, _, _, n1, n2⟩ := elab_spec p' he' hp'
  have hs := serialize_inj s2 t2 (s5 hc).1 (t5 hc').1 h
  refine ⟨fun w => ?_, fun w => ?_, ?_⟩
  · rw [← m1, ← n1, ← toSeq_matches s1, ← toSeq_matches t1, hs]
  · rw [← m2, ← n2, ← toSeq_matches s1, ← toSeq_matches t1, hs]
  · have := toSeq_names r .nil
    rw [hs, toSeq_names r'] at this
    simp only [Seq.names, List.append_nil] at this
    rw [← s3, ← t3, this]

/-- `(?<x>a+)|[0-9\-]{2}` and the same pattern with the alternatives swapped: the hypotheses are met, and the texts differ. -/
def textPat : Pat := .or (.capture (.plus (.lit 97)) ⟨0, "x"⟩) (.exact (.cls false [.range 48 57, .lit 45]) [2])
def textPat' : Pat := .or (.exact (.cls false [.range 48 57, .lit 45]) [2]) (.capture (.plus (.lit 97)) ⟨0, "x"⟩)

example : textPat.elab.map Regex.serialize = some (ascii "(((a){1,inf})<x>)|(([0-9, ---]){2,2}<~x>)") := by decide

example : textPat.PlainChars ∧ textPat.Sensible ∧ textPat'.PlainChars ∧ textPat'.Sensible ∧
    textPat.elab.map Regex.serialize ≠ textPat'.elab.map Regex.serialize := by
  refine ⟨?_, ?_, ?_, ?_, by decide⟩ <;>
    simp [textPat, textPat', Pat.PlainChars, Pat.Sensible, ClassItem.PlainChars, NumeralOk, decimal]

/-- Different patterns with the same text: `x{2}(yz)` and `x{2,2}yz` (grouped to the left). -/
example : (Pat.cat (.exact (.lit 120) [2]) (.cat (.lit 121) (.lit 122))).elab.map Regex.serialize =
    (Pat.cat (.cat (.range (.lit 120) [2] [2]) (.lit 121)) (.lit 122)).elab.map Regex.serialize := by decide

/-- Why C52 is partial: `serialize` does not escape.  `a{1}` and `\(a\)\{1,1\}` (eight literals) have the same text, but the first matches `a` and the
second does not. -/
theorem C52_refuted : ∃ (p p' : Pat) (r r' : Regex), p.Sensible ∧ p'.Sensible ∧ p.elab = some r ∧ p'.elab = some r' ∧ r.serialize = r'.serialize ∧
    p.Matches [97] ∧ ¬ p'.Matches [97] := by
  refine ⟨.exact (.lit 97) [1],
    .cat (.lit 40) (.cat (.lit 97) (.cat (.lit 41) (.cat (.lit 123) (.cat (.lit 49) (.cat (.lit 44) (.cat (.lit 49) (.lit 125))))))),
    _, _, ?_, ?_, rfl, rfl, by decide, ?_, ?_⟩
  · exact ⟨⟨by simp, by decide, by decide⟩, by decide, trivial⟩
  · exact ⟨trivial, trivial, trivial, trivial, trivial, trivial, trivial, trivial⟩
  · exact Repeat.succ (s := [97]) (t := []) rfl .zero
  · rintro ⟨s1, s2, h, rfl, _⟩
    simp at h

end LogSurgeon
