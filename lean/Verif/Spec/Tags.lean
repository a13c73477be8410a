import Verif.Spec.Automata
import Verif.Model.SchemaRegex
/-
What the capture tags on an NFA path should look like, independent of the construction.
-/
namespace LogSurgeon

/-- The transition concerns the capture `t`: it opens it, closes it, or states that it does not take part
in the match. -/
def Label.Mentions (t : Tag) : Label → Prop
  | .openTag u => u = t
  | .closeTag u => u = t
  | .negTags ts => t ∈ ts
  | _ => False

/-- No transition of the path concerns `t`. -/
def Silent (t : Tag) (w : List Label) : Prop := ∀ l ∈ w, ¬ l.Mentions t

/-- `TagRuns t P k w`: in the label word `w`, the transitions concerning `t` form `k` runs, one after
the other, each of which either opens and then closes `t`, having read a text satisfying `P` in
between, or negates `t` once. -/
inductive TagRuns (t : Tag) (P : List Nat → Prop) : Nat → List Label → Prop
  | nil : TagRuns t P 0 []
  | other {k l w} : ¬ l.Mentions t → TagRuns t P k w → TagRuns t P k (l :: w)
  | captured {k m w} : Silent t m → P (bytesOf m) → TagRuns t P k w →
      TagRuns t P (k + 1) (.openTag t :: (m ++ .closeTag t :: w))
  | negated {k ts w} : t ∈ ts → TagRuns t P k w → TagRuns t P (k + 1) (.negTags ts :: w)

/-- Regexes built by the public constructors (RegexASTInteger, for which no NFA can be built, left out). -/
inductive Regex.Built : Regex → Prop
  | empty : Built .mkEmpty
  | literal (c) : Built (.mkLiteral c)
  | group (w n rs) : Built (.group [] w n rs)
  | or {l r} : Built l → Built r → Built (.mkOr l r)
  | cat {l r} : Built l → Built r → Built (.mkCat l r)
  | mult {r} (min max) : Built r → Built (.mkMult r min max)
  | capture {r} (t) : Built r → Built (.mkCapture r t)

/-- The captures of a regex: tag and captured expression. -/
def Regex.captures : Regex → List (Tag × Regex)
  | .empty _ | .literal _ _ | .integer _ _ | .group _ _ _ _ => []
  | .or _ l r | .cat _ l r => l.captures ++ r.captures
  | .mult _ o _ _ => o.captures
  | .capture _ i t => i.captures ++ [(t, i)]

/-- No capture inside a repetition. -/
def Regex.NoCaptureInRepetition : Regex → Prop
  | .mult _ o _ _ => o.captures = []
  | .or _ l r | .cat _ l r => l.NoCaptureInRepetition ∧ r.NoCaptureInRepetition
  | .capture _ i _ => i.NoCaptureInRepetition
  | _ => True

/-- No zero-minimum repetition node around a capture (the schema parser never creates one). -/
def Regex.NoZeroAroundCapture : Regex → Prop
  | .mult _ o min _ => (min = 0 → o.captures = []) ∧ o.NoZeroAroundCapture
  | .or _ l r | .cat _ l r => l.NoZeroAroundCapture ∧ r.NoZeroAroundCapture
  | .capture _ i _ => i.NoZeroAroundCapture
  | _ => True

/-- The captures of a schema regex: tag and captured expression. -/
def Pat.captures : Pat → List (Tag × Pat)
  | .cat l r | .or l r => l.captures ++ r.captures
  | .star p | .plus p | .exact p _ | .range p _ _ => p.captures
  | .capture p t => p.captures ++ [(t, p)]
  | _ => []

/-- No capture inside a repetition. -/
def Pat.NoCaptureInRepetition : Pat → Prop
  | .cat l r | .or l r => l.NoCaptureInRepetition ∧ r.NoCaptureInRepetition
  | .star p | .plus p | .exact p _ | .range p _ _ => p.captures = []
  | .capture p _ => p.NoCaptureInRepetition
  | _ => True

end LogSurgeon
