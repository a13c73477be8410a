import Verif.Spec.Lexing
/-
What tokens a text has, exactly, for every text: how the lexer looks for the next token.  (Spec/Lexing.lean says what they should be.)
-/
namespace LogSurgeon

/-- Something could begin at position `x`: a rule begins with the character there, and it is a delimiter, or the lexer has just arrived there
(`fresh`: behind a token, or behind something that could have been the beginning of one; this only matters for a newline that is no delimiter). -/
def Lexer.Starts (L : Lexer) (s : List Nat) (x : Nat) (fresh : Bool) : Prop :=
  ∃ c, s[x]? = some c ∧ (L.dfa.run 0 [c]).isSome ∧ (fresh = true ∨ L.isDelim c = true)

/-- `[x, y)` is the longest text beginning at `x` that can be continued to a match of a rule and has no newline, except at its beginning. -/
def Lexer.Gap (L : Lexer) (s : List Nat) (x y : Nat) : Prop :=
  x < y ∧ y ≤ s.length ∧ (L.dfa.run 0 (slice s x y)).isSome ∧ newline ∉ slice s (x + 1) y ∧
  ∀ y', y < y' → y' ≤ s.length → newline ∈ slice s (x + 1) y' ∨ (L.dfa.run 0 (slice s x y')).isSome = false

/-- `Search L s x fresh r`: the search for a token from position `x` on gives `r` (a range of the text, or nothing). -/
inductive Search (L : Lexer) (s : List Nat) : Nat → Bool → Option (Nat × Nat) → Prop
  /-- The end of the text. -/
  | nothing {fresh} : Search L s s.length fresh none
  /-- There is a candidate before the next newline; the longest candidate is the token. -/
  | found {x fresh e e'} : L.Starts s x fresh → L.Cand s false x e' → newline ∉ slice s (x + 1) e' → L.Longest s false x e →
      Search L s x fresh (some (x, e))
  /-- Nothing can begin here. -/
  | skip {x fresh r} : x < s.length → ¬ L.Starts s x fresh → Search L s (x + 1) false r → Search L s x fresh r
  /-- Something could have begun here, but there is no candidate before the next newline: all that could have been its beginning is skipped. -/
  | past {x y fresh r} : L.Starts s x fresh → (∀ e, L.Cand s false x e → newline ∈ slice s (x + 1) e) → L.Gap s x y → Search L s y true r →
      Search L s x fresh r

/-- `Lexed L s p h toks`: the tokens of the text from position `p` on, if the search for the next one begins at `h`. -/
inductive Lexed (L : Lexer) (s : List Nat) : Nat → Nat → List PTok → Prop
  | done : Lexed L s s.length s.length [⟨s.length, s.length, [tokenEnd]⟩]
  | rest {p h} : p < s.length → Search L s h true none → Lexed L s p h [⟨p, s.length, [tokenUncaught]⟩, ⟨s.length, s.length, [tokenEnd]⟩]
  | here {p h e toks} : Search L s h true (some (p, e)) → Lexed L s e e toks → Lexed L s p h (⟨p, e, L.typesOn s false p e⟩ :: toks)
  | later {p h a e toks} : p < a → Search L s h true (some (a, e)) → Lexed L s e e toks →
      Lexed L s p h (⟨p, a, [tokenUncaught]⟩ :: ⟨a, e, L.typesOn s false a e⟩ :: toks)

/-- The tokens of a whole text.  At the beginning the virtual start-of-file character stands in front of the text: the same rules as in `Search`. -/
inductive LexedAll (L : Lexer) (s : List Nat) : List PTok → Prop
  | start {e' e toks} : L.Cand s true 0 e' → newline ∉ s.take e' → L.Longest s true 0 e → Lexed L s e e toks →
      LexedAll L s (⟨0, e, L.typesOn s true 0 e⟩ :: toks)
  | plain {h toks} : L.NoStart s → L.Hidden s h → Lexed L s 0 h toks → LexedAll L s toks

end LogSurgeon
