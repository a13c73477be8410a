import Verif.Spec.SchemaText
import Verif.Model.SchemaLex
/-
Which unit of a schema text may stand for which terminal of the grammar.
-/
namespace LogSurgeon

/-- The terminals that are single characters (bytes), with the characters. -/
def charToks : List (String × List Range) :=
  [("Lparen", [(40, 40)]),
    ("Rparen", [(41, 41)]),
    ("Star", [(42, 42)]),
    ("Plus", [(43, 43)]),
    ("Dash", [(45, 45)]),
    ("Dot", [(46, 46)]),
    ("Lbracket", [(91, 91)]),
    ("Rbracket", [(93, 93)]),
    ("Backslash", [(92, 92)]),
    ("Hat", [(94, 94)]),
    ("Lbrace", [(123, 123)]),
    ("Rbrace", [(125, 125)]),
    ("Vbar", [(124, 124)]),
    ("Langle", [(60, 60)]),
    ("Rangle", [(62, 62)]),
    ("QuestionMark", [(63, 63)]),
    ("Tab", [(9, 9)]),
    ("NewLine", [(10, 10)]),
    ("VerticalTab", [(11, 11)]),
    ("FormFeed", [(12, 12)]),
    ("CarriageReturn", [(13, 13)]),
    ("Space", [(32, 32)]),
    ("Bang", [(33, 33)]),
    ("Quotation", [(34, 34)]),
    ("Hash", [(35, 35)]),
    ("DollarSign", [(36, 36)]),
    ("Percent", [(37, 37)]),
    ("Ampersand", [(38, 38)]),
    ("Apostrophe", [(39, 39)]),
    ("Comma", [(44, 44)]),
    ("ForwardSlash", [(47, 47)]),
    ("Numeric", [(48, 57)]),
    ("Colon", [(58, 58)]),
    ("SemiColon", [(59, 59)]),
    ("Equal", [(61, 61)]),
    ("At", [(64, 64)]),
    ("AlphaNumeric", [(97, 122)]),
    ("AlphaNumeric", [(65, 90)]),
    ("AlphaNumeric", [(48, 57)]),
    ("Underscore", [(95, 95)]),
    ("Backtick", [(96, 96)]),
    ("Tilde", [(126, 126)]),
    ("d", [(100, 100)]),
    ("s", [(115, 115)]),
    ("n", [(110, 110)]),
    ("r", [(114, 114)]),
    ("t", [(116, 116)]),
    ("f", [(102, 102)]),
    ("v", [(118, 118)]),
    ("CommentCharacters", [(0, 9), (11, 12), (14, 255)])]

/-- The unit may stand for the terminal. -/
def Stands (s : String) : Lexeme → Prop
  | .char c => ∃ x ∈ charToks, x.1 = s ∧ ∃ r ∈ x.2, r.1 ≤ c ∧ c ≤ r.2
  | .delimiters => s = "Delimiters"

theorem stands_of {s : String} {c : Nat} (rs : List Range) (h : (s, rs) ∈ charToks) (r : Range) (hr : r ∈ rs) (h1 : r.1 ≤ c) (h2 : c ≤ r.2) :
    Stands s (.char c) := ⟨(s, rs), h, rfl, r, hr, h1, h2⟩

theorem stands_lit {s : String} {c : Nat} (i : Nat) (h : charToks[i]? = some (s, [(c, c)])) : Stands s (.char c) :=
  stands_of _ (List.mem_of_getElem? h) (c, c) (by simp) (Nat.le_refl _) (Nat.le_refl _)

/-- All the entries for a name. -/
def toksOf (s : String) : List Range := (charToks.filter (·.1 == s)).flatMap (·.2)

theorem stands_iff {s : String} {l : Lexeme} : Stands s l ↔
    (∃ c, l = .char c ∧ ∃ r ∈ toksOf s, r.1 ≤ c ∧ c ≤ r.2) ∨ (l = .delimiters ∧ s = "Delimiters") := by
  cases l with
  | char c =>
    simp only [Stands, toksOf, Lexeme.char.injEq, reduceCtorEq, false_and, or_false, exists_eq_left', List.mem_flatMap, List.mem_filter, beq_iff_eq]
    constructor
    · rintro ⟨x, h1, h2, r, h3, h4⟩; exact ⟨r, ⟨x, ⟨h1, h2⟩, h3⟩, h4⟩
    · rintro ⟨r, ⟨x, ⟨h1, h2⟩, h3⟩, h4⟩; exact ⟨x, h1, h2, r, h3, h4⟩
  | delimiters => simp [Stands]

theorem stands_char {s : String} {rs : List Range} (h : toksOf s = rs) (hne : s ≠ "Delimiters") {l : Lexeme} (hs : Stands s l) :
    ∃ c, l = .char c ∧ ∃ r ∈ rs, r.1 ≤ c ∧ c ≤ r.2 := by
  rcases stands_iff.mp hs with h' | ⟨_, h'⟩
  · rw [h] at h'; exact h'
  · exact absurd h' hne

theorem stands_single {s : String} {c : Nat} (h : toksOf s = [(c, c)]) (hne : s ≠ "Delimiters") {l : Lexeme} (hs : Stands s l) : l = .char c := by
  obtain ⟨d, rfl, r, hr, h1, h2⟩ := stands_char h hne hs
  rw [List.mem_singleton] at hr
  subst hr
  simp only at h1 h2
  congr 1
  omega

theorem stands_Lparen {l : Lexeme} (h : Stands "Lparen" l) : l = .char 40 := stands_single (by decide +kernel) (by decide) h
theorem stands_Rparen {l : Lexeme} (h : Stands "Rparen" l) : l = .char 41 := stands_single (by decide +kernel) (by decide) h
theorem stands_Star {l : Lexeme} (h : Stands "Star" l) : l = .char 42 := stands_single (by decide +kernel) (by decide) h
theorem stands_Plus {l : Lexeme} (h : Stands "Plus" l) : l = .char 43 := stands_single (by decide +kernel) (by decide) h
theorem stands_Dash {l : Lexeme} (h : Stands "Dash" l) : l = .char 45 := stands_single (by decide +kernel) (by decide) h
theorem stands_Dot {l : Lexeme} (h : Stands "Dot" l) : l = .char 46 := stands_single (by decide +kernel) (by decide) h
theorem stands_Lbracket {l : Lexeme} (h : Stands "Lbracket" l) : l = .char 91 := stands_single (by decide +kernel) (by decide) h
theorem stands_Rbracket {l : Lexeme} (h : Stands "Rbracket" l) : l = .char 93 := stands_single (by decide +kernel) (by decide) h
theorem stands_Backslash {l : Lexeme} (h : Stands "Backslash" l) : l = .char 92 := stands_single (by decide +kernel) (by decide) h
theorem stands_Hat {l : Lexeme} (h : Stands "Hat" l) : l = .char 94 := stands_single (by decide +kernel) (by decide) h
theorem stands_Lbrace {l : Lexeme} (h : Stands "Lbrace" l) : l = .char 123 := stands_single (by decide +kernel) (by decide) h
theorem stands_Rbrace {l : Lexeme} (h : Stands "Rbrace" l) : l = .char 125 := stands_single (by decide +kernel) (by decide) h
theorem stands_Vbar {l : Lexeme} (h : Stands "Vbar" l) : l = .char 124 := stands_single (by decide +kernel) (by decide) h
theorem stands_Langle {l : Lexeme} (h : Stands "Langle" l) : l = .char 60 := stands_single (by decide +kernel) (by decide) h
theorem stands_Rangle {l : Lexeme} (h : Stands "Rangle" l) : l = .char 62 := stands_single (by decide +kernel) (by decide) h
theorem stands_QuestionMark {l : Lexeme} (h : Stands "QuestionMark" l) : l = .char 63 := stands_single (by decide +kernel) (by decide) h
theorem stands_Tab {l : Lexeme} (h : Stands "Tab" l) : l = .char 9 := stands_single (by decide +kernel) (by decide) h
theorem stands_NewLine {l : Lexeme} (h : Stands "NewLine" l) : l = .char 10 := stands_single (by decide +kernel) (by decide) h
theorem stands_VerticalTab {l : Lexeme} (h : Stands "VerticalTab" l) : l = .char 11 := stands_single (by decide +kernel) (by decide) h
theorem stands_FormFeed {l : Lexeme} (h : Stands "FormFeed" l) : l = .char 12 := stands_single (by decide +kernel) (by decide) h
theorem stands_CarriageReturn {l : Lexeme} (h : Stands "CarriageReturn" l) : l = .char 13 := stands_single (by decide +kernel) (by decide) h
theorem stands_Space {l : Lexeme} (h : Stands "Space" l) : l = .char 32 := stands_single (by decide +kernel) (by decide) h
theorem stands_Bang {l : Lexeme} (h : Stands "Bang" l) : l = .char 33 := stands_single (by decide +kernel) (by decide) h
theorem stands_Quotation {l : Lexeme} (h : Stands "Quotation" l) : l = .char 34 := stands_single (by decide +kernel) (by decide) h
theorem stands_Hash {l : Lexeme} (h : Stands "Hash" l) : l = .char 35 := stands_single (by decide +kernel) (by decide) h
theorem stands_DollarSign {l : Lexeme} (h : Stands "DollarSign" l) : l = .char 36 := stands_single (by decide +kernel) (by decide) h
theorem stands_Percent {l : Lexeme} (h : Stands "Percent" l) : l = .char 37 := stands_single (by decide +kernel) (by decide) h
theorem stands_Ampersand {l : Lexeme} (h : Stands "Ampersand" l) : l = .char 38 := stands_single (by decide +kernel) (by decide) h
theorem stands_Apostrophe {l : Lexeme} (h : Stands "Apostrophe" l) : l = .char 39 := stands_single (by decide +kernel) (by decide) h
theorem stands_Comma {l : Lexeme} (h : Stands "Comma" l) : l = .char 44 := stands_single (by decide +kernel) (by decide) h
theorem stands_ForwardSlash {l : Lexeme} (h : Stands "ForwardSlash" l) : l = .char 47 := stands_single (by decide +kernel) (by decide) h
theorem stands_Colon {l : Lexeme} (h : Stands "Colon" l) : l = .char 58 := stands_single (by decide +kernel) (by decide) h
theorem stands_SemiColon {l : Lexeme} (h : Stands "SemiColon" l) : l = .char 59 := stands_single (by decide +kernel) (by decide) h
theorem stands_Equal {l : Lexeme} (h : Stands "Equal" l) : l = .char 61 := stands_single (by decide +kernel) (by decide) h
theorem stands_At {l : Lexeme} (h : Stands "At" l) : l = .char 64 := stands_single (by decide +kernel) (by decide) h
theorem stands_Underscore {l : Lexeme} (h : Stands "Underscore" l) : l = .char 95 := stands_single (by decide +kernel) (by decide) h
theorem stands_Backtick {l : Lexeme} (h : Stands "Backtick" l) : l = .char 96 := stands_single (by decide +kernel) (by decide) h
theorem stands_Tilde {l : Lexeme} (h : Stands "Tilde" l) : l = .char 126 := stands_single (by decide +kernel) (by decide) h
theorem stands_d {l : Lexeme} (h : Stands "d" l) : l = .char 100 := stands_single (by decide +kernel) (by decide) h
theorem stands_s {l : Lexeme} (h : Stands "s" l) : l = .char 115 := stands_single (by decide +kernel) (by decide) h
theorem stands_n {l : Lexeme} (h : Stands "n" l) : l = .char 110 := stands_single (by decide +kernel) (by decide) h
theorem stands_r {l : Lexeme} (h : Stands "r" l) : l = .char 114 := stands_single (by decide +kernel) (by decide) h
theorem stands_t {l : Lexeme} (h : Stands "t" l) : l = .char 116 := stands_single (by decide +kernel) (by decide) h
theorem stands_f {l : Lexeme} (h : Stands "f" l) : l = .char 102 := stands_single (by decide +kernel) (by decide) h
theorem stands_v {l : Lexeme} (h : Stands "v" l) : l = .char 118 := stands_single (by decide +kernel) (by decide) h
theorem stands_Delimiters {l : Lexeme} (h : Stands "Delimiters" l) : l = .delimiters := by
  rcases stands_iff.mp h with ⟨c, _, r, hr, _⟩ | h
  · have : toksOf "Delimiters" = [] := by decide +kernel
    rw [this] at hr; cases hr
  · exact h.1

theorem is_Lparen : Stands "Lparen" (.char 40) := stands_lit 0 rfl
theorem is_Rparen : Stands "Rparen" (.char 41) := stands_lit 1 rfl
theorem is_Star : Stands "Star" (.char 42) := stands_lit 2 rfl
theorem is_Plus : Stands "Plus" (.char 43) := stands_lit 3 rfl
theorem is_Dash : Stands "Dash" (.char 45) := stands_lit 4 rfl
theorem is_Dot : Stands "Dot" (.char 46) := stands_lit 5 rfl
theorem is_Lbracket : Stands "Lbracket" (.char 91) := stands_lit 6 rfl
theorem is_Rbracket : Stands "Rbracket" (.char 93) := stands_lit 7 rfl
theorem is_Backslash : Stands "Backslash" (.char 92) := stands_lit 8 rfl
theorem is_Hat : Stands "Hat" (.char 94) := stands_lit 9 rfl
theorem is_Lbrace : Stands "Lbrace" (.char 123) := stands_lit 10 rfl
theorem is_Rbrace : Stands "Rbrace" (.char 125) := stands_lit 11 rfl
theorem is_Vbar : Stands "Vbar" (.char 124) := stands_lit 12 rfl
theorem is_Langle : Stands "Langle" (.char 60) := stands_lit 13 rfl
theorem is_Rangle : Stands "Rangle" (.char 62) := stands_lit 14 rfl
theorem is_QuestionMark : Stands "QuestionMark" (.char 63) := stands_lit 15 rfl
theorem is_Tab : Stands "Tab" (.char 9) := stands_lit 16 rfl
theorem is_NewLine : Stands "NewLine" (.char 10) := stands_lit 17 rfl
theorem is_VerticalTab : Stands "VerticalTab" (.char 11) := stands_lit 18 rfl
theorem is_FormFeed : Stands "FormFeed" (.char 12) := stands_lit 19 rfl
theorem is_CarriageReturn : Stands "CarriageReturn" (.char 13) := stands_lit 20 rfl
theorem is_Space : Stands "Space" (.char 32) := stands_lit 21 rfl
theorem is_Bang : Stands "Bang" (.char 33) := stands_lit 22 rfl
theorem is_Quotation : Stands "Quotation" (.char 34) := stands_lit 23 rfl
theorem is_Hash : Stands "Hash" (.char 35) := stands_lit 24 rfl
theorem is_DollarSign : Stands "DollarSign" (.char 36) := stands_lit 25 rfl
theorem is_Percent : Stands "Percent" (.char 37) := stands_lit 26 rfl
theorem is_Ampersand : Stands "Ampersand" (.char 38) := stands_lit 27 rfl
theorem is_Apostrophe : Stands "Apostrophe" (.char 39) := stands_lit 28 rfl
theorem is_Comma : Stands "Comma" (.char 44) := stands_lit 29 rfl
theorem is_ForwardSlash : Stands "ForwardSlash" (.char 47) := stands_lit 30 rfl
theorem is_Colon : Stands "Colon" (.char 58) := stands_lit 32 rfl
theorem is_SemiColon : Stands "SemiColon" (.char 59) := stands_lit 33 rfl
theorem is_Equal : Stands "Equal" (.char 61) := stands_lit 34 rfl
theorem is_At : Stands "At" (.char 64) := stands_lit 35 rfl
theorem is_Underscore : Stands "Underscore" (.char 95) := stands_lit 39 rfl
theorem is_Backtick : Stands "Backtick" (.char 96) := stands_lit 40 rfl
theorem is_Tilde : Stands "Tilde" (.char 126) := stands_lit 41 rfl
theorem is_d : Stands "d" (.char 100) := stands_lit 42 rfl
theorem is_s : Stands "s" (.char 115) := stands_lit 43 rfl
theorem is_n : Stands "n" (.char 110) := stands_lit 44 rfl
theorem is_r : Stands "r" (.char 114) := stands_lit 45 rfl
theorem is_t : Stands "t" (.char 116) := stands_lit 46 rfl
theorem is_f : Stands "f" (.char 102) := stands_lit 47 rfl
theorem is_v : Stands "v" (.char 118) := stands_lit 48 rfl
end LogSurgeon
