import Verif.Spec.SchemaText
/-
The file examples/schema.txt, as an instance of the theorems about schema files.  Written by tools/example_schema.py.
-/
namespace LogSurgeon.ExampleSchema

instance (c : Nat) : Decidable (AlphaNum c) := by unfold AlphaNum; infer_instance
instance (c : Nat) : Decidable (Plain c) := by unfold Plain; infer_instance
instance (c : Nat) : Decidable (Special c) := by unfold Special; infer_instance
instance (n : List Nat) : Decidable (IsName n) := by unfold IsName; infer_instance
instance (n : List Nat) : Decidable (IsNumeral n) := by unfold IsNumeral; infer_instance

theorem pl {k : Nat} (c : Nat) (h : Plain c) : Written .literal k [c] (.lit c) := .char (.plain h)
theorem recast {l : Level} {k : Nat} {w w' : List Nat} {p p' : Pat} (h : Written l k w p) (e : w = w' := by decide +kernel) (e' : p = p' := by decide +kernel) :
    Written l k w' p' := e ▸ e' ▸ h
theorem recasts {k : Nat} {w w' : List Nat} {p p' : List Nat} (h : WrittenChars k w p) (e : w = w' := by decide +kernel) (e' : p = p' := by decide +kernel) :
    WrittenChars k w' p' := e ▸ e' ▸ h
theorem esc {k : Nat} (c : Nat) (h : Special c) : Written .literal k [92, c] (.lit c) := .char (.escaped h)

/-- line 1 -/
def t0 : List Nat := [32, 84, 105, 109, 101, 115, 116, 97, 109, 112, 115, 32, 40, 117, 115, 105, 110, 103, 32, 116, 104, 101, 32, 96, 116, 105, 109, 101, 115, 116, 97, 109, 112, 96, 32, 107, 101, 121, 119, 111, 114, 100, 41]
theorem l0 {k : Nat} : WrittenLine k (chars [47, 47] ++ lexemes t0) {} := .comment (by decide +kernel) (by decide +kernel)

/-- line 2 -/
def t1 : List Nat := [32, 69, 46, 103, 46, 32, 50, 48, 49, 53, 45, 48, 49, 45, 51, 49, 84, 49, 53, 58, 53, 48, 58, 52, 53, 46, 51, 57, 50]
theorem l1 {k : Nat} : WrittenLine k (chars [47, 47] ++ lexemes t1) {} := .comment (by decide +kernel) (by decide +kernel)

/-- line 3 -/
def t2 : List Nat := [92, 100, 123, 52, 125, 92, 45, 92, 100, 123, 50, 125, 92, 45, 92, 100, 123, 50, 125, 84, 92, 100, 123, 50, 125, 58, 92, 100, 123, 50, 125, 58, 92, 100, 123, 50, 125, 46, 92, 100, 123, 51, 125]
def p2 : Pat := (.cat (.cat (.cat (.cat (.cat (.cat (.cat (.cat (.cat (.cat (.cat (.cat (.exact .digit [4]) (.lit 45)) (.exact .digit [2])) (.lit 45)) (.exact .digit [2])) (.lit 84)) (.exact .digit [2])) (.lit 58)) (.exact .digit [2])) (.lit 58)) (.exact .digit [2])) .wild) (.exact .digit [3]))
theorem w2 {k : Nat} : Written .seq k t2 (p2) := by
  have h : Written .seq k _ _ := (.cat (.cat (.cat (.cat (.cat (.cat (.cat (.cat (.cat (.cat (.cat (.cat (.ofChoice (.ofRepeated (.exact (n := [4]) .digit (by decide)))) (.ofSingle (.ofLiteral (esc 45 (by decide))))) (.ofRepeated (.exact (n := [2]) .digit (by decide)))) (.ofSingle (.ofLiteral (esc 45 (by decide))))) (.ofRepeated (.exact (n := [2]) .digit (by decide)))) (.ofSingle (.ofLiteral (pl 84 (by decide))))) (.ofRepeated (.exact (n := [2]) .digit (by decide)))) (.ofSingle (.ofLiteral (pl 58 (by decide))))) (.ofRepeated (.exact (n := [2]) .digit (by decide)))) (.ofSingle (.ofLiteral (pl 58 (by decide))))) (.ofRepeated (.exact (n := [2]) .digit (by decide)))) (.ofSingle .wild)) (.ofRepeated (.exact (n := [3]) .digit (by decide))))
  exact recast h
theorem l2 {k : Nat} : WrittenLine k (chars (List.replicate 0 32 ++ [116, 105, 109, 101, 115, 116, 97, 109, 112] ++ 58 :: t2)) { vars := [(asString [116, 105, 109, 101, 115, 116, 97, 109, 112], p2)] } :=
  .var (by decide) w2

/-- line 4 -/
def t3 : List Nat := [32, 69, 46, 103, 46, 32, 50, 48, 49, 53, 45, 48, 49, 45, 51, 49, 84, 49, 53, 58, 53, 48, 58, 52, 53, 44, 51, 57, 50]
theorem l3 {k : Nat} : WrittenLine k (chars [47, 47] ++ lexemes t3) {} := .comment (by decide +kernel) (by decide +kernel)

/-- line 5 -/
def t4 : List Nat := [92, 100, 123, 52, 125, 92, 45, 92, 100, 123, 50, 125, 92, 45, 92, 100, 123, 50, 125, 84, 92, 100, 123, 50, 125, 58, 92, 100, 123, 50, 125, 58, 92, 100, 123, 50, 125, 44, 92, 100, 123, 51, 125]
def p4 : Pat := (.cat (.cat (.cat (.cat (.cat (.cat (.cat (.cat (.cat (.cat (.cat (.cat (.exact .digit [4]) (.lit 45)) (.exact .digit [2])) (.lit 45)) (.exact .digit [2])) (.lit 84)) (.exact .digit [2])) (.lit 58)) (.exact .digit [2])) (.lit 58)) (.exact .digit [2])) (.lit 44)) (.exact .digit [3]))
theorem w4 {k : Nat} : Written .seq k t4 (p4) := by
  have h : Written .seq k _ _ := (.cat (.cat (.cat (.cat (.cat (.cat (.cat (.cat (.cat (.cat (.cat (.cat (.ofChoice (.ofRepeated (.exact (n := [4]) .digit (by decide)))) (.ofSingle (.ofLiteral (esc 45 (by decide))))) (.ofRepeated (.exact (n := [2]) .digit (by decide)))) (.ofSingle (.ofLiteral (esc 45 (by decide))))) (.ofRepeated (.exact (n := [2]) .digit (by decide)))) (.ofSingle (.ofLiteral (pl 84 (by decide))))) (.ofRepeated (.exact (n := [2]) .digit (by decide)))) (.ofSingle (.ofLiteral (pl 58 (by decide))))) (.ofRepeated (.exact (n := [2]) .digit (by decide)))) (.ofSingle (.ofLiteral (pl 58 (by decide))))) (.ofRepeated (.exact (n := [2]) .digit (by decide)))) (.ofSingle (.ofLiteral (pl 44 (by decide))))) (.ofRepeated (.exact (n := [3]) .digit (by decide))))
  exact recast h
theorem l4 {k : Nat} : WrittenLine k (chars (List.replicate 0 32 ++ [116, 105, 109, 101, 115, 116, 97, 109, 112] ++ 58 :: t4)) { vars := [(asString [116, 105, 109, 101, 115, 116, 97, 109, 112], p4)] } :=
  .var (by decide) w4

/-- line 6 -/
def t5 : List Nat := [32, 69, 46, 103, 46, 32, 91, 50, 48, 49, 53, 45, 48, 49, 45, 51, 49, 84, 49, 53, 58, 53, 48, 58, 52, 53]
theorem l5 {k : Nat} : WrittenLine k (chars [47, 47] ++ lexemes t5) {} := .comment (by decide +kernel) (by decide +kernel)

/-- line 7 -/
def t6 : List Nat := [92, 91, 92, 100, 123, 52, 125, 92, 45, 92, 100, 123, 50, 125, 92, 45, 92, 100, 123, 50, 125, 84, 92, 100, 123, 50, 125, 58, 92, 100, 123, 50, 125, 58, 92, 100, 123, 50, 125]
def p6 : Pat := (.cat (.cat (.cat (.cat (.cat (.cat (.cat (.cat (.cat (.cat (.cat (.lit 91) (.exact .digit [4])) (.lit 45)) (.exact .digit [2])) (.lit 45)) (.exact .digit [2])) (.lit 84)) (.exact .digit [2])) (.lit 58)) (.exact .digit [2])) (.lit 58)) (.exact .digit [2]))
theorem w6 {k : Nat} : Written .seq k t6 (p6) := by
  have h : Written .seq k _ _ := (.cat (.cat (.cat (.cat (.cat (.cat (.cat (.cat (.cat (.cat (.cat (.ofChoice (.ofSingle (.ofLiteral (esc 91 (by decide))))) (.ofRepeated (.exact (n := [4]) .digit (by decide)))) (.ofSingle (.ofLiteral (esc 45 (by decide))))) (.ofRepeated (.exact (n := [2]) .digit (by decide)))) (.ofSingle (.ofLiteral (esc 45 (by decide))))) (.ofRepeated (.exact (n := [2]) .digit (by decide)))) (.ofSingle (.ofLiteral (pl 84 (by decide))))) (.ofRepeated (.exact (n := [2]) .digit (by decide)))) (.ofSingle (.ofLiteral (pl 58 (by decide))))) (.ofRepeated (.exact (n := [2]) .digit (by decide)))) (.ofSingle (.ofLiteral (pl 58 (by decide))))) (.ofRepeated (.exact (n := [2]) .digit (by decide))))
  exact recast h
theorem l6 {k : Nat} : WrittenLine k (chars (List.replicate 0 32 ++ [116, 105, 109, 101, 115, 116, 97, 109, 112] ++ 58 :: t6)) { vars := [(asString [116, 105, 109, 101, 115, 116, 97, 109, 112], p6)] } :=
  .var (by decide) w6

/-- line 8 -/
def t7 : List Nat := [32, 69, 46, 103, 46, 32, 91, 50, 48, 49, 55, 48, 49, 48, 54, 45, 49, 54, 58, 53, 54, 58, 52, 49, 93]
theorem l7 {k : Nat} : WrittenLine k (chars [47, 47] ++ lexemes t7) {} := .comment (by decide +kernel) (by decide +kernel)

/-- line 9 -/
def t8 : List Nat := [92, 91, 92, 100, 123, 52, 125, 92, 100, 123, 50, 125, 92, 100, 123, 50, 125, 92, 45, 92, 100, 123, 50, 125, 58, 92, 100, 123, 50, 125, 58, 92, 100, 123, 50, 125, 92, 93]
def p8 : Pat := (.cat (.cat (.cat (.cat (.cat (.cat (.cat (.cat (.cat (.cat (.lit 91) (.exact .digit [4])) (.exact .digit [2])) (.exact .digit [2])) (.lit 45)) (.exact .digit [2])) (.lit 58)) (.exact .digit [2])) (.lit 58)) (.exact .digit [2])) (.lit 93))
theorem w8 {k : Nat} : Written .seq k t8 (p8) := by
  have h : Written .seq k _ _ := (.cat (.cat (.cat (.cat (.cat (.cat (.cat (.cat (.cat (.cat (.ofChoice (.ofSingle (.ofLiteral (esc 91 (by decide))))) (.ofRepeated (.exact (n := [4]) .digit (by decide)))) (.ofRepeated (.exact (n := [2]) .digit (by decide)))) (.ofRepeated (.exact (n := [2]) .digit (by decide)))) (.ofSingle (.ofLiteral (esc 45 (by decide))))) (.ofRepeated (.exact (n := [2]) .digit (by decide)))) (.ofSingle (.ofLiteral (pl 58 (by decide))))) (.ofRepeated (.exact (n := [2]) .digit (by decide)))) (.ofSingle (.ofLiteral (pl 58 (by decide))))) (.ofRepeated (.exact (n := [2]) .digit (by decide)))) (.ofSingle (.ofLiteral (esc 93 (by decide)))))
  exact recast h
theorem l8 {k : Nat} : WrittenLine k (chars (List.replicate 0 32 ++ [116, 105, 109, 101, 115, 116, 97, 109, 112] ++ 58 :: t8)) { vars := [(asString [116, 105, 109, 101, 115, 116, 97, 109, 112], p8)] } :=
  .var (by decide) w8

/-- line 10 -/
def t9 : List Nat := [32, 69, 46, 103, 46, 32, 50, 48, 49, 53, 45, 48, 49, 45, 51, 49, 32, 49, 53, 58, 53, 48, 58, 52, 53, 44, 51, 57, 50]
theorem l9 {k : Nat} : WrittenLine k (chars [47, 47] ++ lexemes t9) {} := .comment (by decide +kernel) (by decide +kernel)

/-- line 11 -/
def t10 : List Nat := [32, 69, 46, 103, 46, 32, 73, 78, 70, 79, 32, 91, 109, 97, 105, 110, 93, 32, 50, 48, 49, 53, 45, 48, 49, 45, 51, 49, 32, 49, 53, 58, 53, 48, 58, 52, 53, 44, 48, 56, 53]
theorem l10 {k : Nat} : WrittenLine k (chars [47, 47] ++ lexemes t10) {} := .comment (by decide +kernel) (by decide +kernel)

/-- line 12 -/
def t11 : List Nat := [92, 100, 123, 52, 125, 92, 45, 92, 100, 123, 50, 125, 92, 45, 92, 100, 123, 50, 125, 32, 92, 100, 123, 50, 125, 58, 92, 100, 123, 50, 125, 58, 92, 100, 123, 50, 125, 44, 92, 100, 123, 51, 125]
def p11 : Pat := (.cat (.cat (.cat (.cat (.cat (.cat (.cat (.cat (.cat (.cat (.cat (.cat (.exact .digit [4]) (.lit 45)) (.exact .digit [2])) (.lit 45)) (.exact .digit [2])) (.lit 32)) (.exact .digit [2])) (.lit 58)) (.exact .digit [2])) (.lit 58)) (.exact .digit [2])) (.lit 44)) (.exact .digit [3]))
theorem w11 {k : Nat} : Written .seq k t11 (p11) := by
  have h : Written .seq k _ _ := (.cat (.cat (.cat (.cat (.cat (.cat (.cat (.cat (.cat (.cat (.cat (.cat (.ofChoice (.ofRepeated (.exact (n := [4]) .digit (by decide)))) (.ofSingle (.ofLiteral (esc 45 (by decide))))) (.ofRepeated (.exact (n := [2]) .digit (by decide)))) (.ofSingle (.ofLiteral (esc 45 (by decide))))) (.ofRepeated (.exact (n := [2]) .digit (by decide)))) (.ofSingle (.ofLiteral (pl 32 (by decide))))) (.ofRepeated (.exact (n := [2]) .digit (by decide)))) (.ofSingle (.ofLiteral (pl 58 (by decide))))) (.ofRepeated (.exact (n := [2]) .digit (by decide)))) (.ofSingle (.ofLiteral (pl 58 (by decide))))) (.ofRepeated (.exact (n := [2]) .digit (by decide)))) (.ofSingle (.ofLiteral (pl 44 (by decide))))) (.ofRepeated (.exact (n := [3]) .digit (by decide))))
  exact recast h
theorem l11 {k : Nat} : WrittenLine k (chars (List.replicate 0 32 ++ [116, 105, 109, 101, 115, 116, 97, 109, 112] ++ 58 :: t11)) { vars := [(asString [116, 105, 109, 101, 115, 116, 97, 109, 112], p11)] } :=
  .var (by decide) w11

/-- line 13 -/
def t12 : List Nat := [32, 69, 46, 103, 46, 32, 50, 48, 49, 53, 45, 48, 49, 45, 51, 49, 32, 49, 53, 58, 53, 48, 58, 52, 53, 46, 51, 57, 50]
theorem l12 {k : Nat} : WrittenLine k (chars [47, 47] ++ lexemes t12) {} := .comment (by decide +kernel) (by decide +kernel)

/-- line 14 -/
def t13 : List Nat := [92, 100, 123, 52, 125, 92, 45, 92, 100, 123, 50, 125, 92, 45, 92, 100, 123, 50, 125, 32, 92, 100, 123, 50, 125, 58, 92, 100, 123, 50, 125, 58, 92, 100, 123, 50, 125, 46, 92, 100, 123, 51, 125]
def p13 : Pat := (.cat (.cat (.cat (.cat (.cat (.cat (.cat (.cat (.cat (.cat (.cat (.cat (.exact .digit [4]) (.lit 45)) (.exact .digit [2])) (.lit 45)) (.exact .digit [2])) (.lit 32)) (.exact .digit [2])) (.lit 58)) (.exact .digit [2])) (.lit 58)) (.exact .digit [2])) .wild) (.exact .digit [3]))
theorem w13 {k : Nat} : Written .seq k t13 (p13) := by
  have h : Written .seq k _ _ := (.cat (.cat (.cat (.cat (.cat (.cat (.cat (.cat (.cat (.cat (.cat (.cat (.ofChoice (.ofRepeated (.exact (n := [4]) .digit (by decide)))) (.ofSingle (.ofLiteral (esc 45 (by decide))))) (.ofRepeated (.exact (n := [2]) .digit (by decide)))) (.ofSingle (.ofLiteral (esc 45 (by decide))))) (.ofRepeated (.exact (n := [2]) .digit (by decide)))) (.ofSingle (.ofLiteral (pl 32 (by decide))))) (.ofRepeated (.exact (n := [2]) .digit (by decide)))) (.ofSingle (.ofLiteral (pl 58 (by decide))))) (.ofRepeated (.exact (n := [2]) .digit (by decide)))) (.ofSingle (.ofLiteral (pl 58 (by decide))))) (.ofRepeated (.exact (n := [2]) .digit (by decide)))) (.ofSingle .wild)) (.ofRepeated (.exact (n := [3]) .digit (by decide))))
  exact recast h
theorem l13 {k : Nat} : WrittenLine k (chars (List.replicate 0 32 ++ [116, 105, 109, 101, 115, 116, 97, 109, 112] ++ 58 :: t13)) { vars := [(asString [116, 105, 109, 101, 115, 116, 97, 109, 112], p13)] } :=
  .var (by decide) w13

/-- line 15 -/
def t14 : List Nat := [32, 69, 46, 103, 46, 32, 91, 50, 48, 49, 53, 45, 48, 49, 45, 51, 49, 32, 49, 53, 58, 53, 48, 58, 52, 53, 44, 48, 56, 53, 93]
theorem l14 {k : Nat} : WrittenLine k (chars [47, 47] ++ lexemes t14) {} := .comment (by decide +kernel) (by decide +kernel)

/-- line 16 -/
def t15 : List Nat := [92, 91, 92, 100, 123, 52, 125, 92, 45, 92, 100, 123, 50, 125, 92, 45, 92, 100, 123, 50, 125, 32, 92, 100, 123, 50, 125, 58, 92, 100, 123, 50, 125, 58, 92, 100, 123, 50, 125, 44, 92, 100, 123, 51, 125, 92, 93]
def p15 : Pat := (.cat (.cat (.cat (.cat (.cat (.cat (.cat (.cat (.cat (.cat (.cat (.cat (.cat (.cat (.lit 91) (.exact .digit [4])) (.lit 45)) (.exact .digit [2])) (.lit 45)) (.exact .digit [2])) (.lit 32)) (.exact .digit [2])) (.lit 58)) (.exact .digit [2])) (.lit 58)) (.exact .digit [2])) (.lit 44)) (.exact .digit [3])) (.lit 93))
theorem w15 {k : Nat} : Written .seq k t15 (p15) := by
  have h : Written .seq k _ _ := (.cat (.cat (.cat (.cat (.cat (.cat (.cat (.cat (.cat (.cat (.cat (.cat (.cat (.cat (.ofChoice (.ofSingle (.ofLiteral (esc 91 (by decide))))) (.ofRepeated (.exact (n := [4]) .digit (by decide)))) (.ofSingle (.ofLiteral (esc 45 (by decide))))) (.ofRepeated (.exact (n := [2]) .digit (by decide)))) (.ofSingle (.ofLiteral (esc 45 (by decide))))) (.ofRepeated (.exact (n := [2]) .digit (by decide)))) (.ofSingle (.ofLiteral (pl 32 (by decide))))) (.ofRepeated (.exact (n := [2]) .digit (by decide)))) (.ofSingle (.ofLiteral (pl 58 (by decide))))) (.ofRepeated (.exact (n := [2]) .digit (by decide)))) (.ofSingle (.ofLiteral (pl 58 (by decide))))) (.ofRepeated (.exact (n := [2]) .digit (by decide)))) (.ofSingle (.ofLiteral (pl 44 (by decide))))) (.ofRepeated (.exact (n := [3]) .digit (by decide)))) (.ofSingle (.ofLiteral (esc 93 (by decide)))))
  exact recast h
theorem l15 {k : Nat} : WrittenLine k (chars (List.replicate 0 32 ++ [116, 105, 109, 101, 115, 116, 97, 109, 112] ++ 58 :: t15)) { vars := [(asString [116, 105, 109, 101, 115, 116, 97, 109, 112], p15)] } :=
  .var (by decide) w15

/-- line 17 -/
def t16 : List Nat := [32, 69, 46, 103, 46, 32, 50, 48, 49, 53, 45, 48, 49, 45, 51, 49, 32, 49, 53, 58, 53, 48, 58, 52, 53]
theorem l16 {k : Nat} : WrittenLine k (chars [47, 47] ++ lexemes t16) {} := .comment (by decide +kernel) (by decide +kernel)

/-- line 18 -/
def t17 : List Nat := [32, 69, 46, 103, 46, 32, 83, 116, 97, 114, 116, 101, 100, 32, 80, 79, 83, 84, 32, 47, 97, 112, 105, 47, 118, 51, 47, 105, 110, 116, 101, 114, 110, 97, 108, 47, 97, 108, 108, 111, 119, 101, 100, 32, 102, 111, 114, 32, 49, 50, 55, 46, 48, 46, 48, 46, 49, 32, 97, 116, 32, 50, 48, 49, 55, 45, 48, 54, 45, 49, 56, 32, 48, 48, 58, 50, 48, 58, 52, 52]
theorem l17 {k : Nat} : WrittenLine k (chars [47, 47] ++ lexemes t17) {} := .comment (by decide +kernel) (by decide +kernel)

/-- line 19 -/
def t18 : List Nat := [32, 69, 46, 103, 46, 32, 117, 112, 100, 97, 116, 101, 45, 97, 108, 116, 101, 114, 110, 97, 116, 105, 118, 101, 115, 32, 50, 48, 49, 53, 45, 48, 49, 45, 51, 49, 32, 49, 53, 58, 53, 48, 58, 52, 53]
theorem l18 {k : Nat} : WrittenLine k (chars [47, 47] ++ lexemes t18) {} := .comment (by decide +kernel) (by decide +kernel)

/-- line 20 -/
def t19 : List Nat := [92, 100, 123, 52, 125, 92, 45, 92, 100, 123, 50, 125, 92, 45, 92, 100, 123, 50, 125, 32, 92, 100, 123, 50, 125, 58, 92, 100, 123, 50, 125, 58, 92, 100, 123, 50, 125]
def p19 : Pat := (.cat (.cat (.cat (.cat (.cat (.cat (.cat (.cat (.cat (.cat (.exact .digit [4]) (.lit 45)) (.exact .digit [2])) (.lit 45)) (.exact .digit [2])) (.lit 32)) (.exact .digit [2])) (.lit 58)) (.exact .digit [2])) (.lit 58)) (.exact .digit [2]))
theorem w19 {k : Nat} : Written .seq k t19 (p19) := by
  have h : Written .seq k _ _ := (.cat (.cat (.cat (.cat (.cat (.cat (.cat (.cat (.cat (.cat (.ofChoice (.ofRepeated (.exact (n := [4]) .digit (by decide)))) (.ofSingle (.ofLiteral (esc 45 (by decide))))) (.ofRepeated (.exact (n := [2]) .digit (by decide)))) (.ofSingle (.ofLiteral (esc 45 (by decide))))) (.ofRepeated (.exact (n := [2]) .digit (by decide)))) (.ofSingle (.ofLiteral (pl 32 (by decide))))) (.ofRepeated (.exact (n := [2]) .digit (by decide)))) (.ofSingle (.ofLiteral (pl 58 (by decide))))) (.ofRepeated (.exact (n := [2]) .digit (by decide)))) (.ofSingle (.ofLiteral (pl 58 (by decide))))) (.ofRepeated (.exact (n := [2]) .digit (by decide))))
  exact recast h
theorem l19 {k : Nat} : WrittenLine k (chars (List.replicate 0 32 ++ [116, 105, 109, 101, 115, 116, 97, 109, 112] ++ 58 :: t19)) { vars := [(asString [116, 105, 109, 101, 115, 116, 97, 109, 112], p19)] } :=
  .var (by decide) w19

/-- line 21 -/
def t20 : List Nat := [32, 69, 46, 103, 46, 32, 83, 116, 97, 114, 116, 45, 68, 97, 116, 101, 58, 32, 50, 48, 49, 53, 45, 48, 49, 45, 51, 49, 32, 32, 49, 53, 58, 53, 48, 58, 52, 53]
theorem l20 {k : Nat} : WrittenLine k (chars [47, 47] ++ lexemes t20) {} := .comment (by decide +kernel) (by decide +kernel)

/-- line 22 -/
def t21 : List Nat := [92, 100, 123, 52, 125, 92, 45, 92, 100, 123, 50, 125, 92, 45, 92, 100, 123, 50, 125, 32, 32, 92, 100, 123, 50, 125, 58, 92, 100, 123, 50, 125, 58, 92, 100, 123, 50, 125]
def p21 : Pat := (.cat (.cat (.cat (.cat (.cat (.cat (.cat (.cat (.cat (.cat (.cat (.exact .digit [4]) (.lit 45)) (.exact .digit [2])) (.lit 45)) (.exact .digit [2])) (.lit 32)) (.lit 32)) (.exact .digit [2])) (.lit 58)) (.exact .digit [2])) (.lit 58)) (.exact .digit [2]))
theorem w21 {k : Nat} : Written .seq k t21 (p21) := by
  have h : Written .seq k _ _ := (.cat (.cat (.cat (.cat (.cat (.cat (.cat (.cat (.cat (.cat (.cat (.ofChoice (.ofRepeated (.exact (n := [4]) .digit (by decide)))) (.ofSingle (.ofLiteral (esc 45 (by decide))))) (.ofRepeated (.exact (n := [2]) .digit (by decide)))) (.ofSingle (.ofLiteral (esc 45 (by decide))))) (.ofRepeated (.exact (n := [2]) .digit (by decide)))) (.ofSingle (.ofLiteral (pl 32 (by decide))))) (.ofSingle (.ofLiteral (pl 32 (by decide))))) (.ofRepeated (.exact (n := [2]) .digit (by decide)))) (.ofSingle (.ofLiteral (pl 58 (by decide))))) (.ofRepeated (.exact (n := [2]) .digit (by decide)))) (.ofSingle (.ofLiteral (pl 58 (by decide))))) (.ofRepeated (.exact (n := [2]) .digit (by decide))))
  exact recast h
theorem l21 {k : Nat} : WrittenLine k (chars (List.replicate 0 32 ++ [116, 105, 109, 101, 115, 116, 97, 109, 112] ++ 58 :: t21)) { vars := [(asString [116, 105, 109, 101, 115, 116, 97, 109, 112], p21)] } :=
  .var (by decide) w21

/-- line 23 -/
def t22 : List Nat := [32, 69, 46, 103, 46, 32, 50, 48, 49, 53, 47, 48, 49, 47, 51, 49, 32, 49, 53, 58, 53, 48, 58, 52, 53]
theorem l22 {k : Nat} : WrittenLine k (chars [47, 47] ++ lexemes t22) {} := .comment (by decide +kernel) (by decide +kernel)

/-- line 24 -/
def t23 : List Nat := [92, 100, 123, 52, 125, 47, 92, 100, 123, 50, 125, 47, 92, 100, 123, 50, 125, 32, 92, 100, 123, 50, 125, 58, 92, 100, 123, 50, 125, 58, 92, 100, 123, 50, 125]
def p23 : Pat := (.cat (.cat (.cat (.cat (.cat (.cat (.cat (.cat (.cat (.cat (.exact .digit [4]) (.lit 47)) (.exact .digit [2])) (.lit 47)) (.exact .digit [2])) (.lit 32)) (.exact .digit [2])) (.lit 58)) (.exact .digit [2])) (.lit 58)) (.exact .digit [2]))
theorem w23 {k : Nat} : Written .seq k t23 (p23) := by
  have h : Written .seq k _ _ := (.cat (.cat (.cat (.cat (.cat (.cat (.cat (.cat (.cat (.cat (.ofChoice (.ofRepeated (.exact (n := [4]) .digit (by decide)))) (.ofSingle (.ofLiteral (pl 47 (by decide))))) (.ofRepeated (.exact (n := [2]) .digit (by decide)))) (.ofSingle (.ofLiteral (pl 47 (by decide))))) (.ofRepeated (.exact (n := [2]) .digit (by decide)))) (.ofSingle (.ofLiteral (pl 32 (by decide))))) (.ofRepeated (.exact (n := [2]) .digit (by decide)))) (.ofSingle (.ofLiteral (pl 58 (by decide))))) (.ofRepeated (.exact (n := [2]) .digit (by decide)))) (.ofSingle (.ofLiteral (pl 58 (by decide))))) (.ofRepeated (.exact (n := [2]) .digit (by decide))))
  exact recast h
theorem l23 {k : Nat} : WrittenLine k (chars (List.replicate 0 32 ++ [116, 105, 109, 101, 115, 116, 97, 109, 112] ++ 58 :: t23)) { vars := [(asString [116, 105, 109, 101, 115, 116, 97, 109, 112], p23)] } :=
  .var (by decide) w23

/-- line 25 -/
def t24 : List Nat := [32, 69, 46, 103, 46, 32, 49, 53, 47, 48, 49, 47, 51, 49, 32, 49, 53, 58, 53, 48, 58, 52, 53]
theorem l24 {k : Nat} : WrittenLine k (chars [47, 47] ++ lexemes t24) {} := .comment (by decide +kernel) (by decide +kernel)

/-- line 26 -/
def t25 : List Nat := [92, 100, 123, 50, 125, 47, 92, 100, 123, 50, 125, 47, 92, 100, 123, 50, 125, 32, 92, 100, 123, 50, 125, 58, 92, 100, 123, 50, 125, 58, 92, 100, 123, 50, 125]
def p25 : Pat := (.cat (.cat (.cat (.cat (.cat (.cat (.cat (.cat (.cat (.cat (.exact .digit [2]) (.lit 47)) (.exact .digit [2])) (.lit 47)) (.exact .digit [2])) (.lit 32)) (.exact .digit [2])) (.lit 58)) (.exact .digit [2])) (.lit 58)) (.exact .digit [2]))
theorem w25 {k : Nat} : Written .seq k t25 (p25) := by
  have h : Written .seq k _ _ := (.cat (.cat (.cat (.cat (.cat (.cat (.cat (.cat (.cat (.cat (.ofChoice (.ofRepeated (.exact (n := [2]) .digit (by decide)))) (.ofSingle (.ofLiteral (pl 47 (by decide))))) (.ofRepeated (.exact (n := [2]) .digit (by decide)))) (.ofSingle (.ofLiteral (pl 47 (by decide))))) (.ofRepeated (.exact (n := [2]) .digit (by decide)))) (.ofSingle (.ofLiteral (pl 32 (by decide))))) (.ofRepeated (.exact (n := [2]) .digit (by decide)))) (.ofSingle (.ofLiteral (pl 58 (by decide))))) (.ofRepeated (.exact (n := [2]) .digit (by decide)))) (.ofSingle (.ofLiteral (pl 58 (by decide))))) (.ofRepeated (.exact (n := [2]) .digit (by decide))))
  exact recast h
theorem l25 {k : Nat} : WrittenLine k (chars (List.replicate 0 32 ++ [116, 105, 109, 101, 115, 116, 97, 109, 112] ++ 58 :: t25)) { vars := [(asString [116, 105, 109, 101, 115, 116, 97, 109, 112], p25)] } :=
  .var (by decide) w25

/-- line 27 -/
def t26 : List Nat := [32, 69, 46, 103, 46, 32, 49, 53, 48, 49, 51, 49, 32, 32, 57, 58, 53, 48, 58, 52, 53]
theorem l26 {k : Nat} : WrittenLine k (chars [47, 47] ++ lexemes t26) {} := .comment (by decide +kernel) (by decide +kernel)

/-- line 28 -/
def t27 : List Nat := [92, 100, 123, 50, 125, 92, 100, 123, 50, 125, 92, 100, 123, 50, 125, 32, 91, 32, 48, 45, 57, 93, 123, 50, 125, 58, 92, 100, 123, 50, 125, 58, 92, 100, 123, 50, 125]
def p27 : Pat := (.cat (.cat (.cat (.cat (.cat (.cat (.cat (.cat (.exact .digit [2]) (.exact .digit [2])) (.exact .digit [2])) (.lit 32)) (.exact (.cls false [.lit 32, .range 48 57]) [2])) (.lit 58)) (.exact .digit [2])) (.lit 58)) (.exact .digit [2]))
theorem w27 {k : Nat} : Written .seq k t27 (p27) := by
  have h : Written .seq k _ _ := (.cat (.cat (.cat (.cat (.cat (.cat (.cat (.cat (.ofChoice (.ofRepeated (.exact (n := [2]) .digit (by decide)))) (.ofRepeated (.exact (n := [2]) .digit (by decide)))) (.ofRepeated (.exact (n := [2]) .digit (by decide)))) (.ofSingle (.ofLiteral (pl 32 (by decide))))) (.ofRepeated (.exact (n := [2]) (.closed (.more (.opened (.itemChar (pl 32 (by decide)))) (.itemRange (pl 48 (by decide)) (pl 57 (by decide))))) (by decide)))) (.ofSingle (.ofLiteral (pl 58 (by decide))))) (.ofRepeated (.exact (n := [2]) .digit (by decide)))) (.ofSingle (.ofLiteral (pl 58 (by decide))))) (.ofRepeated (.exact (n := [2]) .digit (by decide))))
  exact recast h
theorem l27 {k : Nat} : WrittenLine k (chars (List.replicate 0 32 ++ [116, 105, 109, 101, 115, 116, 97, 109, 112] ++ 58 :: t27)) { vars := [(asString [116, 105, 109, 101, 115, 116, 97, 109, 112], p27)] } :=
  .var (by decide) w27

/-- line 29 -/
def t28 : List Nat := [32, 69, 46, 103, 46, 32, 48, 49, 32, 74, 97, 110, 32, 50, 48, 49, 54, 32, 49, 53, 58, 53, 48, 58, 49, 55, 44, 48, 56, 53]
theorem l28 {k : Nat} : WrittenLine k (chars [47, 47] ++ lexemes t28) {} := .comment (by decide +kernel) (by decide +kernel)

/-- line 30 -/
def t29 : List Nat := [92, 100, 123, 50, 125, 32, 91, 65, 45, 90, 93, 91, 97, 45, 122, 93, 123, 50, 125, 32, 92, 100, 123, 52, 125, 32, 92, 100, 123, 50, 125, 58, 92, 100, 123, 50, 125, 58, 92, 100, 123, 50, 125, 44, 92, 100, 123, 51, 125]
def p29 : Pat := (.cat (.cat (.cat (.cat (.cat (.cat (.cat (.cat (.cat (.cat (.cat (.cat (.cat (.exact .digit [2]) (.lit 32)) (.cls false [.range 65 90])) (.exact (.cls false [.range 97 122]) [2])) (.lit 32)) (.exact .digit [4])) (.lit 32)) (.exact .digit [2])) (.lit 58)) (.exact .digit [2])) (.lit 58)) (.exact .digit [2])) (.lit 44)) (.exact .digit [3]))
theorem w29 {k : Nat} : Written .seq k t29 (p29) := by
  have h : Written .seq k _ _ := (.cat (.cat (.cat (.cat (.cat (.cat (.cat (.cat (.cat (.cat (.cat (.cat (.cat (.ofChoice (.ofRepeated (.exact (n := [2]) .digit (by decide)))) (.ofSingle (.ofLiteral (pl 32 (by decide))))) (.ofSingle (.closed (.opened (.itemRange (pl 65 (by decide)) (pl 90 (by decide))))))) (.ofRepeated (.exact (n := [2]) (.closed (.opened (.itemRange (pl 97 (by decide)) (pl 122 (by decide))))) (by decide)))) (.ofSingle (.ofLiteral (pl 32 (by decide))))) (.ofRepeated (.exact (n := [4]) .digit (by decide)))) (.ofSingle (.ofLiteral (pl 32 (by decide))))) (.ofRepeated (.exact (n := [2]) .digit (by decide)))) (.ofSingle (.ofLiteral (pl 58 (by decide))))) (.ofRepeated (.exact (n := [2]) .digit (by decide)))) (.ofSingle (.ofLiteral (pl 58 (by decide))))) (.ofRepeated (.exact (n := [2]) .digit (by decide)))) (.ofSingle (.ofLiteral (pl 44 (by decide))))) (.ofRepeated (.exact (n := [3]) .digit (by decide))))
  exact recast h
theorem l29 {k : Nat} : WrittenLine k (chars (List.replicate 0 32 ++ [116, 105, 109, 101, 115, 116, 97, 109, 112] ++ 58 :: t29)) { vars := [(asString [116, 105, 109, 101, 115, 116, 97, 109, 112], p29)] } :=
  .var (by decide) w29

/-- line 31 -/
def t30 : List Nat := [32, 69, 46, 103, 46, 32, 74, 97, 110, 32, 48, 49, 44, 32, 50, 48, 49, 54, 32, 51, 58, 53, 48, 58, 49, 55, 32, 80, 77]
theorem l30 {k : Nat} : WrittenLine k (chars [47, 47] ++ lexemes t30) {} := .comment (by decide +kernel) (by decide +kernel)

/-- line 32 -/
def t31 : List Nat := [91, 65, 45, 90, 93, 91, 97, 45, 122, 93, 123, 50, 125, 32, 92, 100, 123, 50, 125, 44, 32, 92, 100, 123, 52, 125, 32, 91, 32, 48, 45, 57, 93, 123, 50, 125, 58, 92, 100, 123, 50, 125, 58, 92, 100, 123, 50, 125, 32, 91, 65, 80, 93, 77]
def p31 : Pat := (.cat (.cat (.cat (.cat (.cat (.cat (.cat (.cat (.cat (.cat (.cat (.cat (.cat (.cat (.cat (.cls false [.range 65 90]) (.exact (.cls false [.range 97 122]) [2])) (.lit 32)) (.exact .digit [2])) (.lit 44)) (.lit 32)) (.exact .digit [4])) (.lit 32)) (.exact (.cls false [.lit 32, .range 48 57]) [2])) (.lit 58)) (.exact .digit [2])) (.lit 58)) (.exact .digit [2])) (.lit 32)) (.cls false [.lit 65, .lit 80])) (.lit 77))
theorem w31 {k : Nat} : Written .seq k t31 (p31) := by
  have h : Written .seq k _ _ := (.cat (.cat (.cat (.cat (.cat (.cat (.cat (.cat (.cat (.cat (.cat (.cat (.cat (.cat (.cat (.ofChoice (.ofSingle (.closed (.opened (.itemRange (pl 65 (by decide)) (pl 90 (by decide))))))) (.ofRepeated (.exact (n := [2]) (.closed (.opened (.itemRange (pl 97 (by decide)) (pl 122 (by decide))))) (by decide)))) (.ofSingle (.ofLiteral (pl 32 (by decide))))) (.ofRepeated (.exact (n := [2]) .digit (by decide)))) (.ofSingle (.ofLiteral (pl 44 (by decide))))) (.ofSingle (.ofLiteral (pl 32 (by decide))))) (.ofRepeated (.exact (n := [4]) .digit (by decide)))) (.ofSingle (.ofLiteral (pl 32 (by decide))))) (.ofRepeated (.exact (n := [2]) (.closed (.more (.opened (.itemChar (pl 32 (by decide)))) (.itemRange (pl 48 (by decide)) (pl 57 (by decide))))) (by decide)))) (.ofSingle (.ofLiteral (pl 58 (by decide))))) (.ofRepeated (.exact (n := [2]) .digit (by decide)))) (.ofSingle (.ofLiteral (pl 58 (by decide))))) (.ofRepeated (.exact (n := [2]) .digit (by decide)))) (.ofSingle (.ofLiteral (pl 32 (by decide))))) (.ofSingle (.closed (.more (.opened (.itemChar (pl 65 (by decide)))) (.itemChar (pl 80 (by decide))))))) (.ofSingle (.ofLiteral (pl 77 (by decide)))))
  exact recast h
theorem l31 {k : Nat} : WrittenLine k (chars (List.replicate 0 32 ++ [116, 105, 109, 101, 115, 116, 97, 109, 112] ++ 58 :: t31)) { vars := [(asString [116, 105, 109, 101, 115, 116, 97, 109, 112], p31)] } :=
  .var (by decide) w31

/-- line 33 -/
def t32 : List Nat := [32, 69, 46, 103, 46, 32, 74, 97, 110, 117, 97, 114, 121, 32, 51, 49, 44, 32, 50, 48, 49, 53, 32, 49, 53, 58, 53, 48]
theorem l32 {k : Nat} : WrittenLine k (chars [47, 47] ++ lexemes t32) {} := .comment (by decide +kernel) (by decide +kernel)

/-- line 34 -/
def t33 : List Nat := [91, 65, 45, 90, 93, 91, 97, 45, 122, 93, 43, 32, 92, 100, 123, 50, 125, 44, 32, 92, 100, 123, 52, 125, 32, 92, 100, 123, 50, 125, 58, 92, 100, 123, 50, 125]
def p33 : Pat := (.cat (.cat (.cat (.cat (.cat (.cat (.cat (.cat (.cat (.cat (.cls false [.range 65 90]) (.plus (.cls false [.range 97 122]))) (.lit 32)) (.exact .digit [2])) (.lit 44)) (.lit 32)) (.exact .digit [4])) (.lit 32)) (.exact .digit [2])) (.lit 58)) (.exact .digit [2]))
theorem w33 {k : Nat} : Written .seq k t33 (p33) := by
  have h : Written .seq k _ _ := (.cat (.cat (.cat (.cat (.cat (.cat (.cat (.cat (.cat (.cat (.ofChoice (.ofSingle (.closed (.opened (.itemRange (pl 65 (by decide)) (pl 90 (by decide))))))) (.ofRepeated (.plus (.closed (.opened (.itemRange (pl 97 (by decide)) (pl 122 (by decide)))))))) (.ofSingle (.ofLiteral (pl 32 (by decide))))) (.ofRepeated (.exact (n := [2]) .digit (by decide)))) (.ofSingle (.ofLiteral (pl 44 (by decide))))) (.ofSingle (.ofLiteral (pl 32 (by decide))))) (.ofRepeated (.exact (n := [4]) .digit (by decide)))) (.ofSingle (.ofLiteral (pl 32 (by decide))))) (.ofRepeated (.exact (n := [2]) .digit (by decide)))) (.ofSingle (.ofLiteral (pl 58 (by decide))))) (.ofRepeated (.exact (n := [2]) .digit (by decide))))
  exact recast h
theorem l33 {k : Nat} : WrittenLine k (chars (List.replicate 0 32 ++ [116, 105, 109, 101, 115, 116, 97, 109, 112] ++ 58 :: t33)) { vars := [(asString [116, 105, 109, 101, 115, 116, 97, 109, 112], p33)] } :=
  .var (by decide) w33

/-- line 35 -/
def t34 : List Nat := [32, 69, 46, 103, 46, 32, 69, 32, 91, 51, 49, 47, 74, 97, 110, 47, 50, 48, 49, 53, 58, 49, 53, 58, 53, 48, 58, 52, 53]
theorem l34 {k : Nat} : WrittenLine k (chars [47, 47] ++ lexemes t34) {} := .comment (by decide +kernel) (by decide +kernel)

/-- line 36 -/
def t35 : List Nat := [32, 69, 46, 103, 46, 32, 108, 111, 99, 97, 108, 104, 111, 115, 116, 32, 45, 32, 45, 32, 91, 48, 49, 47, 74, 97, 110, 47, 50, 48, 49, 54, 58, 49, 53, 58, 53, 48, 58, 49, 55]
theorem l35 {k : Nat} : WrittenLine k (chars [47, 47] ++ lexemes t35) {} := .comment (by decide +kernel) (by decide +kernel)

/-- line 37 -/
def t36 : List Nat := [32, 69, 46, 103, 46, 32, 49, 57, 50, 46, 49, 54, 56, 46, 52, 46, 53, 32, 45, 32, 45, 32, 91, 48, 49, 47, 74, 97, 110, 47, 50, 48, 49, 54, 58, 49, 53, 58, 53, 48, 58, 49, 55]
theorem l36 {k : Nat} : WrittenLine k (chars [47, 47] ++ lexemes t36) {} := .comment (by decide +kernel) (by decide +kernel)

/-- line 38 -/
def t37 : List Nat := [92, 91, 92, 100, 123, 50, 125, 47, 91, 65, 45, 90, 93, 91, 97, 45, 122, 93, 123, 50, 125, 47, 92, 100, 123, 52, 125, 58, 92, 100, 123, 50, 125, 58, 92, 100, 123, 50, 125, 58, 92, 100, 123, 50, 125]
def p37 : Pat := (.cat (.cat (.cat (.cat (.cat (.cat (.cat (.cat (.cat (.cat (.cat (.cat (.lit 91) (.exact .digit [2])) (.lit 47)) (.cls false [.range 65 90])) (.exact (.cls false [.range 97 122]) [2])) (.lit 47)) (.exact .digit [4])) (.lit 58)) (.exact .digit [2])) (.lit 58)) (.exact .digit [2])) (.lit 58)) (.exact .digit [2]))
theorem w37 {k : Nat} : Written .seq k t37 (p37) := by
  have h : Written .seq k _ _ := (.cat (.cat (.cat (.cat (.cat (.cat (.cat (.cat (.cat (.cat (.cat (.cat (.ofChoice (.ofSingle (.ofLiteral (esc 91 (by decide))))) (.ofRepeated (.exact (n := [2]) .digit (by decide)))) (.ofSingle (.ofLiteral (pl 47 (by decide))))) (.ofSingle (.closed (.opened (.itemRange (pl 65 (by decide)) (pl 90 (by decide))))))) (.ofRepeated (.exact (n := [2]) (.closed (.opened (.itemRange (pl 97 (by decide)) (pl 122 (by decide))))) (by decide)))) (.ofSingle (.ofLiteral (pl 47 (by decide))))) (.ofRepeated (.exact (n := [4]) .digit (by decide)))) (.ofSingle (.ofLiteral (pl 58 (by decide))))) (.ofRepeated (.exact (n := [2]) .digit (by decide)))) (.ofSingle (.ofLiteral (pl 58 (by decide))))) (.ofRepeated (.exact (n := [2]) .digit (by decide)))) (.ofSingle (.ofLiteral (pl 58 (by decide))))) (.ofRepeated (.exact (n := [2]) .digit (by decide))))
  exact recast h
theorem l37 {k : Nat} : WrittenLine k (chars (List.replicate 0 32 ++ [116, 105, 109, 101, 115, 116, 97, 109, 112] ++ 58 :: t37)) { vars := [(asString [116, 105, 109, 101, 115, 116, 97, 109, 112], p37)] } :=
  .var (by decide) w37

/-- line 39 -/
def t38 : List Nat := [32, 69, 46, 103, 46, 32, 49, 57, 50, 46, 49, 54, 56, 46, 52, 46, 53, 32, 45, 32, 45, 32, 91, 48, 49, 47, 48, 49, 47, 50, 48, 49, 54, 58, 49, 53, 58, 53, 48, 58, 49, 55]
theorem l38 {k : Nat} : WrittenLine k (chars [47, 47] ++ lexemes t38) {} := .comment (by decide +kernel) (by decide +kernel)

/-- line 40 -/
def t39 : List Nat := [92, 91, 92, 100, 123, 50, 125, 47, 92, 100, 123, 50, 125, 47, 92, 100, 123, 52, 125, 58, 92, 100, 123, 50, 125, 58, 92, 100, 123, 50, 125, 58, 92, 100, 123, 50, 125]
def p39 : Pat := (.cat (.cat (.cat (.cat (.cat (.cat (.cat (.cat (.cat (.cat (.cat (.lit 91) (.exact .digit [2])) (.lit 47)) (.exact .digit [2])) (.lit 47)) (.exact .digit [4])) (.lit 58)) (.exact .digit [2])) (.lit 58)) (.exact .digit [2])) (.lit 58)) (.exact .digit [2]))
theorem w39 {k : Nat} : Written .seq k t39 (p39) := by
  have h : Written .seq k _ _ := (.cat (.cat (.cat (.cat (.cat (.cat (.cat (.cat (.cat (.cat (.cat (.ofChoice (.ofSingle (.ofLiteral (esc 91 (by decide))))) (.ofRepeated (.exact (n := [2]) .digit (by decide)))) (.ofSingle (.ofLiteral (pl 47 (by decide))))) (.ofRepeated (.exact (n := [2]) .digit (by decide)))) (.ofSingle (.ofLiteral (pl 47 (by decide))))) (.ofRepeated (.exact (n := [4]) .digit (by decide)))) (.ofSingle (.ofLiteral (pl 58 (by decide))))) (.ofRepeated (.exact (n := [2]) .digit (by decide)))) (.ofSingle (.ofLiteral (pl 58 (by decide))))) (.ofRepeated (.exact (n := [2]) .digit (by decide)))) (.ofSingle (.ofLiteral (pl 58 (by decide))))) (.ofRepeated (.exact (n := [2]) .digit (by decide))))
  exact recast h
theorem l39 {k : Nat} : WrittenLine k (chars (List.replicate 0 32 ++ [116, 105, 109, 101, 115, 116, 97, 109, 112] ++ 58 :: t39)) { vars := [(asString [116, 105, 109, 101, 115, 116, 97, 109, 112], p39)] } :=
  .var (by decide) w39

/-- line 41 -/
def t40 : List Nat := [32, 69, 46, 103, 46, 32, 69, 82, 82, 79, 82, 58, 32, 97, 112, 112, 111, 114, 116, 32, 40, 112, 105, 100, 32, 52, 53, 53, 55, 41, 32, 83, 117, 110, 32, 74, 97, 110, 32, 32, 49, 32, 49, 53, 58, 53, 48, 58, 52, 53, 32, 50, 48, 49, 53]
theorem l40 {k : Nat} : WrittenLine k (chars [47, 47] ++ lexemes t40) {} := .comment (by decide +kernel) (by decide +kernel)

/-- line 42 -/
def t41 : List Nat := [91, 65, 45, 90, 93, 91, 97, 45, 122, 93, 123, 50, 125, 32, 91, 65, 45, 90, 93, 91, 97, 45, 122, 93, 123, 50, 125, 32, 91, 32, 48, 45, 57, 93, 123, 50, 125, 32, 92, 100, 123, 50, 125, 58, 92, 100, 123, 50, 125, 58, 92, 100, 123, 50, 125, 32, 92, 100, 123, 52, 125]
def p41 : Pat := (.cat (.cat (.cat (.cat (.cat (.cat (.cat (.cat (.cat (.cat (.cat (.cat (.cat (.cat (.cls false [.range 65 90]) (.exact (.cls false [.range 97 122]) [2])) (.lit 32)) (.cls false [.range 65 90])) (.exact (.cls false [.range 97 122]) [2])) (.lit 32)) (.exact (.cls false [.lit 32, .range 48 57]) [2])) (.lit 32)) (.exact .digit [2])) (.lit 58)) (.exact .digit [2])) (.lit 58)) (.exact .digit [2])) (.lit 32)) (.exact .digit [4]))
theorem w41 {k : Nat} : Written .seq k t41 (p41) := by
  have h : Written .seq k _ _ := (.cat (.cat (.cat (.cat (.cat (.cat (.cat (.cat (.cat (.cat (.cat (.cat (.cat (.cat (.ofChoice (.ofSingle (.closed (.opened (.itemRange (pl 65 (by decide)) (pl 90 (by decide))))))) (.ofRepeated (.exact (n := [2]) (.closed (.opened (.itemRange (pl 97 (by decide)) (pl 122 (by decide))))) (by decide)))) (.ofSingle (.ofLiteral (pl 32 (by decide))))) (.ofSingle (.closed (.opened (.itemRange (pl 65 (by decide)) (pl 90 (by decide))))))) (.ofRepeated (.exact (n := [2]) (.closed (.opened (.itemRange (pl 97 (by decide)) (pl 122 (by decide))))) (by decide)))) (.ofSingle (.ofLiteral (pl 32 (by decide))))) (.ofRepeated (.exact (n := [2]) (.closed (.more (.opened (.itemChar (pl 32 (by decide)))) (.itemRange (pl 48 (by decide)) (pl 57 (by decide))))) (by decide)))) (.ofSingle (.ofLiteral (pl 32 (by decide))))) (.ofRepeated (.exact (n := [2]) .digit (by decide)))) (.ofSingle (.ofLiteral (pl 58 (by decide))))) (.ofRepeated (.exact (n := [2]) .digit (by decide)))) (.ofSingle (.ofLiteral (pl 58 (by decide))))) (.ofRepeated (.exact (n := [2]) .digit (by decide)))) (.ofSingle (.ofLiteral (pl 32 (by decide))))) (.ofRepeated (.exact (n := [4]) .digit (by decide))))
  exact recast h
theorem l41 {k : Nat} : WrittenLine k (chars (List.replicate 0 32 ++ [116, 105, 109, 101, 115, 116, 97, 109, 112] ++ 58 :: t41)) { vars := [(asString [116, 105, 109, 101, 115, 116, 97, 109, 112], p41)] } :=
  .var (by decide) w41

/-- line 43 -/
def t42 : List Nat := [32, 69, 46, 103, 46, 32, 60, 60, 60, 50, 48, 49, 54, 45, 49, 49, 45, 49, 48, 32, 48, 51, 58, 48, 50, 58, 50, 57, 58, 57, 51, 54]
theorem l42 {k : Nat} : WrittenLine k (chars [47, 47] ++ lexemes t42) {} := .comment (by decide +kernel) (by decide +kernel)

/-- line 44 -/
def t43 : List Nat := [92, 60, 92, 60, 92, 60, 92, 100, 123, 52, 125, 92, 45, 92, 100, 123, 50, 125, 92, 45, 92, 100, 123, 50, 125, 32, 92, 100, 123, 50, 125, 58, 92, 100, 123, 50, 125, 58, 92, 100, 123, 50, 125, 58, 92, 100, 123, 51, 125]
def p43 : Pat := (.cat (.cat (.cat (.cat (.cat (.cat (.cat (.cat (.cat (.cat (.cat (.cat (.cat (.cat (.cat (.lit 60) (.lit 60)) (.lit 60)) (.exact .digit [4])) (.lit 45)) (.exact .digit [2])) (.lit 45)) (.exact .digit [2])) (.lit 32)) (.exact .digit [2])) (.lit 58)) (.exact .digit [2])) (.lit 58)) (.exact .digit [2])) (.lit 58)) (.exact .digit [3]))
theorem w43 {k : Nat} : Written .seq k t43 (p43) := by
  have h : Written .seq k _ _ := (.cat (.cat (.cat (.cat (.cat (.cat (.cat (.cat (.cat (.cat (.cat (.cat (.cat (.cat (.cat (.ofChoice (.ofSingle (.ofLiteral (esc 60 (by decide))))) (.ofSingle (.ofLiteral (esc 60 (by decide))))) (.ofSingle (.ofLiteral (esc 60 (by decide))))) (.ofRepeated (.exact (n := [4]) .digit (by decide)))) (.ofSingle (.ofLiteral (esc 45 (by decide))))) (.ofRepeated (.exact (n := [2]) .digit (by decide)))) (.ofSingle (.ofLiteral (esc 45 (by decide))))) (.ofRepeated (.exact (n := [2]) .digit (by decide)))) (.ofSingle (.ofLiteral (pl 32 (by decide))))) (.ofRepeated (.exact (n := [2]) .digit (by decide)))) (.ofSingle (.ofLiteral (pl 58 (by decide))))) (.ofRepeated (.exact (n := [2]) .digit (by decide)))) (.ofSingle (.ofLiteral (pl 58 (by decide))))) (.ofRepeated (.exact (n := [2]) .digit (by decide)))) (.ofSingle (.ofLiteral (pl 58 (by decide))))) (.ofRepeated (.exact (n := [3]) .digit (by decide))))
  exact recast h
theorem l43 {k : Nat} : WrittenLine k (chars (List.replicate 0 32 ++ [116, 105, 109, 101, 115, 116, 97, 109, 112] ++ 58 :: t43)) { vars := [(asString [116, 105, 109, 101, 115, 116, 97, 109, 112], p43)] } :=
  .var (by decide) w43

/-- line 45 -/
def t44 : List Nat := [32, 69, 46, 103, 46, 32, 74, 97, 110, 32, 50, 49, 32, 49, 49, 58, 53, 54, 58, 52, 50]
theorem l44 {k : Nat} : WrittenLine k (chars [47, 47] ++ lexemes t44) {} := .comment (by decide +kernel) (by decide +kernel)

/-- line 46 -/
def t45 : List Nat := [91, 65, 45, 90, 93, 91, 97, 45, 122, 93, 123, 50, 125, 32, 92, 100, 123, 50, 125, 32, 92, 100, 123, 50, 125, 58, 92, 100, 123, 50, 125, 58, 92, 100, 123, 50, 125]
def p45 : Pat := (.cat (.cat (.cat (.cat (.cat (.cat (.cat (.cat (.cat (.cls false [.range 65 90]) (.exact (.cls false [.range 97 122]) [2])) (.lit 32)) (.exact .digit [2])) (.lit 32)) (.exact .digit [2])) (.lit 58)) (.exact .digit [2])) (.lit 58)) (.exact .digit [2]))
theorem w45 {k : Nat} : Written .seq k t45 (p45) := by
  have h : Written .seq k _ _ := (.cat (.cat (.cat (.cat (.cat (.cat (.cat (.cat (.cat (.ofChoice (.ofSingle (.closed (.opened (.itemRange (pl 65 (by decide)) (pl 90 (by decide))))))) (.ofRepeated (.exact (n := [2]) (.closed (.opened (.itemRange (pl 97 (by decide)) (pl 122 (by decide))))) (by decide)))) (.ofSingle (.ofLiteral (pl 32 (by decide))))) (.ofRepeated (.exact (n := [2]) .digit (by decide)))) (.ofSingle (.ofLiteral (pl 32 (by decide))))) (.ofRepeated (.exact (n := [2]) .digit (by decide)))) (.ofSingle (.ofLiteral (pl 58 (by decide))))) (.ofRepeated (.exact (n := [2]) .digit (by decide)))) (.ofSingle (.ofLiteral (pl 58 (by decide))))) (.ofRepeated (.exact (n := [2]) .digit (by decide))))
  exact recast h
theorem l45 {k : Nat} : WrittenLine k (chars (List.replicate 0 32 ++ [116, 105, 109, 101, 115, 116, 97, 109, 112] ++ 58 :: t45)) { vars := [(asString [116, 105, 109, 101, 115, 116, 97, 109, 112], p45)] } :=
  .var (by decide) w45

/-- line 47 -/
def t46 : List Nat := [32, 69, 46, 103, 46, 32, 48, 49, 45, 50, 49, 32, 49, 49, 58, 53, 54, 58, 52, 50, 46, 51, 57, 50]
theorem l46 {k : Nat} : WrittenLine k (chars [47, 47] ++ lexemes t46) {} := .comment (by decide +kernel) (by decide +kernel)

/-- line 48 -/
def t47 : List Nat := [92, 100, 123, 50, 125, 92, 45, 92, 100, 123, 50, 125, 32, 92, 100, 123, 50, 125, 58, 92, 100, 123, 50, 125, 58, 92, 100, 123, 50, 125, 46, 92, 100, 123, 51, 125]
def p47 : Pat := (.cat (.cat (.cat (.cat (.cat (.cat (.cat (.cat (.cat (.cat (.exact .digit [2]) (.lit 45)) (.exact .digit [2])) (.lit 32)) (.exact .digit [2])) (.lit 58)) (.exact .digit [2])) (.lit 58)) (.exact .digit [2])) .wild) (.exact .digit [3]))
theorem w47 {k : Nat} : Written .seq k t47 (p47) := by
  have h : Written .seq k _ _ := (.cat (.cat (.cat (.cat (.cat (.cat (.cat (.cat (.cat (.cat (.ofChoice (.ofRepeated (.exact (n := [2]) .digit (by decide)))) (.ofSingle (.ofLiteral (esc 45 (by decide))))) (.ofRepeated (.exact (n := [2]) .digit (by decide)))) (.ofSingle (.ofLiteral (pl 32 (by decide))))) (.ofRepeated (.exact (n := [2]) .digit (by decide)))) (.ofSingle (.ofLiteral (pl 58 (by decide))))) (.ofRepeated (.exact (n := [2]) .digit (by decide)))) (.ofSingle (.ofLiteral (pl 58 (by decide))))) (.ofRepeated (.exact (n := [2]) .digit (by decide)))) (.ofSingle .wild)) (.ofRepeated (.exact (n := [3]) .digit (by decide))))
  exact recast h
theorem l47 {k : Nat} : WrittenLine k (chars (List.replicate 0 32 ++ [116, 105, 109, 101, 115, 116, 97, 109, 112] ++ 58 :: t47)) { vars := [(asString [116, 105, 109, 101, 115, 116, 97, 109, 112], p47)] } :=
  .var (by decide) w47

/-- line 49 -/
def t48 : List Nat := [32, 69, 46, 103, 46, 32, 50, 48, 49, 54, 45, 48, 53, 45, 48, 56, 32, 49, 49, 58, 51, 52, 58, 48, 52, 46, 48, 56, 51, 52, 54, 52]
theorem l48 {k : Nat} : WrittenLine k (chars [47, 47] ++ lexemes t48) {} := .comment (by decide +kernel) (by decide +kernel)

/-- line 50 -/
def t49 : List Nat := [92, 100, 123, 52, 125, 92, 45, 92, 100, 123, 50, 125, 92, 45, 92, 100, 123, 50, 125, 32, 92, 100, 123, 50, 125, 58, 92, 100, 123, 50, 125, 58, 92, 100, 123, 50, 125, 46, 92, 100, 123, 54, 125]
def p49 : Pat := (.cat (.cat (.cat (.cat (.cat (.cat (.cat (.cat (.cat (.cat (.cat (.cat (.exact .digit [4]) (.lit 45)) (.exact .digit [2])) (.lit 45)) (.exact .digit [2])) (.lit 32)) (.exact .digit [2])) (.lit 58)) (.exact .digit [2])) (.lit 58)) (.exact .digit [2])) .wild) (.exact .digit [6]))
theorem w49 {k : Nat} : Written .seq k t49 (p49) := by
  have h : Written .seq k _ _ := (.cat (.cat (.cat (.cat (.cat (.cat (.cat (.cat (.cat (.cat (.cat (.cat (.ofChoice (.ofRepeated (.exact (n := [4]) .digit (by decide)))) (.ofSingle (.ofLiteral (esc 45 (by decide))))) (.ofRepeated (.exact (n := [2]) .digit (by decide)))) (.ofSingle (.ofLiteral (esc 45 (by decide))))) (.ofRepeated (.exact (n := [2]) .digit (by decide)))) (.ofSingle (.ofLiteral (pl 32 (by decide))))) (.ofRepeated (.exact (n := [2]) .digit (by decide)))) (.ofSingle (.ofLiteral (pl 58 (by decide))))) (.ofRepeated (.exact (n := [2]) .digit (by decide)))) (.ofSingle (.ofLiteral (pl 58 (by decide))))) (.ofRepeated (.exact (n := [2]) .digit (by decide)))) (.ofSingle .wild)) (.ofRepeated (.exact (n := [6]) .digit (by decide))))
  exact recast h
theorem l49 {k : Nat} : WrittenLine k (chars (List.replicate 0 32 ++ [116, 105, 109, 101, 115, 116, 97, 109, 112] ++ 58 :: t49)) { vars := [(asString [116, 105, 109, 101, 115, 116, 97, 109, 112], p49)] } :=
  .var (by decide) w49

/-- line 52 -/
def t51 : List Nat := [32, 68, 101, 108, 105, 109, 105, 116, 101, 114, 115]
theorem l51 {k : Nat} : WrittenLine k (chars [47, 47] ++ lexemes t51) {} := .comment (by decide +kernel) (by decide +kernel)

/-- line 53 -/
def t52 : List Nat := [32, 92, 116, 92, 114, 92, 110, 58, 44, 33, 59, 37]
theorem l52 {k : Nat} : WrittenLine k (.delimiters :: chars (58 :: t52)) { delims := [[32, 9, 13, 10, 58, 44, 33, 59, 37]] } := by
  have h : WrittenChars (k + 11) _ _ := (.snoc (.snoc (.snoc (.snoc (.snoc (.snoc (.snoc (.snoc (.one (pl 32 (by decide))) (.char .tab)) (.char .carriageReturn)) (.char .newline)) (pl 58 (by decide))) (pl 44 (by decide))) (pl 33 (by decide))) (pl 59 (by decide))) (pl 37 (by decide)))
  exact .delims (recasts h)

/-- line 55 -/
def t54 : List Nat := [32, 67, 97, 112, 116, 117, 114, 101]
theorem l54 {k : Nat} : WrittenLine k (chars [47, 47] ++ lexemes t54) {} := .comment (by decide +kernel) (by decide +kernel)

/-- line 56 -/
def t55 : List Nat := [117, 115, 101, 114, 95, 40, 63, 60, 117, 115, 101, 114, 73, 68, 62, 91, 48, 45, 57, 93, 43, 41]
def p55 (k : Nat) : Pat := (.cat (.cat (.cat (.cat (.cat (.lit 117) (.lit 115)) (.lit 101)) (.lit 114)) (.lit 95)) (.capture (.plus (.cls false [.range 48 57])) ⟨k, asString [117, 115, 101, 114, 73, 68]⟩))
theorem w55 : Written .seq 2255 t55 (p55 2260) := by
  have h : Written .seq 2255 _ _ := (.cat (.cat (.cat (.cat (.cat (.ofChoice (.ofSingle (.ofLiteral (pl 117 (by decide))))) (.ofSingle (.ofLiteral (pl 115 (by decide))))) (.ofSingle (.ofLiteral (pl 101 (by decide))))) (.ofSingle (.ofLiteral (pl 114 (by decide))))) (.ofSingle (.ofLiteral (pl 95 (by decide))))) (.ofSingle (.ofLiteral (.capture (n := [117, 115, 101, 114, 73, 68]) (by decide) (.ofChoice (.ofRepeated (.plus (.closed (.opened (.itemRange (pl 48 (by decide)) (pl 57 (by decide))))))))))))
  exact recast h
theorem l55 : WrittenLine 2247 (chars (List.replicate 0 32 ++ [99, 97, 112, 116, 117, 114, 101] ++ 58 :: t55)) { vars := [(asString [99, 97, 112, 116, 117, 114, 101], p55 2260)] } :=
  .var (by decide) w55

/-- line 58 -/
def t57 : List Nat := [32, 70, 105, 114, 115, 116, 32, 115, 101, 116, 32, 111, 102, 32, 118, 97, 114, 105, 97, 98, 108, 101, 115]
theorem l57 {k : Nat} : WrittenLine k (chars [47, 47] ++ lexemes t57) {} := .comment (by decide +kernel) (by decide +kernel)

/-- line 59 -/
def t58 : List Nat := [92, 45, 123, 48, 44, 49, 125, 91, 48, 45, 57, 93, 43]
def p58 : Pat := (.cat (.range (.lit 45) [0] [1]) (.plus (.cls false [.range 48 57])))
theorem w58 {k : Nat} : Written .seq k t58 (p58) := by
  have h : Written .seq k _ _ := (.cat (.ofChoice (.ofRepeated (.range (n := [0]) (m := [1]) (.ofLiteral (esc 45 (by decide))) (by decide) (by decide)))) (.ofRepeated (.plus (.closed (.opened (.itemRange (pl 48 (by decide)) (pl 57 (by decide))))))))
  exact recast h
theorem l58 {k : Nat} : WrittenLine k (chars (List.replicate 0 32 ++ [105, 110, 116] ++ 58 :: t58)) { vars := [(asString [105, 110, 116], p58)] } :=
  .var (by decide) w58

/-- line 60 -/
def t59 : List Nat := [92, 45, 123, 48, 44, 49, 125, 91, 48, 45, 57, 93, 43, 92, 46, 91, 48, 45, 57, 93, 43]
def p59 : Pat := (.cat (.cat (.cat (.range (.lit 45) [0] [1]) (.plus (.cls false [.range 48 57]))) (.lit 46)) (.plus (.cls false [.range 48 57])))
theorem w59 {k : Nat} : Written .seq k t59 (p59) := by
  have h : Written .seq k _ _ := (.cat (.cat (.cat (.ofChoice (.ofRepeated (.range (n := [0]) (m := [1]) (.ofLiteral (esc 45 (by decide))) (by decide) (by decide)))) (.ofRepeated (.plus (.closed (.opened (.itemRange (pl 48 (by decide)) (pl 57 (by decide)))))))) (.ofSingle (.ofLiteral (esc 46 (by decide))))) (.ofRepeated (.plus (.closed (.opened (.itemRange (pl 48 (by decide)) (pl 57 (by decide))))))))
  exact recast h
theorem l59 {k : Nat} : WrittenLine k (chars (List.replicate 0 32 ++ [102, 108, 111, 97, 116] ++ 58 :: t59)) { vars := [(asString [102, 108, 111, 97, 116], p59)] } :=
  .var (by decide) w59

/-- line 62 -/
def t61 : List Nat := [32, 83, 101, 99, 111, 110, 100, 32, 115, 101, 116, 32, 111, 102, 32, 118, 97, 114, 105, 97, 98, 108, 101, 115]
theorem l61 {k : Nat} : WrittenLine k (chars [47, 47] ++ lexemes t61) {} := .comment (by decide +kernel) (by decide +kernel)

/-- line 63 -/
def t62 : List Nat := [91, 97, 45, 102, 65, 45, 70, 93, 43]
def p62 : Pat := (.plus (.cls false [.range 97 102, .range 65 70]))
theorem w62 {k : Nat} : Written .seq k t62 (p62) := by
  have h : Written .seq k _ _ := (.ofChoice (.ofRepeated (.plus (.closed (.more (.opened (.itemRange (pl 97 (by decide)) (pl 102 (by decide)))) (.itemRange (pl 65 (by decide)) (pl 70 (by decide))))))))
  exact recast h
theorem l62 {k : Nat} : WrittenLine k (chars (List.replicate 0 32 ++ [104, 101, 120] ++ 58 :: t62)) { vars := [(asString [104, 101, 120], p62)] } :=
  .var (by decide) w62

/-- line 64 -/
def t63 : List Nat := [46, 42, 92, 100, 46, 42]
def p63 : Pat := (.cat (.cat (.star .wild) .digit) (.star .wild))
theorem w63 {k : Nat} : Written .seq k t63 (p63) := by
  have h : Written .seq k _ _ := (.cat (.cat (.ofChoice (.ofRepeated (.star .wild))) (.ofSingle .digit)) (.ofRepeated (.star .wild)))
  exact recast h
theorem l63 {k : Nat} : WrittenLine k (chars (List.replicate 0 32 ++ [104, 97, 115, 78, 117, 109, 98, 101, 114] ++ 58 :: t63)) { vars := [(asString [104, 97, 115, 78, 117, 109, 98, 101, 114], p63)] } :=
  .var (by decide) w63

/-- line 65 -/
def t64 : List Nat := [46, 42, 61, 46, 42, 91, 97, 45, 122, 65, 45, 90, 48, 45, 57, 93, 46, 42]
def p64 : Pat := (.cat (.cat (.cat (.cat (.star .wild) (.lit 61)) (.star .wild)) (.cls false [.range 97 122, .range 65 90, .range 48 57])) (.star .wild))
theorem w64 {k : Nat} : Written .seq k t64 (p64) := by
  have h : Written .seq k _ _ := (.cat (.cat (.cat (.cat (.ofChoice (.ofRepeated (.star .wild))) (.ofSingle (.ofLiteral (pl 61 (by decide))))) (.ofRepeated (.star .wild))) (.ofSingle (.closed (.more (.more (.opened (.itemRange (pl 97 (by decide)) (pl 122 (by decide)))) (.itemRange (pl 65 (by decide)) (pl 90 (by decide)))) (.itemRange (pl 48 (by decide)) (pl 57 (by decide))))))) (.ofRepeated (.star .wild)))
  exact recast h
theorem l64 {k : Nat} : WrittenLine k (chars (List.replicate 0 32 ++ [101, 113, 117, 97, 108, 115] ++ 58 :: t64)) { vars := [(asString [101, 113, 117, 97, 108, 115], p64)] } :=
  .var (by decide) w64

/-- line 67 -/
def t66 : List Nat := [32, 76, 111, 103, 32, 76, 101, 118, 101, 108]
theorem l66 {k : Nat} : WrittenLine k (chars [47, 47] ++ lexemes t66) {} := .comment (by decide +kernel) (by decide +kernel)

/-- line 68 -/
def t67 : List Nat := [40, 73, 78, 70, 79, 41, 124, 40, 68, 69, 66, 85, 71, 41, 124, 40, 87, 65, 82, 78, 41, 124, 40, 69, 82, 82, 79, 82, 41, 124, 40, 84, 82, 65, 67, 69, 41, 124, 40, 70, 65, 84, 65, 76, 41]
def p67 : Pat := (.or (.or (.or (.or (.or (.cat (.cat (.cat (.lit 73) (.lit 78)) (.lit 70)) (.lit 79)) (.cat (.cat (.cat (.cat (.lit 68) (.lit 69)) (.lit 66)) (.lit 85)) (.lit 71))) (.cat (.cat (.cat (.lit 87) (.lit 65)) (.lit 82)) (.lit 78))) (.cat (.cat (.cat (.cat (.lit 69) (.lit 82)) (.lit 82)) (.lit 79)) (.lit 82))) (.cat (.cat (.cat (.cat (.lit 84) (.lit 82)) (.lit 65)) (.lit 67)) (.lit 69))) (.cat (.cat (.cat (.cat (.lit 70) (.lit 65)) (.lit 84)) (.lit 65)) (.lit 76)))
theorem w67 {k : Nat} : Written .seq k t67 (p67) := by
  have h : Written .seq k _ _ := (.ofChoice (.or (.or (.or (.or (.or (.ofSingle (.ofLiteral (.parens (.cat (.cat (.cat (.ofChoice (.ofSingle (.ofLiteral (pl 73 (by decide))))) (.ofSingle (.ofLiteral (pl 78 (by decide))))) (.ofSingle (.ofLiteral (pl 70 (by decide))))) (.ofSingle (.ofLiteral (pl 79 (by decide)))))))) (.parens (.cat (.cat (.cat (.cat (.ofChoice (.ofSingle (.ofLiteral (pl 68 (by decide))))) (.ofSingle (.ofLiteral (pl 69 (by decide))))) (.ofSingle (.ofLiteral (pl 66 (by decide))))) (.ofSingle (.ofLiteral (pl 85 (by decide))))) (.ofSingle (.ofLiteral (pl 71 (by decide))))))) (.parens (.cat (.cat (.cat (.ofChoice (.ofSingle (.ofLiteral (pl 87 (by decide))))) (.ofSingle (.ofLiteral (pl 65 (by decide))))) (.ofSingle (.ofLiteral (pl 82 (by decide))))) (.ofSingle (.ofLiteral (pl 78 (by decide))))))) (.parens (.cat (.cat (.cat (.cat (.ofChoice (.ofSingle (.ofLiteral (pl 69 (by decide))))) (.ofSingle (.ofLiteral (pl 82 (by decide))))) (.ofSingle (.ofLiteral (pl 82 (by decide))))) (.ofSingle (.ofLiteral (pl 79 (by decide))))) (.ofSingle (.ofLiteral (pl 82 (by decide))))))) (.parens (.cat (.cat (.cat (.cat (.ofChoice (.ofSingle (.ofLiteral (pl 84 (by decide))))) (.ofSingle (.ofLiteral (pl 82 (by decide))))) (.ofSingle (.ofLiteral (pl 65 (by decide))))) (.ofSingle (.ofLiteral (pl 67 (by decide))))) (.ofSingle (.ofLiteral (pl 69 (by decide))))))) (.parens (.cat (.cat (.cat (.cat (.ofChoice (.ofSingle (.ofLiteral (pl 70 (by decide))))) (.ofSingle (.ofLiteral (pl 65 (by decide))))) (.ofSingle (.ofLiteral (pl 84 (by decide))))) (.ofSingle (.ofLiteral (pl 65 (by decide))))) (.ofSingle (.ofLiteral (pl 76 (by decide))))))))
  exact recast h
theorem l67 {k : Nat} : WrittenLine k (chars (List.replicate 0 32 ++ [108, 111, 103, 108, 101, 118, 101, 108] ++ 58 :: t67)) { vars := [(asString [108, 111, 103, 108, 101, 118, 101, 108], p67)] } :=
  .var (by decide) w67

/-- /repo/examples/schema.txt -/
def file : List Nat :=
  [47, 47] ++ t0 ++ 10 ::
  ([47, 47] ++ t1 ++ 10 ::
  ([116, 105, 109, 101, 115, 116, 97, 109, 112] ++ 58 :: t2 ++ 10 ::
  ([47, 47] ++ t3 ++ 10 ::
  ([116, 105, 109, 101, 115, 116, 97, 109, 112] ++ 58 :: t4 ++ 10 ::
  ([47, 47] ++ t5 ++ 10 ::
  ([116, 105, 109, 101, 115, 116, 97, 109, 112] ++ 58 :: t6 ++ 10 ::
  ([47, 47] ++ t7 ++ 10 ::
  ([116, 105, 109, 101, 115, 116, 97, 109, 112] ++ 58 :: t8 ++ 10 ::
  ([47, 47] ++ t9 ++ 10 ::
  ([47, 47] ++ t10 ++ 10 ::
  ([116, 105, 109, 101, 115, 116, 97, 109, 112] ++ 58 :: t11 ++ 10 ::
  ([47, 47] ++ t12 ++ 10 ::
  ([116, 105, 109, 101, 115, 116, 97, 109, 112] ++ 58 :: t13 ++ 10 ::
  ([47, 47] ++ t14 ++ 10 ::
  ([116, 105, 109, 101, 115, 116, 97, 109, 112] ++ 58 :: t15 ++ 10 ::
  ([47, 47] ++ t16 ++ 10 ::
  ([47, 47] ++ t17 ++ 10 ::
  ([47, 47] ++ t18 ++ 10 ::
  ([116, 105, 109, 101, 115, 116, 97, 109, 112] ++ 58 :: t19 ++ 10 ::
  ([47, 47] ++ t20 ++ 10 ::
  ([116, 105, 109, 101, 115, 116, 97, 109, 112] ++ 58 :: t21 ++ 10 ::
  ([47, 47] ++ t22 ++ 10 ::
  ([116, 105, 109, 101, 115, 116, 97, 109, 112] ++ 58 :: t23 ++ 10 ::
  ([47, 47] ++ t24 ++ 10 ::
  ([116, 105, 109, 101, 115, 116, 97, 109, 112] ++ 58 :: t25 ++ 10 ::
  ([47, 47] ++ t26 ++ 10 ::
  ([116, 105, 109, 101, 115, 116, 97, 109, 112] ++ 58 :: t27 ++ 10 ::
  ([47, 47] ++ t28 ++ 10 ::
  ([116, 105, 109, 101, 115, 116, 97, 109, 112] ++ 58 :: t29 ++ 10 ::
  ([47, 47] ++ t30 ++ 10 ::
  ([116, 105, 109, 101, 115, 116, 97, 109, 112] ++ 58 :: t31 ++ 10 ::
  ([47, 47] ++ t32 ++ 10 ::
  ([116, 105, 109, 101, 115, 116, 97, 109, 112] ++ 58 :: t33 ++ 10 ::
  ([47, 47] ++ t34 ++ 10 ::
  ([47, 47] ++ t35 ++ 10 ::
  ([47, 47] ++ t36 ++ 10 ::
  ([116, 105, 109, 101, 115, 116, 97, 109, 112] ++ 58 :: t37 ++ 10 ::
  ([47, 47] ++ t38 ++ 10 ::
  ([116, 105, 109, 101, 115, 116, 97, 109, 112] ++ 58 :: t39 ++ 10 ::
  ([47, 47] ++ t40 ++ 10 ::
  ([116, 105, 109, 101, 115, 116, 97, 109, 112] ++ 58 :: t41 ++ 10 ::
  ([47, 47] ++ t42 ++ 10 ::
  ([116, 105, 109, 101, 115, 116, 97, 109, 112] ++ 58 :: t43 ++ 10 ::
  ([47, 47] ++ t44 ++ 10 ::
  ([116, 105, 109, 101, 115, 116, 97, 109, 112] ++ 58 :: t45 ++ 10 ::
  ([47, 47] ++ t46 ++ 10 ::
  ([116, 105, 109, 101, 115, 116, 97, 109, 112] ++ 58 :: t47 ++ 10 ::
  ([47, 47] ++ t48 ++ 10 ::
  ([116, 105, 109, 101, 115, 116, 97, 109, 112] ++ 58 :: t49 ++ 10 ::
  ([] ++ 10 ::
  ([47, 47] ++ t51 ++ 10 ::
  (delimitersWord ++ 58 :: t52 ++ 10 ::
  ([] ++ 10 ::
  ([47, 47] ++ t54 ++ 10 ::
  ([99, 97, 112, 116, 117, 114, 101] ++ 58 :: t55 ++ 10 ::
  ([] ++ 10 ::
  ([47, 47] ++ t57 ++ 10 ::
  ([105, 110, 116] ++ 58 :: t58 ++ 10 ::
  ([102, 108, 111, 97, 116] ++ 58 :: t59 ++ 10 ::
  ([] ++ 10 ::
  ([47, 47] ++ t61 ++ 10 ::
  ([104, 101, 120] ++ 58 :: t62 ++ 10 ::
  ([104, 97, 115, 78, 117, 109, 98, 101, 114] ++ 58 :: t63 ++ 10 ::
  ([101, 113, 117, 97, 108, 115] ++ 58 :: t64 ++ 10 ::
  ([] ++ 10 ::
  ([47, 47] ++ t66 ++ 10 ::
  ([108, 111, 103, 108, 101, 118, 101, 108] ++ 58 :: t67 ++ 10 ::
  ([]))))))))))))))))))))))))))))))))))))))))))))))))))))))))))))))))))))

/-- What it content. -/
def content : SchemaText :=
  { vars := [(asString [116, 105, 109, 101, 115, 116, 97, 109, 112], p2),
      (asString [116, 105, 109, 101, 115, 116, 97, 109, 112], p4),
      (asString [116, 105, 109, 101, 115, 116, 97, 109, 112], p6),
      (asString [116, 105, 109, 101, 115, 116, 97, 109, 112], p8),
      (asString [116, 105, 109, 101, 115, 116, 97, 109, 112], p11),
      (asString [116, 105, 109, 101, 115, 116, 97, 109, 112], p13),
      (asString [116, 105, 109, 101, 115, 116, 97, 109, 112], p15),
      (asString [116, 105, 109, 101, 115, 116, 97, 109, 112], p19),
      (asString [116, 105, 109, 101, 115, 116, 97, 109, 112], p21),
      (asString [116, 105, 109, 101, 115, 116, 97, 109, 112], p23),
      (asString [116, 105, 109, 101, 115, 116, 97, 109, 112], p25),
      (asString [116, 105, 109, 101, 115, 116, 97, 109, 112], p27),
      (asString [116, 105, 109, 101, 115, 116, 97, 109, 112], p29),
      (asString [116, 105, 109, 101, 115, 116, 97, 109, 112], p31),
      (asString [116, 105, 109, 101, 115, 116, 97, 109, 112], p33),
      (asString [116, 105, 109, 101, 115, 116, 97, 109, 112], p37),
      (asString [116, 105, 109, 101, 115, 116, 97, 109, 112], p39),
      (asString [116, 105, 109, 101, 115, 116, 97, 109, 112], p41),
      (asString [116, 105, 109, 101, 115, 116, 97, 109, 112], p43),
      (asString [116, 105, 109, 101, 115, 116, 97, 109, 112], p45),
      (asString [116, 105, 109, 101, 115, 116, 97, 109, 112], p47),
      (asString [116, 105, 109, 101, 115, 116, 97, 109, 112], p49),
      (asString [99, 97, 112, 116, 117, 114, 101], p55 2260),
      (asString [105, 110, 116], p58),
      (asString [102, 108, 111, 97, 116], p59),
      (asString [104, 101, 120], p62),
      (asString [104, 97, 115, 78, 117, 109, 98, 101, 114], p63),
      (asString [101, 113, 117, 97, 108, 115], p64),
      (asString [108, 111, 103, 108, 101, 118, 101, 108], p67)],
    delims := [[32, 9, 13, 10, 58, 44, 33, 59, 37]] }

/-- The units of the first `n` lines. -/
def u0 : List Lexeme := (chars [47, 47] ++ lexemes t0)
theorem f0 : WrittenFile 0 u0 {} := .first l0
def u1 : List Lexeme := u0 ++ chars [10] ++ (chars [47, 47] ++ lexemes t1)
theorem f1 : WrittenFile 0 u1 { vars := content.vars.take 0, delims := content.delims.take 0 } := .line f0 (.inl rfl) l1
def u2 : List Lexeme := u1 ++ chars [10] ++ (chars (List.replicate 0 32 ++ [116, 105, 109, 101, 115, 116, 97, 109, 112] ++ 58 :: t2))
theorem f2 : WrittenFile 0 u2 { vars := content.vars.take 1, delims := content.delims.take 0 } := .line f1 (.inl rfl) l2
def u3 : List Lexeme := u2 ++ chars [10] ++ (chars [47, 47] ++ lexemes t3)
theorem f3 : WrittenFile 0 u3 { vars := content.vars.take 1, delims := content.delims.take 0 } := .line f2 (.inl rfl) l3
def u4 : List Lexeme := u3 ++ chars [10] ++ (chars (List.replicate 0 32 ++ [116, 105, 109, 101, 115, 116, 97, 109, 112] ++ 58 :: t4))
theorem f4 : WrittenFile 0 u4 { vars := content.vars.take 2, delims := content.delims.take 0 } := .line f3 (.inl rfl) l4
def u5 : List Lexeme := u4 ++ chars [10] ++ (chars [47, 47] ++ lexemes t5)
theorem f5 : WrittenFile 0 u5 { vars := content.vars.take 2, delims := content.delims.take 0 } := .line f4 (.inl rfl) l5
def u6 : List Lexeme := u5 ++ chars [10] ++ (chars (List.replicate 0 32 ++ [116, 105, 109, 101, 115, 116, 97, 109, 112] ++ 58 :: t6))
theorem f6 : WrittenFile 0 u6 { vars := content.vars.take 3, delims := content.delims.take 0 } := .line f5 (.inl rfl) l6
def u7 : List Lexeme := u6 ++ chars [10] ++ (chars [47, 47] ++ lexemes t7)
theorem f7 : WrittenFile 0 u7 { vars := content.vars.take 3, delims := content.delims.take 0 } := .line f6 (.inl rfl) l7
def u8 : List Lexeme := u7 ++ chars [10] ++ (chars (List.replicate 0 32 ++ [116, 105, 109, 101, 115, 116, 97, 109, 112] ++ 58 :: t8))
theorem f8 : WrittenFile 0 u8 { vars := content.vars.take 4, delims := content.delims.take 0 } := .line f7 (.inl rfl) l8
def u9 : List Lexeme := u8 ++ chars [10] ++ (chars [47, 47] ++ lexemes t9)
theorem f9 : WrittenFile 0 u9 { vars := content.vars.take 4, delims := content.delims.take 0 } := .line f8 (.inl rfl) l9
def u10 : List Lexeme := u9 ++ chars [10] ++ (chars [47, 47] ++ lexemes t10)
theorem f10 : WrittenFile 0 u10 { vars := content.vars.take 4, delims := content.delims.take 0 } := .line f9 (.inl rfl) l10
def u11 : List Lexeme := u10 ++ chars [10] ++ (chars (List.replicate 0 32 ++ [116, 105, 109, 101, 115, 116, 97, 109, 112] ++ 58 :: t11))
theorem f11 : WrittenFile 0 u11 { vars := content.vars.take 5, delims := content.delims.take 0 } := .line f10 (.inl rfl) l11
def u12 : List Lexeme := u11 ++ chars [10] ++ (chars [47, 47] ++ lexemes t12)
theorem f12 : WrittenFile 0 u12 { vars := content.vars.take 5, delims := content.delims.take 0 } := .line f11 (.inl rfl) l12
def u13 : List Lexeme := u12 ++ chars [10] ++ (chars (List.replicate 0 32 ++ [116, 105, 109, 101, 115, 116, 97, 109, 112] ++ 58 :: t13))
theorem f13 : WrittenFile 0 u13 { vars := content.vars.take 6, delims := content.delims.take 0 } := .line f12 (.inl rfl) l13
def u14 : List Lexeme := u13 ++ chars [10] ++ (chars [47, 47] ++ lexemes t14)
theorem f14 : WrittenFile 0 u14 { vars := content.vars.take 6, delims := content.delims.take 0 } := .line f13 (.inl rfl) l14
def u15 : List Lexeme := u14 ++ chars [10] ++ (chars (List.replicate 0 32 ++ [116, 105, 109, 101, 115, 116, 97, 109, 112] ++ 58 :: t15))
theorem f15 : WrittenFile 0 u15 { vars := content.vars.take 7, delims := content.delims.take 0 } := .line f14 (.inl rfl) l15
def u16 : List Lexeme := u15 ++ chars [10] ++ (chars [47, 47] ++ lexemes t16)
theorem f16 : WrittenFile 0 u16 { vars := content.vars.take 7, delims := content.delims.take 0 } := .line f15 (.inl rfl) l16
def u17 : List Lexeme := u16 ++ chars [10] ++ (chars [47, 47] ++ lexemes t17)
theorem f17 : WrittenFile 0 u17 { vars := content.vars.take 7, delims := content.delims.take 0 } := .line f16 (.inl rfl) l17
def u18 : List Lexeme := u17 ++ chars [10] ++ (chars [47, 47] ++ lexemes t18)
theorem f18 : WrittenFile 0 u18 { vars := content.vars.take 7, delims := content.delims.take 0 } := .line f17 (.inl rfl) l18
def u19 : List Lexeme := u18 ++ chars [10] ++ (chars (List.replicate 0 32 ++ [116, 105, 109, 101, 115, 116, 97, 109, 112] ++ 58 :: t19))
theorem f19 : WrittenFile 0 u19 { vars := content.vars.take 8, delims := content.delims.take 0 } := .line f18 (.inl rfl) l19
def u20 : List Lexeme := u19 ++ chars [10] ++ (chars [47, 47] ++ lexemes t20)
theorem f20 : WrittenFile 0 u20 { vars := content.vars.take 8, delims := content.delims.take 0 } := .line f19 (.inl rfl) l20
def u21 : List Lexeme := u20 ++ chars [10] ++ (chars (List.replicate 0 32 ++ [116, 105, 109, 101, 115, 116, 97, 109, 112] ++ 58 :: t21))
theorem f21 : WrittenFile 0 u21 { vars := content.vars.take 9, delims := content.delims.take 0 } := .line f20 (.inl rfl) l21
def u22 : List Lexeme := u21 ++ chars [10] ++ (chars [47, 47] ++ lexemes t22)
theorem f22 : WrittenFile 0 u22 { vars := content.vars.take 9, delims := content.delims.take 0 } := .line f21 (.inl rfl) l22
def u23 : List Lexeme := u22 ++ chars [10] ++ (chars (List.replicate 0 32 ++ [116, 105, 109, 101, 115, 116, 97, 109, 112] ++ 58 :: t23))
theorem f23 : WrittenFile 0 u23 { vars := content.vars.take 10, delims := content.delims.take 0 } := .line f22 (.inl rfl) l23
def u24 : List Lexeme := u23 ++ chars [10] ++ (chars [47, 47] ++ lexemes t24)
theorem f24 : WrittenFile 0 u24 { vars := content.vars.take 10, delims := content.delims.take 0 } := .line f23 (.inl rfl) l24
def u25 : List Lexeme := u24 ++ chars [10] ++ (chars (List.replicate 0 32 ++ [116, 105, 109, 101, 115, 116, 97, 109, 112] ++ 58 :: t25))
theorem f25 : WrittenFile 0 u25 { vars := content.vars.take 11, delims := content.delims.take 0 } := .line f24 (.inl rfl) l25
def u26 : List Lexeme := u25 ++ chars [10] ++ (chars [47, 47] ++ lexemes t26)
theorem f26 : WrittenFile 0 u26 { vars := content.vars.take 11, delims := content.delims.take 0 } := .line f25 (.inl rfl) l26
def u27 : List Lexeme := u26 ++ chars [10] ++ (chars (List.replicate 0 32 ++ [116, 105, 109, 101, 115, 116, 97, 109, 112] ++ 58 :: t27))
theorem f27 : WrittenFile 0 u27 { vars := content.vars.take 12, delims := content.delims.take 0 } := .line f26 (.inl rfl) l27
def u28 : List Lexeme := u27 ++ chars [10] ++ (chars [47, 47] ++ lexemes t28)
theorem f28 : WrittenFile 0 u28 { vars := content.vars.take 12, delims := content.delims.take 0 } := .line f27 (.inl rfl) l28
def u29 : List Lexeme := u28 ++ chars [10] ++ (chars (List.replicate 0 32 ++ [116, 105, 109, 101, 115, 116, 97, 109, 112] ++ 58 :: t29))
theorem f29 : WrittenFile 0 u29 { vars := content.vars.take 13, delims := content.delims.take 0 } := .line f28 (.inl rfl) l29
def u30 : List Lexeme := u29 ++ chars [10] ++ (chars [47, 47] ++ lexemes t30)
theorem f30 : WrittenFile 0 u30 { vars := content.vars.take 13, delims := content.delims.take 0 } := .line f29 (.inl rfl) l30
def u31 : List Lexeme := u30 ++ chars [10] ++ (chars (List.replicate 0 32 ++ [116, 105, 109, 101, 115, 116, 97, 109, 112] ++ 58 :: t31))
theorem f31 : WrittenFile 0 u31 { vars := content.vars.take 14, delims := content.delims.take 0 } := .line f30 (.inl rfl) l31
def u32 : List Lexeme := u31 ++ chars [10] ++ (chars [47, 47] ++ lexemes t32)
theorem f32 : WrittenFile 0 u32 { vars := content.vars.take 14, delims := content.delims.take 0 } := .line f31 (.inl rfl) l32
def u33 : List Lexeme := u32 ++ chars [10] ++ (chars (List.replicate 0 32 ++ [116, 105, 109, 101, 115, 116, 97, 109, 112] ++ 58 :: t33))
theorem f33 : WrittenFile 0 u33 { vars := content.vars.take 15, delims := content.delims.take 0 } := .line f32 (.inl rfl) l33
def u34 : List Lexeme := u33 ++ chars [10] ++ (chars [47, 47] ++ lexemes t34)
theorem f34 : WrittenFile 0 u34 { vars := content.vars.take 15, delims := content.delims.take 0 } := .line f33 (.inl rfl) l34
def u35 : List Lexeme := u34 ++ chars [10] ++ (chars [47, 47] ++ lexemes t35)
theorem f35 : WrittenFile 0 u35 { vars := content.vars.take 15, delims := content.delims.take 0 } := .line f34 (.inl rfl) l35
def u36 : List Lexeme := u35 ++ chars [10] ++ (chars [47, 47] ++ lexemes t36)
theorem f36 : WrittenFile 0 u36 { vars := content.vars.take 15, delims := content.delims.take 0 } := .line f35 (.inl rfl) l36
def u37 : List Lexeme := u36 ++ chars [10] ++ (chars (List.replicate 0 32 ++ [116, 105, 109, 101, 115, 116, 97, 109, 112] ++ 58 :: t37))
theorem f37 : WrittenFile 0 u37 { vars := content.vars.take 16, delims := content.delims.take 0 } := .line f36 (.inl rfl) l37
def u38 : List Lexeme := u37 ++ chars [10] ++ (chars [47, 47] ++ lexemes t38)
theorem f38 : WrittenFile 0 u38 { vars := content.vars.take 16, delims := content.delims.take 0 } := .line f37 (.inl rfl) l38
def u39 : List Lexeme := u38 ++ chars [10] ++ (chars (List.replicate 0 32 ++ [116, 105, 109, 101, 115, 116, 97, 109, 112] ++ 58 :: t39))
theorem f39 : WrittenFile 0 u39 { vars := content.vars.take 17, delims := content.delims.take 0 } := .line f38 (.inl rfl) l39
def u40 : List Lexeme := u39 ++ chars [10] ++ (chars [47, 47] ++ lexemes t40)
theorem f40 : WrittenFile 0 u40 { vars := content.vars.take 17, delims := content.delims.take 0 } := .line f39 (.inl rfl) l40
def u41 : List Lexeme := u40 ++ chars [10] ++ (chars (List.replicate 0 32 ++ [116, 105, 109, 101, 115, 116, 97, 109, 112] ++ 58 :: t41))
theorem f41 : WrittenFile 0 u41 { vars := content.vars.take 18, delims := content.delims.take 0 } := .line f40 (.inl rfl) l41
def u42 : List Lexeme := u41 ++ chars [10] ++ (chars [47, 47] ++ lexemes t42)
theorem f42 : WrittenFile 0 u42 { vars := content.vars.take 18, delims := content.delims.take 0 } := .line f41 (.inl rfl) l42
def u43 : List Lexeme := u42 ++ chars [10] ++ (chars (List.replicate 0 32 ++ [116, 105, 109, 101, 115, 116, 97, 109, 112] ++ 58 :: t43))
theorem f43 : WrittenFile 0 u43 { vars := content.vars.take 19, delims := content.delims.take 0 } := .line f42 (.inl rfl) l43
def u44 : List Lexeme := u43 ++ chars [10] ++ (chars [47, 47] ++ lexemes t44)
theorem f44 : WrittenFile 0 u44 { vars := content.vars.take 19, delims := content.delims.take 0 } := .line f43 (.inl rfl) l44
def u45 : List Lexeme := u44 ++ chars [10] ++ (chars (List.replicate 0 32 ++ [116, 105, 109, 101, 115, 116, 97, 109, 112] ++ 58 :: t45))
theorem f45 : WrittenFile 0 u45 { vars := content.vars.take 20, delims := content.delims.take 0 } := .line f44 (.inl rfl) l45
def u46 : List Lexeme := u45 ++ chars [10] ++ (chars [47, 47] ++ lexemes t46)
theorem f46 : WrittenFile 0 u46 { vars := content.vars.take 20, delims := content.delims.take 0 } := .line f45 (.inl rfl) l46
def u47 : List Lexeme := u46 ++ chars [10] ++ (chars (List.replicate 0 32 ++ [116, 105, 109, 101, 115, 116, 97, 109, 112] ++ 58 :: t47))
theorem f47 : WrittenFile 0 u47 { vars := content.vars.take 21, delims := content.delims.take 0 } := .line f46 (.inl rfl) l47
def u48 : List Lexeme := u47 ++ chars [10] ++ (chars [47, 47] ++ lexemes t48)
theorem f48 : WrittenFile 0 u48 { vars := content.vars.take 21, delims := content.delims.take 0 } := .line f47 (.inl rfl) l48
def u49 : List Lexeme := u48 ++ chars [10] ++ (chars (List.replicate 0 32 ++ [116, 105, 109, 101, 115, 116, 97, 109, 112] ++ 58 :: t49))
theorem f49 : WrittenFile 0 u49 { vars := content.vars.take 22, delims := content.delims.take 0 } := .line f48 (.inl rfl) l49
def u50 : List Lexeme := u49 ++ chars [10]
theorem f50 : WrittenFile 0 u50 { vars := content.vars.take 22, delims := content.delims.take 0 } := .blank f49 (.inl rfl)
def u51 : List Lexeme := u50 ++ chars [10] ++ (chars [47, 47] ++ lexemes t51)
theorem f51 : WrittenFile 0 u51 { vars := content.vars.take 22, delims := content.delims.take 0 } := .line f50 (.inl rfl) l51
def u52 : List Lexeme := u51 ++ chars [10] ++ (.delimiters :: chars (58 :: t52))
theorem f52 : WrittenFile 0 u52 { vars := content.vars.take 22, delims := content.delims.take 1 } := .line f51 (.inl rfl) l52
def u53 : List Lexeme := u52 ++ chars [10]
theorem f53 : WrittenFile 0 u53 { vars := content.vars.take 22, delims := content.delims.take 1 } := .blank f52 (.inl rfl)
def u54 : List Lexeme := u53 ++ chars [10] ++ (chars [47, 47] ++ lexemes t54)
theorem f54 : WrittenFile 0 u54 { vars := content.vars.take 22, delims := content.delims.take 1 } := .line f53 (.inl rfl) l54
def u55 : List Lexeme := u54 ++ chars [10] ++ (chars (List.replicate 0 32 ++ [99, 97, 112, 116, 117, 114, 101] ++ 58 :: t55))
theorem f55 : WrittenFile 0 u55 { vars := content.vars.take 23, delims := content.delims.take 1 } := by
  have e : 0 + (textOf (u54 ++ chars [10])).length = 2247 := by decide +kernel
  have h := l55
  rw [← e] at h
  exact .line f54 (.inl rfl) h
def u56 : List Lexeme := u55 ++ chars [10]
theorem f56 : WrittenFile 0 u56 { vars := content.vars.take 23, delims := content.delims.take 1 } := .blank f55 (.inl rfl)
def u57 : List Lexeme := u56 ++ chars [10] ++ (chars [47, 47] ++ lexemes t57)
theorem f57 : WrittenFile 0 u57 { vars := content.vars.take 23, delims := content.delims.take 1 } := .line f56 (.inl rfl) l57
def u58 : List Lexeme := u57 ++ chars [10] ++ (chars (List.replicate 0 32 ++ [105, 110, 116] ++ 58 :: t58))
theorem f58 : WrittenFile 0 u58 { vars := content.vars.take 24, delims := content.delims.take 1 } := .line f57 (.inl rfl) l58
def u59 : List Lexeme := u58 ++ chars [10] ++ (chars (List.replicate 0 32 ++ [102, 108, 111, 97, 116] ++ 58 :: t59))
theorem f59 : WrittenFile 0 u59 { vars := content.vars.take 25, delims := content.delims.take 1 } := .line f58 (.inl rfl) l59
def u60 : List Lexeme := u59 ++ chars [10]
theorem f60 : WrittenFile 0 u60 { vars := content.vars.take 25, delims := content.delims.take 1 } := .blank f59 (.inl rfl)
def u61 : List Lexeme := u60 ++ chars [10] ++ (chars [47, 47] ++ lexemes t61)
theorem f61 : WrittenFile 0 u61 { vars := content.vars.take 25, delims := content.delims.take 1 } := .line f60 (.inl rfl) l61
def u62 : List Lexeme := u61 ++ chars [10] ++ (chars (List.replicate 0 32 ++ [104, 101, 120] ++ 58 :: t62))
theorem f62 : WrittenFile 0 u62 { vars := content.vars.take 26, delims := content.delims.take 1 } := .line f61 (.inl rfl) l62
def u63 : List Lexeme := u62 ++ chars [10] ++ (chars (List.replicate 0 32 ++ [104, 97, 115, 78, 117, 109, 98, 101, 114] ++ 58 :: t63))
theorem f63 : WrittenFile 0 u63 { vars := content.vars.take 27, delims := content.delims.take 1 } := .line f62 (.inl rfl) l63
def u64 : List Lexeme := u63 ++ chars [10] ++ (chars (List.replicate 0 32 ++ [101, 113, 117, 97, 108, 115] ++ 58 :: t64))
theorem f64 : WrittenFile 0 u64 { vars := content.vars.take 28, delims := content.delims.take 1 } := .line f63 (.inl rfl) l64
def u65 : List Lexeme := u64 ++ chars [10]
theorem f65 : WrittenFile 0 u65 { vars := content.vars.take 28, delims := content.delims.take 1 } := .blank f64 (.inl rfl)
def u66 : List Lexeme := u65 ++ chars [10] ++ (chars [47, 47] ++ lexemes t66)
theorem f66 : WrittenFile 0 u66 { vars := content.vars.take 28, delims := content.delims.take 1 } := .line f65 (.inl rfl) l66
def u67 : List Lexeme := u66 ++ chars [10] ++ (chars (List.replicate 0 32 ++ [108, 111, 103, 108, 101, 118, 101, 108] ++ 58 :: t67))
theorem f67 : WrittenFile 0 u67 { vars := content.vars.take 29, delims := content.delims.take 1 } := .line f66 (.inl rfl) l67
def u68 : List Lexeme := u67 ++ chars [10]
theorem f68 : WrittenFile 0 u68 { vars := content.vars.take 29, delims := content.delims.take 1 } := .blank f67 (.inl rfl)

theorem file_units : lexemes file = u68 := by decide +kernel

theorem file_written : WrittenFile 0 (lexemes file) content := by
  rw [file_units]
  exact f68

end LogSurgeon.ExampleSchema
