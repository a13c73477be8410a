import Verif.Proofs.SchemaSem
import Mathlib.Data.List.Induction
/-
Derivations with values say the same as the specification of schema texts.
-/
namespace LogSurgeon

theorem kind_tok {s : String} {l : Lexeme} (h : Stands s l) : kindOf s = .tok s := by
  have key : (∀ x ∈ charToks, kindTable.lookup x.1 = none ∨ False) ∧ (kindTable.lookup "Delimiters" = none ∨ False) := by
    have h1 : (charToks.all fun x => (kindTable.lookup x.1).isNone) = true := by decide +kernel
    have h2 : (kindTable.lookup "Delimiters").isNone = true := by decide +kernel
    exact ⟨fun x hx => .inl (by simpa using (List.all_eq_true.mp h1) x hx), .inl (by simpa using h2)⟩
  have : kindTable.lookup s = none := by
    cases l with
    | char c =>
      obtain ⟨x, hx, rfl, _⟩ := h
      simpa using key.1 x hx
    | delimiters =>
      obtain rfl := h
      simpa using key.2
  simp [kindOf, this]

/-- Derivations have the values the specification says. -/
theorem DerL.kinds {ss : List String} {k : Nat} {ls : List Lexeme} {vs : List SemChild} (h : DerL ss k ls vs) : Kinds (ss.map kindOf) k ls vs := by
  induction h with
  | nil => exact ⟨rfl, rfl⟩
  | @tok s l ss k ls vs h1 _ ih =>
    refine ⟨[l], _, ls, vs, rfl, rfl, ?_, by simpa using ih⟩
    rw [kind_tok h1]
    exact ⟨l, rfl, rfl, h1⟩
  | prod h1 _ h3 _ ih1 ih2 =>
    exact ⟨_, _, _, _, rfl, rfl, (List.forall_iff_forall_mem.mp semOk_all) _ h1 _ _ _ _ ih1 h3, ih2⟩

theorem DerL.append {a b : List String} {k : Nat} {l l' : List Lexeme} {vs vs' : List SemChild} (h : DerL a k l vs)
    (h' : DerL b (k + (textOf l).length) l' vs') : DerL (a ++ b) k (l ++ l') (vs ++ vs') := by
  induction h with
  | nil => simpa using h'
  | tok h1 _ ih =>
    refine .tok h1 (ih ?_)
    simpa [Nat.add_assoc] using h'
  | prod h1 h2 h3 _ _ ih2 =>
    rw [List.append_assoc]
    refine .prod h1 h2 h3 (ih2 ?_)
    simpa [Nat.add_assoc] using h'

theorem DerL.cons {s : String} {b : List String} {k : Nat} {l l' : List Lexeme} {v : SemChild} {vs' : List SemChild} (h : DerL [s] k l [v])
    (h' : DerL b (k + (textOf l).length) l' vs') : DerL (s :: b) k (l ++ l') (v :: vs') := h.append h'

theorem DerL.ch {s : String} {b : List String} {k c : Nat} {l : List Lexeme} {vs : List SemChild} (h : Stands s (.char c))
    (h' : DerL b (k + 1) l vs) : DerL (s :: b) k (.char c :: l) (.tok [c] :: vs) := .tok h h'

theorem DerL.node {head : String} {body : List String} {r : SemRule} (i : Nat) (hi : D0[i]? = some ((head, body), r)) {k : Nat} {ls : List Lexeme}
    {vs : List SemChild} {v : SemVal} (h : DerL body k ls vs) (ha : r.apply k vs = .ok v) : DerL [head] k ls [.val v] := by
  have := DerL.prod (List.mem_of_getElem? hi) h ha (.nil)
  simpa using this

theorem DerL.shift {ss : List String} {k k' : Nat} {ls : List Lexeme} {vs : List SemChild} (h : DerL ss k ls vs) (e : k = k') : DerL ss k' ls vs := e ▸ h

/-! ### From the specification to derivations -/

theorem der_alnum {k c : Nat} (h : AlphaNum c) : Stands "AlphaNumeric" (.char c) := by
  rcases h with h | h | h
  · exact stands_of [(97, 122)] (by decide +kernel) (97, 122) (by simp) h.1 h.2
  · exact stands_of [(65, 90)] (by decide +kernel) (65, 90) (by simp) h.1 h.2
  · exact stands_of [(48, 57)] (by decide +kernel) (48, 57) (by simp) h.1 h.2

theorem der_numeric {d : Nat} (h : d ≤ 9) : Stands "Numeric" (.char (48 + d)) :=
  stands_of [(48, 57)] (by decide +kernel) (48, 57) (by simp) (by simp) (by simp only; omega)

theorem der_char {w : List Nat} {c : Nat} (h : WrittenChar w c) (k : Nat) : DerL ["Literal"] k (chars w) [.val (.regex (.literal [] c))] := by
  cases h with
  | plain h =>
    rcases h with h | h
    · exact .node 70 rfl (.ch (der_alnum (k := 0) h) .nil) rfl
    · simp only [List.mem_cons, List.not_mem_nil, or_false] at h
      rcases h with rfl | rfl | rfl | rfl | rfl | rfl | rfl | rfl | rfl | rfl | rfl | rfl | rfl | rfl | rfl | rfl | rfl
      · exact .node 54 rfl (.ch is_Space .nil) rfl
      · exact .node 55 rfl (.ch is_Bang .nil) rfl
      · exact .node 56 rfl (.ch is_Quotation .nil) rfl
      · exact .node 57 rfl (.ch is_Hash .nil) rfl
      · exact .node 58 rfl (.ch is_DollarSign .nil) rfl
      · exact .node 59 rfl (.ch is_Percent .nil) rfl
      · exact .node 60 rfl (.ch is_Ampersand .nil) rfl
      · exact .node 61 rfl (.ch is_Apostrophe .nil) rfl
      · exact .node 66 rfl (.ch is_Comma .nil) rfl
      · exact .node 69 rfl (.ch is_ForwardSlash .nil) rfl
      · exact .node 71 rfl (.ch is_Colon .nil) rfl
      · exact .node 72 rfl (.ch is_SemiColon .nil) rfl
      · exact .node 73 rfl (.ch is_Equal .nil) rfl
      · exact .node 74 rfl (.ch is_At .nil) rfl
      · exact .node 79 rfl (.ch is_Underscore .nil) rfl
      · exact .node 80 rfl (.ch is_Backtick .nil) rfl
      · exact .node 87 rfl (.ch is_Tilde .nil) rfl
  | escaped h =>
    simp only [Special, List.mem_cons, List.not_mem_nil, or_false] at h
    rcases h with rfl | rfl | rfl | rfl | rfl | rfl | rfl | rfl | rfl | rfl | rfl | rfl | rfl | rfl | rfl | rfl
    · exact .node 62 rfl (.ch is_Backslash (.ch is_Lparen .nil)) rfl
    · exact .node 63 rfl (.ch is_Backslash (.ch is_Rparen .nil)) rfl
    · exact .node 64 rfl (.ch is_Backslash (.ch is_Star .nil)) rfl
    · exact .node 65 rfl (.ch is_Backslash (.ch is_Plus .nil)) rfl
    · exact .node 67 rfl (.ch is_Backslash (.ch is_Dash .nil)) rfl
    · exact .node 68 rfl (.ch is_Backslash (.ch is_Dot .nil)) rfl
    · exact .node 75 rfl (.ch is_Backslash (.ch is_Lbracket .nil)) rfl
    · exact .node 77 rfl (.ch is_Backslash (.ch is_Rbracket .nil)) rfl
    · exact .node 76 rfl (.ch is_Backslash (.ch is_Backslash .nil)) rfl
    · exact .node 78 rfl (.ch is_Backslash (.ch is_Hat .nil)) rfl
    · exact .node 81 rfl (.ch is_Backslash (.ch is_Lbrace .nil)) rfl
    · exact .node 83 rfl (.ch is_Backslash (.ch is_Rbrace .nil)) rfl
    · exact .node 82 rfl (.ch is_Backslash (.ch is_Vbar .nil)) rfl
    · exact .node 84 rfl (.ch is_Backslash (.ch is_Langle .nil)) rfl
    · exact .node 85 rfl (.ch is_Backslash (.ch is_Rangle .nil)) rfl
    · exact .node 86 rfl (.ch is_Backslash (.ch is_QuestionMark .nil)) rfl
  | tab => exact .node 49 rfl (.ch is_Backslash (.ch is_t .nil)) rfl
  | newline => exact .node 50 rfl (.ch is_Backslash (.ch is_n .nil)) rfl
  | verticalTab => exact .node 51 rfl (.ch is_Backslash (.ch is_v .nil)) rfl
  | formFeed => exact .node 52 rfl (.ch is_Backslash (.ch is_f .nil)) rfl
  | carriageReturn => exact .node 53 rfl (.ch is_Backslash (.ch is_r .nil)) rfl

theorem der_name {n : List Nat} (h : IsName n) (k : Nat) : DerL ["Identifier"] k (chars n) [.val (.ident n)] := by
  obtain ⟨hne, hall⟩ := h
  induction n using List.reverseRecOn with
  | nil => exact absurd rfl hne
  | append_singleton n c ih =>
    have hc := der_alnum (k := 0) (hall c (by simp))
    by_cases hn : n = []
    · subst hn
      exact .node 18 rfl (.ch hc .nil) rfl
    · rw [chars_append]
      exact .node 17 rfl ((ih hn (fun d hd => hall d (by simp [hd]))).cons (.ch hc .nil)) rfl

theorem der_int {ds : List Nat} (h : IsNumeral ds) (k : Nat) : DerL ["Integer"] k (chars (digitsText ds)) [.val (.regex (.integer [] ds))] := by
  obtain ⟨hne, hall⟩ := h
  induction ds using List.reverseRecOn with
  | nil => exact absurd rfl hne
  | append_singleton ds d ih =>
    have hc := der_numeric (hall d (by simp))
    have e : 48 + d - 48 = d := by omega
    by_cases hn : ds = []
    · subst hn
      exact .node 107 rfl (.ch hc .nil) (by simp [SemRule.apply, childOneChar, bind, Except.bind])
    · have : chars (digitsText (ds ++ [d])) = chars (digitsText ds) ++ [.char (48 + d)] := by simp [digitsText]
      rw [this]
      exact .node 106 rfl ((ih hn (fun d hd => hall d (by simp [hd]))).cons (.ch hc .nil))
        (by simp [SemRule.apply, childOneChar, childRegex, integerDigits, bind, Except.bind])

theorem der_spaces (i k : Nat) : DerL ["WhitespaceStar"] k (chars (List.replicate i 32)) [.val .null] := by
  induction i with
  | zero => exact .node 20 rfl .nil rfl
  | succ i ih =>
    rw [List.replicate_succ', chars_append]
    exact .node 19 rfl (ih.cons (.ch is_Space .nil)) rfl

theorem der_newline {ls : List Lexeme} (h : WrittenNewline ls) (k : Nat) : DerL ["PortableNewLine"] k ls [.val .null] := by
  rcases h with rfl | rfl
  · exact .node 10 rfl (.ch is_NewLine .nil) rfl
  · exact .node 9 rfl (.ch is_CarriageReturn (.ch is_NewLine .nil)) rfl

/-- Every character is a byte. -/
def Lexeme.Byte : Lexeme → Prop
  | .char c => c < 256
  | .delimiters => True

theorem der_text {ls : List Lexeme} (hne : ls ≠ []) (h : ∀ l ∈ ls, l ≠ .char 10 ∧ l ≠ .char 13) (hb : ∀ l ∈ ls, l.Byte) (k : Nat) :
    DerL ["Text"] k ls [.val .null] := by
  induction ls using List.reverseRecOn with
  | nil => exact absurd rfl hne
  | append_singleton ls l ih =>
    have hl := h l (by simp)
    have hlb := hb l (by simp)
    cases l with
    | char c =>
      have hc : Stands "CommentCharacters" (.char c) := by
        have h1 : c ≠ 10 := fun e => hl.1 (by rw [e])
        have h2 : c ≠ 13 := fun e => hl.2 (by rw [e])
        have h3 : c < 256 := hlb
        have hm : ("CommentCharacters", [((0 : Nat), (9 : Nat)), (11, 12), (14, 255)]) ∈ charToks := by decide +kernel
        by_cases c1 : c ≤ 9
        · exact stands_of _ hm (0, 9) (by simp) (by simp) c1
        · by_cases c2 : c ≤ 12
          · exact stands_of _ hm (11, 12) (by simp) (by simp only; omega) c2
          · exact stands_of _ hm (14, 255) (by simp) (by simp only; omega) (by simp only; omega)
      by_cases hn : ls = []
      · subst hn; exact .node 13 rfl (.ch hc .nil) rfl
      · exact .node 12 rfl ((ih hn (fun x hx => h x (by simp [hx])) (fun x hx => hb x (by simp [hx]))).cons (.ch hc .nil)) rfl
    | delimiters =>
      have hd : Stands "Delimiters" .delimiters := rfl
      by_cases hn : ls = []
      · subst hn; exact .node 15 rfl (.tok hd .nil) rfl
      · exact .node 14 rfl ((ih hn (fun x hx => h x (by simp [hx])) (fun x hx => hb x (by simp [hx]))).cons (.tok hd .nil)) rfl

/-- What a pattern at a level derives from. -/
def LevelDer (l : Level) (k : Nat) (w : List Nat) (p : Pat) : Prop :=
  match l with
  | .literal => ∀ r, p.elab = some r → DerL ["Literal"] k (chars w) [.val (.regex r)]
  | .item => ∀ i, p = .cls false [i] →
      match i with
      | .lit c => DerL ["Literal"] k (chars w) [.val (.regex (.literal [] c))]
      | .range a b => a < b → DerL ["LiteralRange"] k (chars w) [.val (.regex (.group [] false false [(a, b)]))]
      | .digit => DerL ["Digit"] k (chars w) [.val (.regex digitRegex)]
      | .space => True
  | .openClass => ∀ n is rs, p = .cls n is → addItems [] is = some rs → DerL ["IncompleteGroup"] k (chars w) [.val (.regex (.group [] false n rs))]
  | .single => ∀ r, p.elab = some r → DerL ["CompleteGroup"] k (chars w) [.val (.regex r)]
  | .repeated => ∀ r, p.elab = some r → DerL ["Or"] k (chars w) [.val (.regex r)]
  | .choice => ∀ r, p.elab = some r → DerL ["Or"] k (chars w) [.val (.regex r)]
  | .seq => ∀ r, p.elab = some r → DerL ["Concat"] k (chars w) [.val (.regex r)]

theorem der_item {i : ClassItem} {k : Nat} {w : List Nat} (h : LevelDer .item k w (.cls false [i])) {rs rs' : List Range}
    (hi : addItem rs i = some rs') :
    (∃ r, rs' = rs ++ [r] ∧ (DerL ["LiteralRange"] k (chars w) [.val (.regex (.group [] false false [r]))] ∨
      DerL ["Digit"] k (chars w) [.val (.regex (.group [] false false [r]))])) ∨
    (∃ c, rs' = rs ++ [(c, c)] ∧ DerL ["Literal"] k (chars w) [.val (.regex (.literal [] c))]) := by
  have := h i rfl
  cases i with
  | lit c =>
    simp only [addItem, Option.some.injEq] at hi
    exact .inr ⟨c, hi.symm, this⟩
  | range a b =>
    simp only [addItem] at hi
    split at hi
    · rename_i hab
      cases hi
      exact .inl ⟨(a, b), rfl, .inl (this hab)⟩
    · cases hi
  | digit =>
    simp only [addItem, Option.some.injEq] at hi
    exact .inl ⟨(48, 57), hi.symm, .inr this⟩
  | space => cases hi

theorem der_pattern {l : Level} {k : Nat} {w : List Nat} {p : Pat} (h : Written l k w p) : LevelDer l k w p := by
  induction h with
  | char h => intro r hr; cases hr; exact der_char h _
  | @parens k w p _ ih =>
    intro r hr
    have : chars (40 :: w ++ [41]) = .char 40 :: (chars w ++ [.char 41]) := by simp
    rw [this]
    exact .node 89 rfl (.ch is_Lparen ((DerL.node 21 rfl (ih r hr) rfl).cons (.ch is_Rparen .nil))) rfl
  | @capture k n w p hn _ ih =>
    intro r hr
    simp only [Pat.elab, Option.map_eq_some_iff] at hr
    obtain ⟨r', hr', rfl⟩ := hr
    have : chars ([40, 63, 60] ++ n ++ 62 :: w ++ [41]) = .char 40 :: .char 63 :: .char 60 :: (chars n ++ .char 62 :: (chars w ++ [.char 41])) := by simp
    rw [this]
    refine .node 88 rfl (.ch is_Lparen (.ch is_QuestionMark (.ch is_Langle ((der_name hn _).cons (.ch is_Rangle
      ((DerL.node 21 rfl (v := .regex r') (vs := [.val (.regex r')]) ?_ rfl).cons (.ch is_Rparen .nil))))))) rfl
    have e : k + 1 + 1 + 1 + (textOf (chars n)).length + 1 = k + n.length + 4 := by simp; omega
    rw [e]
    exact ih r' hr'
  | @itemChar k w c _ ih =>
    intro i hi
    cases hi
    exact ih _ rfl
  | @itemRange k u v a b _ _ ih1 ih2 =>
    intro i hi
    cases hi
    intro hab
    rw [chars_append, chars_cons]
    refine .node 48 rfl ((ih1 _ rfl).cons (.ch is_Dash ((ih2 _ rfl).shift (by simp)))) ?_
    show (if a < b then Except.ok _ else Except.error _) = _
    rw [if_pos hab]
  | itemDigit => intro i hi; cases hi; exact .node 108 rfl (.ch is_Backslash (.ch is_d .nil)) rfl
  | itemSpace => intro i hi; cases hi; trivial
  | @opened k w i _ ih =>
    intro n is rs hp hrs
    cases hp
    simp only [addItems, Option.bind_eq_some_iff, Option.some.injEq] at hrs
    obtain ⟨rs', h1, rfl⟩ := hrs
    rw [chars_cons]
    rcases der_item ih h1 with ⟨r, rfl, h | h⟩ | ⟨c, rfl, h⟩
    · exact .node 43 rfl (.ch is_Lbracket h) rfl
    · exact .node 44 rfl (.ch is_Lbracket h) rfl
    · exact .node 45 rfl (.ch is_Lbracket h) rfl
  | openedHat =>
    intro n is rs hp hrs
    cases hp
    cases hrs
    exact .node 47 rfl (.ch is_Lbracket (.ch is_Hat .nil)) rfl
  | @more k u v n is i _ _ ih1 ih2 =>
    intro n' is' rs hp hrs
    cases hp
    simp only [addItems_append, addItems, Option.bind_eq_some_iff, Option.some.injEq] at hrs
    obtain ⟨rs', h1, rs'', h2, rfl⟩ := hrs
    rw [chars_append]
    have e : k + u.length = k + (textOf (chars u)).length := by simp
    rw [e] at ih2
    rcases der_item ih2 h2 with ⟨r, rfl, h | h⟩ | ⟨c, rfl, h⟩
    · exact .node 39 rfl ((ih1 n is rs' rfl h1).cons h) rfl
    · exact .node 40 rfl ((ih1 n is rs' rfl h1).cons h) rfl
    · exact .node 41 rfl ((ih1 n is rs' rfl h1).cons h) rfl
  | ofLiteral _ ih => intro r hr; exact .node 35 rfl (ih r hr) rfl
  | @closed k w p hw ih =>
    intro r hr
    rw [chars_append]
    have hcls : ∃ n is, p = .cls n is := by cases hw <;> exact ⟨_, _, rfl⟩
    obtain ⟨n, is, rfl⟩ := hcls
    simp only [Pat.elab, Option.map_eq_some_iff] at hr
    obtain ⟨rs, h1, rfl⟩ := hr
    exact .node 34 rfl ((ih n is rs rfl h1).cons (.ch is_Rbracket .nil)) rfl
  | digit => intro r hr; cases hr; exact .node 36 rfl (DerL.node 108 rfl (.ch is_Backslash (.ch is_d .nil)) rfl) rfl
  | space => intro r hr; cases hr; exact .node 38 rfl (DerL.node 110 rfl (.ch is_Backslash (.ch is_s .nil)) rfl) rfl
  | wild => intro r hr; cases hr; exact .node 37 rfl (DerL.node 109 rfl (.ch is_Dot .nil) rfl) rfl
  | star _ ih =>
    intro r hr
    simp only [Pat.elab, Option.map_eq_some_iff] at hr
    obtain ⟨r', hr', rfl⟩ := hr
    rw [chars_append]
    exact .node 25 rfl (DerL.node 30 rfl ((ih r' hr').cons (.ch is_Star .nil)) rfl) rfl
  | plus _ ih =>
    intro r hr
    simp only [Pat.elab, Option.map_eq_some_iff] at hr
    obtain ⟨r', hr', rfl⟩ := hr
    rw [chars_append]
    exact .node 26 rfl (DerL.node 31 rfl ((ih r' hr').cons (.ch is_Plus .nil)) rfl) rfl
  | @exact k w p n _ hn ih =>
    intro r hr
    simp only [Pat.elab, Option.map_eq_some_iff, Option.bind_eq_some_iff] at hr
    obtain ⟨r', hr', m, hm, rfl⟩ := hr
    have : chars (w ++ 123 :: digitsText n ++ [125]) = chars w ++ .char 123 :: (chars (digitsText n) ++ [.char 125]) := by simp
    rw [this]
    refine .node 27 rfl (DerL.node 32 rfl (v := .regex (exactRule r' m)) ((ih r' hr').cons (.ch is_Lbrace ((der_int hn _).cons (.ch is_Rbrace .nil)))) ?_) rfl
    simp [SemRule.apply, childRegex, integerDigits, countOf, hm, bind, Except.bind]
  | @range k w p n m _ hn hm ih =>
    intro r hr
    simp only [Pat.elab, Option.map_eq_some_iff, Option.bind_eq_some_iff] at hr
    obtain ⟨r', hr', a, ha, b, hb, rfl⟩ := hr
    have : chars (w ++ 123 :: digitsText n ++ 44 :: digitsText m ++ [125]) =
        chars w ++ .char 123 :: (chars (digitsText n) ++ .char 44 :: (chars (digitsText m) ++ [.char 125])) := by simp
    rw [this]
    refine .node 28 rfl (DerL.node 33 rfl (v := .regex (rangeRule r' a b)) ((ih r' hr').cons (.ch is_Lbrace ((der_int hn _).cons (.ch is_Comma ((der_int hm _).cons
      (.ch is_Rbrace .nil)))))) ?_) rfl
    simp [SemRule.apply, childRegex, integerDigits, countOf, ha, hb, bind, Except.bind]
  | ofSingle _ ih => intro r hr; exact .node 29 rfl (ih r hr) rfl
  | ofRepeated _ ih => intro r hr; exact ih r hr
  | @or k u v p q _ _ ih1 ih2 =>
    intro r hr
    simp only [Pat.elab, Option.map_eq_some_iff, Option.bind_eq_some_iff] at hr
    obtain ⟨a, ha, b, hb, rfl⟩ := hr
    rw [chars_append, chars_cons]
    exact .node 24 rfl ((ih1 a ha).cons (.ch is_Vbar ((ih2 b hb).shift (by simp)))) rfl
  | ofChoice _ ih => intro r hr; exact .node 23 rfl (ih r hr) rfl
  | @cat k u v p q _ _ ih1 ih2 =>
    intro r hr
    simp only [Pat.elab, Option.map_eq_some_iff, Option.bind_eq_some_iff] at hr
    obtain ⟨a, ha, b, hb, rfl⟩ := hr
    rw [chars_append]
    exact .node 22 rfl ((ih1 a ha).cons ((ih2 b hb).shift (by simp))) rfl

theorem der_delims {k : Nat} {w cs : List Nat} (h : WrittenChars k w cs) : DerL ["DelimiterString"] k (chars w) [.val (.delims cs)] := by
  induction h with
  | one h => exact .node 8 rfl (der_pattern h _ rfl) rfl
  | snoc _ h ih =>
    rw [chars_append]
    exact .node 7 rfl (ih.cons ((der_pattern h _ rfl).shift (by simp))) rfl

theorem der_var {k i : Nat} {n w : List Nat} {p : Pat} {r : Regex} (hn : IsName n) (h : Written .seq (k + i + n.length + 1) w p) (hr : p.elab = some r) :
    DerL ["SchemaVar"] k (chars (List.replicate i 32 ++ n ++ 58 :: w)) [.val (.var ⟨asString n, r⟩)] := by
  have : chars (List.replicate i 32 ++ n ++ 58 :: w) = chars (List.replicate i 32) ++ (chars n ++ .char 58 :: chars w) := by simp
  rw [this]
  refine .node 16 rfl ((der_spaces i k).cons ((der_name hn _).cons (.ch is_Colon (DerL.node 21 rfl (v := .regex r) (vs := [.val (.regex r)]) ?_ rfl)))) rfl
  have e : k + (textOf (chars (List.replicate i 32))).length + (textOf (chars n)).length + 1 = k + i + n.length + 1 := by simp
  rw [e]
  exact der_pattern h r hr

theorem der_comment {k : Nat} {ls : List Lexeme} (hne : ls ≠ []) (h : ∀ l ∈ ls, l ≠ .char 10 ∧ l ≠ .char 13) (hb : ∀ l ∈ ls, l.Byte) :
    DerL ["Comment"] k (chars [47, 47] ++ ls) [.val .null] :=
  .node 11 rfl (.ch is_ForwardSlash (.ch is_ForwardSlash (der_text hne h hb _))) rfl

theorem stands_keyword : Stands "Delimiters" .delimiters := rfl

theorem forall₂_append_inv {α β} {R : α → β → Prop} : ∀ {a b : List α} {c : List β}, List.Forall₂ R (a ++ b) c →
    ∃ c1 c2, c = c1 ++ c2 ∧ List.Forall₂ R a c1 ∧ List.Forall₂ R b c2
  | [], _, c, h => ⟨[], c, rfl, .nil, h⟩
  | _ :: _, _, _, .cons h hs => by
    obtain ⟨c1, c2, rfl, h1, h2⟩ := forall₂_append_inv hs
    exact ⟨_ :: c1, c2, rfl, .cons h h1, h2⟩

theorem der_file {k : Nat} {ls : List Lexeme} {s : SchemaText} (h : WrittenFile k ls s) : ∀ {a : SchemaAST}, s.Builds a → (∀ l ∈ ls, l.Byte) →
    DerL ["Schema"] k ls [.val (.schema a)] := by
  induction h with
  | @first ls s h =>
    rintro ⟨av, ad⟩ ⟨hd, hv⟩ hb
    simp only at hd hv
    cases h with
    | comment h1 h2 =>
      cases hv
      subst hd
      exact .node 0 rfl (der_comment h1 h2 (fun l hl => hb l (by simp [hl]))) rfl
    | @var i n w p h1 h2 =>
      subst hd
      cases hv with
      | cons h3 h4 =>
        cases h4
        rename_i x
        obtain ⟨xn, xr⟩ := x
        obtain ⟨e1, e2⟩ := h3
        simp only at e1 e2
        subst e1
        exact .node 1 rfl (der_var h1 h2 e2) rfl
    | @delims w cs h1 =>
      cases hv
      subst hd
      exact .node 2 rfl (.tok stands_keyword (.ch is_Colon (der_delims h1))) rfl
  | @blank ls nl s _ hnl ih =>
    intro a ha hb
    exact .node 3 rfl ((ih ha (fun l hl => hb l (by simp [hl]))).cons (der_newline hnl _)) rfl
  | @line ls nl ls' s s' _ hnl hline ih =>
    rintro ⟨av, ad⟩ ⟨hd, hv⟩ hb
    simp only at hd hv
    obtain ⟨v1, v2, rfl, h1, h2⟩ := forall₂_append_inv hv
    subst hd
    have h0 := ih (a := ⟨v1, s.delims⟩) ⟨rfl, h1⟩ (fun l hl => hb l (by simp [hl]))
    rw [List.append_assoc]
    have e : k + (textOf (ls ++ nl)).length = k + (textOf ls).length + (textOf nl).length := by simp; omega
    rw [e] at hline
    cases hline with
    | comment h3 h4 =>
      cases h2
      refine .node 4 rfl (h0.cons ((der_newline hnl _).cons (der_comment h3 h4 (fun l hl => hb l (by simp [hl]))))) ?_
      simp [SemRule.apply, childSchema, bind, Except.bind]
    | @var i n w p h3 h4 =>
      cases h2 with
      | cons h5 h6 =>
        cases h6
        rename_i x
        obtain ⟨xn, xr⟩ := x
        obtain ⟨e1, e2⟩ := h5
        simp only at e1 e2
        subst e1
        refine .node 5 rfl (h0.cons ((der_newline hnl _).cons (der_var h3 h4 e2))) ?_
        simp [SemRule.apply, childSchema, childVar, SchemaAST.addSchemaVar, bind, Except.bind]
    | @delims w cs h3 =>
      cases h2
      refine .node 6 rfl (h0.cons ((der_newline hnl _).cons (.tok stands_keyword (.ch is_Colon (der_delims h3))))) ?_
      simp [SemRule.apply, childSchema, childDelims, SchemaAST.addDelimiters, bind, Except.bind]

/-- Derivations from the start symbol are the schema files. -/
theorem der_iff {k : Nat} {ls : List Lexeme} {a : SchemaAST} (hb : ∀ l ∈ ls, l.Byte) :
    DerL ["Schema"] k ls [.val (.schema a)] ↔ ∃ s, WrittenFile k ls s ∧ s.Builds a := by
  constructor
  · intro h
    obtain ⟨l1, v, l2, vs2, rfl, e, ⟨s, a', rfl, h1, h2⟩, rfl, rfl⟩ := h.kinds
    cases e
    exact ⟨s, by simpa using h2, h1⟩
  · rintro ⟨s, h1, h2⟩
    exact der_file h1 h2 hb

end LogSurgeon
